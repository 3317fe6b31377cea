{"id": "C01", "title": "Component registry resolves to the last live registration", "statement": "After any history of reg/unreg calls, creating a component by name behaves as last-writer-wins: the name is first looked up once as an alias (the most recent reg or unreg that mentions the alias decides), then as a key (the most recent reg or unreg of that key decides); creation succeeds exactly when that key is live, yields an instance made by the create function of the latest registration, and the instance remembers the release function of that same registration.", "quantifier": "every finite sequence of reg/unreg operations over arbitrary keys and aliases, every queried name", "why_tests_cant": "unit tests register a handful of keys; override, alias stealing and unregister-after-override combinations form an unbounded set of histories", "anchors": ["src/component.cpp:168-217 ComponentContext::create_comp/reg/unreg", "include/lm/component.h RegEntry"]}
{"id": "C02", "title": "Plugin bookkeeping is exact for every history and every OS outcome", "statement": "A plugin is reported loaded exactly when its most recent successful transition was a load; loading a loaded plugin does nothing; a load or unload that the operating system refuses raises an error and leaves the set of loaded plugins unchanged; unloading an unknown plugin raises an error; no library handle is released twice and unloading everything releases exactly the handles still open.", "quantifier": "every sequence of load/unload/unload-all calls and every success/failure answer of the dynamic linker", "why_tests_cant": "the failure answers of the loader are environment dependent and the histories are unbounded", "anchors": ["src/component.cpp:219-307 load_plugin/unload_plugin/unload_plugins"]}
{"id": "C03", "title": "Every component can be found again through its locator", "statement": "For every component hierarchy in which children are addressed by name, comp::get applied to the locator of a component returns that very component, and get returns null on a locator that names no component (unknown step, missing '$' root, empty string).", "quantifier": "every component tree of any shape and depth, every locator string", "why_tests_cant": "depends on the string algorithm being an inverse of path printing for all paths; tests use two or three fixed paths", "anchors": ["src/component.cpp:322-361 ComponentContext::get", "include/lm/component.h:139-191 make_loc/parent_loc/name"]}
{"id": "C04", "title": "Locator algebra: name and parent of a made locator", "statement": "For every base locator and every name without a dot, the name of make_loc(base, name) is name and its parent is base; distinct (base, name) pairs give distinct locators; the locator of the root, which has no dot, has the empty locator as parent and no name.", "quantifier": "every base string and every dot-free child name", "why_tests_cant": "string identities over all strings", "anchors": ["include/lm/component.h:139-191 Component::parent_loc, name, make_loc"]}
{"id": "C05", "title": "Subsystem contexts follow one init/use/shutdown protocol", "statement": "For every history of init/shutdown/use calls on a subsystem (parallel, logger, progress, objloader...), use succeeds exactly when the latest init succeeded and was not followed by shutdown; use in any other state raises 'uninitialized' instead of dereferencing null; re-initialising releases the previous context exactly once before the new one is made, so at most one context of a subsystem is alive at any time.", "quantifier": "every sequence of init (with succeeding or failing creation/construction), shutdown and use calls", "why_tests_cant": "unbounded histories including failing constructors", "anchors": ["include/lm/component.h:622-686 ContextInstance"]}
{"id": "C06", "title": "User API rejects use outside init/shutdown", "statement": "Between init and shutdown every user-level call (info, assets, get, save, load, reset) works on a live root asset group; before init and after shutdown calls raise 'uninitialized' instead of touching a null root.", "quantifier": "every sequence of user-level API calls", "why_tests_cant": "the failing call orders are an unbounded set; save_state/load_state/reset are never tested before init", "anchors": ["src/user.cpp:23-113 UserContext"]}
{"id": "C07", "title": "Asset group is a map from names to the latest loaded asset", "statement": "After any history of load_asset/load_serialized calls the group maps each name to the component made by the last successful load under that name, enumerates every asset exactly once in order of first loading, and keeps the slot of a name forever; names that do not match [:\\w_-]+ are refused by load_asset and change nothing.", "quantifier": "every sequence of asset loads with arbitrary names, keys and creation outcomes", "why_tests_cant": "unbounded histories of loads and reloads with name collisions", "anchors": ["src/assetgroup.cpp:22-138 AssetGroup_", "include/lm/assetgroup.h:25-57"]}
{"id": "C08", "title": "Asset slots, index map and locators stay consistent", "statement": "In every reachable state of an asset group: every registered name maps to a slot in range, two names never share a slot, every slot belongs to some name, every slot reached through a successful load is non-null and its component carries the locator group.name, so lookup through the group and lookup through the locator agree.", "quantifier": "every reachable state of an asset group", "why_tests_cant": "an invariant over all histories, including interleaved failures", "anchors": ["src/assetgroup.cpp:22-138"]}
{"id": "C09", "title": "Reloading an asset redirects every visible reference", "statement": "When load_asset replaces an existing asset, every weak reference in the component hierarchy that pointed at the old component points at the new component when the call returns, no reference visible to the traversal still points at the released component, and all references to other components are unchanged.", "quantifier": "every component hierarchy (ownership tree plus arbitrary weak references), every name being reloaded", "why_tests_cant": "graphs of references are unbounded in size and shape", "anchors": ["src/assetgroup.cpp:45-116 load_asset", "include/lm/component.h:520-556 update_weak_ref, visit"]}
{"id": "C10", "title": "No component of the framework keeps a stale reference after a reload", "statement": "For every kind of component in the framework that stores a reference to another asset, reloading that asset never leaves the stored reference dangling.", "quantifier": "every component class holding a weak reference and every reload of the referred asset", "why_tests_cant": "a test only shows the classes it instantiates; the property ranges over all classes and all references they hold", "anchors": ["src/scene.cpp:35-45", "src/renderer/renderer_bdpt.cpp:38-58", "src/medium/medium_homogeneous.cpp", "src/medium/medium_heterogeneous.cpp", "src/volume/volume_multi.cpp", "src/assetgroup.cpp:45-116"]}
{"id": "C11", "title": "A failed asset load leaves the group and its referrers usable", "statement": "If load_asset fails (invalid name, unknown implementation, or the new component's construct throws) then the group still holds the previous asset under that name and no reference in the hierarchy dangles.", "quantifier": "every group state and every failure mode of the load", "why_tests_cant": "exception-safety at every failure point of every history", "anchors": ["src/assetgroup.cpp:45-116"]}
{"id": "C12", "title": "Archive encodings of values round-trip", "statement": "For every value of a serializable kind (fixed-size vectors, matrices, optionals, atomics, sequences, strings, maps of those), loading what was saved returns the same value and consumes exactly the bytes that were written, regardless of what follows in the stream.", "quantifier": "every value and every suffix of the archive", "why_tests_cant": "round-trip over all values and nesting depths", "anchors": ["include/lm/serial.h:29-97"]}
{"id": "C13", "title": "Saving and loading a component tree restores it, including cross references", "statement": "For every tree of owned components with arbitrary weak references between components of the tree, saving it and loading the archive under the same locator gives a tree with the same implementation keys, locators, payloads and shape, and every weak reference of the loaded tree points to the component of the loaded tree that has the locator the original target had.", "quantifier": "every finite component tree, every assignment of weak references inside the tree, including forward and cyclic references", "why_tests_cant": "references may point forward to components not loaded yet; all shapes must work", "anchors": ["include/lm/serial.h:104-349", "src/user.cpp:104-112"]}
{"id": "C14", "title": "Relocatable saves keep only references inside the saved asset", "statement": "When an asset is saved on its own, a weak reference is stored as relative exactly when its target lies inside the saved asset's subtree, so the saved file loads under any new locator with those references pointing inside the new subtree; references to components outside of the subtree are refused or kept absolute.", "quantifier": "every pair of locators (saved root, target) and every new root locator", "why_tests_cant": "a string-prefix question over all locator strings", "anchors": ["include/lm/serial.h:104-159,229-311"]}
{"id": "C15", "title": "Saved state is complete for every component class", "statement": "For every component class in the framework, an instance restored from its saved state has the same observable parameters as the instance that was saved.", "quantifier": "every class with a serialize function and every parameter value", "why_tests_cant": "must hold for all classes and parameter values; omitted fields only show up when the field is non-default and used after load", "anchors": ["src/texture/texture_constant.cpp:28-30", "src/scene.cpp:31-33", "src/light/light_env.cpp:35-37", "src/medium/medium_homogeneous.cpp:36-38", "src/volume/volume_constant.cpp:31-33", "src/renderer/renderer_pt.cpp:40-42", "src/renderer/renderer_volpt.cpp:29-31", "src/renderer/renderer_raycast.cpp:30-32"]}
{"id": "C16", "title": "JSON property helpers: conversions, merge and lookups", "statement": "Vectors and matrices converted to JSON and back are unchanged (matrices keep column order); arrays of the wrong length or type are rejected with an error rather than read out of bounds; merge(a,b) contains exactly the keys of both with a taking priority; value(name) fails exactly when the key is missing, value(name, default) never fails for a missing key, and value_or_none is empty exactly when the key is missing.", "quantifier": "every JSON value, key and default", "why_tests_cant": "all key sets and array sizes", "anchors": ["include/lm/json.h:37-290"]}
{"id": "C17", "title": "Parallel loop runs every index exactly once", "statement": "parallel::foreach(n, f) without exceptions calls f on each index 0..n-1 exactly once and on nothing else, and returns only after all calls are finished, for every number of threads and every schedule.", "quantifier": "every n, thread count and interleaving of the worker threads", "why_tests_cant": "schedules are not controllable from a test", "anchors": ["src/parallel/parallel_openmp.cpp:40-100"]}
{"id": "C18", "title": "Exceptions in a parallel loop reach the caller", "statement": "If f throws for some index, then in every schedule foreach finishes and rethrows one of the exceptions that f actually raised, no index is executed twice, and without any throw nothing is rethrown.", "quantifier": "every set of throwing indices, every interleaving", "why_tests_cant": "races between the failing thread and the others", "anchors": ["src/parallel/parallel_openmp.cpp:40-100"]}
{"id": "C19", "title": "Progress of a parallel loop never exceeds the total", "statement": "Progress values reported during parallel::foreach(n, ...) are non-decreasing and never exceed n.", "quantifier": "every sequence of foreach calls, every schedule", "why_tests_cant": "thread-local counters survive between calls, which only multi-call histories reveal", "anchors": ["src/parallel/parallel_openmp.cpp:70-95"]}
{"id": "C20", "title": "Sample-count schedulers process every pixel sample exactly once", "statement": "scheduler::spp::sample calls process exactly once for each pair (pixel, sample) with pixel < number of pixels and sample < spp and returns spp; scheduler::spi::sample calls it once per sample index and returns the number of samples.", "quantifier": "every film size, every spp / sample count, every schedule", "why_tests_cant": "the index arithmetic must be a bijection for all sizes", "anchors": ["src/scheduler.cpp:17-137"]}
{"id": "C21", "title": "Time-limited schedulers process whole rounds", "statement": "The time-limited schedulers always complete at least one round, call process once for each pixel (or for each of samples-per-iteration indices) in every round with the round number as sample index, return exactly the number of processed samples, and stop after the first round at whose end the limit is exceeded.", "quantifier": "every clock behaviour, film size and time limit", "why_tests_cant": "depends on wall-clock readings; the clock is universally quantified", "anchors": ["src/scheduler.cpp:56-187"]}
{"id": "C22", "title": "Concurrent film splats are never lost", "statement": "For every interleaving of concurrent splat and update operations on a film's pixels, the final pixel values equal the result of applying all operations in some sequential order consistent with each thread; with exact arithmetic, concurrent splats give the initial value plus the sum of all splatted values.", "quantifier": "every set of threads, operations and every interleaving of their loads and compare-and-swap steps including spurious failures", "why_tests_cant": "lost updates only appear in particular interleavings", "anchors": ["src/film/film_bitmap.cpp:20-55,220-248"]}
{"id": "C23", "title": "Raster positions always map to valid pixels", "statement": "For every raster position with finite coordinates the pixel computed by raster_to_pixel lies inside the film, positions in [0,1)^2 map to the pixel whose cell contains them, and each pixel's cell maps to that pixel.", "quantifier": "every raster position and film size", "why_tests_cant": "boundary values 0, 1, negative and greater than 1 for every size", "anchors": ["include/lm/film.h:166-205"]}
{"id": "C24", "title": "Incremental averaging yields the exact mean", "statement": "Feeding samples v0..v(n-1) to inc_ave at a pixel with indices 0..n-1 leaves the exact mean of the samples at the pixel, for any initial pixel value, and does not touch other pixels.", "quantifier": "every sample sequence, pixel and film content", "why_tests_cant": "induction over the sequence length", "anchors": ["include/lm/film.h:180-195"]}
{"id": "C25", "title": "Film arithmetic is pixelwise", "statement": "clear zeroes, rescale multiplies and accum adds pixelwise over the entire film and nothing else; accumulating two films of different sizes is rejected; set_pixel followed by read returns the written value and leaves other pixels unchanged.", "quantifier": "every film size and content", "why_tests_cant": "all sizes and addresses", "anchors": ["src/film/film_bitmap.cpp:137-252"]}
{"id": "C26", "title": "Image buffer layout: pixel addressing is a bijection and saved images are flipped once", "statement": "The exported buffer holds each channel of each pixel exactly once, at row-major position; exporting with vertical flip is the mirror image of exporting without, and flipping twice is the identity.", "quantifier": "every film size and content", "why_tests_cant": "index arithmetic over all sizes", "anchors": ["src/film/film_bitmap.cpp:156-274"]}
{"id": "C27", "title": "Images with invalid values are not written silently", "statement": "save reports failure for unknown extensions, and an image containing a NaN or infinite value in any channel is detected by the sanity check.", "quantifier": "every image size, every position of the invalid value and every path", "why_tests_cant": "the position of the bad value ranges over the entire image", "anchors": ["src/film/film_bitmap.cpp:84-105,156-210"]}
{"id": "C28", "title": "Discrete distribution: probabilities and inversion sampling", "statement": "For every list of non-negative weights with positive sum, after norm the pmf of entry i is w_i / sum w, the pmf is non-negative and sums to one, and sample(u) for u in [0,1) returns an index with positive probability, namely the one whose cumulative interval contains u; so the set of u selecting i is an interval of length pmf(i).", "quantifier": "every weight list and every u in [0,1)", "why_tests_cant": "cumulative-table boundaries for all lists", "anchors": ["include/lm/math.h:310-371 Dist"]}
{"id": "C29", "title": "2D distribution over images", "statement": "For every image of non-negative weights with positive sum in every row, the sampled cell has positive probability, sampled coordinates lie in [0,1)^2, the density reported for the sampled point is the one of its cell, and the densities integrate to one; re-initialising the distribution with new data gives the same results as a fresh one.", "quantifier": "every image size and content, every random number, every sequence of init calls", "why_tests_cant": "all images and repeated initialisation", "anchors": ["include/lm/math.h:378-432 Dist2"]}
{"id": "C30", "title": "Bounding boxes: merge is the least upper bound", "statement": "Merging boxes and points yields the smallest box containing both; merge is associative, commutative and idempotent with the empty default box as identity; the bound of any sequence of points contains each of them independent of the order.", "quantifier": "every finite sequence of points/boxes", "why_tests_cant": "order independence over all sequences", "anchors": ["include/lm/math.h:82-178 Bound, merge"]}
{"id": "C31", "title": "Ray/box rejection is conservative", "statement": "If a ray hits any point of a box at a distance within the query interval, the box test answers yes, including rays with zero direction components (infinite reciprocals, NaN products).", "quantifier": "every ray, box and interval", "why_tests_cant": "axis-parallel rays on slab boundaries are measure-zero and missed by random tests", "anchors": ["include/lm/math.h:127-158 Bound::isect"]}
{"id": "C32", "title": "Orthonormal basis", "statement": "For every unit vector n, orthonormal_basis(n) gives u, v such that (u, v, n) is right-handed orthonormal, including n = (0,0,-1).", "quantifier": "every unit vector", "why_tests_cant": "the singular direction and sign branch for all directions", "anchors": ["include/lm/math.h:540-547"]}
{"id": "C33", "title": "Reflection and refraction obey their laws", "statement": "reflection(w,n) preserves length, is an involution and mirrors the normal component; refraction(wi,n,eta) returns a unit vector on the opposite side in the plane of incidence satisfying Snell's law, or total internal reflection exactly when eta^2 (1-cos^2) >= 1; refracting back with the inverse ratio returns the original direction.", "quantifier": "every unit direction, normal and relative index", "why_tests_cant": "continuous domain with a critical angle boundary", "anchors": ["include/lm/math.h:497-524"]}
{"id": "C34", "title": "Sampling maps stay in their domain", "statement": "For all random numbers in [0,1)^2: uniform disk samples lie in the unit disk, cosine-weighted samples and sphere samples are unit vectors (upper hemisphere for the former), triangle sampling gives barycentric coordinates of a point in the triangle.", "quantifier": "every pair of random numbers", "why_tests_cant": "continuous domain incl. boundaries", "anchors": ["include/lm/math.h:632-681", "src/light/light_area.cpp:47-59"]}
{"id": "C35", "title": "Ray/triangle intersection is sound and complete", "statement": "The triangle test reports a hit (t,u,v) exactly when the ray point at t lies in the triangle with barycentric coordinates (u,v), t within the interval, for every non-parallel ray; and the interpolated surface point of a hit equals the point on the ray.", "quantifier": "every triangle, ray and interval", "why_tests_cant": "continuous geometry incl. edges and vertices", "anchors": ["src/accel/accel_sahbvh.cpp:26-76", "include/lm/math.h:573-575"]}
{"id": "C36", "title": "BVH construction is correct for every thread interleaving", "statement": "For every interleaving of the builder threads and any number of triangles >= 1, construction ends with every triangle in exactly one leaf, every node bound containing all triangles below it, and never more nodes than the preallocated 2n-1.", "quantifier": "every triangle set, every interleaving of the worker threads", "why_tests_cant": "data-race outcomes and partition choices cannot be enumerated", "anchors": ["src/accel/accel_sahbvh.cpp:127-267"]}
{"id": "C37", "title": "BVH traversal returns the closest hit", "statement": "Traversing a valid BVH reports a hit exactly when some triangle is hit within the interval, and the reported distance is the minimum over all triangles hit - the same answer as testing all triangles one by one.", "quantifier": "every scene, ray, interval and every BVH satisfying the construction invariants", "why_tests_cant": "all trees and rays; pruning errors are rare events", "anchors": ["src/accel/accel_sahbvh.cpp:269-299"]}
{"id": "C38", "title": "BVH traversal stack never overflows", "statement": "Traversal never writes beyond its fixed-size stack of 99 entries.", "quantifier": "every BVH and every ray", "why_tests_cant": "requires adversarially deep trees", "anchors": ["src/accel/accel_sahbvh.cpp:269-299"]}
{"id": "C39", "title": "Scene graph handles stay valid", "statement": "After any sequence of scene building calls each node's index equals its position, the root exists, indices returned to the user stay valid until reset, camera / environment light / medium indices always refer to primitive nodes with such an asset, and at most one environment light is accepted.", "quantifier": "every sequence of scene construction calls", "why_tests_cant": "unbounded call histories", "anchors": ["src/scene.cpp:54-258", "include/lm/scenenode.h:62-148"]}
{"id": "C40", "title": "Scene traversal visits each path once with the composed transform", "statement": "For every acyclic scene graph, traversal visits each primitive once per path from the root, with the transform that is the product of the group transforms along the path; on a graph with a cycle it does not silently miss nodes.", "quantifier": "every scene graph built by the API", "why_tests_cant": "all graph shapes, instancing (shared children) included", "anchors": ["src/scene.cpp:143-156,216-230"]}
{"id": "C41", "title": "Light tables are consistent after build", "statement": "After build, light indices and light primitive indices are mutually inverse: for each selectable light index the primitive it names maps back to the same light index, and every light primitive reachable in the scene is selectable.", "quantifier": "every scene graph including instancing of light primitives", "why_tests_cant": "instancing combinations", "anchors": ["src/scene.cpp:274-317,374-395"]}
{"id": "C42", "title": "Uniform light selection", "statement": "For each u in [0,1) light selection returns a valid light index with probability 1/n, the reported pmf agrees, probabilities sum to one, and the set of u choosing each light is an interval of length 1/n; with no light nothing is selected.", "quantifier": "every u and number of lights", "why_tests_cant": "boundary values for all counts", "anchors": ["src/scene.cpp:374-387"]}
{"id": "C43", "title": "Geometry term and density conversions", "statement": "The geometry term is symmetric and non-negative, equals the inverse-square cosine formula for surface points, ignores cosines at degenerate points, and is zero between two points at infinity; converting a density from solid angle to projected solid angle and multiplying by the cosine recovers it, and is zero at grazing angles rather than infinite.", "quantifier": "every pair of points and directions", "why_tests_cant": "case combinations of surface/degenerate/infinite points for all geometry", "anchors": ["include/lm/surface.h:329-409"]}
{"id": "C44", "title": "Shading-normal correction", "statement": "The correction factor is 1 when shading and geometric normals agree and no direction is exactly grazing, 0 when a direction is not on the same side of both surfaces, and the light- and eye-direction factors satisfy the adjoint relation.", "quantifier": "every pair of directions and normals", "why_tests_cant": "continuous domain", "anchors": ["include/lm/surface.h:424-438"]}
{"id": "C45", "title": "Sampled weights equal contribution over density (materials)", "statement": "For every material, whenever direction sampling returns a direction with weight C, C times the reported density equals the evaluated BSDF for that direction, and mixed materials' component weight is the reciprocal of the reported component probability.", "quantifier": "every material, incoming direction, random number and parameter value", "why_tests_cant": "estimator bias is invisible to a finite number of samples", "anchors": ["src/material/*.cpp", "src/model/model_wavefrontobj.cpp:339-513"]}
{"id": "C46", "title": "Sampled weights equal contribution over density (lights, cameras, path API)", "statement": "For every light and for the path-level sampling functions, the returned weight times the reported density equals the evaluated emission (times selection probability), for every number of lights and every uniform or non-uniform transform.", "quantifier": "every light, scene, transform and random number", "why_tests_cant": "bias invisible to finite sampling; transforms range over a continuum", "anchors": ["include/lm/path.h:85-583", "src/light/*.cpp"]}
{"id": "C47", "title": "Pinhole camera: rays and raster positions are inverse", "statement": "For every raster position in [0,1]^2 the raster position of the primary ray's direction is that position, directions behind the camera or outside of the frame have no raster position, and every direction with a raster position is the direction of a primary ray at that position.", "quantifier": "every camera frame, field of view, aspect ratio and raster position", "why_tests_cant": "continuous domain", "anchors": ["src/camera/camera_pinhole.cpp:48-238"]}
{"id": "C48", "title": "Connecting subpaths keeps vertices in order", "statement": "Connecting the first s vertices of a light subpath with the first t vertices of an eye subpath gives a path of s+t vertices ordered from light to camera whose i-th light-side vertex and i-th eye-side vertex are those of the subpaths, with end vertices typed as light and camera.", "quantifier": "every pair of subpaths and every (s,t)", "why_tests_cant": "index reversal over all lengths", "anchors": ["include/lm/bidir.h:48-171,593-644"]}
{"id": "C49", "title": "Bidirectional sampling weight times density equals the measurement contribution", "statement": "For every path and every samplable strategy (s,t) with non-zero density, the sampling weight multiplied by the bidirectional path density equals the measurement contribution of the path.", "quantifier": "every path length, strategy and local sampling quantities", "why_tests_cant": "products over unbounded path lengths", "anchors": ["include/lm/bidir.h:233-448"]}
{"id": "C50", "title": "MIS weights form a partition of unity", "statement": "For every path the multiple-importance-sampling weights over all strategies that can generate the path are non-negative and sum to one; strategies with zero density take no part and have no weight (asking for one violates a precondition).", "quantifier": "every path length and all densities", "why_tests_cant": "sum over unbounded number of strategies", "anchors": ["include/lm/bidir.h:460-478", "src/renderer/renderer_bdptopt.cpp:315-409"]}
{"id": "C51", "title": "Optimized BDPT weights equal the balance heuristic", "statement": "The incremental ratio computation of the optimized renderer gives exactly p_s / sum_i p_i over the samplable strategies, for all path lengths.", "quantifier": "every path length and all forward/reverse densities", "why_tests_cant": "telescoping products for all lengths", "anchors": ["src/renderer/renderer_bdptopt.cpp:315-409"]}
{"id": "C52", "title": "Subpath length limit", "statement": "Sampling a subpath with a maximum number of vertices never returns more vertices than the maximum.", "quantifier": "every maximum, scene response and random numbers", "why_tests_cant": "boundary values of the limit", "anchors": ["include/lm/bidir.h:507-556"]}
{"id": "C53", "title": "Russian roulette keeps the estimator unbiased and never divides by zero", "statement": "Whenever a path survives roulette the division is by a positive survival probability and the expected throughput after roulette equals the throughput before.", "quantifier": "every throughput and random number", "why_tests_cant": "expectation over a continuum", "anchors": ["src/renderer/renderer_pt.cpp:281-287", "src/renderer/renderer_volpt.cpp"]}
{"id": "C54", "title": "Each light transport path is counted once by the path tracers", "statement": "In every sampling mode each (path, way of reaching the light) is accumulated exactly once: MIS weights of the two techniques sum to one, and in NEE-only mode a path is counted by direct hit exactly when next-event estimation could not count it.", "quantifier": "every path and sampling mode", "why_tests_cant": "case analysis over specular chains of any length", "anchors": ["src/renderer/renderer_pt.cpp:127-271", "src/renderer/renderer_bdpt.cpp:129-198"]}
{"id": "C55", "title": "BDPT enumerates every strategy once", "statement": "For given subpaths the bidirectional renderers evaluate each pair (s,t) with s and t within subpath lengths and total vertices within [min,max] exactly once and nothing else.", "quantifier": "all subpath lengths and limits", "why_tests_cant": "loop bounds for all values", "anchors": ["src/renderer/renderer_bdpt.cpp:297-411"]}
{"id": "C56", "title": "Rendering with a fixed seed is reproducible", "statement": "Two renders of the same renderer with the same seed and a deterministic schedule produce the same image.", "quantifier": "every history of render calls", "why_tests_cant": "state surviving between renders in thread-local generators", "anchors": ["src/renderer/renderer_pt.cpp:80-120"]}
{"id": "C57", "title": "Volume majorants and bounds are valid", "statement": "For every volume and point, the density never exceeds max_scalar and is non-negative; the density of a compound volume is zero outside of its bound and bounded by the sum of maxima.", "quantifier": "every point and parameter; every number of sub-volumes", "why_tests_cant": "continuous domain and unbounded composition", "anchors": ["src/volume/*.cpp"]}
{"id": "C58", "title": "Distance sampling stays in range and transmittance is a probability", "statement": "Sampled medium distances lie inside the query interval intersected with the medium, transmittance lies in [0,1], is multiplicative over adjacent segments for homogeneous media and equals 1 outside of the medium.", "quantifier": "every ray, interval and random sequence", "why_tests_cant": "continuous domain", "anchors": ["src/medium/medium_homogeneous.cpp:61-105", "src/medium/medium_heterogeneous.cpp:44-105"]}
{"id": "C59", "title": "Henyey-Greenstein sampling inverts its distribution", "statement": "The sampled cosine lies in [-1,1], and the cumulative distribution of the reported density evaluated at the sampled cosine is the random number used, for every asymmetry |g|<1 incl. the isotropic branch.", "quantifier": "every g in (-1,1) and u in [0,1]", "why_tests_cant": "continuous domain", "anchors": ["src/phase/phase_hg.cpp:21-63"]}
{"id": "C60", "title": "OBJ indices resolve to existing vertices", "statement": "For every OBJ index n: positive counts from the first vertex, negative counts from the last one at the time of the face, so relative and absolute spellings of the same vertex agree; zero or missing means absent.", "quantifier": "every index and every number of vertices read so far", "why_tests_cant": "all indices", "anchors": ["src/objloader/objloader_simple.cpp:207-220"]}
{"id": "C61", "title": "OBJ faces end up in exactly one mesh with their material", "statement": "For every OBJ statement sequence, each triangle of each face is delivered in exactly one mesh, in file order, with the material active at the face statement; a quad becomes two triangles covering it. Both loaders agree on this.", "quantifier": "every statement sequence of any length", "why_tests_cant": "group/material switches interleave arbitrarily", "anchors": ["src/objloader/objloader_simple.cpp:20-163", "plugin/objloader_tinyobjloader/objloader_tinyobjloader.cpp:104-143"]}
{"id": "C62", "title": "Models expose matching mesh, material and light triples", "statement": "After loading a model, each created primitive names a mesh, the material given for that mesh in the file, and a light exactly when the material emits; assets keep their indices and each texture file is loaded once.", "quantifier": "every sequence of materials and meshes", "why_tests_cant": "asset index arithmetic over all sequences", "anchors": ["src/model/model_wavefrontobj.cpp:74-240"]}
{"id": "C63", "title": "PBRT instances are all placed", "statement": "For each object instance in a PBRT scene the generated scene graph contains a path from the root to the object's shapes with the instance's transform.", "quantifier": "every instancing structure", "why_tests_cant": "nesting of instances is unbounded", "anchors": ["plugin/model_pbrt/model_pbrt.cpp:166-237"]}
{"id": "C64", "title": "Log filtering and indentation", "statement": "A message is printed exactly when its severity is at least the threshold, multi-line messages print one line per line, properly nested indentation scopes restore the indentation, which never becomes negative.", "quantifier": "every history of log, indentation and severity calls", "why_tests_cant": "unbounded histories", "anchors": ["src/logger.cpp:50-175"]}
{"id": "C65", "title": "Progress reporting combinators", "statement": "A multiplexed progress context forwards each call to every member once in order; a delayed context forwards a start before anything else, forwards at most one update per interval and always forwards the end of what it started.", "quantifier": "every history of progress calls and clock readings", "why_tests_cant": "unbounded histories and clocks", "anchors": ["src/progress.cpp:18-176"]}
{"id": "C66", "title": "Texture lookups stay inside the image", "statement": "For every texture coordinate the texel read lies inside the image, coordinates differing by integers read the same texel, and both colour and alpha lookups are in bounds for every channel count.", "quantifier": "every coordinate, image size and channel count", "why_tests_cant": "all sizes/coordinates", "anchors": ["src/texture/texture_bitmap.cpp:68-89"]}
{"id": "C67", "title": "Mesh triangle enumeration", "statement": "foreach_triangle visits each face once in order, with the vertices given by the index list, agreeing with triangle_at; interpolating at the corners returns the corner positions, and interpolated points lie in the triangle.", "quantifier": "every mesh and barycentric coordinate", "why_tests_cant": "all index lists", "anchors": ["src/mesh/mesh_raw.cpp:50-97", "src/mesh/mesh_wavefrontobj.cpp:34-89", "plugin/model_pbrt/model_pbrt.cpp:39-105"]}
{"id": "C68", "title": "Balance heuristic", "statement": "For all non-negative densities the two balance-heuristic weights are in [0,1] and sum to one unless both densities vanish, in which case they are zero instead of NaN.", "quantifier": "every pair of non-negative densities", "why_tests_cant": "includes the 0/0 corner", "anchors": ["include/lm/math.h:697-702"]}
{"id": "C69", "title": "Image-space and pixel-space normalisation agree", "statement": "The per-pixel mode and the image mode of the path tracer divide accumulated contributions by the correct number of samples: a constant scene converges to the same pixel values in both, for every film size and sample count.", "quantifier": "every film size and sample count", "why_tests_cant": "all sizes", "anchors": ["src/renderer/renderer_pt.cpp:96-107,300-312"]}
{"id": "C70", "title": "Scattering stays on the correct side", "statement": "Directions sampled from diffuse, glossy and mirror surfaces never cross to the other side of the surface; glass reflection keeps the side and refraction switches it, and mask passes straight through.", "quantifier": "every incoming direction, normal and random number", "why_tests_cant": "continuous domain", "anchors": ["src/material/*.cpp"]}
{"id": "C71", "title": "Unregistering one implementation leaves the others reachable", "statement": "Unregistering a component key only affects creation under that key and under aliases that denoted it: every other key, and every alias of another implementation, keeps creating what it created before.", "quantifier": "every registry history and every pair of keys", "why_tests_cant": "histories of registrations are unbounded and include overriding and shared aliases", "anchors": ["src/component.cpp:reg", "src/component.cpp:unreg", "src/component.cpp:create_comp"]}
{"id": "C72", "title": "A failed scoped plugin load leaves no plugin loaded", "statement": "When a scoped plugin load fails, no plugin stays loaded on its behalf; when it succeeds, leaving the scope unloads exactly the plugins the scope loaded.", "quantifier": "every plugin list, loader result and failure position", "why_tests_cant": "failure position is arbitrary", "anchors": ["include/lm/component.h:ScopedLoadPlugin", "src/component.cpp:load_plugin"]}
{"id": "C73", "title": "Visibility queries between points", "statement": "Two finite points are reported mutually visible when nothing lies strictly between them, the answer does not depend on the order of the arguments, and an occluder strictly between them makes them invisible to each other.", "quantifier": "every set of surfaces and pair of points, finite or at infinity", "why_tests_cant": "positions range over a continuum", "anchors": ["include/lm/scene.h:343-364"]}
{"id": "C74", "title": "Reported hits lie on the ray under every transform", "statement": "For a mesh instanced under any affine transform the reported surface position is the ray's point at the reported distance, and transformed normals stay perpendicular to the transformed surface.", "quantifier": "every triangle, ray and invertible affine transform", "why_tests_cant": "continuous domain", "anchors": ["src/scene.cpp:319-345", "include/lm/math.h:724-746"]}
{"id": "C75", "title": "Local trigonometric helpers are consistent", "statement": "For unit directions in a local frame sin^2+cos^2=1, tan*cos=sin and tan2=tan^2 except for directions in the tangent plane.", "quantifier": "every unit direction", "why_tests_cant": "continuous domain", "anchors": ["include/lm/math.h:local_sin,local_tan,local_tan2"]}
{"id": "C76", "title": "BSDF reciprocity and energy conservation", "statement": "The diffuse and glossy reflectance functions are unchanged when incident and outgoing directions are swapped. For glass the reflected fraction of mirrored and refracted directions agree, transmission evaluated towards the camera equals eta squared times the transmission towards the light of the reversed pair, and reflected plus transmitted fractions of an incident direction sum to one.", "quantifier": "every geometry, pair of directions and index of refraction", "why_tests_cant": "Holds for a continuum of direction pairs; a handful of pairs cannot settle it and estimators only reveal violations statistically.", "anchors": ["src/material/material_diffuse.cpp", "src/material/material_glossy.cpp", "src/material/material_glass.cpp"]}
{"id": "C77", "title": "The measurement contribution of a path does not depend on the strategy", "statement": "For a full path the measurement contribution evaluated for strategy (s,t) is the same for every s, so that combining strategies with weights that sum to one estimates one well-defined quantity.", "quantifier": "every full path of any length and every strategy", "why_tests_cant": "paths range over a continuum and all lengths; a test compares a few paths", "anchors": ["include/lm/bidir.h:eval_measurement_contrb_bidir", "include/lm/bidir.h:eval_connection_term", "include/lm/surface.h:shading_normal_correction"]}
{"id": "C78", "title": "Random numbers lie in [0,1)", "statement": "Every number the random number generator returns lies in [0,1), whatever the seed and however many numbers were drawn before, also when the library is built in single precision. Different seeds give different generators, so that the threads of a seeded render start from different ones.", "quantifier": "every seed, every position in the sequence, and every pair of threads", "why_tests_cant": "the sequence is unbounded and there are 2^32 seeds", "anchors": ["include/lm/math.h:Rng", "include/lm/math.h:200-290"]}
{"id": "C79", "title": "Progress messages on a terminal replace each other", "statement": "Messages logged with the progress level replace each other: at any time the line shows exactly the last progress message, and the final message of a report stays visible on a line of its own when further messages follow.", "quantifier": "every sequence of progress and ordinary messages of any lengths", "why_tests_cant": "message lengths and interleavings are unbounded; leftovers only show when a longer message precedes a shorter one", "anchors": ["src/logger.cpp:84-123", "include/lm/logger.h:80-88"]}
{"id": "C80", "title": "Sampling routines have the density they report", "statement": "When a sampling routine is fed with independent uniform random numbers, the probability that it returns an outcome in a set is the integral over that set of the density the matching pdf function reports: for the sphere, disk, hemisphere and triangle samplers, for the directions sampled by every non-specular material and phase function, for the points on area lights and the primary rays of cameras.", "quantifier": "every measurable set of outcomes, every surface point, incident direction and material parameter", "why_tests_cant": "a density is a statement about every set of outcomes; tests can only compare histograms statistically", "anchors": ["include/lm/math.h:sample_uniform_sphere,sample_cosine_weighted,sample_uniform_disk", "src/material/material_diffuse.cpp:sample_direction,pdf_direction", "src/material/material_glossy.cpp:43-109", "src/material/material_mixture.cpp:193-238", "src/model/model_wavefrontobj.cpp:437-495", "src/phase/phase_hg.cpp", "src/light/light_area.cpp:49-54"]}
{"id": "C81", "title": "Single scattering and light sampling are unbiased", "statement": "Whatever arrives from each direction, the expected value of the weight returned when a direction is sampled, times what arrives from it, is the integral of the scattering function times what arrives: for every non-specular material (after choosing a component with the selection routine: for the sum over components), every phase function and the primary rays of the camera. Likewise the expected value of a light sample towards a point, times what the receiving side does with it, is the integral of the emitted radiance over the solid angle under which the light is seen.", "quantifier": "every measurable incident radiance, every surface point, incident direction, material and light parameter", "why_tests_cant": "expectations quantify over all incident radiance functions and all random numbers; tests can only average samples", "anchors": ["src/material/*.cpp:sample_direction,eval", "src/phase/*.cpp:sample_direction,eval", "src/light/light_area.cpp:sample_direct,eval", "src/light/light_env.cpp:sample_direct", "src/light/light_envconst.cpp:sample_direct", "src/camera/camera_pinhole.cpp:sample_ray,eval"]}
{"id": "C82", "title": "The path tracer computes the rendering equation", "statement": "For every scene whose materials, lights and intersections are sound, every maximal path length, every film region and every sampling mode (naive, next event estimation, multiple importance sampling): the average, over all the random numbers, of what one sample of the path tracer adds to the region is the integral over the region of the radiance arriving at the camera along the primary rays, where that radiance is given by iterating the rendering equation. In particular the modes agree with each other, and Russian roulette, component selection and light selection do not change the result.", "quantifier": "every scene, maximal path length, film region and sampling mode; average over all random numbers of all iterations", "why_tests_cant": "a statement about the exact average over a continuum of random numbers of unboundedly many dimensions; tests can only compare noisy images", "anchors": ["src/renderer/renderer_pt.cpp:50-320", "include/lm/path.h:sample_direction,sample_direct,pdf_direct", "src/scene.cpp:intersect,sample_light_selection", "include/lm/scene.h:visible"]}
{"id": "C83", "title": "BVH splits minimise the surface area heuristic", "statement": "Whenever the BVH builder splits a node, the pair of children has the least cost, by the surface area heuristic, among all splits of the triangles of the node at any position of their order along any axis, and it costs at most as much as a leaf; whenever it makes a leaf of several triangles, every such split would cost more.", "quantifier": "all sets of triangles, all nodes, all interleavings of the builder threads, all outcomes of std::sort allowed by its specification", "why_tests_cant": "the quality of the tree is not observable in results of ray queries; a wrong cost still gives correct hits, only slowly", "anchors": ["src/accel/accel_sahbvh.cpp: build"]}
{"id": "C84", "title": "Sampling distances in media is unbiased", "statement": "In every medium, for every density that respects the announced maximum: the tracking loops of sample_distance and eval_transmittance end with probability one; the expected value of eval_transmittance is the transmittance exp(-integral of the extinction along the part of the ray inside the medium); and the distances sampled by sample_distance, with their weights, give an unbiased estimate of the volume rendering equation (light scattered in the medium, attenuated, plus light from behind the medium, attenuated).", "quantifier": "all media made of the volumes of the library (constant, sphere, gaussian, checker, nested multi), all rays and intervals, all lights inside and behind the medium; expectation over all sequences of random numbers of any length", "why_tests_cant": "the claim is about the exact average over runs of a loop whose number of iterations is unbounded; a test compares noisy averages for a few media", "anchors": ["src/medium/medium_heterogeneous.cpp:sample_distance,eval_transmittance", "src/medium/medium_homogeneous.cpp:sample_distance,eval_transmittance", "src/volume/volume_multi.cpp"]}
{"id": "C85", "title": "Volumetric path tracers compute the volume rendering equation", "statement": "For every scene with a participating medium whose medium, surfaces, phase function and lights meet their own contracts, every maximal path length, every roulette parameter in [0,1) and every finite weighting of the film: the average, over all the random numbers, of what one sample of the volumetric path tracer adds to the film is the integral over the film of the radiance arriving at the camera through the medium along the primary rays, where that radiance is given by iterating the volume rendering equation (light scattered in the medium and by surfaces, attenuated by the medium). The tracer with light sampling and the naive one therefore agree with each other.", "quantifier": "every scene, medium, maximal path length, roulette parameter and film weight; average over all random numbers of all iterations", "why_tests_cant": "a statement about the exact average over a continuum of random numbers of unboundedly many dimensions; tests can only compare noisy images", "anchors": ["src/renderer/renderer_volpt.cpp", "include/lm/path.h:sample_direction,sample_direct", "include/lm/path.h:sample_distance,eval_transmittance", "src/medium/medium_homogeneous.cpp", "src/phase/phase_hg.cpp", "src/phase/phase_isotropic.cpp"]}
{"id": "C86", "title": "Light tracing and path tracing compute the same image", "statement": "For every scene and every maximal path length, the average, over all the random numbers, of what the light tracer adds to a region of the film is what the path tracer adds to it: both are the integral over the region of the radiance arriving at the camera along the primary rays, up to the maximal path length.", "quantifier": "every scene of triangles with area lights, point lights, directional lights and environment lights, every maximal path length, every weighting of the film; average over all random numbers of all iterations", "why_tests_cant": "a statement about the exact averages of two estimators over a continuum of random numbers of unboundedly many dimensions; tests can only compare noisy images of a few scenes", "anchors": ["src/renderer/renderer_lt.cpp", "src/renderer/renderer_pt.cpp", "include/lm/path.h:sample_primary_ray,sample_direct,eval_contrb_direction,raster_position", "include/lm/surface.h:shading_normal_correction", "src/light/light_area.cpp:sample_ray"]}
{"id": "C87", "title": "Bidirectional path tracing computes the image of the path tracer", "statement": "For every scene of flat triangles with area lights, a pinhole camera and materials without specular components, the average, over all the random numbers of both subpaths, of what the renderer bdpt adds to a region of the film is the integral over the region of the radiance arriving at the camera by paths between the minimal and the maximal number of vertices; the same holds of pt_naive_path, pt_nee_path and lt_nee_path, and the path tracer computes the same image.", "quantifier": "every scene of flat triangles with area lights and materials with reciprocal BSDFs, every minimal number of vertices (at least 2 for bdpt) and every maximal number, every weighting of the film; average over all random numbers of both subpaths", "why_tests_cant": "a statement about the exact averages of estimators which combine all ways to sample a path, over a continuum of random numbers of unboundedly many dimensions; tests can only compare noisy images of a few scenes", "anchors": ["src/renderer/renderer_bdpt.cpp", "include/lm/bidir.h", "include/lm/path.h", "src/renderer/renderer_pt.cpp"]}
{"id": "C88", "title": "The optimized bidirectional path tracer computes the image of the path tracer", "statement": "For every scene of flat triangles with area lights, a pinhole camera and materials without specular components, the average, over all the random numbers of both subpaths, of what the renderer bdptopt adds to a region of the film is the integral over the region of the radiance arriving at the camera by paths between the minimal and the maximal number of vertices, so that with a minimum of two it computes the image of the path tracer (renderer pt); with the same random numbers its subpaths are those of bdpt, whatever the uninitialised members of its cache contain.", "quantifier": "every scene of flat triangles with area lights and materials with reciprocal BSDFs and any number of components, every minimal (at least 2) and maximal number of vertices, every weighting of the film, every content of uninitialised memory; average over all random numbers of both subpaths", "why_tests_cant": "a statement about the exact average of an estimator that combines all ways to sample a path, over a continuum of random numbers of unboundedly many dimensions; tests can only compare noisy images of a few scenes, and a scene whose lights have single materials does not show the error", "anchors": ["src/renderer/renderer_bdptopt.cpp", "src/material/material_mixture.cpp", "src/renderer/renderer_pt.cpp"]}
{"id": "C89", "title": "A ray query on a built scene returns the nearest surface of any placed object", "statement": "After a scene has been put together by any sequence of API calls and its acceleration structure has been built, a ray query returns a point that lies on the ray, within the given range, on a triangle of a mesh of the reported primitive placed by the transforms along some path of the scene graph, such that no placed triangle is met nearer within the range; if no placed triangle is met, it returns the environment light if there is one and the range is unbounded, and nothing otherwise. Every scene can be built, whatever the scheduling of the builder threads, every query returns, and calls that only add to the scene after the build do not disturb queries.", "quantifier": "every history of API calls, every mesh and transform, every interleaving of any number of builder threads, every ray and range", "why_tests_cant": "the answer combines traversal of the graph, flattening, a parallel construction, the traversal of the tree and the triangle test; tests fix one scene and one schedule", "anchors": ["src/accel/accel_sahbvh.cpp:127-299", "src/scene.cpp:216-230,274-345", "include/lm/accel.h:Hit"]}
{"id": "C90", "title": "The ray casting renderer shows the nearest surface at every pixel centre", "statement": "Rendering with the ray casting renderer writes every pixel of the film, and each pixel gets the colour that belongs to the ray through its centre: the background colour if nothing is met, the emission of the environment light at infinity, the absolute value of the shading normal in the normal mode, and otherwise the given colour or the reflectance of the material, darkened (except in the constant mode) to between 1/5 and 1 according to how much the surface faces the ray. The image depends neither on the number of threads and their interleaving nor on the previous content of the film.", "quantifier": "every scene with a camera, every film size, every combination of the options, every schedule of the parallel loop", "why_tests_cant": "all schedules, film sizes and scenes; the combination of options with what a ray meets is a product of cases, and reading an uninitialised value is invisible to a test", "anchors": ["src/renderer/renderer_raycast.cpp:62-101", "include/lm/path.h:56-59, 787-794", "include/lm/scene.h:248-281", "src/film/film_bitmap.cpp:152-154"]}
{"id": "C91", "title": "Temporarily disabled floating-point exceptions are restored", "statement": "Inside a block that disables floating-point exceptions with the guard class of the library no operation traps, and after the block, however it ends, the setting of the thread is what it was before: so that calls of the library which use the guard internally (every ray query, saving a film, loading a model) do not change whether the operations of the caller trap. Threads do not influence each other, and on platforms without the feature nothing changes.", "quantifier": "every program made of floating-point operations, guarded blocks, exceptions, handlers and calls of the API, every number of threads and history", "why_tests_cant": "nesting of blocks, exceptions leaving them and the setting of the calling thread are unbounded; a test sees one setting on one thread", "anchors": ["src/exception.cpp:33-117", "include/lm/exception.h:101-116", "src/accel/accel_sahbvh.cpp:269-270", "src/film/film_bitmap.cpp:156-158"]}
{"id": "C92", "title": "The printed tree of assets shows every owned component once", "statement": "Printing the tree of assets writes one line for each component owned by the group of assets, directly or through other components, indented one level below the line of its owner, from which its locator (what is shown, appended to the locator of its owner) and its key can be read; if requested, one line for each weak reference; nothing else. Afterwards the indentation of the logger is as before.", "quantifier": "every tree of components, of any depth and width, every state of the logger", "why_tests_cant": "trees are unbounded in depth and width, and the nesting of indentation shows only in deep ones", "anchors": ["src/debug.cpp:82-119", "include/lm/component.h:266", "include/lm/logger.h:190-193"]}
{"id": "C93", "title": "All acceleration structures see the same scene", "statement": "After a scene has been put together by any sequence of API calls, each of the acceleration structures that use a ray tracing library (embree, nanort, and embree with instances) hands to the library exactly the placed triangles of the scene, and answers a ray query with the nearest surface, reported with the right primitive and position, whatever had been built before; building never fails. So switching between acceleration structures, the built-in one included, does not change what a ray sees.", "quantifier": "every history of API calls, every mesh, every nesting of groups and instance groups, every ray and range, every answer of the library within its contract, every previous state of the acceleration structure", "why_tests_cant": "tests fix one scene with one nesting of instances; wrong indices into the flattened scene show only with several meshes and instances", "anchors": ["plugin/accel_embree/accel_embree.cpp:80-163", "plugin/accel_embree/accel_embree_instanced.cpp:84-296", "plugin/accel_nanort/accel_nanort.cpp:36-96", "src/scene.cpp:232-234, 274-345"]}
{"id": "C94", "title": "The volume ray casting renderer approximates single scattering", "statement": "Rendering with the volume ray casting renderer writes every pixel of the film with the single scattering estimate of the ray through its centre: the sum, over the steps of the march, of albedo times emitted light times transmittance up to the step times light arriving there times what the step takes out of the ray. The value lies between zero and the emitted light times the albedo; it differs from the single scattering integral of the density by at most an explicit multiple of the two steps plus the root of the cutoff. The image depends neither on the number of threads and their interleaving nor on the previous content of the film. The density of an OpenVDB volume never exceeds the maximum that it announces.", "quantifier": "every volume, medium, light direction, step, cutoff and camera, every film size, every schedule of the parallel loop", "why_tests_cant": "all densities, steps and schedules; the error bound is a statement about every Lipschitz density, and a test compares a few images", "anchors": ["plugin/volume_openvdb/renderer_volraycast.cpp:25-111", "plugin/volume_openvdb/volume_openvdb.cpp:50-95", "include/lm/volume.h:50-96"]}
{"id": "C95", "title": "Drawing with the matrices of the camera shows what the camera renders", "statement": "A program that draws the scene with the view and projection matrices of the camera (the interactive visualizer) puts every point at the position of the screen at which the renderers show it, and draws exactly the points for which the camera has a raster position, if their distance along the viewing axis is between 0.01 and 10000; nearer points have smaller depth. This also holds after the aspect ratio has been changed. A camera given by a matrix sits at its translation and looks along its third column. Pixels are square if the aspect ratio is that of the film, and the parameters that the camera reports can be used to make it again.", "quantifier": "all cameras that can be constructed, all points of the scene, all aspect ratios set later", "why_tests_cant": "two independently written projections have to agree for every point and every camera; a test can compare a few points", "anchors": ["src/camera/camera_pinhole.cpp:48-124", "include/lm/camera.h:view_matrix,projection_matrix,set_aspect_ratio"]}
{"id": "C96", "title": "Values cross the boundary between Python and C++ unchanged", "statement": "A value built in Python from None, booleans, numbers, strings, sequences, dicts with string keys and components arrives in the library as the JSON value with the same content at every path (components as their locators), and JSON values returned by the library appear in Python with the same content, so that going there and back changes nothing. NumPy arrays given for vectors and matrices arrive with the same elements in the same rows and columns, and come back as they were; arguments that do not fit are rejected.", "quantifier": "all Python values and JSON values of any depth, all arrays and memory layouts", "why_tests_cant": "structures are unbounded and arrays can have any memory layout; tests try a few literals", "anchors": ["include/lm/pylm.h:type_caster<lm::Json>,type_caster<glm::vec>,type_caster<glm::mat>", "src/renderer/renderer_pt.cpp:314"]}
{"id": "C97", "title": "The options given for the Embree structures are used", "statement": "Constructing an Embree acceleration structure with options takes each given option, uses the default for the others and refuses values of a wrong type; the scene flags and the build settings handed to the library are the requested ones, and settings written to JSON can be read again.", "quantifier": "all combinations of options and values", "why_tests_cant": "the combinations of flags interact and the effect of a lost flag is not visible in images; tests use the defaults", "anchors": ["plugin/accel_embree/embree_params.h:adl_serializer<RTCSceneFlags>,adl_serializer<RTCBuildArguments>", "plugin/accel_embree/accel_embree.cpp:construct,build"]}
{"id": "C98", "title": "Components shared by C++ and Python live as long as they are used", "statement": "A component implemented by a Python class and used by the library (an asset) keeps working when the script drops its variables, and a reference kept by a script keeps working when the library lets go of the component; when both have let go of it, it is released, once. A component that a script creates itself is deleted exactly when the last reference to it is dropped. An asset implemented in C++ is deleted exactly when it is replaced or the assets are reset.", "quantifier": "every history of taking, copying and dropping references, calls from both sides and release by the library, for every way to make the component", "why_tests_cant": "lifetime errors depend on the order of releases and drops; a test tries a few orders, and use of deleted memory may go unnoticed", "anchors": ["include/lm/pylm.h:reg_comp_wrap,cast_to_python_object,create_comp_wrap", "include/lm/component.h:ComponentDeleter", "src/component.cpp:create_comp"]}
{"id": "C99", "title": "The ambient occlusion renderer shows how open the surroundings of a surface are", "statement": "Rendering with the ambient occlusion renderer of the examples gives each pixel that sees a surface a grey value between 0 and 1 whose mean is the cosine-weighted part of the hemisphere, on the side facing the camera, in which nothing is met up to the distance 0.2; the mean squared error is at most 1 / (4 spp). The other pixels stay as they are. Which random numbers a pixel gets depends on the threads, its mean does not.", "quantifier": "every scene with a camera, every film size, every number of samples, every schedule of the parallel loop, every random number", "why_tests_cant": "all scenes and schedules; means and errors are integrals over all random numbers, which a test can only estimate", "anchors": ["functest/renderer_ao.cpp:10-46", "example/custom_renderer.cpp:14-50"]}
{"id": "C100", "title": "The path tracer with point and directional lights", "statement": "In scenes with point lights and directional lights beside lights with extent, the average, over all the random numbers, of what one sample of the path tracer adds to a region of the film is the integral over the region of the radiance arriving along the primary rays, where surfaces reflect, beside what arrives from lights with extent and other surfaces, the irradiance of the visible point lights (intensity times cosine over squared distance) and directional lights (irradiance times cosine); the same for all sampling modes and both ways of sampling primary rays.", "quantifier": "every scene, maximal path length, film region and sampling mode; average over all random numbers of all iterations", "why_tests_cant": "a statement about the exact average over a continuum of random numbers of unboundedly many dimensions; tests can only compare noisy images", "anchors": ["src/renderer/renderer_pt.cpp:127-192", "src/light/light_point.cpp:sample_direct,eval", "src/light/light_directional.cpp:sample_direct,eval", "include/lm/path.h:sample_direct,pdf_direct", "include/lm/scene.h:visible"]}
{"id": "C101", "title": "The volumetric path tracer with point and directional lights", "statement": "In scenes with a participating medium and point lights and directional lights beside lights with extent, the average, over all the random numbers, of what one sample of the volumetric path tracer with light sampling adds to a region of the film is the integral over the region of the radiance arriving through the medium along the primary rays, where surfaces and the medium scatter, beside what arrives from lights with extent, surfaces and the rest of the medium, what arrives from the visible point lights (intensity over squared distance) and directional lights, attenuated by the medium on the way. Without light sampling (the naive tracer) the average is the radiance due to the lights with extent alone.", "quantifier": "every scene, homogeneous or heterogeneous medium, maximal path length, roulette parameter in [0,1) and film region; average over all random numbers of all iterations", "why_tests_cant": "a statement about the exact average over a continuum of random numbers of unboundedly many dimensions; tests can only compare noisy images", "anchors": ["src/renderer/renderer_volpt.cpp", "src/light/light_point.cpp:sample_direct,eval", "src/light/light_directional.cpp:sample_direct,eval", "include/lm/path.h:sample_direct,sample_distance,eval_transmittance", "src/medium/medium_homogeneous.cpp", "src/medium/medium_heterogeneous.cpp"]}
{"id": "C102", "title": "Components implemented in Python are called like components implemented in C++", "statement": "For every class defined in Python that implements an interface of the library, a call of a method of the interface by the library runs the method of that name of the class on the arguments of the call, in order; the caller gets the value it returns, converted to the declared type, or the exception it raises, and sees the changes it made to objects passed by reference. If the class does not define the method, the implementation of the interface runs, or there is an exception if it is pure virtual. What the method save of the class returned is what its method load gets.", "quantifier": "all Python classes, all methods of all interfaces, all arguments and results, all states of wrapper objects", "why_tests_cant": "tests implement a few methods of a few interfaces; a wrong name in a trampoline, a type unknown to Python, or a copied argument shows only when that very method is implemented and called", "anchors": ["src/pylm.cpp:Component_Py", "src/pylm.cpp:Film_Py", "src/pylm.cpp:Scene_Py", "src/pylm.cpp:Material_Py", "src/pylm.cpp:Medium_Py", "src/pylm.cpp:Volume_Py", "src/pylm.cpp:Camera_Py", "src/pylm.cpp:Light_Py", "include/lm/pylm.h:PYLM_SERIALIZE_IMPL"]}
{"id": "C103", "title": "Python functions in parallel loops", "statement": "When a parallel loop is started from Python, no two threads ever run Python code at the same time; there is no deadlock between the global interpreter lock and the locks of the loop, also if any of the calls raise exceptions; the call returns after a bounded number of steps; the Python function has then been called exactly once for each index if it raises nothing, and otherwise one of the exceptions it raised is raised to the caller, which has the interpreter lock again.", "quantifier": "all numbers of indices and threads, all sets of indices for which the function raises, all lengths of the Python code and all points at which the interpreter switches threads, all interleavings of the team and of other Python threads", "why_tests_cant": "deadlocks and races between locks depend on the interleaving, which a test does not control; the dangerous cases need several exceptions at the same time", "anchors": ["src/pylm.cpp:bind_parallel", "src/pylm.cpp:bind_renderer", "src/parallel/parallel_openmp.cpp:foreach", "include/lm/pylm.h:PYLM_SERIALIZE_IMPL"]}
{"id": "C104", "title": "The image array handed to Python shows the film", "statement": "The array that a Python program gets from the function buffer of a film has one row per row of pixels, one column per column and three components; element [y, x, c] is component c of pixel (x, y) of the film as it is when buffer is called, and other indices are refused. Asking for the array does not change the film, writing to the array changes only that element of the array and no film. The array stays usable and keeps showing the same image, whatever happens to the film and to other films later.", "quantifier": "every history of creating, drawing on, resizing, loading and deleting any number of films, taking arrays from them and writing to arrays; every film size, every growth policy of the standard library, single and double precision", "why_tests_cant": "the array is a view of memory of the film: what it shows depends on everything that happens to the film afterwards, and use of freed memory may go unnoticed in a test", "anchors": ["src/film/film_bitmap.cpp:buffer", "src/pylm.cpp:bind_film (FilmBuffer)", "include/lm/film.h:FilmBuffer"]}
{"id": "C105", "title": "Plugins bring and take away their implementations", "statement": "Whatever was loaded, unloaded and created before: creating a component by name never runs code of a library that is not in memory, and yields a component of the program or of a library in memory; while a plugin is loaded, under whatever path, its library is in memory and its components can be used and released; if no two implementations share a name, the names that can be created are exactly those of the program and of the libraries in memory, however the state was reached, and the listing of registered implementations calls back once for each of them; loading a directory loads exactly the plugins in it.", "quantifier": "every set of libraries with their implementations, every history of loading, unloading, creating and releasing, every answer of the operating system, every directory content and search path", "why_tests_cant": "the histories and the answers of the operating system (refused, kept in memory, unloaded) are unbounded, and running code of an unloaded library need not crash in a test", "anchors": ["src/component.cpp: load_plugin, unload_plugin, load_plugin_directory, unload_all_plugins, foreach_registered, create_comp, reg, unreg", "include/lm/component.h: RegEntry, LM_COMP_REG_IMPL, Component::Ptr"]}
{"id": "C106", "title": "Thread identifiers of parallel loops", "statement": "The number of threads of the parallel subsystem is the configured number if that is positive, otherwise the number of hardware threads plus the configured number, so that -1 leaves one of them free; without configuration it is the number of hardware threads. Every call of the callback of a parallel loop gets a thread identifier between 0 and the number of threads minus one, two calls in progress at the same time have different identifiers, so that data indexed by the identifier needs no lock, and the query for the main thread is answered with yes on the main thread only.", "quantifier": "every configuration, every machine, every history of initialisations and of loops started on any threads of the program and inside of other loops", "why_tests_cant": "the identifiers depend on the machine, on the thread that initialised the subsystem and on the nesting of loops; a test runs on one machine, usually from one thread", "anchors": ["src/parallel/parallel_openmp.cpp:22-47,63", "include/lm/parallel.h:45-63", "example/pt.cpp:24-26"]}
{"id": "C107", "title": "Lights at infinity reach the whole scene", "statement": "When a scene has been built, the box of the scene that its lights were told contains every triangle of every primitive that can be reached from the root, under every path of transforms that leads to it, and is the smallest such box; the built-in acceleration structure holds the same triangles. Until the scene is built again, every directional or environment light of the scene generates, for suitable random numbers, a ray in its direction through any given point of the scene, which starts outside of the scene and on which a ray query finds the point.", "quantifier": "every set of meshes, every history of calls building any number of scenes that share lights, every light at infinity, every direction and every point on the scene", "why_tests_cant": "the scene graph, the transforms and the histories are unbounded; a part of the scene that no emission ray can reach is only visible as missing light in an image", "anchors": ["src/scene.cpp:build", "src/light/light_directional.cpp:set_scene_bound,sample_ray", "src/light/light_envconst.cpp:set_scene_bound,sample_ray", "include/lm/light.h:set_scene_bound", "include/lm/math.h:Bound,merge,SphereBound"]}
{"id": "C108", "title": "The OBJ loader plugin hands over what the file contains", "statement": "A model loaded with the plugin for OBJ files has the positions, normals and texture coordinates of the file, complete and in order; its materials, in order and with all parameters of the file; every face of the file in exactly one mesh with the material it names; a file without materials gets the default material of the built-in loader, which emits no light; and a file the parser accepts is never read outside of arrays.", "quantifier": "every result of the parser library: any number of vertices, materials, shapes and faces, with any numbers of materials, and any contents of uninitialised memory", "why_tests_cant": "the results of the parser are unbounded, lost faces are silent, and what uninitialised memory contains varies between runs", "anchors": ["plugin/objloader_tinyobjloader/objloader_tinyobjloader.cpp: OBJLoaderContext_TinyOBJLoader::load", "include/lm/objloader.h: MTLMatParams", "src/model/model_wavefrontobj.cpp: construct"]}
{"id": "C109", "title": "Polled values reach the function registered last", "statement": "Every value given to poll is handed, once and in order, to the function that was registered last with reg_on_poll at that moment, from C++ or from Python, and to no other; before a function is registered, and after an empty one is registered, values are ignored. Initialising and shutting down the framework does not change which function is registered. Functions may themselves poll values and register functions, also in place of themselves, without undefined behaviour.", "quantifier": "every history of calls in one thread, and every set of functions with any behaviour, nested to any depth", "why_tests_cant": "histories and nesting are unbounded, and a function that is destroyed while it runs usually seems to work", "anchors": ["src/debug.cpp: poll, reg_on_poll, Context", "src/pylm.cpp: bind_debug", "include/lm/debug.h: OnPollFunc", "src/user.cpp: shutdown"]}
{"id": "C110", "title": "Messages of several threads are printed whole", "statement": "When several threads log messages, change the indentation and set the severity threshold at the same time, the result is as if all calls had been made one after another, in an order that agrees with the order of the calls of every thread: every message that passes the filter is printed once, completely, and no text of other messages appears between its lines and characters; there are no data races and no deadlocks.", "quantifier": "every number of threads, every sequence of calls in each of them, every schedule of their steps, down to single characters", "why_tests_cant": "schedules are unbounded, and mixed lines and races occur rarely and differ from run to run", "anchors": ["src/logger.cpp: LoggerContext_Default::log, update_indentation, set_severity, log::log"]}
