# Formal model of lightmetrica-v3 in Lean 4

## Layout

* `lean/Verif/Model/*.lean`  executable model, function by function; every definition cites the file and lines in `/repo`, simplifications are in the same comment.
* `lean/Verif/Spec/*.lean`   small specifications that do not use the model's helpers.
* `lean/Verif/Props/*.lean`  helper lemmas and the property theorems (named `Cxx_...`), next to each a non-vacuity `example`.
* `MANIFEST.json`            property -> theorem names; `seeded/LOG.jsonl` log of edits of the model and the theorems they broke.

Naming: `Cxx_negation_...` proves that the code does not have (part of) the property; `..._partial` is the part that holds;
`Cxx_remark_...` and `Cxx_boundary_...` are side facts.

## Trusted base

* Lean 4.33.0 kernel. Every theorem depends at most on `propext`, `Classical.choice`, `Quot.sound`. No axioms of our own, no `sorry`, no
  `native_decide`, no `bv_decide`. `decide +kernel` is used for concrete examples only.
* The reading of the C++ in `/repo` into the model: nothing is executed; the citations are the only tie. C++ semantics of the language and of the
  standard library (evaluation order, std::upper_bound, std::sort, mt19937, uniform_real_distribution, atomics) as written in the model files.
* Numbers. `Float` is `double` in the code (`common.h:278-287`). Arithmetic is idealised: an arbitrary linearly ordered
  field, `ℚ`, or `ℝ` where `sqrt`/trigonometry is needed. Rounding, overflow and denormals are not modelled. The ray/box test is the
  exception: it is modelled with explicit ±∞, NaN and signed zeros because its correctness rests on them; the film check has NaN and ±∞.
* `int`/`long long` are unbounded (`Nat`/`Int`), except where a conversion or the range is the point (raster positions, textures, OBJ indices), where
  leaving the range is undefined.
* Undefined behaviour (out-of-range access, null dereference, use after free, 0/0, uninitialised members) is an explicit outcome of the model
  (`none`, `undef`) or an arbitrary parameter (`junk`), never totalised away.
* Random numbers. In C56/C78 the generator is modelled exactly. In C53, C80–C82 they are independent uniform numbers: Lebesgue measure on the unit
  cube. That mt19937 output behaves like this is an assumption.
* External libraries (glm, nlohmann::json, cereal, OpenMP, dlopen, stb_image, std::regex, tinyobjloader, pbrt-parser, the clock, the file system) appear as parameters or as
  small models with the assumption recorded at the definition.
* Threads: interleaving semantics over atomic steps (sequential consistency). Weak-memory effects are not modelled; the unsynchronised
  `done` flags are treated as if atomic (comment at the definition).


## What is modelled

Lines cited by the model (all of them in comments of `Model/`):

| file | lines of /repo cited by the model | model |
|---|---|---|
| example/custom_renderer.cpp (154) | 14-50 | Ao |
| functest/renderer_ao.cpp (50) | 10-46 | Ao |
| include/lm/accel.h (77) | 22, 38-70 | Flatten, PyTrampoline |
| include/lm/assetgroup.h (63) | 49-56 | PyTrampoline |
| include/lm/bidir.h (652) | 24-644 | Bidir, BidirRender |
| include/lm/camera.h (235) | 40-228 | PyTrampoline |
| include/lm/common.h (289) | 15-25, 185, 278-287 | AMap, Ext, PyConv |
| include/lm/component.h (821) | 61-111, 139-197, 210-289, 300-311, 520-556, 582-590, 612-713, 739-755, 784-793 | AssetTree, ClassState, Context, Locator, Logger, Plugins, PyLife, PyTrampoline, Registry, Reload, SaveLoad |
| include/lm/exception.h (315) | 101-106 | Fpex |
| include/lm/film.h (212) | 40-44, 50, 60-205 | Film, FilmView, PyTrampoline, RenderFilm |
| include/lm/json.h (297) | 37-290 | CameraView, Json |
| include/lm/jsontype.h (45) | 30-39 | PyConv |
| include/lm/light.h (215) | 34-215 | Light, PyTrampoline, SceneBound |
| include/lm/logger.h (348) | 53, 80, 88, 190-193, 271-278 | AssetTree, Logger |
| include/lm/loggercontext.h (39) | 29-31 | PyTrampoline |
| include/lm/material.h (169) | 38-162 | Material, PyTrampoline |
| include/lm/math.h (756) | 33-60, 67-69, 82-178, 184-186, 200-290, 310-434, 465-702, 724-746 | Bound, CameraView, Dist, Light, Material, Math, Mesh, Rng, SceneBound, Surface, Vec |
| include/lm/medium.h (76) | 44-69 | PyTrampoline |
| include/lm/mesh.h (107) | 34-38, 47-51, 75-100 | Light, Mesh, PyTrampoline |
| include/lm/model.h (87) | 56-80 | PyTrampoline |
| include/lm/objloader.h (125) | 22-31, 36-45, 55-70 | Obj, TinyObj |
| include/lm/parallel.h (97) | 45-63 | Threads |
| include/lm/path.h (803) | 55-794 | PathApi, Raycast, Renderer, VolRaycast, Volume |
| include/lm/phase.h (66) | 21-59 | PyTrampoline, Volume |
| include/lm/progress.h (122) | 47-50 | Progress |
| include/lm/progresscontext.h (41) | 30-33 | Progress, PyTrampoline |
| include/lm/pylm.h (456) | 9-12, 14-295, 303-384, 411-435 | PyConv, PyLife, PyParallel, PyTrampoline |
| include/lm/renderer.h (32) | 25 | PyTrampoline |
| include/lm/scene.h (430) | 27, 33, 40-421 | Ao, PathApi, PyTrampoline, Raycast, Renderer, Scene, Surface |
| include/lm/scenenode.h (154) | 62-148 | Scene |
| include/lm/serial.h (454) | 25-387, 433-450 | Archive, ClassState, SaveLoad |
| include/lm/serialtype.h (179) | 26-150, 153-179 | Archive |
| include/lm/surface.h (445) | 52-63, 74-80, 90-97, 104-111, 125-137, 179-181, 193-196, 240-244, 302-305, 329-348, 361-363, 377-390, 406-409, 424-438 | Ao, Bidir, Raycast, Surface |
| include/lm/texture.h (122) | 62-115 | PyTrampoline |
| include/lm/volume.h (103) | 22-96 | PyTrampoline, VolRaycast, Volume |
| plugin/accel_embree/accel_embree.cpp (169) | 34-38, 41-53, 71-125, 134-163 | AccelLib, EmbreeParams |
| plugin/accel_embree/accel_embree_instanced.cpp (302) | 21-27, 37-41, 44-56, 84-236, 265-296 | AccelLib, EmbreeParams |
| plugin/accel_embree/embree_params.h (132) | 67-132 | EmbreeParams |
| plugin/accel_nanort/accel_nanort.cpp (102) | 29-33, 36-73, 88-96 | AccelLib |
| plugin/model_pbrt/model_pbrt.cpp (254) | 41, 49-53, 55-73, 75-99, 102-104, 107-250 | AssetTree, Mesh, Pbrt |
| plugin/objloader_tinyobjloader/objloader_tinyobjloader.cpp (151) | 14, 21-147 | Fpex, Obj, TinyObj |
| plugin/volume_openvdb/renderer_volraycast.cpp (116) | 25-32, 36-53, 57-111 | VolRaycast |
| plugin/volume_openvdb/volume_openvdb.cpp (100) | 52-95 | VolRaycast |
| src/accel/accel_sahbvh.cpp (304) | 26-33, 41-49, 52-55, 58-75, 79-84, 115-124, 129-151, 155-170, 172-299 | Bvh, ClassState, Flatten, Fpex |
| src/assetgroup.cpp (143) | 14-20, 22-26, 28-138, 141 | AMap, Archive, AssetGroup, AssetTree, ClassState, Context, Locator, Reload, SaveLoad |
| src/camera/camera_pinhole.cpp (242) | 48-124, 127-131, 133-139, 156-162, 171-173, 177-194, 196-202, 206-226, 232-237 | CameraView, ClassState, Light, PathApi |
| src/component.cpp (408) | 24-73, 91-313, 322-361 | AMap, Locator, Plugins, PyLife, Registry, Reload, SaveLoad |
| src/debug.cpp (121) | 16-35, 82-119 | AssetTree, Poll |
| src/exception.cpp (176) | 33-45, 49-105, 107-111, 113-117 | Fpex |
| src/film/film_bitmap.cpp (279) | 20-55, 84-105, 121-252, 255-274 | ClassState, Ext, Film, FilmView, Fpex |
| src/light/light_area.cpp (192) | 23-192 | ClassState, Light, Math |
| src/light/light_directional.cpp (136) | 22-132 | ClassState, Light, SceneBound |
| src/light/light_env.cpp (207) | 26-203 | ClassState, Light, SceneBound |
| src/light/light_envconst.cpp (146) | 21-142 | ClassState, Light, SceneBound |
| src/light/light_point.cpp (125) | 22-125 | ClassState, Light |
| src/logger.cpp (214) | 18-29, 50-213 | LogThreads, Logger |
| src/material/material_diffuse.cpp (100) | 34-41, 60-95 | ClassState, Material |
| src/material/material_glass.cpp (291) | 60-278 | ClassState, Material |
| src/material/material_glossy.cpp (118) | 24-32, 43-109 | ClassState, Material |
| src/material/material_mask.cpp (64) | 30-59 | Material |
| src/material/material_mirror.cpp (67) | 33-62 | Material |
| src/material/material_mixture.cpp (262) | 24-102, 119-258 | ClassState, Material |
| src/material/material_proxy.cpp (74) | 25-70 | ClassState, Material |
| src/medium/medium_heterogeneous.cpp (118) | 26-35, 43-105, 107-109 | ClassState, EmptyMedium, Renderer, Volume |
| src/medium/medium_homogeneous.cpp (109) | 26-38, 61-88, 90-100 | ClassState, Renderer, Volume |
| src/mesh/mesh_raw.cpp (106) | 38-47, 50-101 | ClassState, Mesh |
| src/mesh/mesh_wavefrontobj.cpp (98) | 24-48, 50-54, 56-65, 67-89, 91-93 | ClassState, Mesh |
| src/model/model_wavefrontobj.cpp (517) | 12, 39-250, 261-324, 339-513 | ClassState, Locator, Material, Mesh, ObjModel, Reload, TinyObj |
| src/objloader/objloader_simple.cpp (270) | 16-17, 20-163, 165-231, 233-265 | Obj, ObjModel |
| src/parallel/parallel_openmp.cpp (105) | 20, 22-97 | Parallel, PyParallel, Threads |
| src/phase/phase_hg.cpp (67) | 21-63 | ClassState, Volume |
| src/phase/phase_isotropic.cpp (45) | 20-41 | Volume |
| src/progress.cpp (208) | 18-97, 104-176 | Progress |
| src/pylm.cpp (1234) | 72, 82, 121-1195 | FilmView, Poll, PyParallel, PyTrampoline, SaveLoad |
| src/renderer/renderer_bdpt.cpp (415) | 37-113, 119-123, 140, 142-199, 218, 220-281, 341, 343-394 | AssetTree, BidirRender, ClassState, RenderFilm, Renderer, Rng |
| src/renderer/renderer_bdptopt.cpp (537) | 22-32, 36-53, 130-222, 230-312, 315-409, 419-450, 478-518 | BdptOpt, BdptOptRender, ClassState, Renderer, Rng |
| src/renderer/renderer_blank.cpp (48) | 15-22 | ClassState |
| src/renderer/renderer_lt.cpp (178) | 18-29, 49-173 | ClassState, RenderFilm, Renderer, Rng |
| src/renderer/renderer_pt.cpp (320) | 19-23, 29-42, 80-312 | ClassState, RenderFilm, Renderer, Rng |
| src/renderer/renderer_raycast.cpp (106) | 19-32, 50-53, 62-101 | ClassState, Raycast |
| src/renderer/renderer_volpt.cpp (372) | 19-31, 58-370 | ClassState, RenderFilm, Renderer, Rng |
| src/scene.cpp (402) | 22-33, 48-51, 54-317, 319-345, 353-362, 364-391, 393-395 | AccelLib, Ao, Bidir, ClassState, Flatten, Renderer, Scene, SceneBound |
| src/scheduler.cpp (192) | 18-25, 37-187 | ClassState, Scheduler |
| src/texture/texture_bitmap.cpp (102) | 31-42, 57-89, 91-93 | ClassState, Texture |
| src/texture/texture_constant.cpp (62) | 22-57 | ClassState, Texture |
| src/user.cpp (145) | 23-127 | Context, Fpex, Poll, SaveLoad |
| src/volume/volume_checker.cpp (66) | 22-62 | ClassState, Volume |
| src/volume/volume_constant.cpp (74) | 24-70 | ClassState, Volume |
| src/volume/volume_gaussian.cpp (97) | 24-93 | ClassState, Volume |
| src/volume/volume_multi.cpp (140) | 22-136 | ClassState, Volume |
| src/volume/volume_sphere.cpp (93) | 22-89 | ClassState, Volume |

Not modelled:

* interfaces and glue without behaviour of their own: accel.h, assetgroup.h, camera.h, common.h, core.h, jsontype.h, lm.h, loggercontext.h, medium.h, model.h,
  parallel.h, parallelcontext.h, renderer.h, scheduler.h, texture.h, user.h, serial.cpp, objloader.cpp, parallel.cpp (their implementations are modelled);
* Python bindings (pylm.cpp; of these the type casters are modelled for C96, the lifetime of components for C98, the trampoline classes for C102, the interpreter lock in parallel loops for C103, the arrays of films for C104, and the registration of polling functions for C109; not the functions and attributes made available to Python); attach_to_debugger, stack traces (exception.cpp), timer.h, version.h/.cpp;
* the ray tracing libraries behind accel_embree, accel_embree_instanced and accel_nanort (C93 assumes that they report a nearest proper hit among the triangles handed to them) with their build settings
  (C97 covers the options up to what is handed over); the loader library behind volume_openvdb (C94 takes its density, maximum and march distances as parameters), the conversion of coordinates to float at its interface;
* the texts of log messages, colours of the console, image file encoders.


## Per property: plan, status, theorems, disagreements with the code

Generated from `properties.jsonl`, `MANIFEST.json` and the comments of the theorems. "False of the code" lists what is
proved to be wrong in the code (negation theorems, each with a general form or a concrete witness); "missing" what a partial
theorem leaves out. Auxiliary theorems of the same files are not listed.

### C01 Component registry resolves to the last live registration — proved

*Model and proof.* Registry as two association maps with reg/unreg/create; refinement to a specification that scans the history of calls (Spec/Registry), by induction on the history.

*Files.* Props/C01_Registry

* `C01_create_last_writer_wins` — C01. After any history of reg/unreg calls, creating by `name` yields instance `i` exactly when the name resolves (last-writer-wins, one alias step) to a key whose last call registered functions `f`, and `i` is made by and will be released with exactly these functions and records that key.
* `C01_create_fails_iff` — C01. Creation by an unknown name reports failure (null) and never another implementation.

### C02 Plugin bookkeeping is exact for every history and every OS outcome — partial

*Model and proof.* Plugin table with an oracle for the results of dlopen/dlclose; invariant over histories, accounting of handles.

*Files.* Props/C02_Plugin

* `C02_refines` — C02. For every history and all answers of the dynamic linker the plugin manager behaves like the abstract map path → handle: same visible outcomes, same set of loaded plugins.
* `C02_error_changes_nothing` — C02. A failing call leaves the set of loaded plugins unchanged.
* `C02_reload_noop` — C02. Loading a loaded plugin is a no-op, loading an unloaded one asks the system exactly once.
* `C02_unload_unknown` — C02. Unloading a plugin that is not loaded is an error and does not touch the system.
* `C02_handles_accounted` — C02. Handle accounting: as long as the system does not refuse closes during unload-all, every library handle has been opened exactly as often as it was closed plus the number of plugins currently holding it.
* `C02_unload_all_releases` — C02. No handle is released more often than it was acquired; after unload-all none is held and all are released.

*False of the code:*

* `C02_negation_unload_all_leak` — C02, negation without the hypothesis on the system: when `dlclose` is refused during unload-all the handle is forgotten: it is open, not held by any plugin entry, and can never be released.

### C03 Every component can be found again through its locator — partial

*Model and proof.* Component tree, character-level locators, the `get` loop; round trip by induction on the path, negations for dotted names.

*Files.* Props/C03_Locator

* `C03_get_by_path_partial` — C03 (partial). In every component tree, following the printed locator of a path of good (non-empty, dot-free) names finds exactly the component at that path. Missing for the full claim: names containing a dot, see the negations.
* `C03_get_own_loc_partial` — C03 (partial). Round trip: in a well-located hierarchy with good names, `get(c.loc())` is `c` itself. Missing: names containing a dot (C03_negation_dotted_null, C03_negation_dotted_throws).
* `C03_get_sound` — C03. Soundness for every locator string: whatever `get` returns is a component of the tree reached by dot-free names, and the locator is the printed path of these names (the code also tolerates one trailing dot).
* `C03_get_malformed` — C03. Ill-formed locators (no root registered, empty, not starting at '$') give null.

*False of the code:*

* `C03_negation_dotted_null` — C03, negation (as the code is): a component whose name contains a dot cannot be found through its own locator, although the hierarchy is well located: lookup answers null, ...
* `C03_negation_dotted_throws` — C03, negation: ... and for materials inside `model::wavefrontobj` it even throws `std::out_of_range`.

### C04 Locator algebra: name and parent of a made locator — proved

*Model and proof.* make_loc / name / parent_loc on character lists; list lemmas.

*Files.* Props/C03_Locator

* `C04_name_parent_of_make` — C04. Name and parent of a made locator are what it was made from (for names without a dot).
* `C04_make_injective` — C04. make_loc is injective on dot-free names.
* `C04_make_defined` — C04. make_loc succeeds exactly on non-empty arguments.
* `C04_root` — C04. A locator without a dot has the empty parent (and no name).
* `C04_boundary_dotted` — C04, boundary: dotted names: name/parent do not return what the locator was made from.

### C05 Subsystem contexts follow one init/use/shutdown protocol — proved

*Model and proof.* ContextInstance as a state machine with a trace of life-cycle events; invariant by induction.

*Files.* Props/C05_Context

* `C05_use_iff` — C05. Use of a subsystem succeeds exactly when the latest init succeeded and was not followed by shutdown, returning that context; in every other history it raises 'uninitialized'.
* `C05_at_most_one_alive` — C05. At every moment of every history at most one context of the subsystem is alive: the previous one is released before the next is made, also when construction of the next one throws.
* `C05_released_exactly_once` — C05. Every context ever created is released exactly once, except the current one which is not released.
* `C05_failed_init` — C05. After an init whose creation fails (unknown type) or whose construct throws, use is rejected.

### C06 User API rejects use outside init/shutdown — partial

*Model and proof.* User context as a state machine in which a null dereference is an outcome; case analysis, negations where the code lacks the check.

*Files.* Props/C05_Context

* `C06_active_ok` — C06. Between init and shutdown no call has undefined behaviour or raises 'uninitialized', and the root asset group exists.
* `C06_inactive_rejects_partial` — C06 (partial). Outside init..shutdown, `info` and `shutdown` raise 'uninitialized'. Missing: `assets`, `reset`, `save_state_to_file`, `load_state_from_file` do not check, see the negations.
* `C06_root_identity` — C06. Between init and shutdown, `assets()` keeps returning the same group until the next init, reset or load, and each of those gives a group that was not the root at any earlier moment: pointers handed out before are to groups that no longer exist.

*False of the code:*

* `C06_negation_uninitialized` — C06, negation (as the code is): saving or loading before init dereferences a null pointer, and `assets()` before init returns null instead of raising.
* `C06_negation_after_shutdown` — C06, negation: after shutdown the calls still operate on the old root group instead of raising.

### C07 Asset group is a map from names to the latest loaded asset — proved

*Model and proof.* Asset group (slots and index map); refinement to an ordered map (Spec/AssetGroup).

*Files.* Props/C07_AssetGroup

* `C07_refines` — C07. For every history of loads (with any creation, construction and file outcomes) the asset group answers exactly like the ordered map specification: same results of the calls, same lookup for every name, same enumeration order.
* `C07_no_ub` — C07. No call of any history indexes the slot vector out of range.
* `C07_load_then_lookup` — C07. After a successful load the name denotes the component that was returned, and every other name denotes what it did before.
* `C07_refused_changes_nothing` — C07. Refused loads (bad name, unknown implementation) return null and change nothing at all.
* `C07_slot_stable` — C07. Slots are stable: once a name has a slot it keeps it for ever (whatever happens later).

### C08 Asset slots, index map and locators stay consistent — partial

*Model and proof.* Same model; invariants over histories.

*Files.* Props/C07_AssetGroup

* `C08_consistent` — C08. Invariants of every reachable state.
* `C08_valid_names_good` — C08. Accepted names of load_asset are dot-free and non-empty, so their locators are found again (with C03).

*False of the code:*

* `C08_negation_serialized_bad_name` — C08, negation: load_serialized accepts names that load_asset refuses; a dotted one is registered but (C03) not reachable by locator.

### C09 Reloading an asset redirects every visible reference — proved

*Model and proof.* Heap of components with ownership tree and weak references, visitor traversal; lemma on the traversal.

*Files.* Props/C09_Reload

* `C09_redirected` — C09. After a successful reload of the asset at path `p`, every reported reference of every reported component outside the new asset that used to point to the component at path `s` points to the component that is at path `s` now (or is null when there is none, or it has another interface).
* `C09_rest_unchanged` — C09. Apart from reference targets, the hierarchy after the reload is the old one with the new asset in place of the old one.
* `C09_new_asset_untouched` — C09. The references of the new asset (resolved by its own construction) are left alone.
* `C09_no_use_after_free` — C09. If no reported reference dangles before, a reload never dereferences a freed component.
* `C09_completes` — C09. If moreover no component throws from name lookup, the reload completes.
* `C09_invariant` — C09. Every reload preserves the invariant: in particular no reported reference ever points to a released component.
* `C09_old_unreferenced` — C09. Consequently references into the replaced asset are gone: no reported reference of the hierarchy after the reload has the identity of a component of the old asset.
* `C09_history` — C09. After any number of reloads of any assets every reported reference is live.

### C10 No component of the framework keeps a stale reference after a reload — partial

*Model and proof.* Same model plus a table of which class reports which reference; negation in general form.

*Files.* Props/C09_Reload

* `C10_all_reported_partial` — C10 (partial). In hierarchies whose classes report all their references (class table below), no reference at all points into the replaced asset after a reload. Missing: the classes that do not report.

*False of the code:*

* `C10_negation_unreported_ref_dangles` — C10, negation (general form): a reference held by a component that does not report it still has the identity of the replaced asset after the reload, and that component no longer exists. Whatever the hierarchy.
* `C10_negation_medium` — C10, negation (instance): with medium::homogeneous holding a phase function, reloading the phase function completes and leaves the medium with a pointer to the released instance 2.
* `C10_negation_classes` — C10, negation (class table): these are exactly the classes that keep a reference the reload cannot redirect.

### C11 A failed asset load leaves the group and its referrers usable — partial

*Model and proof.* Same model with construct() that may throw, and the asset group with failing deserialisation.

*Files.* Props/C07_AssetGroup, Props/C09_Reload

* `C11_refused_load_keeps_asset_partial` — C11 (partial). A refused load leaves everything as it was; missing: exceptions from construct() and failing deserialization.

*False of the code:*

* `C11_negation_construct_throws` — C11, negation: when construct() of the replacement throws, the name denotes the half-constructed component, the previous asset (identity 1) is gone.
* `C11_negation_first_load_throws` — C11, negation: a failing first load leaves a half-constructed asset registered.
* `C11_negation_serialized_name_taken` — C11, negation: after a failed load_serialized (e.g. missing file) the name is taken by a null slot and every later load_serialized under that name is refused, even with a correct file.
* `C11_negation_refs_dangle` — C11, negation (general form): when `construct` of the replacement throws, references to the old asset are not updated although it is released: every one of them dangles afterwards.

### C12 Archive encodings of values round-trip — proved

*Model and proof.* Byte-level archive (portable binary: endianness byte, words, optional, sequences, arrays, maps); round trip by structural induction for both endiannesses of writer and reader.

*Files.* Props/C12_Archive

* `C12_round_trip` — C12. For every kind of value, every value, every writer and reader byte order, and whatever follows in the stream: reading back gives the value and leaves exactly what follows.
* `C12_unambiguous` — C12. Hence encodings are prefix free: two values of one kind whose encodings (with anything behind) agree are equal.
* `C12_truncated_rejected` — C12. A truncated file is rejected: no proper prefix of a saved file can be read.
* `C12_bytes` — C12. Everything written is a byte string.
* `C12_map_round_trip` — C12. A map saved in any iteration order `l` (an arbitrary enumeration of the map `f` without repeated keys) is read back as the same map.

### C13 Saving and loading a component tree restores it, including cross references — partial

*Model and proof.* Component tree to token archive with weak references by locator, two-phase load; round trip by mutual induction.

*Files.* Props/C13_SaveLoad

* `C13_round_trip` — C13 / C14. Any tree of owned components with consistent locators, exposed by the hierarchy, with weak references inside of the tree: saving succeeds, and loading the data (with anything behind it) at any place `p'`, into any hierarchy `R'` that exposes the loaded tree there, consumes exactly the saved data, creates new instances only, and yields a copy of the tree with every weak reference pointing to the component at the same place of the copy.
* `C13_saved_implies_exposed` — C13. Saving succeeds only if every owned component with a locator is found through its own locator: a class that owns a component with a locator but does not expose it by name makes the whole tree unsavable.

*False of the code:*

* `C13_negation_unexposed_scheduler` — C13, negation. renderer::pt, renderer::lt and renderer::volpt own a scheduler with the locator "<renderer>.scheduler" (src/renderer/renderer_pt.cpp:62-76, renderer_lt.cpp:45-47, renderer_volpt.cpp:46-52) but do not override `underlying`, so the lookup of that locator gives null: any tree that contains such a renderer, at any place, cannot be saved.
* `C13_negation_unknown_key` — C13, negation. If the implementation of one component is not registered when loading, its saved contents are not skipped: the components that follow are lost without an error (here "b" disappears and data is left over).

### C14 Relocatable saves keep only references inside the saved asset — partial

*Model and proof.* Same model with the locator prefix rewriting of save_asset / load_serialized.

*Files.* Props/C13_SaveLoad

* `C14_inside_relocates` — C14. A locator below the saved asset is stored relative to it, and loading under any new place gives the locator at the same place below it.
* `C14_accepted_iff` — C14, exact characterisation. With usable names, a reference to the component at path `s` is accepted when saving the asset at path `p` exactly when the target is inside the asset or lies in (or is) a sibling whose name extends the asset's name; the latter is the defect.
* `C14_outside_refused_partial` — C14 (partial). A reference to a component outside of the saved asset is refused, unless the target is in a sibling whose name extends the asset's name. Missing: that exception, see C14_negation_sibling.

*False of the code:*

* `C14_negation_sibling` — C14, negation. For every asset name `n` and every sibling name `n ++ x` extending it: a reference from the asset to (a component `rest` below) the sibling is accepted, and after loading under any new name `m` it denotes something else, outside of the new asset as well: `m ++ x`.

### C15 Saved state is complete for every component class — partial

*Model and proof.* Per class: list of members and list of saved members, transcribed from the sources; round trip for any complete class, negation for the others.

*Files.* Props/C15_ClassState

* `C15_restored` — C15. For every class: after saving any state and loading it into a new instance with arbitrary initial members, every saved member has the saved value, every other member has its initial value, and exactly the saved data is consumed.
* `C15_complete_classes_partial` — C15 (partial). Every other class is restored completely. Missing: the classes of the negation above.

*False of the code:*

* `C15_negation_incomplete_classes` — C15, negation. Exactly these classes lose members over save and load (with the lost members); all others are complete.
* `C15_negation_lost_members` — C15, negation: the lost members.

### C16 JSON property helpers: conversions, merge and lookups — proved

*Model and proof.* JSON values as trees; structural lemmas per helper.

*Files.* Props/C16_Json

* `C16_vec_round_trip` — C16. A vector converted to JSON and back is unchanged.
* `C16_vec_reject` — C16. Reading a vector of n components: succeeds exactly for arrays of n numbers, with n components; any other JSON value gives an error; no element outside of the array is ever read.
* `C16_mat_column_order` — C16. The JSON array of a matrix lists the columns one after the other: element i*R+j is column i, row j.
* `C16_mat_round_trip` — C16. A matrix converted to JSON and back has the same columns.
* `C16_mat_reject` — C16. Reading a matrix: arrays of another size and values of another type are errors, and no element outside of the array is read.
* `C16_merge` — C16. merge(a, b) has, for each key, a's value if a has the key, otherwise b's value (and no other keys).
* `C16_merge_keys_distinct` — Keys stay distinct, so the result is an object.
* `C16_value` — C16. value(name) reports a missing property exactly when the key is missing (the conversion itself never reports that); otherwise it is the converted element.
* `C16_value_default` — C16. value(name, default) gives the default exactly like a present element would give its value, and never fails for a missing key.
* `C16_value_or_none` — C16. value_or_none is empty exactly when the key is missing.
* `C16_comp_ref` — C16. comp_ref succeeds exactly when the property is a string that locates a component of the right interface.
* `C16_comp_ref_or_null` — C16. comp_ref_or_nullptr never reports a missing or invalid property: it gives what comp_ref gives, or null (an exception from component lookup still escapes).

### C17 Parallel loop runs every index exactly once — proved

*Model and proof.* OpenMP worker threads as an interleaved step machine over a shared index queue; invariant over all interleavings.

*Files.* Props/C17_Parallel

* `C17_each_index_once` — C17. If the callback does not throw, then in every schedule of any positive number of threads, when `foreach` is over it has called the callback exactly once for every index 0..n-1 and for nothing else, all calls have returned, and nothing is rethrown.
* `C17_terminates` — C17 / C18. Every step of a thread that is not finished strictly reduces a natural number, so there is no infinite schedule: `foreach` is over after at most `5 n + threads` steps, with or without exceptions.
* `C17_can_finish` — C17. From every reachable (indeed every) state some schedule of the team ends the loop: no deadlock.

### C18 Exceptions in a parallel loop reach the caller — proved

*Model and proof.* Same machine with throwing callbacks.

*Files.* Props/C17_Parallel

* `C18_exceptions` — C18. With any throwing indices, in every schedule, when `foreach` is over: no index was executed twice and all were in range; it rethrows exactly when some call threw, and what it rethrows was raised by one of the calls; all other calls have returned.
* `C18_no_silent_skip` — C18. No schedule leaves out an index unless an exception was raised: if nothing is rethrown, every index ran.

### C19 Progress of a parallel loop never exceeds the total — partial

*Model and proof.* Same machine with the thread-local progress counters and the progress lock.

*Files.* Props/C17_Parallel

* `C19_progress_partial` — C19 (partial). In every schedule the reported progress is non-decreasing and never exceeds n plus what the thread-local counters held when the loop started. Missing: the bound n itself when counters are left over from an earlier loop, which is false (see the negation).
* `C19_first_loop_partial` — C19 (partial). First loop of the process (all counters zero): never exceeds n. Missing: later loops, whose progress counts what earlier loops left (C19_negation_leftover).

*False of the code:*

* `C19_negation_leftover` — C19, negation. Two loops in a row, one thread, default interval 100: the first loop of 99 iterations leaves 99 in the thread-local counter; a second loop with a single iteration then reports a progress of 100 out of 1.

### C20 Sample-count schedulers process every pixel sample exactly once — proved

*Model and proof.* Scheduler index arithmetic on top of the parallel loop; bijection between loop indices and (pixel, sample).

*Files.* Props/C20_Scheduler

* `C20_spp_sample` — C20. scheduler::spp::sample calls `process` exactly once for every pixel and every sample index below spp, nothing else, and returns spp.
* `C20_spi_sample` — C20. scheduler::spi::sample calls `process` exactly once for every sample index below the configured number, and returns that number.

### C21 Time-limited schedulers process whole rounds — proved

*Model and proof.* Time-limited scheduler with a clock oracle; induction on rounds.

*Files.* Props/C20_Scheduler

* `C21_spp_time` — C21. scheduler::spp::time: for every clock and every interleaving, if the scheduler returns r then it made r ≥ 1 complete rounds one after the other, round j calls `process` exactly once for every pixel with sample index j, and r is the first round at whose end the limit is exceeded.
* `C21_spi_time` — C21. scheduler::spi::time: if it returns, it made m ≥ 1 complete rounds, round j calls `process` once for each of the `samplesPerIter` consecutive sample indices from j·samplesPerIter on, the result is the number of samples processed, and m is the first round ending past the limit.
* `C21_returns` — C21. If the clock passes the limit at the end of some round, the scheduler returns.

### C22 Concurrent film splats are never lost — proved

*Model and proof.* Compare-exchange loop machine with spurious failures; linearisation invariant.

*Files.* Props/C22_Atomic

* `C22_linearizable` — C22. Linearizability: in every interleaving (including spurious failures), once all operations are done, the pixels hold the result of applying all operations in one sequential order that contains exactly every thread's operations, in that thread's order.
* `C22_prefix` — C22. At every moment (also before all operations are done) the pixels are those of the operations completed so far: nothing is half-applied, lost or applied twice.
* `C22_lock_free` — C22. A thread running alone completes its next operation in at most three steps unless exchanges fail spuriously (no livelock by itself).
* `C22_splats_sum` — C22. Concurrent splats: with exact addition, when all threads 0..T-1 are done each pixel holds its initial value plus the sum of all values splatted to it, in every interleaving.

### C23 Raster positions always map to valid pixels — partial

*Model and proof.* int conversion as truncation that is undefined outside of int; floor arithmetic.

*Files.* Props/C23_Film

* `C23_inside_partial` — C23 (partial). Whenever the conversion to int is defined the pixel lies inside the film. Missing: coordinates whose product with the film size does not fit into int, where the code's behaviour is undefined (see the negation).
* `C23_defined_partial` — C23 (partial). The conversion is defined, so the pixel exists, for all coordinates of magnitude below 2^31 / size. Missing: larger coordinates, where the conversion is undefined (C23_negation_undefined).
* `C23_cell` — C23. For positions in [0,1)² the pixel is (i, j) exactly when the position lies in the half-open cell of (i, j); so every pixel's cell maps to it.

*False of the code:*

* `C23_negation_undefined` — C23, negation. For every film there are finite raster positions for which the conversion to int is undefined.

### C24 Incremental averaging yields the exact mean — proved

*Model and proof.* inc_ave; induction on the number of samples.

*Files.* Props/C23_Film

* `C24_mean` — C24. Feeding samples v0..v(n-1), n ≥ 1, with indices 0..n-1 to inc_ave at a pixel of the film leaves the exact mean there, whatever was there before, and leaves all other pixels and the size alone.

### C25 Film arithmetic is pixelwise — proved

*Model and proof.* Film buffer as list; pointwise lemmas.

*Files.* Props/C23_Film

* `C25_clear` — C25. A constructed film is w × h black pixels, and so is a cleared one.
* `C25_write` — C25. Writing, splatting or updating a pixel of the film succeeds, changes that pixel as told and no other.
* `C25_rescale` — C25. rescale multiplies every pixel by s, whatever the order in which the parallel loop runs.
* `C25_rescale_parallel` — C25. The order of an actual parallel run qualifies.
* `C25_accum` — C25. accum of a film of another size is rejected and changes nothing; of the same size it adds pixel by pixel.

### C26 Image buffer layout: pixel addressing is a bijection and saved images are flipped once — proved

*Model and proof.* The loop nest of `copy`; index arithmetic.

*Files.* Props/C26_Export

* `C26_addressing` — C26. Addressing is a bijection: the position 3 (y w + x) + i of channel i of pixel (x, y) determines x, y and i, and every position below 3 w h is the position of exactly one channel of one pixel.
* `C26_copy` — C26. Exporting succeeds when every channel converts, yields 3 w h values, and holds channel i of pixel (x, y) at the row-major position of row y, or of the mirrored row when flipping.
* `C26_mirror` — C26. The flipped export is the mirror image of the unflipped one: row h-1-y of the one is row y of the other.
* `C26_flip_twice` — C26. Flipping twice: if film b' holds the rows of film b in reverse order, its flipped export equals the unflipped export of b.
* `C26_buffer` — C26. buffer() exposes channel i of pixel (x, y) at position 3 (y w + x) + i, for every non-empty film.
* `C26_byte_range` — The byte written for a channel of a .png is between 0 and 255.

### C27 Images with invalid values are not written silently — partial

*Model and proof.* Sanity check loop over extended numbers; negations.

*Files.* Props/C26_Export

* `C27_detect_partial` — C27 (partial). The sanity check answers that it found an invalid value exactly when one of the first w·h of the 3·w·h floats is NaN or infinite. Missing: the remaining two thirds of the values (see the negation).
* `C27_unknown_extension` — C27. Unknown extensions are refused: nothing is written and the result is failure.
* `C27_ok_iff_written` — C27. Success is reported only if the file was written, and failure only if it was not, for every extension.

*False of the code:*

* `C27_negation_channels` — C27, negation. For every film size w, h ≥ 1 there is an image with a NaN in it (third channel of the last pixel) that is written to a .pfm file, with success reported and no warning at all: the check looks at the first third of the values only.
* `C27_negation_written` — C27, negation. Also when the check finds an invalid value the image is written and success is reported: a 1×1 film with a NaN.
* `C27_negation_png` — C27, negation. Saving a .png of a film with a value whose power is not finite converts a non-finite value to int: undefined behaviour, no check.

### C28 Discrete distribution: probabilities and inversion sampling — proved

*Model and proof.* Cumulative table over an ordered field, std::upper_bound as bisection; induction, order lemmas.

*Files.* Props/C28_Dist

* `C28_pmf` — C28. After adding weights with non-zero sum and normalising, pmf(i) is w_i / Σw for valid i and 0 for every other integer.
* `C28_pmf_sum` — C28. The pmf is non-negative and sums to one, for non-negative weights with positive sum.
* `C28_sample` — C28. Inversion: for u in [0,1), sample(u) = i exactly when cum(i) ≤ u < cum(i+1); so the numbers selecting i form an interval of length pmf(i), a valid index is always returned, and its probability is positive.
* `C28_boundary_at_one` — Remark on the documented domain [0,1] of the random number: at u = 1 the last entry is returned even if its probability is zero.

### C29 2D distribution over images — partial

*Model and proof.* Marginal and conditional tables; sums.

*Files.* Props/C28_Dist

* `C29_sample_partial` — C29 (partial: a fresh distribution). For an image with non-negative weights and positive row sums, a fresh distribution is built; the density at any point of cell (x, y) is w_xy / Σw · w · h; a sampled point lies in [0,1)², in a cell of positive weight, and the density reported there is that cell's. Missing: a distribution that is initialised again (C29_negation_reinit).
* `C29_integral_partial` — C29 (partial: a fresh distribution). The densities integrate to one: the sum over cells of density times cell area is one. Missing: a distribution that is initialised again (C29_negation_reinit).

*False of the code:*

* `C29_negation_reinit` — C29, negation. Re-initialising is not the same as building a fresh distribution: the marginal is not cleared. For every image with one row of one positive weight, building a fresh distribution gives marginal {0, 1} but building it twice with the same data gives a marginal with three entries.

### C30 Bounding boxes: merge is the least upper bound — partial

*Model and proof.* Boxes over an ordered field; lattice lemmas.

*Files.* Props/C30_Bound

* `C30_merge_contains` — C30. The merged box contains every point of both boxes.
* `C30_merge_least` — C30. It is the smallest one: any box containing all points of two non-empty boxes contains all points of their merge; the same for a box and a point.
* `C30_mergeP_least` — 
* `C30_algebra` — C30. Merge is associative, commutative and idempotent.
* `C30_identity_partial` — C30 (partial). The default box is the identity of merge for boxes whose lower corner is at most 1e10 and whose upper corner is at least -1e10. Missing: boxes beyond, where it is false (the sentinel is finite).
* `C30_default_empty` — C30. The default box contains no point.
* `C30_sequence` — C30. The bound of any sequence of points contains each of them, and does not depend on the order.
* `C30_sequence_least_partial` — C30 (partial). With coordinates within ±1e10 the bound of a non-empty sequence of points is the smallest box containing them. Missing: points beyond 1e10.
* `C30_center_area` — C30. The centre of a non-empty box lies in it, and its surface area is non-negative and grows with merging.

*False of the code:*

* `C30_negation_far` — C30, negation. For every point with a coordinate beyond 1e10 the bound of that single point (merged into the default box) also contains another point, so it is not the smallest box.

### C31 Ray/box rejection is conservative — proved

*Model and proof.* Slab test over extended numbers (NaN, infinities, signed zeros); case analysis per axis, then intersection of intervals.

*Files.* Props/C30_Bound

* `C31_conservative` — C31. If the ray has a point in the box at some t in the query interval, the test answers yes — for every ray, also with zero direction components of either sign, where reciprocals are infinite and products may be NaN.
* `C31_exact` — C31. Away from rays running inside a face plane the test is exact: it answers no exactly when the ray has no point of the box in the interval, and otherwise narrows the interval to precisely the parameters of the ray's points in the box.

### C32 Orthonormal basis — proved

*Model and proof.* orthonormal_basis over an ordered field with signed zero; algebra.

*Files.* Props/C32_Math, Props/C43_Surface

* `C32_basis` — C32. The basis completes every unit vector to a right-handed orthonormal frame, whatever the sign of its z component (and of a zero z).
* `C32_frame` — A frame is an isometry: coordinates in it preserve inner products and the third coordinate is the cosine with the normal.
* `C32_surface_frame` — C32. At a surface point with unit normal, local and world coordinates are mutually inverse, lengths are preserved, and the local z axis is the normal.
* `C32_twosided` — C32. The two-sided basis is a right-handed orthonormal frame whose normal faces the given direction.

### C33 Reflection and refraction obey their laws — partial

*Model and proof.* reflection / refraction over ℝ; algebra with sqrt.

*Files.* Props/C32_Math

* `C33_reflection` — C33. Reflection about a unit normal: same length, an involution, the normal component kept and the tangential component reversed.
* `C33_total_iff` — C33. Total internal reflection is reported exactly when no refracted direction exists by Snell's law: eta² sin² ≥ 1.
* `C33_snell` — C33. A refracted direction is a unit vector in the plane spanned by the incident direction and the normal, leaves strictly to the side opposite of the normal and obeys Snell's law: its tangential part is the incident one reversed and scaled by eta.
* `C33_refract_back_partial` — C33 (partial). With the incident direction on the side of the normal, the refracted one is on the opposite side, and refracting it back — with the flipped normal and the inverse ratio — returns the incident direction. Missing: incident directions behind the normal, where both fail (next theorem).

*False of the code:*

* `C33_negation_backside` — C33, negation. An incident direction behind the normal is "refracted" to its own side, for every such direction without total reflection.

### C34 Sampling maps stay in their domain — proved

*Model and proof.* Sampling maps over ℝ; inequalities, trigonometry.

*Files.* Props/C32_Math

* `C34_disk` — C34. Disk samples lie in the unit disk, at squared radius u0.
* `C34_disk_onto` — C34. Every point of the open disk is sampled.
* `C34_cosine` — C34. Cosine-weighted samples are unit vectors of the upper hemisphere, strictly above the horizon for u0 < 1; the cosine is sqrt(1 - u0).
* `C34_cosine_onto` — C34. Every direction strictly above the horizon is sampled by the cosine-weighted map.
* `C34_sphere` — C34. Sphere samples are unit vectors with z uniform in (-1, 1].
* `C34_sphere_onto` — C34. Every direction but the south pole is sampled by the sphere map.
* `C34_triangle` — C34. Triangle samples lie in the triangle.
* `C34_triangle_onto` — C34. Every point of the triangle is sampled (over the closed unit square).

### C35 Ray/triangle intersection is sound and complete — partial

*Model and proof.* Möller-Trumbore over ℚ; algebra (Cramer).

*Files.* Props/C35_Intersect

* `C35_sound` — C35. Soundness: a reported hit is a point of the triangle on the ray, within the interval, with exactly the reported barycentric coordinates; interpolating the vertices with them gives the ray's point.
* `C35_complete_partial` — C35 (partial). Completeness: every point of the triangle on the ray within the interval is reported, with its coordinates, provided the determinant is at least 1e-8 in absolute value. Missing: non-parallel rays with a smaller determinant (next theorem).

*False of the code:*

* `C35_negation_threshold` — C35, negation. The determinant threshold is absolute: for every ray and triangle with determinant below 1e-8 in absolute value nothing is ever reported ...
* `C35_negation_small` — ... although a ray perpendicular to a right triangle of side 1e-5 hits it.

### C36 BVH construction is correct for every thread interleaving — proved

*Model and proof.* Builder queue machine (mutex, condition variable, any number of threads); invariant over interleavings, termination measure.

*Files.* Props/C36_BvhBuild

* `C36_terminates` — C36. Construction terminates under every interleaving: there is no infinite execution; more precisely, an execution has at most `mu (init)` steps.
* `C36_no_stuck` — C36. No deadlock (the condition variable never loses the last wake-up): with fewer than 1e10 triangles, as long as some thread has not returned, some thread can move.
* `C36_in_range` — C36. Memory safety of construction: in every reachable state the node counter does not exceed the allocated 2n-1 nodes, every queued entry refers to an allocated node and a non-empty range inside [0, n), and the index array is a permutation of the triangles.
* `C36_built` — C36. When the builder threads have returned (at least one thread was started), whatever the interleaving and the behaviour of the unstable sort: the nodes form a tree whose leaves hold every triangle exactly once, and the bound of every node contains all triangles below it.
* `C36_total` — C36, putting it together: with at least one thread and 1 ≤ n < 1e10 triangles, from every reachable state construction can be completed, every maximal execution is finite (`C36_terminates`), and its last state carries a correct tree.
* `C36_remark_no_threads` — Remark: with no thread at all (std::thread::hardware_concurrency() may return 0) nothing is built: the initial state is final and its root is neither a leaf nor has valid children.

### C37 BVH traversal returns the closest hit — partial

*Model and proof.* Traversal loop with explicit stack; invariant, combined with C31/C35.

*Files.* Props/C35_Intersect, Props/C37_Any

* `C37_closest_partial` — C37 (partial). On every valid BVH over well-formed triangles whose traversal needs at most the 99 stack slots, traversal ends, and its answer is the closest hit: the same as testing all triangles one by one. Missing: deeper trees, where the stack overflows (C38).
* `C37_build_query_partial` — Building and querying together (partial, as above): for at most 99 triangles, whatever the interleaving of the builder threads, every ray query against the result of a completed construction ends and returns the closest of the hits of all n triangles. Missing: more triangles, for which the traversal stack may overflow (C38_negation_built).
* `C37_returned_is_closest` — C37. On every valid BVH over well-formed triangles, of any size and depth: a query that returns, returns the closest hit, the same as testing all triangles one by one.
* `C37_ends` — C37. Every query on a valid BVH ends: it returns or it exceeds the traversal stack. It never loops.
* `C37_build_query` — C37, building and querying together, any number of triangles: whatever the interleaving of the builder threads, every query against the completed construction that returns, returns the closest of the hits of all n triangles.

### C38 BVH traversal stack never overflows — partial

*Model and proof.* Same with the capacity 99 of the stack.

*Files.* Props/C35_Intersect, Props/C38_Built

* `C38_small_partial` — C38 (partial). The traversal stack is never exceeded on a BVH with at most 99 triangles, or more generally one needing at most 99 slots (`C37_closest_partial`). Missing: larger trees (next theorem).

*False of the code:*

* `C38_negation_overflow` — C38, negation. For every n ≥ 99 there is a valid BVH over n + 1 (well-formed) triangles and a ray on which traversal writes beyond its stack.
* `C38_negation_built` — C38, negation, for trees the builder really makes: there are 100 well-formed triangles, all inside the unit cube at the origin, and a ray such that building over them always completes into a tree — with any number of threads and any interleaving, whatever order the sorts leave equal keys in — on which this query writes beyond the traversal stack. `C38_small_partial` shows that 100 is the smallest such number. (Arithmetic is exact; the triangles shrink by a factor of 10 each, a range of 10^99, which fits doubles but not floats.)

### C39 Scene graph handles stay valid — partial

*Model and proof.* Scene node array and API; invariant over histories.

*Files.* Props/C39_Scene

* `C39_wellformed` — C39. After every sequence of calls: each node's index is its position, the root is a group without transform, and the camera, environment light and medium indices name primitives that have such an asset.
* `C39_stable` — C39. Nodes stay what they are until reset: whatever calls follow, a node keeps its position, a primitive its assets and a group its transform and children, in order.
* `C39_returned` — C39. The index returned by a successful create call names exactly the node asked for, and it is a new one.
* `C39_failed_unchanged` — C39. A refused or throwing call changes nothing (for every single call of the interface).
* `C39_one_env_partial` — C39 (partial). At most one environment light: if no model brings one, the registered environment light is the only primitive with an environment light. Missing: environment lights inside models (next theorem).
* `C39_remark_detached_env` — Remark: the environment light answered by ray queries need not be a selectable light: it is registered even if its node is never attached to the root.

*False of the code:*

* `C39_negation_two_envs` — C39, negation. A model can bring a second environment light, which is accepted silently (here by add_child_from_model; create_group_from_model behaves alike).

### C40 Scene traversal visits each path once with the composed transform — proved

*Model and proof.* traverse_primitive_nodes as recursion; enumeration of paths.

*Files.* Props/C40_Traverse

* `C40_every_path_once` — C40. When traversal returns, it has visited every node once for every path from the root, and no other, and the transform it reports is the product of the group transforms along the path, outermost first.
* `C40_returns` — C40. On every acyclic scene graph (there is a ranking of the reachable nodes that children decrease) without dangling children, traversal returns.
* `C40_cycle` — C40. On a graph with a reachable cycle traversal never returns normally, so it does not silently miss nodes.
* `C40_api_scenes` — C40. Every scene made by calls that attach existing later nodes — in particular by any number of add_primitive and add_transformed_primitive calls, with or without models — is traversed completely.
* `C40_remark_cycle_accepted` — Remark: add_child accepts a cycle, and then every traversal (hence build) recurses without end.

### C41 Light tables are consistent after build — partial

*Model and proof.* Light tables built by the traversal.

*Files.* Props/C40_Traverse

* `C41_selectable` — C41. After build the selectable lights are exactly the light primitives reachable in the scene, with the transforms of the paths leading to them.
* `C41_node_to_light` — C41. A node maps to a light index exactly if it is a reachable light primitive, and the light index it maps to names that node.
* `C41_inverse_partial` — C41 (partial). If no light primitive is instanced (at most one path leads to each), node-to-light and light-to-node are mutually inverse. Missing: instanced lights (next theorem).

*False of the code:*

* `C41_negation_instanced` — C41, negation. With a light primitive instanced twice, a selectable light's node maps back to another light index, whose transform is a different one.

### C42 Uniform light selection — partial

*Model and proof.* Uniform selection by truncation; floor arithmetic.

*Files.* Props/C40_Traverse

* `C42_uniform` — C42. For n ≥ 1 lights and u in [0,1): a valid light index, chosen exactly for u in an interval of length 1/n, with probability 1/n, which is also the reported pmf; these sum to one.

*False of the code:*

* `C42_negation_no_light` — C42, negation of the last clause: with no light, selection still answers, with the invalid index -1 and an infinite probability (looking that index up throws).

### C43 Geometry term and density conversions — proved

*Model and proof.* Points with degenerate / infinite flags; case analysis.

*Files.* Props/C43_Surface

* `C43_symmetric` — C43. The geometry term is symmetric, for all kinds of points.
* `C43_nonneg` — C43. It is never negative.
* `C43_formula` — C43. Between distinct finite points it is cos·cos / distance², with the cosine dropped at degenerate points.
* `C43_infinite` — C43. With one point at infinity it is the cosine at the other point against the direction of the infinite one (1 at a degenerate point); between two such points it is zero.
* `C43_convert` — C43. Conversion to projected solid angle: multiplying by the cosine recovers the density away from grazing angles, at grazing angles it is zero (not infinite), and at degenerate points the density is unchanged.
* `C43_to_area` — C43. Area density along a connection: converting a solid angle density at x to projected solid angle and then to area measure at y gives pdf · cos_y / dist².

### C44 Shading-normal correction — proved

*Model and proof.* Shading-normal correction; algebra.

*Files.* Props/C43_Surface

* `C44_zero_iff` — C44. The factor is zero exactly if some direction is not on the same side of both surfaces, for either transport direction.
* `C44_same_normals` — C44. It is 1 when shading and geometric normal agree and neither direction is grazing.
* `C44_adjoint` — C44. Adjointness: whenever the factors do not vanish, the light-direction factor for (wi, wo) is the eye-direction factor for (wo, wi) times the ratio of cosines that turns one side's measure into the other's, it is positive, and scattering forward and backward compensates.
* `C44_boundary_grazing` — Remark: at exactly grazing directions the factor is 0 even for equal normals (the scattered energy is 0 there as well).

### C45 Sampled weights equal contribution over density (materials) — partial

*Model and proof.* Materials as records of functions over ℝ; algebra per class. For masks of OBJ materials, where the property fails, what this does to images is derived (C45_Masks, C45_MasksLit, Spec/Masks), with area lights and with lights of all kinds: the path tracer shows the scene in which masked surfaces transmit all light instead of 1 - alpha of it.

*Files.* Props/C45_Masks, Props/C45_MasksLit, Props/C45_Material

* `C45_masked_images_partial` — C45. What masks do to images. The path tracer, in every scene of separate triangles with area lights, in every sampling mode, where the masks of materials of OBJ models have any values from 0 to 1: its expected value on the film is the integral, over the film, of the radiance that arrives along the primary rays by light paths with the given number of vertices in the scene where these surfaces transmit all light, except where the mask is 1. Missing: the surface should transmit 1 - alpha of the light; the sampled weight of the transparent component is 1 instead (`C45_negation_obj_mask`).
* `C45_masked_lit_partial` — C45. What masks do to images, in scenes with lights of all kinds. The path tracer with light sampling, in every scene of separate triangles with any number of area lights, point lights and directional lights, with or without an environment light, where the masks of materials of OBJ models have any values from 0 to 1: its expected value on the film is the integral, over the film, of the radiance that arrives along the primary rays by light paths with the given number of vertices in the scene where these surfaces transmit all light, except where the mask is 1, and, if primary rays are sampled on the whole film, the images of the point lights and directional lights themselves. Missing: the surface should transmit 1 - alpha of the light; the sampled weight of the transparent component is 1 instead (`C45_negation_obj_mask`).
* `C45_masked_lit_naive_partial` — C45. The path tracer without light sampling, in the same scenes: the radiance from the lights with extent, in the scene where these surfaces transmit all light, except where the mask is 1. Missing: as for `C45_masked_lit_partial`, and the light of the point lights and directional lights (`C100_negation_naive`).
* `C45_diffuse` — C45. Diffuse materials sample correctly.
* `C45_mirror_mask` — C45. Mirror and mask sample correctly.
* `C45_glossy` — C45. Glossy (GGX) materials sample correctly: in particular the density at a sampled direction never vanishes.
* `C45_fresnel_range` — C45. The Fresnel reflectance of glass is in [0,1].
* `C45_glass` — C45. Glass: components are selected with the reported probabilities (reflection exactly for u < Fr, and the two sum to one), the selected component has positive probability, and every component that can be selected samples correctly.
* `C45_mixture_rr` — C45. The weighted mixture with Russian roulette selects components with the reported probabilities and samples every component correctly if its materials do.
* `C45_mixture_marginalized` — C45. The marginalized mixture selects groups with the reported probabilities, and samples every group correctly (weights marginalized over the group) if its materials do: groups with positive total weight.
* `C45_groups` — C45. The marginalized mixture keeps every entry in exactly one group: group 0 has the non-specular ones in order and each specular entry has a group of its own, in order.
* `C45_obj_mixture_partial` — C45. The diffuse/glossy component of the OBJ mixture samples correctly. Missing: the alpha mask component (C45_negation_obj_mask).
* `C45_proxy` — C45. A proxy behaves like the material it refers to.
* `C45_remark_nested_glass` — Remark: mixtures address only component 0 of their entries, so the refraction of glass inside of a mixture is neither sampled nor evaluated: the mixture's components add up to w·Fr instead of w·(Fr + (1-Fr)).

*False of the code:*

* `C45_negation_mask_light` — C45, violated by masks. Their effect on images: at a point where the mask of an OBJ material is alpha, the transparent component of the material transmits the part 1 - alpha of the light, straight on, but that of the material for which the path tracer computes the image (`C45_masked_images_partial`) transmits all of it; unless alpha is 0, this is a different image.
* `C45_negation_obj_mask` — C45, negation. The pass-through component of the OBJ mixture returns weight 1, but density 1 and value 1 - alpha: weight · density ≠ value whenever the mask is partly opaque, for all underlying materials. (The code computes C = f/p and then returns Vec3(1).)

### C46 Sampled weights equal contribution over density (lights, cameras, path API) — partial

*Model and proof.* Lights, camera and path API as records over ℝ; algebra per class, negations.

*Files.* Props/C46_Env, Props/C46_Light, Props/C46_Path, Props/C47_Camera

* `C46_env_round_trip` — C46. Looking up the map coordinates of the direction generated for (u, v) gives (u, v) back, away from the poles, for every rotation of the map.
* `C46_env_ray` — C46. Environment map lights: emission rays.
* `C46_env_direct_partial` — C46 (partial: non-negative weights, which construct does not guarantee, see below). Sampling towards a finite point g from the environment map selects a map position (u, v) in a texel of positive weight; away from the poles and from grazing incidence it returns a ray from the direction of (u, v) carrying the texture value at (u, v), with weight · density = emission, and the density is (density of (u, v)) / (2 π² sin θ) in solid angle, divided by the cosine at g. Missing: negative weights (C46_negation_env_weights).
* `C46_point` — C46. Point lights. Sampling towards g fails exactly if the geometry term vanishes, and is undefined only at the light itself.
* `C46_directional` — C46. Directional lights: rays, and sampling towards a point, which fails exactly at grazing incidence on a surface. With `eval_delta` the emission is zero.
* `C46_envconst` — C46. Constant environment lights.
* `C46_area` — C46. Area lights with positive total area under any invertible transform: emission rays, directions and positions. Rays leave the front side, and positions are points of the transformed mesh.
* `C46_area_direct` — C46. Area lights, sampling towards a finite point g: where the sampled position differs from g.p, the result is a ray with weight · density = emission, or a failure exactly if the light faces away or the geometry term is zero.
* `C46_area_density_partial` — C46 (partial). Under rigid motions (orthonormal columns) the reported position density is the true one on every triangle of positive area. Missing: scaling (next theorem).
* `C46_rays_cover` — C46. The disk of emission rays covers the scene: for every unit direction and every point x of the (non-degenerate) scene bound, some random numbers generate a ray through x that starts in front of it.
* `C46_path_primary_light_partial` — C46 (partial: lights reached in one way). Sampling a primary ray from the lights of a scene: a ray is always returned, its light endpoint belongs to the scene, and weight · density (as reported by pdf_primary_ray) = emission, for every number of lights. Missing: instanced lights, see the negation.
* `C46_path_primary_camera` — C46. Primary rays from the camera.
* `C46_path_direct_light_partial` — C46 (partial: lights reached in one way). Sampling a light towards a point: whenever a ray is returned, weight · density (pdf_direct) = emission. Missing: lights placed several times (C46_negation_instanced).
* `C46_path_direct_camera_partial` — C46 (partial: endpoints in the frame of the camera). Sampling the camera towards a point. Missing: points outside of the frame (C46_negation_camera_direct).
* `C46_path_position_camera` — C46. The camera's position: weight and density 1.
* `C46_path_position_light_partial` — C46 (partial: scenes with exactly one light). The weight of a sampled light position is the reciprocal of its density. Missing: see the negation.
* `C46_path_component` — C46. Component selection: on surfaces that of the material, elsewhere component 0 with probability 1; the weight is the reciprocal of the reported probability.
* `C46_path_direction` — C46. Direction sampling at any vertex (surface, medium, light or camera): the outcome is defined, and if a direction is returned it is a unit vector and weight · density = contribution; on surfaces both the weight and the contribution carry the shading normal correction.
* `C46_camera_ray` — C46. Camera rays: the direction has unit length, the weight is one, and density and importance agree and are positive.
* `C46_camera_direct_partial` — C46 (partial). Connecting a point to the camera: if the point projects into the frame and the geometry term does not vanish, weight · density = importance. Missing: points outside of the frame (next theorem).

*False of the code:*

* `C46_negation_env_weights` — C46 fails for environment maps: the row angle is computed from i / w as a floating point number, so it grows along the row. Every texel in the right half of the last row gets a negative weight (hence a negative selection probability and density), for every map width and height and however bright the texel.
* `C46_negation_scaled_area` — C46 fails: under uniform scaling by s ≠ 1 the reported position density (used for weights, densities and MIS) is 1/s times the true density, on every triangle of every mesh: the volume factor s³ is used in place of the area factor s².
* `C46_negation_path_position` — C46 fails for light positions in every scene with more than one light: the weight misses the selection probability, so weight · density is 1/n.
* `C46_negation_instanced` — C46 fails for instanced area lights whose instances have different volume scale: the density is evaluated with the transform of another instance. Stated for any scene whose table lists the light node under index i with transform M, while the node maps to index j with transform M'.
* `C46_negation_camera_direct` — C46 fails for connections to the camera: a point in front of the camera but outside of the frame is connected with a non-zero weight although the importance is zero.

### C47 Pinhole camera: rays and raster positions are inverse — proved

*Model and proof.* Pinhole camera; algebra.

*Files.* Props/C47_Camera

* `C47_look_at` — C47. Constructing a camera from position, look-at point and up vector gives a right-handed orthonormal frame looking at the centre, whenever the up vector is not parallel to the viewing direction.
* `C47_fov` — C47. The half height of the screen is positive for every field of view strictly between 0 and 180 degrees.
* `C47_primary` — C47. The primary ray at a raster position is the unit vector towards that point of the screen.
* `C47_raster` — C47. The raster position of a direction towards screen point (x, y) is (x, y) if that lies in the unit square, and there is none otherwise.
* `C47_round_trip` — C47. The raster position of the primary ray at (x, y) in the unit square is (x, y).
* `C47_inverse` — C47. Every unit direction with a raster position is the direction of the primary ray at that position, which lies in the unit square.
* `C47_behind` — C47. Directions that do not point forward have no raster position.
* `C47_none` — The exact reason for the absence of a raster position: not pointing forward, or towards a screen point outside of the unit square.

### C48 Connecting subpaths keeps vertices in order — proved

*Model and proof.* Subpaths as lists of vertices; list lemmas.

*Files.* Props/C48_Connect

* `C48_connect` — C48: a successful connection of the first s vertices of a light subpath and the first t vertices of an eye subpath has s + t vertices; the i-th vertex counted from the light is the i-th vertex of the light subpath for i < s and the i-th vertex counted from the camera is the i-th vertex of the eye subpath for i < t, the end vertices up to their type; the end vertices have the types light and camera.
* `C48_when` — C48: when a connection of two non-empty subpaths succeeds: neither connected vertex is at infinity, they see each other, the first vertex is a light and the last one the camera.

### C49 Bidirectional sampling weight times density equals the measurement contribution — proved

*Model and proof.* Bidirectional sampling weight and density as folds; list induction.

*Files.* Props/C49_Bidir

* `C49_weight` — C49: for every path, every strategy s with s ≤ number of vertices, whenever the bidirectional density is defined and not zero and the measurement contribution is defined, the sampling weight is defined and the weight times the density is the measurement contribution.

### C50 MIS weights form a partition of unity — proved

*Model and proof.* MIS weights as quotients of sums; finite sums.

*Files.* Props/C50_Mis

* `C50_power` — C50, closed form: the weight of a strategy with positive density is p_s² / Σ_i p_i² over all strategies i = 0, ..., n (the power heuristic with exponent 2).
* `C50_partition` — C50: for every path for which the densities of all strategies are defined and non-negative, the weights of the strategies that can generate it are defined, lie in (0, 1], and add up to one as soon as one strategy can generate the path.
* `C50_zero` — C50: a strategy with zero density violates the assertion; no weight is computed for it.
* `C50_combined` — C50: the weighted sampling weights of all strategies, each integrated against its density, add up to the measurement contribution, whenever that is the same for all of them.

### C51 Optimized BDPT weights equal the balance heuristic — proved

*Model and proof.* The cached subpath sampler and the incremental weight of bdptopt; the cache invariant by induction on the walk, the weight by induction on the two loops.

*Files.* Props/C51_Walk, Props/C51_Weight

* `C51_cache` — C51. Sampling a subpath fills its cache with the directions and densities the weight computation takes them for, whatever the samplers return and however long the subpath gets. The one exception is excluded by `hinf`: a ray from a light at infinity that leaves the scene gives a subpath of two vertices at infinity, for which directions do not exist; the renderer connects it to nothing.
* `C51_balance` — C51. Let the two subpaths be sampled with their caches filled, let the path made of their first s and t vertices be samplable by strategy s, with a positive density of that strategy. Then the weight the renderer computes by multiplying ratios along the path is the balance heuristic: the density of strategy s over the sum of the densities of all strategies that can sample the path. In particular no ratio on the way divides by zero. For subpaths and paths of any length.
* `C51_partition` — C51. So the weights of the strategies that can generate a path sum to one: every strategy may start from other subpaths, as long as the path is the same.
* `C51_density` — C51. The densities in the weights are those `pdf_bidir` computes for the same path and strategy, if no component is chosen at random (the optimized renderer leaves the probabilities of components out).

### C52 Subpath length limit — partial

*Model and proof.* Subpath loop; induction.

*Files.* Props/C48_Connect

* `C52_length_partial` — C52 holds for every maximum except 1: whatever the scene answers, a subpath sampled with maximum m has at most m vertices. Missing: the maximum 1 (C52_negation).
* `C52_extend` — Extending a non-empty path never exceeds the maximum, or leaves it as it is when it already has that many vertices.
* `C52_terminates` — The walk always ends: with as many answers as the maximum it is over.

*False of the code:*

* `C52_negation` — C52 fails for the maximum 1: whenever a primary ray is sampled and hits something the subpath has two vertices.

### C53 Russian roulette keeps the estimator unbiased and never divides by zero — partial

*Model and proof.* Roulette decision; expectation over one uniform number.

*Files.* Props/C53_Roulette

* `C53_defined` — C53. For every throughput and every random number in [0,1), roulette is defined: a path that survives is divided by a positive survival probability; a path of zero throughput never survives.
* `C53_expectation` — C53. The expected value of any linear measurement of the throughput after roulette is its value before.
* `C53_walk_defined` — C53. Roulette in a whole walk never fails: whenever the walk without roulette is defined, so is the walk with it, for all random numbers in [0,1).
* `C53_walk_unbiased` — C53. Roulette keeps a whole walk unbiased: over the random numbers used by roulette, the expectation of every linear measurement of all contributions of a sample equals its value for the same sample without roulette, for walks of every length.
* `C53_pt` — C53. renderer::pt in every sampling mode and with every path length limit: roulette does not change the expected value of any pixel. `l` are the contributions of the walk without roulette.
* `C53_volpt_partial` — C53 (partial: rr_prob in [0,1)). renderer::volpt and renderer::volpt_naive. Missing: other values of the rr_prob parameter, see the negation.
* `C53_lt` — C53. renderer::lt.

*False of the code:*

* `C53_negation_rr_prob` — C53, negation for the rr_prob parameter of the volumetric renderers, which is not checked: for rr_prob ≥ 1 no path survives, so every path is lost from the seventh vertex on; for rr_prob < 0 and a throughput above 1, every path survives but is scaled down by 1 / (1 - q) < 1.

### C54 Each light transport path is counted once by the path tracers — partial

*Model and proof.* Walks of pt/volpt/lt with the technique recorded; algebra of the weights.

*Files.* Props/C54_Once

* `C54_material_plain` — C54. The "evaluate delta components" switch with which the path tracers evaluate scattering changes nothing at a component that is not specular, for every shipped material.
* `C54_light_plain` — C54. Likewise for the emission and the light sampling density of every shipped light that is not specular.
* `C54_once_partial` — C54 (partial: the light vertex found by the two techniques is the same, i.e. its shading normal is the geometric one; see the negation below). Let the walk be at any vertex, and let a light sample and a direction sample at that vertex lead to the same point of a light that can be hit. With pL, pB the densities of the two samples, fs the scattering and Le the emission: pL · (what the light sample adds) + pB · (what the hit adds) = throughput · fs · Le, in every mode. Both add to the same position on the film. Missing: lights with interpolated normals (C54_negation_smooth_light).
* `C54_light_sample_alone` — C54. A path that ends on a light no direction sample can reach (a point light, a directional light), or whose last direction the scattering function cannot sample (density 0), is counted in full by next-event estimation, in every mode that uses it: density · contribution = throughput · fs · Le.
* `C54_hit_alone` — C54. A hit that next-event estimation does not consider (naive mode, specular vertex, first vertex in pixel mode), or in the combined mode one whose light sample has density 0, is counted in full: density · contribution = throughput · fs · Le. The emission Le is the one evaluated by the renderer; for lights that can be hit it does not depend on the switch (`C54_light_plain`).
* `C54_sample` — C54. Whatever the scene and the random numbers, one sample of the path tracer contributes only to paths of 2 to max_verts vertices, to each length at most once per technique; in naive mode every contribution is a hit, and in the naive and next-event estimation modes each length is contributed to at most once.
* `C54_volpt_sample` — C54. Volumetric path tracing: each length from 2 to max_verts is contributed to at most once per sample.
* `C54_volpt_techniques` — C54. The techniques of volumetric path tracing: the naive renderer contributes only when it hits a light, and next event estimation starts at the second vertex (lights seen directly are hit).
* `C54_lt_sample` — C54. Light tracing: each length from 3 to max_verts is contributed to at most once per sample, always by connecting to the camera. Paths of 2 vertices (a light seen directly) are never contributed to.

*False of the code:*

* `C54_negation_weights` — C54, negation. If the light vertex found by the hit has another density than the one found by the light sample (see `C54_negation_smooth_light`), the path is not counted once: the two weights do not sum to 1.
* `C54_negation_smooth_light` — C54, negation. A mesh light with interpolated normals: sampling the light evaluates its density with the face normal gn (light_area.cpp:66-73 builds the point geometry with it), the hit with the interpolated normal n. Whenever both face the shaded point and make different angles with the connection, the two densities differ, so by `C54_negation_weights` the path is not counted once.
* `C54_negation_pt_nee_path` — C54, negation. renderer::pt_nee_path samples one light vertex and connects it to the eye subpath, or uses the hit if the last eye vertex is specular. If the sampled light is at infinity (environment or directional light) and no eye vertex is specular, every connection fails, for all subpaths and limits: the path is counted zero times.

### C55 BDPT enumerates every strategy once — proved

*Model and proof.* Strategy loops as lists of pairs; membership and Nodup.

*Files.* Props/C55_Enumerate

* `C55_bdpt` — C55. renderer::bdpt and renderer::bdptopt: for all subpath lengths and vertex limits, the pair (s, t) is tried iff s and t are within the subpaths and s + t within the limits, and no pair is tried twice.
* `C55_pt_naive` — C55. renderer::pt_naive_path tries (0, t) exactly for the t ≥ 2 within the eye subpath and the limits, once each.
* `C55_pt_nee` — C55. renderer::pt_nee_path (with at least one light vertex): each number of vertices n within the limits is tried by exactly one strategy if the subpaths have the vertices: (0, n) if the eye vertex n - 2 is specular, else (1, n - 1); the choice of one of these pairs never tries the same number of vertices twice.
* `C55_lt_nee` — C55. renderer::lt_nee_path (with a camera vertex): exactly the pairs (s, 1) with s ≥ 1 within the light subpath and s + 1 within the limits, once each.
* `C55_boundary_min_verts` — The limit min_verts is not checked by construct: with a limit of 0 or less the pair (0, 0) is tried, which connect_subpaths does not define. With min_verts ≥ 1 it is not.

### C56 Rendering with a fixed seed is reproducible — partial

*Model and proof.* mt19937 exactly, thread-local generator slots, renders as folds over schedules.

*Files.* Props/C56_Seed

* `C56_fresh_partial` — C56 (partial: no thread has run this renderer class before). With a fixed seed, the image depends only on which calls each thread gets, in which order: two renders, by any two renderers of the class with this seed, in any processes, with any interleavings of the threads and whatever the random device, give the same image. Missing: threads that have run the renderer before (C56_negation_twice).

*False of the code:*

* `C56_negation_seed_ignored` — C56, negation. Once the threads have run a renderer of the class, the seed is ignored: any later render, with whatever seed or none, gives the same image as with any other.
* `C56_negation_twice` — C56, negation. Rendering twice with the same renderer, seed (5489), schedule and a scene of one pixel does not give the same image twice.

### C57 Volume majorants and bounds are valid — proved

*Model and proof.* Volume classes; bounds and inequalities.

*Files.* Props/C57_Volume

* `C57_checker` — C57, volume::checker with a non-degenerate bound (in x and y).
* `C57_checker_cells` — The cell size of the checker: the density is 1 exactly on cells of even index sum (points inside the bound).
* `C57_constant` — C57, volume::constant.
* `C57_remark_constant_default_bound` — Without an explicit bound a constant volume has an empty bound: no ray range intersects it.
* `C57_gaussian` — C57, volume::gaussian.
* `C57_gaussian_bound` — C57, volume::gaussian: the bound cuts off only a part of the density below scalar · Eps^(4/σ), σ being the largest deviation; i.e. below scalar · Eps for deviations up to 4.
* `C57_sphere` — C57, volume::sphere (any radius).
* `C57_multi` — C57, volume::multi of any number of volumes: it is majorized by the sum of the maxima, vanishes outside of its bound, and its density at p is the sum of the densities of the volumes whose bound contains p.
* `C57_multi_color` — C57, colour of volume::multi: wherever the density is positive (the only place media ask for it), the colour is defined, and an affine combination: a common lower and upper bound of the colours of its parts bounds it as well.
* `C57_remark_gaussian_cutoff` — The documentation of volume::gaussian promises a bound where the density fell to a small fraction of its maximum. The code uses σ where σ² is needed: for large deviations the volume is cut off where the density is close to its maximum.

### C58 Distance sampling stays in range and transmittance is a probability — partial

*Model and proof.* Media with explicit random numbers; calculus for the homogeneous medium, invariants of the tracking loops.

*Files.* Props/C46_Path, Props/C58_Medium

* `C58_path_distance_partial` — C58. Distance sampling along a ray of the scene with a homogeneous medium: a medium interaction lies inside the medium, strictly before the hit surface (or Inf), carrying the albedo; otherwise the result is the hit surface with weight 1, or nothing if nothing was hit. Missing: rays running inside a face plane of the bound (C58_negation_graze).
* `C58_path_transmittance_partial` — C58. Transmittance between two points: 0 if they do not see each other, 1 without medium, else exp(-density · length of the segment inside the medium). Missing: rays running inside a face plane of the bound (C58_negation_graze).
* `C58_remark_no_medium` — Without a medium in the scene, distance sampling does not return (the lookup of the medium node throws).
* `C58_transmittance_partial` — C58. The transmittance of a homogeneous medium is exp(-density · length inside the medium): in (0,1], and 1 if the ray misses the medium. Missing: rays running inside a face plane of the bound (C58_negation_graze).
* `C58_multiplicative_partial` — C58. Multiplicative over adjacent segments. Missing: rays running inside a face plane of the bound (C58_negation_graze).
* `C58_distance_partial` — C58. Distance sampling in a homogeneous medium. Nothing is returned exactly when the ray misses the medium. Otherwise: a medium interaction happens for 1 - u above the transmittance T of the whole chord (hence with probability 1 - T), at a point of the ray inside the medium and the interval such that the transmittance up to it is 1 - u, with the albedo as weight; else the surface is reached with weight 1. Missing: rays running inside a face plane of the bound (C58_negation_graze).
* `C58_delta_tracking_partial` — C58. Delta tracking. Whatever the random numbers: an interaction returned lies on the ray inside the query interval and inside the bound of the medium, at a point of positive density, with the albedo there as weight; the computation has no undefined value; nothing is returned if the ray misses the bound. Missing: rays running inside a face plane of the bound (C58_negation_graze), and media whose maximum density is zero, for which the code divides by zero.
* `C58_delta_homogeneous` — C58. Where the density equals the majorant (a homogeneous volume), delta tracking takes the same decision, at the same point, as the analytic sampling of a homogeneous medium.
* `C58_ratio_tracking_partial` — C58. Ratio tracking: every estimate lies in [0,1], is 1 if the ray misses the bound of the medium, and no value is undefined. Missing: rays running inside a face plane of the bound (C58_negation_graze), and media whose maximum density is zero, for which the code divides by zero.

*False of the code:*

* `C58_negation_graze` — C58 fails for rays running inside a face plane of the medium: the range is not a number, so the transmittance is undefined although the ray crosses the (closed) medium, and no distance is sampled.

### C59 Henyey-Greenstein sampling inverts its distribution — partial

*Model and proof.* HG phase function over ℝ; algebra of the inverted distribution.

*Files.* Props/C59_Phase

* `C59_inversion_partial` — C59. phase::hg, |g| ≥ Eps: the direction is a unit vector whose scattering cosine c satisfies: mass of {cosine ≤ c} = u0; and the reported density is that of the distribution. Missing: 0 < |g| < Eps (C59_negation_small_g).
* `C59_isotropic` — C59, isotropic case g = 0: the mass of {cosine ≤ c} is 1 - u0.
* `C59_normalised` — C59. The density is positive and its mass over all cosines is one, for every |g| < 1.
* `C59_azimuth` — C59. The azimuth 2π u1 is measured in a frame around the forward direction: for fixed u0 the sampled directions are the circle of that cosine.
* `C59_weights` — C59/C45. Weight times density equals the phase function, for both phase functions.
* `C59_isotropic_phase` — C59. The isotropic phase function samples the uniform distribution it reports: mass of {z ≤ c} is 1 - u0, density 1/(4π).

*False of the code:*

* `C59_negation_small_g` — C59 fails for 0 < |g| < Eps: the isotropic branch is taken while the reported density is the anisotropic one; the cumulative mass at the sampled cosine is neither u0 nor 1 - u0.

### C60 OBJ indices resolve to existing vertices — proved

*Model and proof.* OBJ parser character by character; induction on the text.

*Files.* Props/C60_Obj

* `C60_index` — The resolved index is k inside the vertices read so far exactly when the written index denotes the k-th vertex.
* `C60_agree` — The relative and the absolute spelling of the same vertex agree, at any moment.
* `C60_zero` — A written zero means absent, as a missing index does.
* `C60_boundary_outside` — An index that denotes no vertex is not rejected: it is resolved to a number outside the vertices, which is -1, absent, exactly for the first index before the first vertex and for zero.
* `C60_atoi` — atoi reads the integer it was given, up to the first character that is not a digit.
* `C60_corner` — Each spelling of a corner is read as the vertices it stands for, whatever blanks precede it and whatever ends it.

### C61 OBJ faces end up in exactly one mesh with their material — partial

*Model and proof.* Statement interpreter, grouping of faces into meshes.

*Files.* Props/C61_Faces

* `C61_face` — A face with three or four corners, in any spelling and with any blanks, is read as its one or two triangles, the quadrilateral split along the diagonal of its first corner.
* `C61_quad_cover` — Two triangles that together use all four corners and share the diagonal.
* `C61_simple` — Every file that loads: the corners of the delivered triangles, mesh after mesh, are those of the face statements in file order, each exactly once and with the material active at its statement; no triangle is divided between two meshes.
* `C61_materials` — The materials handed over are those the libraries define, in order, or the single default material.
* `C61_active` — The material active after a usemtl statement, and until the next one, has the name the statement gives; it is the last one defined under this name before the statement.
* `C61_lines` — A file whose lines fit the line buffer is read line by line.
* `C61_tiny_partial` — When all faces of a shape have the same material, the plugin delivers all of them, in order, in one mesh with this material. Missing: shapes with faces of several materials (C61_negation_tiny, C61_negation_tiny_two).

*False of the code:*

* `C61_negation_polygon` — A face with more than four corners loses all corners after the fourth.
* `C61_negation_long_line` — A line that does not fit the line buffer ends the file: whatever follows is silently dropped and the load succeeds.
* `C61_negation_tiny` — The plugin delivers exactly the faces whose material is that of the face before: the first face after every change of material is lost.
* `C61_negation_tiny_two` — In particular, two faces with different materials: the second one is in no mesh.

### C62 Models expose matching mesh, material and light triples — partial

*Model and proof.* model::wavefrontobj construction from the loaded file.

*Files.* Props/C62_Model

* `C62_triples_partial` — For every file whose material names cannot be confused: the model creates one primitive per mesh of the file, in order, each with the faces of the mesh, the material the file gives it, and a light exactly when this material emits. Missing: files with materials of the same name, or named like a mesh (C62_negation_duplicate, C62_negation_mesh_name).
* `C62_loaded` — The meshes of a file that was loaded have materials of the file: the hypothesis of the theorem above.
* `C62_textures_partial` — Textures: no two texture assets have files with the same stem, so no file is loaded twice; every texture is a file some material names; and when different files have different stems, the texture reference of every material leads to the file the material names. Missing: different files with the same stem (C62_negation_stem).
* `C62_succeeds` — Construction fails only when some asset cannot be created.
* `C62_roughness` — The roughness given to the glossy part is positive, and the same in both directions without anisotropy.
* `C62_roughness_order` — The roughness falls as the shininess Ns grows, never exceeds 1 without anisotropy, and anisotropy makes the first direction rougher than the second.
* `C62_material` — What a user expects of an ordinary material (illum other than 5 and 7): the mixture gets Kd, Ks, the texture of map_Kd when there is one, and along its two axes the two roughnesses of the exponent Ns and the anisotropy. Mirrors and glass go by illum.

*False of the code:*

* `C62_negation_duplicate` — Two materials of the same name: a mesh with the first one gets the second one.
* `C62_negation_mesh_name` — A material whose name is that of a mesh to come: the primitive gets the mesh as its material.
* `C62_negation_stem` — Texture files in different directories, or of different formats, with the same stem: only the first one is loaded, and both materials refer to it.

### C63 PBRT instances are all placed — partial

*Model and proof.* PBRT object tree to node array; induction on the tree, negations.

*Files.* Props/C63_Pbrt

* `C63_world` — Every triangle mesh of the world itself is in the scene, untransformed.
* `C63_repeated_partial` — An instance of the world whose object was already instanced by an earlier instance of the world shows all its triangle meshes at the transform of the instance. Missing from the property: the first instance of each object (C63_negation_first) and instances inside instanced objects (C63_negation_nested).

*False of the code:*

* `C63_negation_first` — The property fails: in a scene in which no object is instanced twice, no triangle mesh of any instanced object is in the scene graph (unless the same mesh is also a shape of the world itself).
* `C63_negation_nested` — The transform of a nested instance is wrong also where the instance is not lost: the transform of the first enclosing instance is applied as well. In exNested mesh 2 belongs at 14, 22, 21 and 33 and is shown at 66 only.

### C64 Log filtering and indentation — proved

*Model and proof.* Logger state machine with per-thread-free indentation counter.

*Files.* Props/C64_Logger

* `C64_lines` — C64. The printed lines are the lines of the message (an empty message is one empty line).
* `C64_log` — C64. After any history that initialises the logger and continues with any calls, an ordinary message is printed exactly when its severity is at least the threshold set last; it is printed as its lines, each with the header and the indentation of the current level. The level is the greatest suffix sum of the changes made since init, so it is never negative.
* `C64_scopes` — C64. Properly nested indentation scopes restore the indentation: after them every message is printed at the level before them.
* `C64_scope_inside` — C64. Inside a scope the level is one more than outside.
* `C64_uninitialised` — C64. Before init and after shutdown, messages of every severity go to stdout as they are, and indentation and severity calls have no effect on later output.

### C65 Progress reporting combinators — proved

*Model and proof.* Progress contexts (mux, delay, default) over a clock.

*Files.* Props/C65_Progress

* `C65_mux` — C65. A multiplexed context, nested to any depth, forwards each call of a history to every member once, in order.
* `C65_tree` — C65. In any tree of multiplexed and delayed contexts, whatever the clock shows: every context at the end of a branch receives all starts and ends, once per occurrence, in their order among each other, and of the updates a part, in their order; it receives nothing else.
* `C65_start_first` — C65. A tree starts its contexts first: if the history begins with a start, that is the first call each context receives.
* `C65_delay` — C65. A delayed context forwards starts and ends, and forwards an update exactly when more than the delay has passed since the last start or update it forwarded.
* `C65_rate` — C65. With a clock that does not run backwards, a delayed context forwards at most one update per interval: between a forwarded start or update and any later forwarded update there are more than d milliseconds.
* `C65_default` — C65. The default context reports an update only in the mode it was started in, and only when more than half a second has passed since the start or its last report; the end is always reported. The percentage lies between 0 and 100 and the remaining time is not negative, as long as the counts are between 0 and the total.
* `C65_default_defined` — C65. After a start, every history of calls is handled without undefined behaviour.
* `C65_boundary_no_start` — A boundary of C65: updates before the first start are forwarded by a delayed context (its last update time is the epoch) and are undefined behaviour in the default context.

### C66 Texture lookups stay inside the image — partial

*Model and proof.* Texel addressing with int undefinedness.

*Files.* Props/C66_Texture

* `C66_coordinate` — C66. For every coordinate, in floating-point arithmetic as well, the selected row or column is defined and lies inside the image; without rounding it is the cell that contains the fractional part of the coordinate.
* `C66_periodic` — C66. Coordinates that differ by an integer select the same row or column, in floating-point arithmetic as well (when both are representable).
* `C66_periodic_lookup` — C66. Lookups at coordinates that differ by integers are the same, for colour and alpha.
* `C66_lookup_partial` — C66 (three or four channels). A colour lookup, at any coordinates and with any rounding, is defined and returns the first three channels of a pixel of the image; an alpha lookup in a four-channel image is defined and returns the fourth channel of the same pixel. Missing: images with one or two channels (see the negation).
* `C66_pixel` — C66. Looking up a pixel by its coordinates is looking it up at any point of its cell, and is defined for all pixels of an image with three or four channels.
* `C66_construct` — C66. What construct stores of a decoded image of w × h pixels with c channels fits, if the number of values is an int.
* `C66_constant` — C66. A constant texture has the same colour everywhere, and its alpha lookup is defined exactly when it reports an alpha value.
* `C66_boundary_column` — A boundary of C66: pixel coordinates are not checked: column w is column 0 of the next row.

*False of the code:*

* `C66_negation_channels` — C66 is false for grey-scale images (one channel, or two with alpha): the colour lookup in the last pixel of every such image reads beyond the data.
* `C66_negation_grey` — C66 is false for grey-scale images: in a one-channel image the green and blue values come from the two pixels stored next.

### C67 Mesh triangle enumeration — partial

*Model and proof.* Triangle enumeration and surface_point over index arrays.

*Files.* Props/C67_Mesh, Props/C67_Pbrt

* `C67_triangle_raw` — C67. triangle_at of mesh::raw returns the vertices selected by the three entries of the index list, and is defined exactly when these indices lie in the arrays.
* `C67_triangle_obj` — C67. triangle_at of the OBJ meshes, likewise.
* `C67_foreach` — C67. foreach_triangle visits the faces 0, 1, …, num_triangles - 1, each once and in this order, with the triangle that triangle_at returns; there are as many as complete triples in the index list.
* `C67_count` — C67. num_triangles is the number of complete triples.
* `C67_foreach_defined` — C67. For an OBJ mesh with indices inside its arrays, with or without normals and texture coordinates, the enumeration is defined.
* `C67_surface_raw` — C67. surface_point of mesh::raw interpolates the vertices that triangle_at returns.
* `C67_surface_obj` — C67. surface_point of the OBJ meshes: the position interpolates the corners; the shading normal is the normalised interpolation of the corner normals, or the face normal if the first corner has none.
* `C67_corners` — C67. At the corners the interpolated position is the corner; for barycentric coordinates of the triangle it lies in the triangle.
* `C67_surface_defined_partial` — C67 (faces whose corners all have the attributes their first corner has). surface_point is defined on every face with three different non-collinear corners, as long as the interpolated normal does not vanish. Missing: faces that mix corners with and without an attribute (see the negation).
* `C67_raw_construct` — C67. mesh::raw stores exactly the given data: flattening the stored positions, normals and texture coordinates gives the input arrays, and the index list has one entry per entry of fs["p"]; construction is defined exactly when the arrays have whole vectors and the index arrays are long enough.
* `C67_obj_construct` — C67 (with C61). The triangles of mesh::wavefrontobj are those of all faces of the file, in file order, whatever their material: three index entries each.
* `C67_triangle_pbrt` — C67. triangle_at of mesh::pbrt returns the three vertices the index triple names, and is defined exactly when the triple exists and its indices lie in the arrays the mesh has.
* `C67_foreach_pbrt` — C67. foreach_triangle of mesh::pbrt calls back once per index triple, in order, with what triangle_at returns; num_triangles is the number of calls.
* `C67_defined_pbrt` — C67. On a valid mesh the enumeration of mesh::pbrt is defined, and surface_point is defined on every triangle with non-collinear corners whose interpolated normal does not vanish.
* `C67_surface_pbrt` — C67. surface_point of mesh::pbrt interpolates the vertices triangle_at returns: the position and the texture coordinates linearly, the normals linearly up to length. A mesh without normals has its face normals instead, and a mesh without texture coordinates has zero.

*False of the code:*

* `C67_negation_mixed` — C67 is false for faces that mix corners with and without normals: when the first corner has a normal and another has none, surface_point reads the normal array at index -1, although triangle_at accepts the face.

### C68 Balance heuristic — proved

*Model and proof.* Balance heuristic; algebra.

*Files.* Props/C32_Math

* `C68_balance` — C68. Balance heuristic weights of two techniques: in [0,1], proportional to the densities, summing to one unless both vanish, and zero instead of 0/0 then.

### C69 Image-space and pixel-space normalisation agree — proved

*Model and proof.* Film accumulation of image and pixel mode; sums over schedules.

*Files.* Props/C69_Normalise

* `C69_window` — The samples of a pixel's window: every random number pair of [0, 1)² is sent into the cell of the pixel.
* `C69_pixel_mean` — Pixel mode, fixed number of samples: whatever the number of threads and their interleaving, every pixel is the mean of what its own spp samples contribute.
* `C69_pixel_mean_time` — Pixel mode, time limit: the same with the number of rounds that were run.
* `C69_pixel_constant` — A scene of constant radiance in pixel mode: if every sample of every pixel carries C, every pixel is C, for every number of samples.
* `C69_image_mean` — Image mode, fixed number of samples: every pixel is the number of pixels times the mean over all samples of what they contribute to it.
* `C69_image_mean_time` — Image mode, time limit.
* `C69_no_loss` — No contribution is lost or counted twice: the sum over the pixels of what a list of splats adds is everything the splats carry.
* `C69_image_constant` — A scene of constant radiance in image mode: if every sample carries C, the mean over the pixels of the rendered image is exactly C, for every number of samples and every placement of the samples.
* `C69_cell_measure` — Image mode draws the raster position uniformly: a pixel's cell has measure 1 / (w h), so that the factor w h makes the expectation of a pixel the mean radiance over its cell.

### C70 Scattering stays on the correct side — proved

*Model and proof.* Sides of sampled directions per material; algebra.

*Files.* Props/C45_Material

* `C70_diffuse` — C70. Diffuse reflection stays on the side of the incident direction.
* `C70_mirror_mask` — C70. A mirror keeps the side, with the same angle to the normal; a mask passes straight through to the other side.
* `C70_glossy` — C70. Glossy reflection stays on the side of the incident direction.
* `C70_glass` — C70. Glass: reflection keeps the side, refraction (when it can be selected) goes to the other side.

### C71 Unregistering one implementation leaves the others reachable — partial

*Model and proof.* Registry model of C01; case analysis.

*Files.* Props/C01_Registry

* `C71_unreg_keeps_other_keys` — C71. Unregistering an implementation leaves every other implementation reachable under its key, whatever the history: the meaning of other keys does not change.
* `C71_unreg_keeps_other_names_partial` — C71 (partial). Names that are neither the unregistered key nor its alias resolve as before. Missing for the full property: names that another registration shares with the unregistered one, see the negations below.

*False of the code:*

* `C71_negation_override_lost` — C71, negation (as the code is): two implementations registered under the same key (e.g. built-in and overriding plugin); unregistering the first one, still alive as a RegEntry, removes the second, live one.
* `C71_negation_alias_lost` — C71, negation: an alias taken over by another key disappears when the former owner is unregistered.

### C72 A failed scoped plugin load leaves no plugin loaded — partial

*Model and proof.* Plugin model of C02 with ScopedLoad and its destructor (an exception from it ends the program).

*Files.* Props/C02_Plugin, Props/C72_Scope

* `C72_scoped_load_ok` — C72. A scoped load that completes leaves every listed plugin loaded.
* `C72_leave` — C72. When the guard is destroyed: the program goes on exactly if the paths are different, every one of them is loaded and the system does not refuse; then the listed plugins are unloaded, and the others are as before.
* `C72_scope_partial` — C72 (partial: different plugins that were not loaded before, which the body of the scope leaves alone and the system does not refuse to unload). The scope loads the listed plugins; leaving it unloads them, and leaves every other plugin as it is at the end of the body. Missing: plugins that were loaded before (C72_negation_already_loaded), or listed twice (C72_negation_twice).
* `C72_failed_first_partial` — C72 (partial). When the first plugin of the list cannot be loaded, nothing is loaded. Missing: a later one (C72_negation_failed_stays).

*False of the code:*

* `C72_negation_partial_load_stays` — C72, negation (as the code is): when the second plugin of a scoped load fails, the constructor throws, the destructor does not run, and the first plugin stays loaded although the guard never existed.
* `C72_negation_already_loaded` — C72, negation. A guard for a plugin that is loaded already loads nothing, and unloads the plugin when it is destroyed: the plugin somebody else loaded is gone.
* `C72_negation_twice` — C72, negation. A guard that lists a plugin twice is constructed without complaint, and ends the program when it is destroyed, whatever the system answers: the second unload fails, in a destructor.
* `C72_negation_failed_stays` — C72, negation, in general: when a plugin of the list cannot be loaded, the guard is not constructed, and all plugins before it in the list stay loaded.

### C73 Visibility queries between points — partial

*Model and proof.* visible() over arbitrary sets of occluders.

*Files.* Props/C43_Surface

* `C73_infinite_symmetric` — C73. The order of the arguments does not matter when one point is at infinity.
* `C73_clear` — C73. Two distinct finite points with nothing strictly between them are mutually visible.
* `C73_blocked_partial` — C73 (partial). An occluder that keeps the distances Eps and Eps·d from both end points blocks visibility in either direction. Missing: occluders closer to an end (next theorem).

*False of the code:*

* `C73_negation_asymmetric` — C73, negation. Visibility is not symmetric: the lower end of the query is absolute (Eps) and the upper end relative (Eps·d). Points at distance 10 with an occluder 0.005 from the first one see each other in one direction only.

### C74 Reported hits lie on the ray under every transform — proved

*Model and proof.* Hits under affine transforms; algebra.

*Files.* Props/C43_Surface

* `C74_affine` — C74. Interpolating and transforming commute: the reported surface position (transform of the interpolated mesh point) is the interpolation of the transformed vertices.
* `C74_normal` — C74. Normals transform so that they stay perpendicular to transformed tangents; more precisely the product with a transformed vector is preserved.
* `C74_triangle_normal` — C74. The transformed geometric normal of a triangle is the cross product of the transformed edges divided by the determinant: it flips exactly for orientation-reversing transforms.
* `C74_hit_on_ray` — C74. A reported hit lies on the ray: for a mesh triangle under any transform, if the acceleration structure (which tests the transformed vertices) reports distance t and barycentric coordinates (u, v), the transform of the mesh's interpolated point is the ray's point at t.

### C75 Local trigonometric helpers are consistent — proved

*Model and proof.* Local trigonometric helpers; algebra.

*Files.* Props/C43_Surface

* `C75_local_trig` — C75. For unit directions in local coordinates the trigonometric helpers are consistent: sin² + cos² = 1, sin is not negative, tan · cos = sin and tan2 = tan² unless the direction is in the plane.
* `C75_boundary_plane` — Remark: in the plane (z = 0) the squared tangent is the constant 1e10.

### C76 BSDF reciprocity and energy conservation — proved

*Model and proof.* BSDF symmetry and hemispherical bounds; algebra and integration.

*Files.* Props/C76_Reciprocity

* `C76_diffuse` — C76. Diffuse reflection is reciprocal.
* `C76_glossy` — C76. Glossy reflection is reciprocal, for unit directions.
* `C76_glass` — C76. Glass: reflectance is the same for a direction, its mirror image, and for the refracted direction; and the transmission seen by the camera side for (wi, wo) is eta² times the transmission on the light side for (wo, wi), eta being the relative index on the side of wi.
* `C76_glass_energy` — C76. Glass conserves energy in the light direction: reflected and transmitted fractions sum to one.

### C77 The measurement contribution of a path does not depend on the strategy — partial

*Model and proof.* Measurement contribution of every split (s,t) of a path; list induction.

*Files.* Props/C77_Strategy

* `C77_reciprocal_partial` — C77 under reciprocity: for every path of at least two vertices whose vertices scatter the same amount in both transport directions, every strategy computes the same measurement contribution, the product of all geometry terms and all local terms. Missing: vertices that scatter differently in the two directions, such as those with interpolated normals (C77_negation_shading_normal).
* `C77_local_partial` — C77 for paths whose inner vertices scatter alike in both transport directions: the path starts at a light whose emission has no delta part and ends at the camera; at each vertex between, what is scattered of the light from the previous vertex to the next is what is scattered of the importance from the next vertex to the previous, delta components or not. Whatever the number of vertices, all strategies agree on the measurement contribution. Missing: vertices that scatter differently in the two directions (C77_negation_shading_normal).
* `C77_diffuse_partial` — C77 for diffuse scenes: the path starts at a light whose emission has no delta part, ends at the camera, and all vertices between are diffuse surfaces with equal shading and geometric normals. Whatever the number of vertices, all strategies agree on the measurement contribution. Missing: interpolated normals (C77_negation_shading_normal).

*False of the code:*

* `C77_negation_shading_normal` — C77 fails on surfaces with interpolated normals: light at distance 1 above a diffuse surface point, camera at distance 5, shading normal (0, 0, 1), geometric normal (3/5, 0, 4/5). Connecting one light vertex with two eye vertices gives the contribution f, connecting two light vertices with one eye vertex gives 2 f: the shading normal correction is applied in one direction only, while the geometry terms use the shading normal in both.

### C78 Random numbers lie in [0,1) — proved

*Model and proof.* mt19937 and uniform_real_distribution exactly.

*Files.* Props/C56_Seed

* `C78_range` — C78. Whatever the seed and however many numbers have been drawn, the next number exists and lies in [0, 1).
* `C78_next` — C78. next<T>() delivers the requested number of values, all in [0, 1).
* `C78_float` — C78. The single precision generator: if F is the set of floats containing 0, the conversion yields one of the floats next to the number, and nextafter the float below, the result is a float in [0, 1), at most the double precision number.
* `C78_seeds` — C78. Different seeds (as words) give different generators.
* `C78_threads` — C78. With a fixed seed, the threads of a render that have not run this renderer class before start from pairwise different generators.
* `C78_boundary_consecutive` — C78, boundary. The streams of a render with seed s + 1 are those of a render with seed s, moved by one thread: two renders with consecutive seeds are not independent.

### C79 Progress messages on a terminal replace each other — partial

*Model and proof.* Terminal line as a list of characters with cursor.

*Files.* Props/C64_Logger

* `C79_replaces_partial` — C79 (messages that do not get shorter). A progress message at least as long as what the line shows replaces it: the terminal shows exactly the last progress message. Missing: shorter messages, and the end of the report (see the negations).

*False of the code:*

* `C79_negation_leftover` — C79 is false: after a shorter progress message the end of the longer message before it stays on the line (the padding that should hide it is never written).
* `C79_negation_end` — C79 is false: the end of a progress report is not followed by a line feed, so the next message is written over it on the same line.

### C80 Sampling routines have the density they report — partial

*Model and proof.* Random numbers as Lebesgue measure on the unit cube; law of the sampled direction or point = density · reference measure (solid angle built from spherical coordinates, surface area of triangles). Change of variables.

*Files.* Props/C80_Area, Props/C80_Camera, Props/C80_Density, Props/C80_Direct, Props/C80_Env, Props/C80_EnvLight, Props/C80_Glossy, Props/C80_Light, Props/C80_Material, Props/C80_Mixture, Props/C80_Nested, Props/C80_Phase

* `C80_area_position_partial` — C80 (partial). Area lights sample points of the mesh with the density they report, with respect to surface area in the scene. Missing: transforms that do not scale areas by their determinant, for which the claim is false (next theorem).
* `C80_camera` — C80. Primary rays: the probability of a set of directions is the integral of pdf_ray (pdf_direction) over it, with respect to solid angle.
* `C80_sphere` — sample_uniform_sphere has the density 1/(4π) that pdf_uniform_sphere reports, with respect to solid angle: the probability of every measurable set of directions is its solid angle over 4π.
* `C80_cosine` — sample_cosine_weighted has the density cos θ / π with respect to solid angle on the upper hemisphere (1/π with respect to projected solid angle).
* `C80_disk` — sample_uniform_disk is uniform in the unit disk: the density is 1/π with respect to area.
* `C80_area_direct_partial` — C80 (partial). Sampling a point of an area light towards the surface point (or camera, or medium point) g: for every measurable set A of points, the probability of sampling a point in A is the integral of the density that pdf_direct reports for the point seen in direction d, over the directions d in which g sees the part of the light in A, triangle by triangle, with respect to the solid angle at g. Missing: transforms that do not scale areas by their determinant (C46_negation_scaled_area).
* `C80_dist2_partial` — C80 (partial). Two-dimensional tables: the sampled point of the unit square has the density `pdf` reports, if the table is built freshly from non-negative weights and no row is zero. Missing: tables with zero rows (undefined), or that are initialised again (C29_negation_reinit).
* `C80_env_direct_partial` — C80 (partial). Image-based environment lights send light to a point g from directions with the density they report, with respect to the solid angle at g, if the weights of the map are non-negative and no row is zero. Missing: the weights the light actually computes can be negative (C46_negation_env_weights).
* `C80_glossy` — C80. Glossy (GGX) materials sample directions with the density they report; a sample that would leave on the other side counts as no sample.
* `C80_point_light` — C80. Point lights emit in directions with the density they report, by `sample_direction` and (whatever the other numbers) by `sample_ray`.
* `C80_area_direction` — C80. Area lights emit from a point in directions with the density they report, with respect to projected solid angle.
* `C80_envconst_direct` — C80. Constant environment lights send light to a point g from directions with the density they report, with respect to the solid angle at g.
* `C80_diffuse` — C80. Diffuse materials sample directions with the density they report.
* `C80_mixture_marginalized_partial` — C80. A group of the marginalized mixture samples directions with the density it reports, if its materials do and do not themselves use the random number that selects a component. Missing: mixtures of mixtures (C80_negation_nested_mixture).
* `C80_mixture_rr` — C80. A component of the mixture with Russian roulette samples directions with the density it reports, if its material does.
* `C80_obj_mixture` — C80. The diffuse/glossy component of the material of OBJ models samples directions with the density it reports.
* `C80_isotropic` — C80. The isotropic phase function.
* `C80_hg_partial` — C80. The Henyey-Greenstein phase function, |g| ≥ Eps. Missing: 0 < |g| < Eps (C80_negation_hg_small).
* `C80_hg_zero` — C80. The Henyey-Greenstein phase function, g = 0.

*False of the code:*

* `C80_negation_area_scaled` — C80 (negation). Under uniform scaling by s ≠ 1 the points are not distributed with the reported density.
* `C80_negation_nested_mixture` — C80, negation. Mixtures may be nested, and the inner mixture then selects with the very random number the outer one has already selected with: the glossy material of the inner mixture is never sampled although both mixtures give it half of the weight.
* `C80_negation_hg_small` — C80, negation. For 0 < |g| < Eps directions are sampled uniformly while the density of the anisotropic distribution is reported.

### C81 Single scattering and light sampling are unbiased — partial

*Model and proof.* Expected sampled weight = integral of the measured quantity, from the laws of C80.

*Files.* Props/C81_Area, Props/C81_Light, Props/C81_Material, Props/C81_Select

* `C81_area_direct_partial` — C81 (partial). Next event estimation towards an area light: the expected value of the sampled weight, times whatever the receiving side g does with the light (a function of the point, the normal and the direction), is the sum over the triangles of the integral, over the directions d in which g sees the triangle, of the emitted radiance times that function, with respect to the solid angle at g. In particular undefined behaviour has probability 0. Missing: transforms that do not scale areas by their determinant (C80_negation_area_scaled).
* `C81_envconst_direct` — C81. Light sampled towards a point g from a constant environment light: in expectation the integral of its radiance, times whatever the receiving side does with it, over the solid angle at g.
* `C81_isotropic` — C81. Isotropic scattering.
* `C81_hg_partial` — C81 (partial). Henyey-Greenstein scattering, with |g| ≥ Eps or g = 0. Missing: 0 < |g| < Eps, where the density is wrong (C80_negation_hg_small).
* `C81_camera` — C81. Primary rays: averaged over the screen, whatever arrives along them; this is the integral of the camera's importance times what arrives, over solid angle.
* `C81_env_direct_partial` — C81 (partial). Light sampled towards a point g from an image-based environment light: in expectation the integral of the map, times whatever the receiving side does with it, over the solid angle at g; if the weights are non-negative, no row is zero, and a pixel of weight 0 is black. Missing: the weights the light computes can be negative (C46_negation_env_weights).
* `C81_diffuse` — C81. Sampling a diffuse material estimates the reflected radiance.
* `C81_glossy` — C81. Sampling a glossy material estimates the reflected radiance.
* `C81_mixture_rr` — C81. Every component of a roulette mixture estimates its share of the reflected radiance, if its material is good.
* `C81_obj_mixture` — C81. The mixture of OBJ models (the component that is not the mask) estimates the reflected radiance of its diffuse and glossy parts.
* `C81_mixture_marginalized_partial` — C81. A group of the marginalized mixture estimates its share of the reflected radiance, if its materials are good and do not themselves use the random number that selects a component. Missing: mixtures of mixtures (C80_negation_nested_mixture).
* `C81_select_rr` — C81. The components of a roulette mixture.
* `C81_select_marginalized` — C81. The groups of a marginalized mixture.
* `C81_select_glass` — C81. Reflection and refraction of glass.
* `C81_select_obj` — C81. The mask of OBJ materials: with probability alpha the surface, else straight through.
* `C81_select_single` — C81. Materials of one component.
* `C81_reflected` — C81. The estimate of the reflected radiance: a component selected with one random number, a direction sampled with three more; in expectation the reflected radiance of all components that can be selected.

### C82 The path tracer computes the rendering equation — proved

*Model and proof.* The whole walk of renderer::pt as a function of its random numbers; its expectation by induction on the number of remaining vertices, equal to the truncated Neumann series of the rendering equation (Spec/Transport), in every sampling mode; hypotheses discharged for materials, constant environments, environment maps with sound weights and area lights; three concrete scenes. For scenes described by their triangles (pairwise disjoint, diffuse, glossy, mixed by either mixture, or of OBJ models, any transforms), materials and area lights, whose queries are the nearest intersection, every requirement is derived (Spec/Traced, Spec/Parts, C86_Nearest, C82_Scenes); with mirrors, glass, transparent surfaces, mixtures with them and the material of OBJ models, with masks that cut holes, in C82_Skins (Spec/Skins); and with an environment light beside the area lights in C82_Outdoors (Spec/Outdoors).

*Files.* Props/C82_Direct, Props/C82_Example, Props/C82_Lamp, Props/C82_Lamps, Props/C82_Map, Props/C82_Nee, Props/C82_Outdoors, Props/C82_Path, Props/C82_Scenes, Props/C82_Skins, Props/C82_Sky, Props/C82_Triangles, Props/C82_Walk

* `C82_scene` — C82. What the path tracer computes in a scene whose surfaces and lights meet the requirements, in every mode: the integral over the film of the radiance arriving along the primary rays.
* `C82_modes_agree` — C82. In particular the sampling modes agree.
* `C82_example` — C82, in a concrete scene: with paths of at least three vertices every pixel of the image of the floor has the average 1/2 in every channel, in every mode; with two vertices 0.
* `C82_example_lamp` — C82, in a concrete scene: with paths of at least three vertices the average image of the floor, in every mode, is albedo / π times the irradiance from the lamp at the point seen.
* `C82_lamps` — C82. What the path tracer computes in scenes with area lights, constant environments and environment maps.
* `C82_map` — C82. What the path tracer computes in a scene lit by an environment map, in every mode, if every row of the map has a bright pixel and the right half of the last row is black. The light itself is not sound for other maps: it gives pixels in the right half of the last row negative weights (C46_negation_env_weights).
* `C82_example_map` — C82, in a concrete scene with an environment map: with paths of at least three vertices every pixel of the image of the floor has the average 1/2 in every channel, in every mode.
* `C82_walk` — C82. In every mode, with or without light sampling and multiple importance sampling, averaged over all random numbers, what a walk of k iterations from a vertex adds to the film is its throughput times the scattering of what arrives at the vertex.
* `C82_outdoors` — C82. The path tracer, in every scene of separate triangles with an environment light, constant or given by a map, and any number of area lights, whose surfaces are diffuse, glossy, mirrors, transparent, mixtures of these of either kind, glass, or have the material of OBJ models, whose masks cut holes, in every sampling mode: its expected value on the film is the integral, over the film, of the radiance arriving along the primary rays by light paths with the given number of vertices.
* `C82_pt` — C82. What the path tracer computes. In every mode and for every maximal length of paths: the average over all random numbers of what one sample adds to the film, weighted with any function H of the position on the film, is the integral over the film of H times the radiance arriving at the camera along the primary ray through the position, up to the maximal length of paths.
* `C82_scenes` — C82. The path tracer, in every scene of separate triangles with diffuse and glossy materials, mixtures of them (of either kind), materials of OBJ models, and area lights, in every sampling mode: its expected value on the film is the integral, over the film, of the radiance arriving along the primary rays by light paths with the given number of vertices.
* `C82_skins` — C82. The path tracer, in every scene of separate triangles with area lights whose surfaces are diffuse, glossy, mirrors, transparent, mixtures of these of either kind, glass, or have the material of OBJ models, whose masks cut holes, in every sampling mode: its expected value on the film is the integral, over the film, of the radiance arriving along the primary rays by light paths with the given number of vertices.
* `C82_sky` — C82. What the path tracer computes in a scene lit by a constant environment, in every mode: the integral over the film of the radiance arriving along the primary rays.
* `C82_triangles` — C82. What the path tracer computes in scenes of triangles with area lights whose materials have BSDFs, in every sampling mode: the integral over the film of the radiance arriving along the primary rays. The only requirement on the queries beside the description of the triangles: between a vertex of a path and a point of a light that is not seen edge-on, visibility agrees with intersection.
* `C82_naive_walk` — C82. Without light sampling: averaged over all random numbers, what a walk of k iterations from a vertex adds to the film is its throughput times the scattering of what arrives at the vertex.

### C83 BVH splits minimise the surface area heuristic — partial

*Model and proof.* Builder machine of C36; the running minimum over axes and positions, the cost specified by exact hulls (IsLeast / IsGreatest); witness for equal centres.

*Files.* Props/C83_Sah

* `C83_split_minimal_partial` — C83 (partial). Whenever, in any interleaving, a builder thread splits a node of at least two triangles whose centres differ along every axis: the cost of the pair of children, by the surface area heuristic, is the least among all splits of the node's triangles at any position in their order along any axis, and at most the cost of a leaf. Missing: triangles with equal centre coordinates (C83_negation_ties).
* `C83_leaf_ties` — C83. With any centres: whenever a builder thread makes a leaf of two or more triangles, in a node of non-zero area, there is an order of the triangles along each axis such that every split at any position of that order would cost more than the leaf.
* `C83_leaf_partial` — C83 (partial). Whenever a builder thread makes a leaf of two or more triangles whose centres differ along every axis, in a node of non-zero area, every split of them would cost more than the leaf. Missing: triangles with equal centre coordinates, for which one of their orders along each axis is looked at (C83_leaf_ties), and nodes of area zero, for which the code divides by zero.

*False of the code:*

* `C83_negation_ties` — C83, negation. The triangles are sorted once more before they are split, and triangles with equal centres may come in another order than the one the cost was computed for. Three triangles, the first above the second, the third beside the second; one thread, and sorting that keeps the order of equal elements. The builder reaches a state in which it splits into {1} and {0, 2}, at a cost above that of a leaf, while the split {0}, {1, 2} it chose costs less than half of it.

### C84 Sampling distances in media is unbiased — partial

*Model and proof.* The loops as functions of a list of random numbers; expectation as the limit of averages over n uniform numbers; closed form after k tentative collisions (a partial exponential series of the null-collision depth), by induction with the exponential law, Tonelli and the fundamental theorem for absolutely continuous functions. Densities that are zero everywhere: the same loops with IEEE arithmetic (Model/EmptyMedium), shown equal to the others for a positive maximum (C84_Empty).

*Files.* Props/C84_Empty, Props/C84_Medium, Props/C84_Volumes

* `C84_ieee` — C84. Unless the maximum is zero, infinite values and values that are not numbers do not occur: the loops do what those of the other theorems do.
* `C84_empty_partial` — C84 for media without density. With IEEE arithmetic, where 1 / 0 is infinite: the loops end with probability one, the transmittance is estimated as 1, which it is, and sampled distances give an unbiased estimate of the volume rendering equation (the light from behind the medium). Whatever happens at points whose coordinates are not numbers (`junk`, `odd`). Missing: rays running inside a face plane of the bound (C58_negation_graze).
* `C84_ieee_media_partial` — C84 for the media of the library, with IEEE arithmetic: the density any volume of the library, zero or not, the albedo a constant colour. Missing: rays running inside a face plane of the bound (C58_negation_graze).
* `C84_remark_empty_zero` — C84. In a medium without density that a ray meets, the loops do not end if the first random number is zero: 0 · ∞ is not a number, and no comparison with it holds.
* `C84_ratio_partial` — C84. Ratio tracking in a heterogeneous medium: the loop ends with probability one, and the expected value of the estimate is the transmittance exp(-∫σ) of the part of the ray inside the bound of the medium, whatever the density, as long as its announced maximum is one. Missing: rays running inside a face plane of the bound (C58_negation_graze), and media whose maximum density is zero, for which the code divides by zero (see `C84_empty_partial`).
* `C84_delta_partial` — C84. Delta tracking in a heterogeneous medium: the loop ends with probability one, and with the weights it returns, the distances it samples give an unbiased estimate of the volume rendering equation, for whatever light is scattered inside the medium (L) or arrives from behind it (w). Missing: rays running inside a face plane of the bound (C58_negation_graze), and media whose maximum density is zero, for which the code divides by zero (see `C84_empty_partial`).
* `C84_homogeneous_partial` — C84. A homogeneous medium: with the weights returned, the sampled distance gives an unbiased estimate of the volume rendering equation, and the transmittance is exact. Missing: rays running inside a face plane of the bound (C58_negation_graze).
* `C84_library` — C84. Every density volume of the library, however it is composed, meets the conditions of the theorems: it is majorized and measurable.
* `C84_media_partial` — C84 for the media of the library: the density any volume of the library (not identically zero), the albedo a constant colour. Missing: rays running inside a face plane of the bound (C58_negation_graze), and densities that are identically zero, for which the code divides by zero (see `C84_empty_partial`).
* `C84_example_ball` — Non-vacuity, with a number: seen through the centre of a ball of radius 1 and density 2, ratio tracking estimates the transmittance exp(-4).

### C85 Volumetric path tracers compute the volume rendering equation — proved

*Model and proof.* The walk of the volumetric path tracers as a function of its random numbers, those of the medium drawn from an arbitrary probability law; expectation by induction on the number of remaining vertices, equal to the truncated volume rendering equation (Spec/Fog); hypotheses discharged for homogeneous media, heterogeneous media (infinite product law of the random numbers), isotropic and Henyey-Greenstein phase functions, area lights, constant skies and environment maps with sound weights; two concrete scenes with their closed forms.

*Files.* Props/C85_EnvMap, Props/C85_Example, Props/C85_Nee, Props/C85_Scene

* `C85_map` — C85. What the volumetric path tracers compute in a scene with a medium that is lit by an environment map, if every row of the map has a bright pixel and the right half of the last row is black. The light itself is not sound for other maps: it gives pixels in the right half of the last row negative weights (C46_negation_env_weights).
* `C85_example` — C85, in a concrete scene: a medium with albedo 0 that attenuates the sky by one half. With or without light sampling and for every roulette parameter in [0,1), every pixel has the average 1/2.
* `C85_example_ball` — C85, in a heterogeneous medium: a ball of density 2, radius 1 and albedo 0 around the camera, in front of a sky of radiance 1. Whatever the roulette parameter in [0,1), with or without light sampling, the average of every pixel is exp(-2), over all sequences of random numbers that the medium uses.
* `C85_walk` — C85. With or without light sampling, averaged over all random numbers, what a walk of k iterations from a vertex adds to the film is its throughput times the scattering of what arrives at the vertex through the medium.
* `C85_volpt` — C85. What the volumetric path tracers compute. For every roulette parameter in [0,1) and every maximal length of paths: the average over all random numbers of what one sample adds to the film, weighted with any finite function H of the position on the film, is the integral over the film of H times the radiance arriving at the camera through the medium along the primary ray through the position, up to the maximal length of paths.
* `C85_scene` — C85. What the volumetric path tracers compute in a scene whose medium, surfaces and lights meet the requirements: for every roulette parameter in [0,1), the integral over the film of the radiance arriving through the medium along the primary rays.

### C86 Light tracing and path tracing compute the same image — partial

*Model and proof.* The walk of renderer::lt as a function of its random numbers; its expectation by induction on the number of remaining vertices is the importance of the camera carried backwards; the transport operator is self-adjoint (solid angle against area on both ends, reciprocal BSDFs, correction for shading normals), so the iterations for light and for importance pair to the same number; with C82 this is the image of the path tracer, minus the lights seen directly. Scenes of specular surfaces: every connection to the camera has the value zero, by induction along the walk, so the image is black, whereas the path tracer sees the sky in a mirror (negation). Lights without extent: their rays carry to the surfaces what they shine on them (point lights by the change from directions to points; directional lights by the affine map that projects a triangle onto the disk from which the rays start, C86_Beam), and what the surfaces scatter of it is a further emission, to which the same adjointness applies (C86_Sources, C86_Lit). Environment lights: averaged over the direction, the rays from the disks perpendicular to it carry to the surfaces the radiance that arrives from infinity (C86_Sky), and the rays that leave the scene in the path tracer see the same light. Concrete scenes, in which the difference is not zero (C86_Example), with a point light (C86_Bulb), a directional light (C86_Sun) and an environment light (C86_Dome). C86_Outdoors: the requirements on rays and lights follow from the nearest intersections with a list of separate triangles (Spec/Lights: the point light in the plane of no triangle, the sun parallel to none, the triangles inside the sphere from which lights at infinity emit), so that the theorem holds in every such scene with any number of lights of all five kinds.

*Files.* Props/C82_Scenes, Props/C82_Triangles, Props/C86_Example, Props/C86_LightTracing, Props/C86_Lit, Props/C86_Mirror, Props/C86_Outdoors

* `C86_scenes_partial` — C86. In every such scene light tracing, together with the lights that the camera sees, computes the same image as path tracing in any sampling mode. Missing: lights other than area lights (`C86_lt_partial`, `C86_beam_partial` and others treat them under requirements on intersections), shading normals, and specular materials.
* `C86_all_modes_partial` — C86. Light tracing and path tracing compute the same image, up to the lights that the camera sees, whatever the sampling mode of the path tracer. Missing: as for `C86_lt_partial`.
* `C86_lt_partial` — C86. What the light tracer computes, in scenes of triangles with area lights whose materials have BSDFs: the average over all random numbers of what one sample adds to the film, weighted with any function H of the position on the film, is the integral over the film of H times the radiance arriving at the camera along the primary ray, up to the maximal length of paths, except for the light that arrives directly from the lights (`incoming 1`). Missing: the light that arrives directly from the lights, which is not in the image of the light tracer (`C86_negation_direct`); scenes with specular materials (the connections to the camera miss them: `C86_specular_black`, `C86_negation_mirror`), with lights that are not area lights (point, directional and environment lights: `C86_lamps_partial`), with lights smoothed by shading normals, and with BSDFs that are not reciprocal.
* `C86_same_image_partial` — C86. Light tracing and path tracing compute the same image, up to the lights that the camera sees: for every maximal length N, the image of the light tracer and the image of the path tracer with maximal length 2 (the lights that the camera sees) add up to the image of the path tracer with maximal length N. Each image is the average over all random numbers of what a sample adds to the film, weighted with any function H of the position on the film. Missing: as for `C86_lt_partial`.
* `C86_lamps_partial` — C86. What the light tracer computes in scenes of triangles with area lights, lights without extent, whose rays carry to the surfaces what these lights shine on them (`Thrown`; point lights: `PointLamp.thrown`; directional lights: `BeamLamp.thrown`), and lights at infinity, whose rays carry to the surfaces what arrives from infinity (`Cast`; environment lights: `SkyLamp.cast`): the average over all random numbers of what one sample adds to the film, weighted with any function H of the position on the film, is the integral over the film of H times the radiance arriving at the camera along the primary ray, from all lights, up to the maximal length of paths, except for the light that arrives directly from the lights (`incoming 1`). `hsky`: what arrives directly from infinity along a ray is `skies`. Missing: as for `C86_lt_partial`, except for lights without extent and lights at infinity.
* `C86_lamps_same_image_partial` — C86. Light tracing and path tracing with light sampling compute the same image, up to the lights that the camera sees, in scenes with area lights, lights without extent and lights at infinity: for every maximal length N, the image of the light tracer and the image of the path tracer with maximal length 2 (the lights that the camera sees) add up to the image of the path tracer with maximal length N, when primary rays are sampled in a pixel. `hl`: light sampling works at the vertices of paths (`LitBy`). `hinf`: what rays meet at infinity is a light. Missing: as for `C86_lamps_partial`.
* `C86_specular_black` — C86. Scenes of specular surfaces are black in the image of the light tracer: if every material is a mirror, a mask or glass, nothing that a sample adds to the film is different from zero, for all lights, all cameras, all random numbers and all lengths of paths.
* `C86_outdoors_partial` — C86. Light tracing and path tracing with light sampling compute the same image, up to the lights that the camera sees, in every scene of separate triangles with diffuse and glossy materials, mixtures of them and materials of OBJ models, and any number of area lights, point lights and directional lights, with or without an environment light, constant or given by a map: for every maximal length N, the image of the light tracer and the image of the path tracer with maximal length 2 (the lights that the camera sees) add up to the image of the path tracer with maximal length N, when primary rays are sampled in a pixel. Missing: specular materials; the point lights are in the planes of no triangles, and the directional lights are parallel to none.

*False of the code:*

* `C86_negation_direct` — C86, negation. The light tracer and the path tracer do not compute the same image: there is a scene with one area light that the camera sees directly, in which for every maximal length of paths the image of the light tracer, summed up, is darker than that of the path tracer. The light tracer connects the vertices of the light path to the camera from the second one on, so that paths from the light to the camera are missing (renderer_lt.cpp).
* `C86_negation_mirror` — C86, negation. The light tracer and the path tracer do not compute the same image in scenes with specular materials, not even up to the lights that the camera sees: there is a scene, a mirror under a constant sky, in which the light tracer computes black for every maximal length of paths and the path tracer the sky in the mirror, radiance 1, from three vertices on, while the camera sees no light directly.

### C87 Bidirectional path tracing computes the image of the path tracer — proved

*Model and proof.* Subpath sampling as a function of its random numbers; the law of the subpaths, by induction on their length, has a density with respect to products of area measures (C87_Walk, C87_Lamp). For each strategy (s,t), the value of the combined path times the density of its subpaths is the contribution of the path times the share of the strategy, and the shares are a partition of unity wherever a path contributes (C87_Value, C87_Share; the balance heuristic). Integrating over all paths of a length and summing over the lengths gives the terms of the series of C86. The restricted renderers are the cases with one strategy. Concrete scene: the one of C86. C87_Scenes: for every scene of separate triangles with diffuse and glossy materials, mixtures of them of either kind, materials of OBJ models, and area lights the requirements follow from the nearest intersection.

*Files.* Props/C87_Bidirectional, Props/C87_Scenes

* `C87_bdpt` — C87. What renderer::bdpt computes: the average over all random numbers of both subpaths of what one sample adds to the film, weighted with any function H of the position on the film, is the integral over the film of H times the radiance arriving at the camera along the primary ray by paths with at least `min` and at most `N` vertices: with the radiance that arrives by paths of fewer vertices (`incoming (min - 2)`), it is the radiance of all paths up to N.
* `C87_pt_naive_path` — C87. What renderer::pt_naive_path computes.
* `C87_pt_nee_path` — C87. What renderer::pt_nee_path computes.
* `C87_lt_nee_path` — C87. What renderer::lt_nee_path computes.
* `C87_same_image` — C87. The renderers on bidirectional paths (renderer::bdpt, pt_naive_path, pt_nee_path, lt_nee_path), with paths of 2 to N vertices, and the path tracer (renderer::pt) with paths of up to N vertices, compute the same image: the averages over all random numbers of what a sample adds to the film, weighted with any function H of the position on the film, are equal.
* `C87_scenes` — C87. In every scene of separate triangles with diffuse and glossy materials, mixtures of them (of either kind), materials of OBJ models, and area lights, bidirectional path tracing (renderer::bdpt) and the renderers that sample whole paths (pt_naive_path, pt_nee_path, lt_nee_path: renderer_bdpt.cpp), with paths of 2 to N vertices, all compute the same image as the path tracer.

### C88 The optimized bidirectional path tracer computes the image of the path tracer — partial

*Model and proof.* Same scenes and method as C87. The cached walk refines the walk of bdpt: same vertices for the same random numbers, the cached throughput and densities are those of the path (C88_Run, C88_Alpha, C88_Drive). The weight is the balance heuristic over densities without the probabilities of components, and still a partition of unity (C88_Bare, C88_Fixup). Sum of the strategies, integrated (C88_Value, C88_Mix, C88_Image). The strategy without light subpath multiplies by the weight of the component selected at the light, though nothing is scattered there: the claim is false for lights on surfaces with several components. Proved: the equality for lights with one component (partial), that the image is strictly brighter for lights with k + 2 components, and a concrete scene with a mixture (negation). C87_Scenes: likewise, in every scene of separate triangles with diffuse and glossy materials, mixtures of them of either kind, materials of OBJ models, and area lights.

*Files.* Props/C87_Scenes, Props/C88_Cached, Props/C88_Connects, Props/C88_Example

* `C88_scenes_partial` — C88. In every such scene, none of whose surfaces is a camera and whose lights are on surfaces of one component, renderer::bdptopt computes the same image as the path tracer. Missing: lights on surfaces whose materials have more components, for which it is false (`C88_negation_mixture`).
* `C88_subpaths` — C88. With the same random numbers, renderer::bdptopt samples the vertices that renderer::bdpt samples, whatever is in the uninitialised members of its cache.
* `C88_bdptopt_partial` — C88. What renderer::bdptopt computes in scenes in which the materials of the lights have one component: the average over all random numbers of both subpaths of what one sample adds to the film, weighted with any function H of the position on the film, is the integral over the film of H times the radiance arriving at the camera along the primary ray by paths with at least `min` and at most `N` vertices. Missing: lights on surfaces whose materials have more components, for which it is false (`C88_negation_mixture`).
* `C88_same_image_partial` — C88. In these scenes renderer::bdptopt, with paths of 2 to N vertices, and the path tracer (renderer::pt), with paths of up to N vertices, compute the same image. Missing: lights on surfaces whose materials have more components, for which it is false (`C88_negation_mixture`).
* `C88_brighter` — C88. In scenes in which the materials of the lights have the same number of components, more than one, the image of renderer::bdptopt is brighter than that of the path tracer, if that is finite and the camera sees light directly.
* `C88_connects` — C88: in any scene, a strategy that connects two vertices adds something to the film only if neither of them is at infinity, neither scatters in a single direction only, they see each other, and the ends of the subpaths it connects to can be connected to. A strategy with fewer than two vertices violates an assertion.

*False of the code:*

* `C88_negation_mixture` — C88, negation. renderer::bdptopt and the path tracer do not compute the same image: there is a scene with one area light on a surface whose material is a mixture of two materials, in which for every maximal length of paths the image of renderer::bdptopt, summed up, is brighter than that of the path tracer. The contribution of paths whose last vertex is found by sampling directions from the camera is the emission times the throughput at that vertex, and the throughput contains the weight of the component of the material selected there, although nothing is scattered (renderer_bdptopt.cpp:205-212, 272).

### C89 A ray query on a built scene returns the nearest surface of any placed object — partial

*Model and proof.* Model/Flatten: flattening of the visited nodes into triangles, size of the node array, result of a query, Scene::intersect. Composition of C39 (well-formed graphs), C40 (traversal visits every path once), C36 (any interleaving of the build), C37 (traversal of trees of any size: C37_Any) and C35 (triangle test). Negations: a scene without triangles cannot be built; surfaces below the threshold of the triangle test are invisible.

*Files.* Props/C89_Query

* `C89_closest_partial` — C89 (partial). For every scene made through the API, every completed build by any number of threads in any interleaving, calls that followed the build without resetting the scene, and every ray and range: if Scene::intersect returns, then it returns - a surface interaction: the point lies on a surface placed in the scene at the time of the build, on the ray and in the range, belongs to the reported primitive, and no surface that the ray meets clearly is nearer; - or the environment light, only if the range is unbounded (tmax ≥ Inf), in the direction of the ray, and no surface is met clearly in the range; - or nothing, and no surface is met clearly in the range. It never throws. Missing: surfaces below the threshold 1e-8 of the triangle test (they are ignored, C35_negation_threshold), and queries that do not return because the traversal stack is exceeded (C38).
* `C89_builds_partial` — C89 (partial). Every scene graph whose traversal ends and that has a triangle (and fewer than 1e10) can be built, with any number k ≥ 1 of threads; with C36_terminates every schedule ends. Missing: scenes without triangles (C89_negation_empty), and graphs with cycles, whose traversal does not end.
* `C89_total_partial` — C89 (partial). With at most 99 triangles every query returns a right answer. Missing: larger scenes, where the traversal stack may be exceeded (C38).

*False of the code:*

* `C89_negation_empty` — C89 (negation). A scene without triangles, for instance a camera and an environment light, cannot be built: the size computed for the node array is -1 and the allocation throws.
* `C89_negation_thin` — C89 (negation). Surfaces below the threshold are invisible: there is a scene of one triangle and a ray that meets it at distance 1, and every query with the range [0, 2] on every build of the scene finds nothing.

### C90 The ray casting renderer shows the nearest surface at every pixel centre — partial

*Model and proof.* Model/Raycast: shading of a hit, one call of the callback, the calls in the order of the schedule, the checks of render. Specification: an inductive relation between what a ray meets and its colour. By induction on the list of calls, which C20 shows to be a permutation of the pixels; C47 gives the ray, C23 the pixel of its raster position. Negation: the normal mode reads the uninitialised normal of points at infinity.

*Files.* Props/C90_Raycast

* `C90_returned` — C90. If rendering returns, with any number of threads and any interleaving, then every pixel of the film shows the colour of the ray through its centre — whatever the film held before.
* `C90_returns_partial` — C90 (partial). Rendering a scene returns, under every schedule. Missing: the normal mode with an environment light in view (`C90_negation_normals`).
* `C90_deterministic` — C90. Each pixel has one colour: the image does not depend on the schedule, the number of threads or the previous content of the film.
* `C90_centre` — C90. The ray of a pixel is the one whose raster position is the centre of the pixel, and that position belongs to this pixel.
* `C90_shading` — C90. Surfaces with a unit normal show between 1/5 and 1 times their colour R in every channel, the same from either side.

*False of the code:*

* `C90_negation_normals` — C90 (negation). In the normal mode an environment light in view makes rendering undefined, whatever the schedule: the normal of the point at infinity is read, which nobody initialised.

### C91 Temporarily disabled floating-point exceptions are restored — partial

*Model and proof.* Model/Fpex: the exception mask of each thread; programs with operations, guarded blocks, throws and handlers; init and shutdown. Specification: a big-step semantics in which the setting is lexically scoped. By mutual induction on programs. Negations: the destructor of the guard always enables, so a nested guard, a guard on a thread with exceptions off, and a ray query on a worker thread change the setting.

*Files.* Props/C91_Fpex

* `C91_scopes_partial` — C91, on a thread with exceptions on: code whose guards are not nested behaves as if the setting were lexically scoped: nothing traps inside the guarded blocks, invalid operations and divisions by zero trap outside of them, also after blocks that ended by an exception, and at the end exceptions are on again. Missing: nested guards, guards on threads with exceptions off (`C91_negation_nested`, `C91_negation_disabled`, `C91_negation_worker`).
* `C91_inside` — C91: inside a guarded block without further guards nothing traps, whatever the setting before it.
* `C91_elsewhere` — C91: on other platforms no call and no history of actions changes the setting of any thread.
* `C91_threads` — C91: actions on other threads do not change the setting of a thread.

*False of the code:*

* `C91_negation_disabled` — The code does not restore the setting: after exceptions have been turned off on purpose, any guarded block (e.g. a ray query, or saving a film) turns them on, and the next invalid operation traps. Promised was that they stay off.
* `C91_negation_nested` — Nested guards: when the inner block ends, exceptions are on in the rest of the outer block (e.g. a ray query inside of a guarded block), and an invalid operation traps; promised was that none does.
* `C91_negation_worker` — Threads: the framework is initialised on thread 0. On another thread an invalid operation yields a value, but the same operation traps once the thread has executed a guarded block, such as a ray query.

### C92 The printed tree of assets shows every owned component once — partial

*Model and proof.* Model/AssetTree: components with owned members, weak references and null pointers; the visitor; the calls of the logger (Model/Logger). Specification: the list of owned components, the list of references, and how a reader gets locators back from indented lines. By mutual induction on the tree. Negation: classes that do not report their members.

*Files.* Props/C92_AssetTree

* `C92_tree_partial` — C92: for every tree of assets whose classes report their members, printing the tree writes one line for the group and one for each owned component, indented below its owner by one level, from which the reader gets back exactly the owned components with their levels, locators and keys, each once; with the option, one line for each weak reference at its place, without it none. The indentation of the logger is afterwards as before. Missing: classes that do not report their members (`C92_negation_silent`).
* `C92_remark_silent` — C92: with a severity above the information level nothing is printed, and the indentation is afterwards as before.

*False of the code:*

* `C92_negation_silent` — The components owned by a component that does not report them are missing in the listing: only the line of their owner is printed. E.g. renderer::bdpt owns a scheduler, a model of a PBRT scene its meshes.

### C93 All acceleration structures see the same scene — partial

*Model and proof.* Model/AccelLib: buffers and geometries handed to the library, the flattening with one level of instances, the backward loop that creates the library scenes, decoding of what the library reports. The library is a parameter: an assumption (Reports) says that it reports a nearest proper hit among the triangles handed over. By induction on the visited nodes the buffers hold exactly the placed triangles; by induction on the recursion depth the flattening with instances expands to the full traversal (C93_flatten_instances). Then as in C89. Negation: the built-in structure ignores triangles below its threshold, the others do not.

*Files.* Props/C93_Accels, Props/C93_Instanced, Props/C93_Instances

* `C93_embree` — C93. accel::embree answers every query on every scene built through the API, whatever was built before, with the nearest placed surface. The scene may be edited between the build and the query, except for reset.
* `C93_nanort` — C93. accel::nanort answers every query on every scene built through the API, whatever was built before, with the nearest placed surface.
* `C93_instanced` — C93. accel::embreeinstanced: on every scene built through the API whose traversal ends, the flattening ends, the build succeeds (no assertion fails and no index is out of range), whatever was built before, and every query is answered with the nearest placed surface.
* `C93_agree` — C93. Any two right answers to the same query place the surface at the same point, or are both the environment or both nothing. With C93_embree, C93_nanort and C93_instanced: switching between these accelerators does not move what a ray sees. (At one point, surfaces of several primitives may coincide; which of them is reported is up to the library.)
* `C93_agree_sahbvh_partial` — C93. The built-in accelerator agrees with them for every ray that meets no surface below its threshold in the range (Answers is what C89_closest_partial proves of accel::sahbvh). Missing: thin surfaces, for which C93_negation_thin shows that it differs.
* `C93_remark_possible` — C93 (remark). The assumption on the libraries is satisfiable for every built scene, every ray and every range.
* `C93_flatten_instances` — C93. Whenever the traversal of the scene returns, so does flattening it with one level of instances; the root scene, with the instances replaced by what they refer to, lists the primitives of the traversal in the same order and with the same transforms; the other scenes contain no instances; and the index of every flattened node is its position.

*False of the code:*

* `C93_negation_thin` — C93 (negation). The choice of the accelerator is visible: there is a scene with one small triangle and a ray such that accel::embree, accel::nanort and accel::embreeinstanced find it at distance 1, whatever was built before and whatever the library reports within its contract, while no build of accel::sahbvh ever finds it (the built-in triangle test ignores triangles whose determinant is below 1e-8).

### C94 The volume ray casting renderer approximates single scattering — partial

*Model and proof.* Model/VolRaycast: marches as folds over the visited distances with a callback that may stop, the shadow march nested in the primary one, the film as in C90. Specification: sums over steps (Estimate) and the single scattering integral (single). The fold is the sum by induction on the list; bounds by telescoping; convergence by comparing sums with integrals cell by cell and summation by parts. The loader library is a parameter: its density and the distances at which it calls back (Covers: one in each of consecutive cells that cover the volume). Negations: the volumes of the library itself do not support marches, a channel without extinction divides 0 by 0, a negative scale makes the density exceed the announced maximum.

*Files.* Props/C94_Bounds, Props/C94_Converge, Props/C94_VolRaycast

* `C94_construct` — C94. The configured light direction may have any length but zero: the march towards the light uses the unit vector along it. The extinction is the sum of absorption and scattering, and everything else is as configured.
* `C94_bounds` — C94. In a physical medium a value is never negative, and never more than the emitted light times the albedo.
* `C94_uniform_light` — C94. Where the same part s of the light arrives at every visited point, the value is exact: the albedo times the light times the part of the ray that the optical depth ∑ step × density takes out, as for a continuous medium of that depth.
* `C94_cutoff` — C94. The cutoff changes a value by at most the emitted light times the albedo times the root of the cutoff, compared with marches that go on to the end of the volume.
* `C94_density` — C94. For a scale that is not negative, the density of an OpenVDB volume lies between 0 and the maximum that it announces, if the loader's values lie between 0 and the loader's maximum.
* `C94_marched` — C94. The march of an OpenVDB volume always is supported, stays in the range asked for makes steps of the length asked for at least, and comes near every point of the volume V on the ray, if the march of the loader does.
* `C94_converges` — C94. For a density that is not negative and changes by at most K per unit of length, on marches that cover the volume, a value differs from the single scattering integral by at most the emitted light times the albedo times an explicit multiple of the two steps plus the root of the cutoff: it converges as steps and cutoff become small.
* `C94_returned` — C94. If rendering returns, with any number of threads and any interleaving, then every pixel of the film shows the single scattering estimate for the ray through its centre, whatever the film held before.
* `C94_deterministic` — C94. The image does not depend on the schedule, the number of threads or the previous content of the film.
* `C94_returns_partial` — C94 (partial). Rendering with a volume that supports marches and an extinction that is not zero in any channel returns, under every schedule. Missing: channels without extinction (`C94_negation_transparent`), and volumes of the library, none of which supports marches (`C94_negation_march`).

*False of the code:*

* `C94_negation_scale` — C94. With a negative scale, which is accepted, the density exceeds the announced maximum, so that delta tracking would no longer be unbiased.
* `C94_negation_march` — C94. With any of the volumes of the library, rendering throws: none of them supports the march that the renderer needs.
* `C94_negation_transparent` — C94. If some channel has neither absorption nor scattering, a pixel whose ray meets the volume has no value (0/0 in that channel), although nothing is scattered in that channel and the value there should be 0.

### C95 Drawing with the matrices of the camera shows what the camera renders — partial

*Model and proof.* Model/CameraView: construct with its two kinds of parameters (uninitialised members as parameters), the matrices by the definitions of glm. Specification: normalized device coordinates of a point (Drawn), and the cone of C47 (Towards). The bases of the two projections are shown to agree by uniqueness of normalized vectors. Negations: the documented aspect ratio (height / width) skews images; a camera made from a matrix has a view matrix that depends on uninitialised memory, and a scaled matrix gives rays that are not unit; reported parameters cannot be used to construct the camera again.

*Files.* Props/C95_CameraView

* `C95_constructed` — C95. Construction with look-at parameters returns if the up vector is not parallel to the viewing direction, and the camera is usual (so the hypothesis of the theorems below is met).
* `C95_drawn` — C95. Drawing with the view and projection matrices shows every point of the scene where the camera renders it: the point of raster position (x, y), at any distance, has the normalized device coordinates (2x - 1, 2y - 1), and no others; points that have none lie behind the viewer.
* `C95_raster` — C95. A point is on the screen of such a program exactly if the camera has a raster position for it, and then that is where it is.
* `C95_depth` — C95. The depth of a drawn point lies between -1 and 1 exactly if its distance along the viewing axis lies between 0.01 and 10000, and nearer points have smaller depth.
* `C95_square_pixels` — C95. Neighbouring pixel centres of a w × h film are equally far apart horizontally and vertically, so that the image is not skewed, exactly if the aspect ratio of the camera is width / height.
* `C95_matrix` — C95. A camera constructed from a rigid matrix is proper: it sits at the translation, looks along the third column, the second column points up and the first one to the left.

*False of the code:*

* `C95_negation_documented` — C95. The documentation and the comments of the camera give the aspect ratio as height / width: a camera configured like that skews the image on every film that is not square.
* `C95_negation_matrix_view` — C95. The view matrix of a camera constructed from a matrix depends on uninitialised memory: with the same properties it is a matrix for some content and another one for another content.
* `C95_negation_scaled` — C95. A matrix with a scale is accepted, but the primary rays of the camera are then not unit vectors, as the rest of the library requires.
* `C95_negation_reported` — C95. The parameters that a camera reports cannot be used to construct a camera again: the position is reported under another name than the one construct asks for, and it throws.

### C96 Values cross the boundary between Python and C++ unchanged — partial

*Model and proof.* Model/PyConv: Python values as finite trees, JSON values with ordered members, the two casters by mutual recursion; NumPy arrays as memory with base, shape and strides, the casters as block copies. Specification: what a reader finds at a path; elements of an array by index. By mutual induction. Negations: integers of more than 32 bits are refused in one direction and wrap around in the other (the number of processed samples of a long rendering becomes negative), bound objects that are no components are undefined behaviour, arrays that are too short are read beyond their end, strided and transposed views arrive with other elements.

*Files.* Props/C96_PyConv

* `C96_accepted` — C96. A Python value arrives in the library exactly if it is built from None, booleans, floats, integers of 32 bits, strings, components, sequences and dicts whose keys are strings (or bytes).
* `C96_arrives_partial` — C96. What arrives is what was given: at every path into the structure there is the same on both sides (components arrive as their locators), or nothing on both sides. Missing: dicts with bytes as keys, which arrive as if they were strings.
* `C96_returned_partial` — C96. What is returned to Python is what the library has, if its integers have 32 bits. Missing: larger integers, see C96_negation_count.
* `C96_containers` — C96. Arrays are returned as lists and objects as dicts at every place inside a value, so that Python code can modify what it gets and dump it again.
* `C96_round_trip_partial` — C96. A value given from Python, stored, and returned to Python, is what was given. Missing: as in C96_arrives_partial.
* `C96_back` — C96. A value returned to Python can always be given to the library again, and if its integers have 32 bits then it arrives as it was (up to the distinction between signed and unsigned numbers).
* `C96_component` — C96. A component given as a value arrives as its locator: that is how references to other assets are passed.
* `C96_vector_partial` — C96. A contiguous one-dimensional array of n elements of the right type arrives as the vector of its elements. Missing: see C96_negation_short, C96_negation_strided.
* `C96_matrix_partial` — C96. A contiguous array of n × n elements arrives as the matrix with these rows and columns. Missing: see C96_negation_transposed.
* `C96_vector_returned` — C96. A vector is returned to Python as the array of its elements, and arrives as it was when given to the library again.
* `C96_matrix_returned` — C96. A matrix is returned to Python as the array with its rows and columns, and arrives as it was when given to the library again.
* `C96_rejected` — C96. Arguments that are no arrays of the right element type and number of dimensions are rejected.

*False of the code:*

* `C96_negation_large` — C96. Integers of more than 32 bits cannot be given to the library, although it has them (the number of samples per pixel is read as a 64 bit number).
* `C96_negation_count` — C96. Integers of more than 32 bits are returned wrong: the number of samples that rendering an image of 1920 × 1080 pixels with 2000 samples per pixel reports, 4147200000, arrives in Python as a negative number.
* `C96_negation_object` — C96. An instance of another bound class (an enumerator, for example) is taken for a component: undefined behaviour. Other objects are rejected, in debug builds by an assertion that ends the program.
* `C96_negation_short` — C96. The number of elements is not checked: an array that is too short is read beyond its end.
* `C96_negation_strided` — C96. An array that is not contiguous is read wrong: of a[::2] the first three elements of a arrive.
* `C96_negation_transposed` — C96. A transposed view M.T arrives as M.

### C97 The options given for the Embree structures are used — partial

*Model and proof.* Model/EmbreeParams: reading the options with defaults, the flag word bit by bit with the content of the variable before as a parameter, what build hands to the library. By cases on the flags. Negations: the filter flag alone is dropped, compact or robust without dynamic or-s into a variable that may be uninitialised, all build settings but the quality are ignored.

*Files.* Props/C97_EmbreeParams

* `C97_settings` — C97. If every given option has a value of the right type, the structure is constructed, and its settings are the given values, or the defaults for options that are not given.
* `C97_refused` — C97. An option with a value of another type is refused.
* `C97_round_trip` — C97. Settings written to JSON and read again are the same.
* `C97_flags_partial` — C97. The flags handed to the library are exactly the requested ones, if "dynamic" is requested, or if the JSON library initialises the variable and "compact" or "robust" is requested, or if no flag is requested. Missing: the other combinations, see C97_negation_filter and C97_negation_uninitialised.
* `C97_flags_written_partial` — C97. The flags are written as they were requested, so what is written can be read again. Missing: as in C97_flags_partial.

*False of the code:*

* `C97_negation_filter` — C97. "filter" alone is ignored.
* `C97_negation_uninitialised` — C97. If the variable is not initialised, "compact" without "dynamic" gives flags that depend on its content.
* `C97_negation_unused` — C97. The other options have no effect: what is handed to the library depends only on the four flags and the quality.

### C98 Components shared by C++ and Python live as long as they are used — partial

*Model and proof.* Model/PyLife: an instance with the reference count of its Python object, the deleter and the release function, histories of operations; use after deletion and double deletion are undefined. By invariants of the reference count. Negations: a reference to an asset implemented in C++ dangles after the asset was replaced; the C++ part of a component implemented in Python is never deleted; a component implemented in Python that a script makes with create is never deallocated.

*Files.* Props/C98_PyLife

* `C98_python` — **C98 (instances of Python classes).** An instance of a class defined in Python, however it was made, is never used or released wrongly, in any history of references taken, copied and dropped, calls and its release by C++. While C++ owns it, even if the Python program has dropped all its references, and while the Python program has a reference, even if C++ has let go of it, the Python object exists and calls reach its methods.
* `C98_released` — **C98 (released).** When C++ has let go of an instance of a Python class and the Python program has no reference left, the Python object has been deallocated.
* `C98_native` — **C98 (created in Python).** An instance of a component implemented in C++ that a Python program creates is never used or deleted wrongly, and is deleted exactly when the last reference is dropped.
* `C98_asset_partial` — **C98 (assets implemented in C++).** An asset is deleted exactly when its owner lets go of it, whatever the Python program does with references to it, and is not deleted twice: the only wrong history is one in which the Python program calls a member function through a reference it kept after that. Missing: references kept by a Python program stay usable (false, C98_negation_dangling).

*False of the code:*

* `C98_negation_dangling` — **C98, negation.** A reference that a Python program keeps to an asset implemented in C++ dangles once the asset is replaced: the next call through it is undefined.
* `C98_negation_leak` — **C98, negation.** The C++ part of an instance of a Python class is never deleted, also when nothing refers to the instance any more: the release function does not delete it, and clears itself, so the destruction of the Python object does not either.
* `C98_negation_create` — **C98, negation.** An instance of a Python class that a Python program makes with `create` is not even deallocated: the reference its C++ part has to it is never given up.

### C99 The ambient occlusion renderer shows how open the surroundings of a surface are — partial

*Model and proof.* Model/Ao: the callback with the random numbers of a pixel as a parameter, the loop over the samples, writes to the film in the order of the schedule. Specification: openness as an integral over solid angle. The law of one sample is law_cosine (C80), the mean and variance of the average are computed on the product measure. Negations: environment lights in view (uninitialised position), no samples, the film is not cleared.

*Files.* Props/C99_Ao

* `C99_image_partial` — C99 (partial). Rendering with a positive number n of samples returns, with any number of threads and any interleaving, and a pixel that sees a surface gets a grey value in [0, 1] that depends on nothing but the random numbers drawn for it: its mean over independent random numbers is the openness of the seen point on the side of the surface that faces the camera, and its mean squared error is at most 1 / (4 n). Pixels that see nothing keep what they showed before. Missing: environment lights in view (`C99_negation_sky`), no samples (`C99_negation_samples`), pixels that see nothing getting a value (`C99_negation_film`), independence of the schedule (the random numbers of a pixel come from the generator of the thread).
* `C99_openness` — C99. Points with nothing around them on the side of N have the openness 1, and points with something in every direction within the distance 1/5 have the openness 0; openness is between these, and the more directions are open the greater.

*False of the code:*

* `C99_negation_sky` — C99 (negation). With an environment light in view rendering is undefined, whatever the schedule: the position and normal of the point at infinity are read, which nobody initialised.
* `C99_negation_samples` — C99 (negation). Without samples a pixel that sees a surface has no value.
* `C99_negation_film` — C99 (negation). The film is not cleared: a scene in which nothing is seen leaves the whole film as it was, so that the image depends on what was rendered before.

### C100 The path tracer with point and directional lights — partial

*Model and proof.* No new model: the path tracer of C82 with the lights of Model/Light. Specification Spec/Lamps: sources without extent as measures of irradiance concentrated in the directions towards them, and the rendering equation with what surfaces reflect of that as a further source. The proof of C82 is generalised to a further term per vertex; each light selects itself in the sum over lights. Negations: without light sampling the lights are not found; the images of the lights themselves appear only if primary rays are sampled on the whole film. In scenes of separate triangles with lights of all kinds (C86_Outdoors) all requirements follow from the description of the scene; C100_Outdoors allows all materials there, including mirrors and glass, with primary rays sampled in a pixel or on the whole film, and states what is left without light sampling: the lights with extent.

*Files.* Props/C100_Example, Props/C100_Outdoors, Props/C100_Scene, Props/C100_Walk, Props/C86_Outdoors

* `C100_example` — C100, in a concrete scene: with primary rays sampled in a pixel and paths of at least three vertices, the average image with light sampling is albedo / π times the irradiance of the point seen, from both lights.
* `C100_dressed_partial` — C100. The path tracer with light sampling, in every scene of separate triangles with lights of all kinds (any number of area lights, point lights and directional lights, with or without an environment light, constant or given by a map), whose surfaces are diffuse, glossy, mirrors, transparent, mixtures of these of either kind, glass, or have the material of OBJ models, whose masks cut holes: its expected value on the film is the integral, over the film, of the radiance arriving along the primary rays by light paths with the given number of vertices, and, if primary rays are sampled on the whole film, the images of the point lights and directional lights themselves. Mirrors and glass show lights with extent only: `radianceLit` has no light of a point light or directional light that such a surface reflects. Missing: as for `C100_scene_partial`.
* `C100_dressed_naive_partial` — C100. The path tracer without light sampling, in the same scenes: it computes the radiance from the lights with extent. Missing: the light of the point lights and directional lights (`C100_negation_naive`).
* `C100_scene_partial` — C100. What the path tracer computes in a scene with point lights, directional lights and lights with extent, in the modes with light sampling: the integral over the film of the radiance arriving along the primary rays. Missing: the mode without light sampling, which does not find lights without extent (`C100_negation_naive`); and the images of these lights themselves, points of light, that are added if primary rays are sampled on the whole film, and missing if they are sampled in a pixel (last summand, `C100_negation_dots`).
* `C100_modes_agree` — C100. In particular light sampling with and without multiple importance sampling agree.
* `C100_walk` — C100. With light sampling, in scenes with lights without extent: averaged over all random numbers, what a walk of k iterations from a vertex adds to the film is its throughput times the scattering of what arrives at the vertex from surfaces and from the lights without extent.
* `C100_outdoors_partial` — C100. The path tracer with light sampling in these scenes: the integral over the film of the radiance arriving along the primary rays, from all lights, when primary rays are sampled in a pixel. Missing: as for `C100_scene_partial`; specular materials; the point lights are in the planes of no triangles, and the directional lights are parallel to none.

*False of the code:*

* `C100_negation_naive` — C100. Without light sampling the same scene is black, whatever the length of the paths and the way primary rays are sampled: the modes do not agree if there are lights without extent.
* `C100_negation_dots` — C100. With a point light in view, the images with primary rays sampled in a pixel and on the whole film differ: what is measured at the position of the light on the film is nothing in the former, and something in the latter.

### C101 The volumetric path tracer with point and directional lights — proved

*Model and proof.* No new model: the volumetric path tracer of C85 with the lights of Model/Light. Specification Spec/FogLamps: what sources without extent shine through the medium, and the volume rendering equation with what surfaces and the medium scatter of that as a further source. Distances almost surely do not end at a point light, in homogeneous and heterogeneous media. Example: single scattering of a point light in a homogeneous medium, in closed form as an integral along the ray.

*Files.* Props/C101_Example, Props/C101_Scene, Props/C101_Walk

* `C101_example` — C101, in a concrete scene: a homogeneous medium. With paths of up to three vertices, the average of a pixel is the single scattering of the point light along the primary rays.
* `C101_naive_black` — C101: without light sampling the same scene is black: the point light is never met.
* `C101_scene` — C101. What the volumetric path tracer with light sampling computes in a scene with a medium, point lights, directional lights and lights with extent: for every roulette parameter in [0,1), the integral over the film of the radiance arriving through the medium along the primary rays.
* `C101_naive` — C101. Without light sampling, the volumetric path tracer computes the radiance from the lights with extent alone, in every scene with a medium and whatever other lights it has.
* `C101_walk` — C101. With light sampling, in scenes with a medium and lights without extent: averaged over all random numbers, what a walk of k iterations from a vertex after the camera adds to the film is its throughput times the scattering of what arrives at the vertex through the medium, from surfaces, from the medium and from the lights without extent; from the camera, what arrives from surfaces and from the medium.

### C102 Components implemented in Python are called like components implemented in C++ — partial

*Model and proof.* Model/PyTrampoline: tables of the virtual methods of all interfaces (from the headers) and of all trampolines and registered types (from pylm.cpp), and the dispatch of PYBIND11_OVERLOAD: lookup of the Python method by name, conversion of arguments and results, copies of arguments. Specification Spec/PyComponent. A condition on a method and its trampoline is shown to be enough for every class and all arguments, and is checked for all entries of the tables. Negations: max_scalar of volumes calls has_scalar; methods with parameters or results of types that are not registered always fail, so materials, phase functions, cameras and lights for rendering cannot be written in Python; methods without trampoline are ignored; the random number generator given to a medium is copied; save and load are only used for renderers and plain components.

*Files.* Props/C102_Python

* `C102_call_partial` — C102. For every class defined in Python that implements an interface, every method of the interface and every call of it by the library: if the class defines the method, that method runs on the arguments of the call, in order, and the caller gets what it returns or raises and sees its changes to objects passed by reference; otherwise the implementation of the interface runs, or there is an exception if it has none. Missing: the methods with parameters or results of types that are not known to Python (`foreign`), the methods without trampoline (`ignored`), max_scalar of volumes, and calls with objects passed by reference that Python does not know yet: for these the claim is false (C102_negation_foreign, C102_negation_ignored, C102_negation_max_scalar, C102_negation_rng, C102_negation_build).
* `C102_save_load_partial` — C102, saving. A component or renderer implemented in Python with save and load gets back exactly the string that its save returned, on any machine, and the rest of the archive is left to the other components. Missing: the other interfaces (C102_negation_save).

*False of the code:*

* `C102_negation_foreign` — A call of a method with a parameter or a result of a type not known to Python never succeeds, whatever the class implements: sample_component, sample_direction and eval of materials, sample_direction of phase functions, bound of volumes, sample_ray, sample_direction, sample_position and sample_direct of cameras and lights, pdf_ray, pdf_position and pdf_direct of lights, and two methods of scenes. So no material, phase function, camera or light that takes part in rendering can be implemented in Python.
* `C102_negation_ignored` — The implementation in Python of a method without trampoline is never used: the underlying components of an asset and its values, splat of films, eval_alpha, has_alpha and buffer of textures, march of volumes, set_scene_bound and is_env of lights.
* `C102_negation_max_scalar_ignored` — max_scalar of a volume implemented in Python does not depend on the implementation of max_scalar: has_scalar is called.
* `C102_negation_max_scalar` — A volume whose max_scalar is 5 is used with the majorant 1.
* `C102_negation_rng` — A medium implemented in Python draws its random numbers from a copy of the generator: whatever the method does, the generator of the caller is not advanced (unless it is an object that was created in Python). So the renderer uses the same numbers again.
* `C102_negation_build` — build of an acceleration structure implemented in Python fails for a scene that has no Python object.
* `C102_negation_save` — save and load of a class in Python are not used for the other interfaces: nothing is written, and loading leaves the state as it was.

### C103 Python functions in parallel loops — proved

*Model and proof.* Model/PyParallel: the loop of C17 refined by the GIL, the mutex of the exception handler, threads made to release the GIL, the destruction of replaced exceptions, and other Python threads. Invariants: who has which lock; the loop is a run of the model of C17 (so its theorems apply); Python code entered and still to be entered for an index balances. A measure decreases with every step of the team; a state without enabled step would need the GIL or the mutex to be held by a blocked thread, which the lock order excludes.

*Files.* Props/C103_Gil

* `C103_exclusive` — C103. Two threads never run Python code at the same time: neither two threads of the team, nor a thread of the team and the rest of the Python program, nor a thread of the team while the main thread is in Python before or after the loop.
* `C103_no_deadlock` — C103. There is no deadlock, whatever raises exceptions: as long as the call has not returned, some thread of the team or the main thread can make a step, unless the GIL is with a thread of the Python program that does not take part in the loop (and when that thread releases it, someone can).
* `C103_terminates` — C103. The call ends: in every history, the team and the main thread make at most a fixed number of steps, which depends on the number of indices and threads and on the length of the Python code.
* `C103_returned` — C103. When the call has returned, the main thread has the GIL again, no thread is left in the loop, and no thread has the mutex.
* `C103_sections` — C103. If the process function raises no exception, then when the call returns, Python code has been entered for every index exactly as often as the process function needs it, for no other index, and no exception is raised.
* `C103_foreach` — C103. parallel.foreach of Python, with a function that raises no exception: when it returns, the function has been called exactly once with each of the indices 0..n-1, and with nothing else, for every number of threads and every interleaving.
* `C103_exception` — C103. parallel.foreach of Python, with a function that raises exceptions for some of the indices: when the call returns, it has called the function at most once for each index and only for indices 0..n-1. It raises an exception exactly if one of these calls raised one, and the exception is one of those raised. If it raises none, the function was called for all indices.

### C104 The image array handed to Python shows the film — partial

*Model and proof.* Model/FilmView: films with the vector data_temp_ (block, capacity, length), push_back with reallocation, the memory of all films, arrays as views (size and block) with the strides of the binding, and histories of calls. Specification Spec/FilmView: what it means that an array shows an image. Invariants: every film owns its block and no two share one; contents after a number of push_backs. Negations: an array taken earlier shows the new image after the next call of buffer (for every history), it dangles after its film is deleted or enlarged; buffer of a film without pixels is undefined.

*Files.* Props/C104_Stale, Props/C104_View

* `C104_shows` — C104. Whatever a program did before, with any number of films and arrays: the array it gets from a film shows that film as it is at the moment of the call, element by element, and taking it does not change the film.
* `C104_available` — C104. The array is there for the asking exactly if the film has a pixel. For a film without one, of width or height 0, buffer() is undefined behaviour: see C104_negation_empty.
* `C104_snapshot_partial` — C104. The array is a snapshot until buffer() is called again: whatever happens to the film and to other films in between, be it drawing, clearing or a change of size, the array keeps showing what it showed. Missing: the next call to buffer() on the same film, which changes it (C104_negation_earlier_array, and C104_refresh for how), and deletion of the film (C104_negation_deleted).
* `C104_usable_partial` — C104. The array stays usable: as long as the film is not deleted and does not get more pixels than it had, every element of the array can be read, whatever else happens, including further calls to buffer() and writing through arrays. Missing: a film that is deleted (C104_negation_deleted) or enlarged (C104_negation_enlarged).
* `C104_refresh` — C104. All arrays taken from a film are the same memory: under the conditions of C104_usable_partial, a further call to buffer() writes the film of that moment into the memory of the earlier array. If the film has its old size again, the earlier array shows the film as it is now, exactly as the new one does.
* `C104_write` — C104. Writing to an element of an array changes that element, no other element of it, and no film: the pixels of all films stay as they are.

*False of the code:*

* `C104_negation_earlier_array` — C104, violated part. An array taken earlier does not keep the image it was taken from: whatever the history, after drawing any colour at any pixel of the film and asking for the film's array again, the earlier array shows the new colour. An image to be kept has to be copied, as the examples of the project do.
* `C104_negation_deleted` — C104, violated part. The array dies with its film: whatever the history, after the film is deleted (or another film is created under its name), reading any element of the array, or writing to it, is undefined behaviour. Nothing in the binding keeps the film alive.
* `C104_negation_enlarged` — C104, violated part. The array dies when its film is enlarged: for every array there is a size such that after giving the film that size and asking for its array, reading any element of the earlier array is undefined behaviour, although the film is alive.
* `C104_negation_empty` — C104, violated part. A film without pixels: creating it is accepted, asking it for its array is undefined behaviour (the first element of an empty vector).

### C105 Plugins bring and take away their implementations — partial

*Model and proof.* Model/Plugins: the registry of C01 and the plugin table of C02 together: what every library registers when it comes into memory and unregisters when it goes, how often it is open, the answers of dlclose, components that are alive, and the loop over a directory. Code carries the library it is in; calling code that is not in memory is undefined. Specification Spec/Plugins: names, libraries in memory, the search of dlopen. Induction over histories with invariants about the registry and the libraries in memory; negations for components that outlive their plugin, overrides, and directories that are not on the search path.

*Files.* Props/C105_Plugins

* `C105_create` — C105. Whatever was loaded and unloaded before, and even if implementations override each other: creating a component never calls code that is not in memory. It yields nothing, or a component of an implementation of the program or of a library in memory.
* `C105_loaded` — C105. A plugin that is loaded is in memory, even if it is loaded under several paths and was unloaded under others.
* `C105_available_partial` — C105 (partial: no name is used by two implementations). What can be created, under which name and by which code, is exactly what the program and the libraries in memory contain, whatever the history. Missing: implementations overriding each other (C105_negation_override).
* `C105_history_partial` — C105 (partial, as C105_available_partial). Two histories that end with the same libraries in memory leave the same implementations: in particular unloading a plugin that was loaded, if the library goes, restores what was there. Missing: implementations overriding each other (C105_negation_override).
* `C105_destroy_partial` — C105 (partial: the implementation is the program's, or its plugin is loaded). The component can be destroyed. Missing: components that outlive their plugin (C105_negation_outlives).
* `C105_destroy_iff` — C105. Releasing a component calls code of the library that made it: it is undefined exactly if that library is not in memory any more.
* `C105_no_unload_partial` — C105 (partial: nothing is unloaded). Every component that is alive can be destroyed, at any time. Missing: histories with unloads (C105_destroy_iff, C105_negation_outlives).
* `C105_foreach` — C105. The callback of the listing is called once for every key, and for a key exactly if an implementation is registered under it: one that the program or a library in memory has.
* `C105_plugin_name` — C105. Which files of a directory are plugins: those named by at least one digit, small letter or underscore, followed by ".so"; the name of the plugin is the part before.
* `C105_directory` — C105. Loading a directory whose plugins are loaded already or can be opened by name: afterwards exactly the plugins of the directory are loaded in addition, each under its name without the directory; a directory that does not exist changes nothing.
* `C105_directory_fails` — C105. The first plugin of the directory that cannot be opened raises an error: those before it stay loaded, those after it are not looked at.
* `C105_directory_partial` — C105 (partial: every plugin of the directory is found there first). Then loading the directory loads its plugins: those not loaded already come from this directory. Missing: directories that are not searched, or not first (C105_negation_directory_not_searched, C105_negation_other_directory).

*False of the code:*

* `C105_negation_outlives` — C105, negation. A component that outlives its plugin: load, create, unload (the library goes), and releasing the component calls code that is not there any more. For every library with at least one implementation.
* `C105_negation_override` — C105, negation. A plugin that overrides an implementation of the program takes it away when it goes: before, the name could be created, afterwards it cannot, with no plugin loaded in both cases.
* `C105_negation_directory_not_searched` — C105, negation. Plugins are opened by their name alone: what is loaded for a plugin in a directory is the library of that name on the search path of the system. A directory that is not on it, whose plugins are nowhere on it, cannot be loaded: the first plugin is an error.
* `C105_negation_other_directory` — C105, negation. If another directory on the search path has a library of the same name, that one is loaded, and not the one in the directory that was asked for.

### C106 Thread identifiers of parallel loops — partial

*Model and proof.* The arithmetic of the number of threads with the conversions between int and unsigned int; the rules of OpenMP for the number of threads (set per thread, teams of loops, loops inside of loops) as a transition system over histories of initialisations, beginnings and ends of loops; invariants by induction on the history. Loops on other threads than the one that initialised the subsystem, configurations that leave no thread, nested loops and loops on several threads violate the statement (negations).

*Files.* Props/C106_Threads

* `C106_configured` — C106. The number of threads: num_threads() is the configured number if it is positive; otherwise the configured number is added to the number of the machine's hardware threads, so that -1 leaves one of them free; without the property it is the number of hardware threads.
* `C106_identifiers_partial` — C106. Thread identifiers: after any history, in a loop started on the thread of the system that made the current context, and in loops started inside of loops, every callback gets a thread identifier in 0 ... num_threads()-1, if num_threads() is positive. Missing: loops started on other threads of the system (`C106_negation_other_thread`) and configurations that leave no thread (`C106_negation_none_left`).
* `C106_some_thread` — C106. A loop always has the thread 0, so that the callback is called (see C13).
* `C106_distinct_partial` — C106. Identifiers tell threads apart: if all loops are started on one thread of the system and none inside of another, two callbacks that are in progress at the same time have different identifiers, so that data indexed by the identifier is used by one thread at a time. Missing: loops inside of loops (`C106_negation_nested`) and loops of several threads of the system (`C106_negation_two_loops`).
* `C106_main_thread_partial` — C106. main_thread(): under the conditions of `C106_distinct_partial`, with t the main thread of the program, exactly one of the callbacks of a loop in progress answers yes, the one on the main thread itself (the member 0 of the team is the thread that started the loop). Missing: as there.

*False of the code:*

* `C106_negation_other_thread` — C106, negation. Loops started on another thread of the system have other identifiers: after parallel::init with num_threads = 1 on one thread, a loop on another thread, on a machine with at least two threads by default, calls back with the identifier 1, although num_threads() is 1. The number is set for the calling thread only.
* `C106_negation_none_left` — C106, negation. A configuration that leaves no thread is accepted: on a machine with m hardware threads, every number from -m downwards makes num_threads() zero or negative, and a loop still calls back, with the identifier 0. The number -1 of the project's example does this on a machine with one hardware thread.
* `C106_negation_nested` — C106, negation. In loops inside of loops the callbacks of all threads have the identifier 0: two of them are in progress at the same time.
* `C106_negation_two_loops` — C106, negation. Loops of two threads of the system at the same time use the same identifiers.
* `C106_negation_main_thread` — C106, negation. Every thread of the system is the main thread according to main_thread(), as long as it is not in a loop.

### C107 Lights at infinity reach the whole scene — partial

*Model and proof.* Model: the second half of build for any number of scenes that share a table of lights, on top of the scene graph of C39/C40. Proof: induction over the visited nodes (the box contains the corners, and lies in every box that does), convexity of triangles, the disk of C46; an invariant of histories keeps the sphere of a light until a scene that has it is built. Disagreements with the code: the sphere is stored in the light asset, so building a second scene that uses the same light takes the first scene out of reach (C107_negation_shared); in scenes of about a millimetre emission rays start closer to the surface than the distance below which ray queries ignore intersections (C107_negation_tiny).

*Files.* Props/C107_Extent

* `C107_contains` — C107. What build finds is the extent of the scene: when the traversal returns, the box contains every triangle of the scene, whichever path leads to it.
* `C107_smallest` — C107. And no more than that: if some corner has coordinates of at most 10^10 (the largest number the framework calls finite), the box lies in every box that contains the corners of the scene.
* `C107_same_triangles` — C107. The built-in acceleration structure, built by the same call, knows exactly the triangles the box was made of.
* `C107_covers_partial` — C107 (partial). A light at infinity reaches the whole scene: whatever was called before, after build every light at infinity that the scene has keeps a sphere of positive radius, until a scene that has the same light is built, such that a directional light shining in any direction generates, for some random numbers, a ray that passes through any given point on the triangles of the scene as it was built — and reaches it at a distance between 1/101 of the radius and the diameter. So does a constant environment light, for every direction but one. Missing: building another scene with the same light (C107_negation_shared); that a ray query finds the point (C107_negation_tiny); the directions that environment maps choose.

*False of the code:*

* `C107_negation_shared` — C107, negation. The sphere belongs to the light, not to the scene: after building a second scene that uses the same light asset, no emission ray of the light, whatever the random numbers, passes through a point of the first scene, although neither the first scene nor the light was touched.
* `C107_negation_tiny` — C107, negation. "Reaches" is not "meets": the sphere is larger than the scene by one percent only, so in a scene of about a millimetre an emission ray along the diagonal arrives at a corner within less than 10^-4, the distance below which ray queries ignore intersections. Every emission ray towards the corner does so.

### C108 The OBJ loader plugin hands over what the file contains — partial

*Model and proof.* Model/TinyObj: the function load of the plugin from what the parser library returns (flat arrays, ids, indices) to the calls of the callbacks; accesses outside of arrays are undefined, and the parameters of the default material that are never assigned are an argument. Specification: the layout of vectors and triangles in the arrays. Proof: the loop over indices refines the recursion over faces of C61 (induction over the rest of the shape), then lists of shapes; together with C62 for the primitives. Disagreements with the code: the first face after a change of material is lost; the default material may emit light, depending on uninitialised memory; files without positions and shapes without faces are undefined (negations).

*Files.* Props/C108_Plugin

* `C108_geometry` — Every such file loads, and the positions, normals and texture coordinates handed over are those of the file, all of them and in order.
* `C108_materials` — A file with materials: they are handed over in the order of the file, each with its name, kind, colours, texture, index of refraction, exponent and anisotropy.
* `C108_faces_partial` — When every shape has faces of one material only: the meshes are the shapes, one each and in order, with all faces of the shape and the material they name (the first material when they name none). Missing: shapes with faces of several materials (C108_negation_lost); shapes without faces and files without positions (C108_negation_undefined).
* `C108_owned` — For every file that loads, each mesh has one of the materials handed over: with C62, each primitive of the model gets it.
* `C108_default_partial` — A file without materials: one material named default, diffuse and white, for all meshes. When the memory of the unassigned parameters happens to hold zeros it is the default material of the built-in loader. Missing: other contents of this memory (C108_negation_default).

*False of the code:*

* `C108_negation_lost` — In general the corners handed over, mesh after mesh, are those of the faces that have the material of the face before them: the first face after each change of material is in no mesh.
* `C108_negation_default` — The same file, the same settings: whether the triangle is a light depends on what was in memory. The default material of the built-in loader emits nothing.
* `C108_negation_undefined` — A file without positions, and a file with a shape without faces, are read outside of arrays.

### C109 Polled values reach the function registered last — partial

*Model and proof.* Model/Poll: the context of debug.cpp as a slot with copies of functions, which run as programs that poll, register and read what they have captured; reading from a copy that has been replaced is undefined, and recursion is bounded by a number of steps that theorems quantify over. Specification: the function registered last in a history. Proof: an invariant between the slot, the calls made and the history, by induction over the steps. Disagreement with the code: a function that replaces itself and then reads what it has captured has been destroyed (negation). Not modelled: calls of poll and reg_on_poll in several threads.

*Files.* Props/C109_Poll

* `C109_latest` — C109. Whatever a program and the functions it registers do (functions may poll values and register other functions while they run), if it ends without undefined behaviour, then the functions have been called exactly as they should: every polled value was given, in order, to the function registered last at that moment, once, and to no other; also if lm was initialised or shut down in between. `trace` is the sequence of what has been done.
* `C109_history` — C109. If the registered functions do not poll or register themselves, every history of calls ends, with the calls of the functions that the history asks for.
* `C109_defined_partial` — C109. Functions may register other functions while they run, also in place of themselves, and poll values, if they read what they have captured only before that; there is no undefined behaviour then. This holds for all functions registered from Python, where the wrapper reads the function before it calls it. Missing: functions that read what they have captured later, for which it is false (`C109_negation_replaced`).

*False of the code:*

* `C109_negation_replaced` — C109, violated. A function that registers another function, or itself again, in place of itself and then reads something it has captured: its copy has been destroyed.

### C110 Messages of several threads are printed whole — partial

*Model and proof.* Model/LogThreads: threads as programs of calls, a schedule of steps of threads: the comparison of severities without the lock, taking the lock, writing one character, releasing. What a call does with the lock is the function of Model/Logger. Proof: linearisation; an invariant relates the state, with what the holder of the lock has yet to write, to the sequential run of the calls that have taken effect. Disagreements with the code: set_severity races with log, and before the initialisation messages are written without a lock (negations).

*Files.* Props/C110_LogThreads

* `C110_whole_partial` — C110. Any number of threads log messages and change the indentation, under every schedule: when they have ended, there is one order of all calls, which contains the calls of every thread in its order, such that what has been printed and the state of the logger are as if the calls had been made in this order, one after another. So every message that passes the filter is printed completely, once, and no other text is between its characters and lines. Missing: threads that call set_severity (`C110_negation_severity`), and the time before the initialisation (`C110_negation_fallback`).
* `C110_progress_partial` — C110. No schedule leads to a deadlock: as long as a thread has not ended, some thread can go on. Missing: as for `C110_whole_partial`.
* `C110_no_race_partial` — C110. Without set_severity there is no data race. Missing: as for `C110_whole_partial`.

*False of the code:*

* `C110_negation_severity` — C110, violated by set_severity. A thread that calls it while another thread logs a message: a data race on the threshold.
* `C110_negation_fallback` — C110, violated before the initialisation, when messages are written without a lock. Two threads print "a" and "b", and both lines are mixed.

