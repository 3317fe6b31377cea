{
 "claims": [
  {
   "property": "C01",
   "status": "proved",
   "theorems": [
    "LM.Registry.C01_create_last_writer_wins",
    "LM.Registry.C01_create_fails_iff"
   ],
   "note": ""
  },
  {
   "property": "C02",
   "status": "partial",
   "theorems": [
    "LM.Plugin.C02_refines",
    "LM.Plugin.C02_error_changes_nothing",
    "LM.Plugin.C02_reload_noop",
    "LM.Plugin.C02_unload_unknown",
    "LM.Plugin.C02_handles_accounted",
    "LM.Plugin.C02_unload_all_releases",
    "LM.Plugin.C02_negation_unload_all_leak"
   ],
   "note": "False of the code: when `dlclose` is refused during unload-all the handle is forgotten: it is open, not held by any plugin entry, and can never be released."
  },
  {
   "property": "C03",
   "status": "partial",
   "theorems": [
    "LM.Locator.C03_get_by_path_partial",
    "LM.Locator.C03_get_own_loc_partial",
    "LM.Locator.C03_get_sound",
    "LM.Locator.C03_get_malformed",
    "LM.Locator.C03_negation_dotted_null",
    "LM.Locator.C03_negation_dotted_throws"
   ],
   "note": "False of the code: a component whose name contains a dot cannot be found through its own locator, although the hierarchy is well located: lookup answers null, ... / ... and for materials inside `model::wavefrontobj` it even throws `std::out_of_range`. Partial theorems: Missing for the full claim: names containing a dot, see the negations. Missing: names containing a dot (C03_negation_dotted_null, C03_negation_dotted_throws)."
  },
  {
   "property": "C04",
   "status": "proved",
   "theorems": [
    "LM.Locator.C04_name_parent_of_make",
    "LM.Locator.C04_make_injective",
    "LM.Locator.C04_make_defined",
    "LM.Locator.C04_root",
    "LM.Locator.C04_boundary_dotted"
   ],
   "note": ""
  },
  {
   "property": "C05",
   "status": "proved",
   "theorems": [
    "LM.Context.C05_use_iff",
    "LM.Context.C05_at_most_one_alive",
    "LM.Context.C05_released_exactly_once",
    "LM.Context.C05_failed_init"
   ],
   "note": ""
  },
  {
   "property": "C06",
   "status": "partial",
   "theorems": [
    "LM.User.C06_active_ok",
    "LM.User.C06_inactive_rejects_partial",
    "LM.User.C06_root_identity",
    "LM.User.C06_negation_uninitialized",
    "LM.User.C06_negation_after_shutdown"
   ],
   "note": "False of the code: saving or loading before init dereferences a null pointer, and `assets()` before init returns null instead of raising. / after shutdown the calls still operate on the old root group instead of raising. Partial theorems: Missing: `assets`, `reset`, `save_state_to_file`, `load_state_from_file` do not check, see the negations."
  },
  {
   "property": "C07",
   "status": "proved",
   "theorems": [
    "LM.AssetGroup.C07_refines",
    "LM.AssetGroup.C07_no_ub",
    "LM.AssetGroup.C07_load_then_lookup",
    "LM.AssetGroup.C07_refused_changes_nothing",
    "LM.AssetGroup.C07_slot_stable"
   ],
   "note": ""
  },
  {
   "property": "C08",
   "status": "partial",
   "theorems": [
    "LM.AssetGroup.C08_consistent",
    "LM.AssetGroup.C08_valid_names_good",
    "LM.AssetGroup.C08_negation_serialized_bad_name"
   ],
   "note": "False of the code: load_serialized accepts names that load_asset refuses; a dotted one is registered but (C03) not reachable by locator."
  },
  {
   "property": "C09",
   "status": "proved",
   "theorems": [
    "LM.Reload.C09_redirected",
    "LM.Reload.C09_rest_unchanged",
    "LM.Reload.C09_new_asset_untouched",
    "LM.Reload.C09_no_use_after_free",
    "LM.Reload.C09_completes",
    "LM.Reload.C09_invariant",
    "LM.Reload.C09_old_unreferenced",
    "LM.Reload.C09_history"
   ],
   "note": ""
  },
  {
   "property": "C10",
   "status": "partial",
   "theorems": [
    "LM.Reload.C10_negation_unreported_ref_dangles",
    "LM.Reload.C10_negation_medium",
    "LM.Reload.C10_all_reported_partial",
    "LM.Reload.C10_negation_classes"
   ],
   "note": "False of the code: a reference held by a component that does not report it still has the identity of the replaced asset after the reload, and that component no longer exists. Whatever the hierarchy. / with medium::homogeneous holding a phase function, reloading the phase function completes and leaves the medium with a pointer to the released instance 2. / these are exactly the classes that keep a reference the reload cannot redirect. Partial theorems: Missing: the classes that do not report."
  },
  {
   "property": "C11",
   "status": "partial",
   "theorems": [
    "LM.AssetGroup.C11_refused_load_keeps_asset_partial",
    "LM.AssetGroup.C11_negation_construct_throws",
    "LM.AssetGroup.C11_negation_first_load_throws",
    "LM.AssetGroup.C11_negation_serialized_name_taken",
    "LM.Reload.C11_negation_refs_dangle"
   ],
   "note": "False of the code: when construct() of the replacement throws, the name denotes the half-constructed component, the previous asset (identity 1) is gone. / a failing first load leaves a half-constructed asset registered. / after a failed load_serialized (e.g. missing file) the name is taken by a null slot and every later load_serialized under that name is refused, even with a correct file. / when `construct` of the replacement throws, references to the old asset are not updated although it is released: every one of them dangles afterwards."
  },
  {
   "property": "C12",
   "status": "proved",
   "theorems": [
    "LM.Archive.C12_round_trip",
    "LM.Archive.C12_unambiguous",
    "LM.Archive.C12_truncated_rejected",
    "LM.Archive.C12_bytes",
    "LM.Archive.C12_map_round_trip"
   ],
   "note": ""
  },
  {
   "property": "C13",
   "status": "partial",
   "theorems": [
    "LM.SaveLoad.C13_round_trip",
    "LM.SaveLoad.C13_saved_implies_exposed",
    "LM.SaveLoad.C13_negation_unexposed_scheduler",
    "LM.SaveLoad.C13_negation_unknown_key"
   ],
   "note": "False of the code: renderer::pt, renderer::lt and renderer::volpt own a scheduler with the locator \"<renderer>.scheduler\" (src/renderer/renderer_pt.cpp:62-76, renderer_lt.cpp:45-47, renderer_volpt.cpp:46-52) but do not override `underlying`, so the lookup of that locator gives null: any tree that contains such a renderer, at any place, cannot be saved. / If the implementation of one component is not registered when loading, its saved contents are not skipped: the components that follow are lost without an error (here \"b\" disappears and data is left over)."
  },
  {
   "property": "C14",
   "status": "partial",
   "theorems": [
    "LM.SaveLoad.C14_inside_relocates",
    "LM.SaveLoad.C14_accepted_iff",
    "LM.SaveLoad.C14_outside_refused_partial",
    "LM.SaveLoad.C14_negation_sibling"
   ],
   "note": "False of the code: For every asset name `n` and every sibling name `n ++ x` extending it: a reference from the asset to (a component `rest` below) the sibling is accepted, and after loading under any new name `m` it denotes something else, outside of the new asset as well: `m ++ x`. Partial theorems: Missing: that exception, see C14_negation_sibling."
  },
  {
   "property": "C15",
   "status": "partial",
   "theorems": [
    "LM.ClassState.C15_restored",
    "LM.ClassState.C15_negation_incomplete_classes",
    "LM.ClassState.C15_negation_lost_members",
    "LM.ClassState.C15_complete_classes_partial"
   ],
   "note": "False of the code: Exactly these classes lose members over save and load (with the lost members); all others are complete. / the lost members. Partial theorems: Missing: the classes of the negation above."
  },
  {
   "property": "C16",
   "status": "proved",
   "theorems": [
    "LM.Json.C16_vec_round_trip",
    "LM.Json.C16_vec_reject",
    "LM.Json.C16_mat_column_order",
    "LM.Json.C16_mat_round_trip",
    "LM.Json.C16_mat_reject",
    "LM.Json.C16_merge",
    "LM.Json.C16_merge_keys_distinct",
    "LM.Json.C16_value",
    "LM.Json.C16_value_default",
    "LM.Json.C16_value_or_none",
    "LM.Json.C16_comp_ref",
    "LM.Json.C16_comp_ref_or_null"
   ],
   "note": ""
  },
  {
   "property": "C17",
   "status": "proved",
   "theorems": [
    "LM.Parallel.C17_each_index_once",
    "LM.Parallel.C17_terminates",
    "LM.Parallel.C17_can_finish"
   ],
   "note": ""
  },
  {
   "property": "C18",
   "status": "proved",
   "theorems": [
    "LM.Parallel.C18_exceptions",
    "LM.Parallel.C18_no_silent_skip"
   ],
   "note": ""
  },
  {
   "property": "C19",
   "status": "partial",
   "theorems": [
    "LM.Parallel.C19_progress_partial",
    "LM.Parallel.C19_first_loop_partial",
    "LM.Parallel.C19_negation_leftover"
   ],
   "note": "False of the code: Two loops in a row, one thread, default interval 100: the first loop of 99 iterations leaves 99 in the thread-local counter; a second loop with a single iteration then reports a progress of 100 out of 1. Partial theorems: Missing: the bound n itself when counters are left over from an earlier loop, which is false (see the negation). Missing: later loops, whose progress counts what earlier loops left (C19_negation_leftover)."
  },
  {
   "property": "C20",
   "status": "proved",
   "theorems": [
    "LM.Scheduler.C20_spp_sample",
    "LM.Scheduler.C20_spi_sample"
   ],
   "note": ""
  },
  {
   "property": "C21",
   "status": "proved",
   "theorems": [
    "LM.Scheduler.C21_spp_time",
    "LM.Scheduler.C21_spi_time",
    "LM.Scheduler.C21_returns"
   ],
   "note": ""
  },
  {
   "property": "C22",
   "status": "proved",
   "theorems": [
    "LM.Film.C22_linearizable",
    "LM.Film.C22_prefix",
    "LM.Film.C22_lock_free",
    "LM.Film.C22_splats_sum"
   ],
   "note": ""
  },
  {
   "property": "C23",
   "status": "partial",
   "theorems": [
    "LM.Film.C23_inside_partial",
    "LM.Film.C23_defined_partial",
    "LM.Film.C23_cell",
    "LM.Film.C23_negation_undefined"
   ],
   "note": "False of the code: For every film there are finite raster positions for which the conversion to int is undefined. Partial theorems: Missing: coordinates whose product with the film size does not fit into int, where the code's behaviour is undefined (see the negation). Missing: larger coordinates, where the conversion is undefined (C23_negation_undefined)."
  },
  {
   "property": "C24",
   "status": "proved",
   "theorems": [
    "LM.Film.C24_mean"
   ],
   "note": ""
  },
  {
   "property": "C25",
   "status": "proved",
   "theorems": [
    "LM.Film.C25_clear",
    "LM.Film.C25_write",
    "LM.Film.C25_rescale",
    "LM.Film.C25_rescale_parallel",
    "LM.Film.C25_accum"
   ],
   "note": ""
  },
  {
   "property": "C26",
   "status": "proved",
   "theorems": [
    "LM.Film.C26_addressing",
    "LM.Film.C26_copy",
    "LM.Film.C26_mirror",
    "LM.Film.C26_flip_twice",
    "LM.Film.C26_buffer",
    "LM.Film.C26_byte_range"
   ],
   "note": ""
  },
  {
   "property": "C27",
   "status": "partial",
   "theorems": [
    "LM.Film.C27_detect_partial",
    "LM.Film.C27_unknown_extension",
    "LM.Film.C27_ok_iff_written",
    "LM.Film.C27_negation_channels",
    "LM.Film.C27_negation_written",
    "LM.Film.C27_negation_png"
   ],
   "note": "False of the code: For every film size w, h \u2265 1 there is an image with a NaN in it (third channel of the last pixel) that is written to a .pfm file, with success reported and no warning at all: the check looks at the first third of the values only. / Also when the check finds an invalid value the image is written and success is reported: a 1\u00d71 film with a NaN. / Saving a .png of a film with a value whose power is not finite converts a non-finite value to int: undefined behaviour, no check. Partial theorems: Missing: the remaining two thirds of the values (see the negation)."
  },
  {
   "property": "C28",
   "status": "proved",
   "theorems": [
    "LM.Dist.C28_pmf",
    "LM.Dist.C28_pmf_sum",
    "LM.Dist.C28_sample",
    "LM.Dist.C28_boundary_at_one"
   ],
   "note": ""
  },
  {
   "property": "C29",
   "status": "partial",
   "theorems": [
    "LM.Dist.C29_sample_partial",
    "LM.Dist.C29_integral_partial",
    "LM.Dist.C29_negation_reinit"
   ],
   "note": "False of the code: Re-initialising is not the same as building a fresh distribution: the marginal is not cleared. For every image with one row of one positive weight, building a fresh distribution gives marginal {0, 1} but building it twice with the same data gives a marginal with three entries. Partial theorems: Missing: a distribution that is initialised again (C29_negation_reinit). Missing: a distribution that is initialised again (C29_negation_reinit)."
  },
  {
   "property": "C30",
   "status": "partial",
   "theorems": [
    "LM.Bound.C30_merge_contains",
    "LM.Bound.C30_merge_least",
    "LM.Bound.C30_mergeP_least",
    "LM.Bound.C30_algebra",
    "LM.Bound.C30_identity_partial",
    "LM.Bound.C30_default_empty",
    "LM.Bound.C30_negation_far",
    "LM.Bound.C30_sequence",
    "LM.Bound.C30_sequence_least_partial",
    "LM.Bound.C30_center_area"
   ],
   "note": "False of the code: For every point with a coordinate beyond 1e10 the bound of that single point (merged into the default box) also contains another point, so it is not the smallest box. Partial theorems: Missing: boxes beyond, where it is false (the sentinel is finite). Missing: points beyond 1e10."
  },
  {
   "property": "C31",
   "status": "proved",
   "theorems": [
    "LM.Bound.C31_conservative",
    "LM.Bound.C31_exact"
   ],
   "note": ""
  },
  {
   "property": "C32",
   "status": "proved",
   "theorems": [
    "LM.MathF.C32_basis",
    "LM.MathF.C32_frame",
    "LM.Surface.C32_surface_frame",
    "LM.Surface.C32_twosided"
   ],
   "note": ""
  },
  {
   "property": "C33",
   "status": "partial",
   "theorems": [
    "LM.MathF.C33_reflection",
    "LM.MathF.C33_total_iff",
    "LM.MathF.C33_snell",
    "LM.MathF.C33_refract_back_partial",
    "LM.MathF.C33_negation_backside"
   ],
   "note": "False of the code: An incident direction behind the normal is \"refracted\" to its own side, for every such direction without total reflection. Partial theorems: Missing: incident directions behind the normal, where both fail (next theorem)."
  },
  {
   "property": "C34",
   "status": "proved",
   "theorems": [
    "LM.MathF.C34_disk",
    "LM.MathF.C34_disk_onto",
    "LM.MathF.C34_cosine",
    "LM.MathF.C34_cosine_onto",
    "LM.MathF.C34_sphere",
    "LM.MathF.C34_sphere_onto",
    "LM.MathF.C34_triangle",
    "LM.MathF.C34_triangle_onto"
   ],
   "note": ""
  },
  {
   "property": "C35",
   "status": "partial",
   "theorems": [
    "LM.Bvh.C35_sound",
    "LM.Bvh.C35_complete_partial",
    "LM.Bvh.C35_negation_threshold",
    "LM.Bvh.C35_negation_small"
   ],
   "note": "False of the code: The determinant threshold is absolute: for every ray and triangle with determinant below 1e-8 in absolute value nothing is ever reported ... / although a ray perpendicular to a right triangle of side 1e-5 hits it. Partial theorems: Missing: non-parallel rays with a smaller determinant (next theorem)."
  },
  {
   "property": "C36",
   "status": "proved",
   "theorems": [
    "LM.Bvh.C36_terminates",
    "LM.Bvh.C36_no_stuck",
    "LM.Bvh.C36_in_range",
    "LM.Bvh.C36_built",
    "LM.Bvh.C36_total",
    "LM.Bvh.C36_remark_no_threads"
   ],
   "note": ""
  },
  {
   "property": "C37",
   "status": "partial",
   "theorems": [
    "LM.Bvh.C37_closest_partial",
    "LM.Bvh.C37_build_query_partial",
    "LM.Bvh.C37_returned_is_closest",
    "LM.Bvh.C37_ends",
    "LM.Bvh.C37_build_query"
   ],
   "note": "Partial theorems: Missing: deeper trees, where the stack overflows (C38). Missing: more triangles, for which the traversal stack may overflow (C38_negation_built)."
  },
  {
   "property": "C38",
   "status": "partial",
   "theorems": [
    "LM.Bvh.C38_small_partial",
    "LM.Bvh.C38_negation_overflow",
    "LM.Bvh.C38_negation_built"
   ],
   "note": "False of the code: For every n \u2265 99 there is a valid BVH over n + 1 (well-formed) triangles and a ray on which traversal writes beyond its stack. / there are 100 well-formed triangles, all inside the unit cube at the origin, and a ray such that building over them always completes into a tree \u2014 with any number of threads and any interleaving, whatever order the sorts leave equal keys in \u2014 on which this query writes beyond the traversal stack. `C38_small_partial` shows that 100 is the smallest such number. (Arithmetic is exact; the triangles shrink by a factor of 10 each, a range of 10^99, which fits doubles but not floats.) Partial theorems: Missing: larger trees (next theorem)."
  },
  {
   "property": "C39",
   "status": "partial",
   "theorems": [
    "LM.Scene.C39_wellformed",
    "LM.Scene.C39_stable",
    "LM.Scene.C39_returned",
    "LM.Scene.C39_failed_unchanged",
    "LM.Scene.C39_one_env_partial",
    "LM.Scene.C39_negation_two_envs",
    "LM.Scene.C39_remark_detached_env"
   ],
   "note": "False of the code: A model can bring a second environment light, which is accepted silently (here by add_child_from_model; create_group_from_model behaves alike). Partial theorems: Missing: environment lights inside models (next theorem)."
  },
  {
   "property": "C40",
   "status": "proved",
   "theorems": [
    "LM.Scene.C40_every_path_once",
    "LM.Scene.C40_returns",
    "LM.Scene.C40_cycle",
    "LM.Scene.C40_api_scenes",
    "LM.Scene.C40_remark_cycle_accepted"
   ],
   "note": ""
  },
  {
   "property": "C41",
   "status": "partial",
   "theorems": [
    "LM.Scene.C41_selectable",
    "LM.Scene.C41_node_to_light",
    "LM.Scene.C41_inverse_partial",
    "LM.Scene.C41_negation_instanced"
   ],
   "note": "False of the code: With a light primitive instanced twice, a selectable light's node maps back to another light index, whose transform is a different one. Partial theorems: Missing: instanced lights (next theorem)."
  },
  {
   "property": "C42",
   "status": "partial",
   "theorems": [
    "LM.Scene.C42_uniform",
    "LM.Scene.C42_negation_no_light"
   ],
   "note": "False of the code: with no light, selection still answers, with the invalid index -1 and an infinite probability (looking that index up throws)."
  },
  {
   "property": "C43",
   "status": "proved",
   "theorems": [
    "LM.Surface.C43_symmetric",
    "LM.Surface.C43_nonneg",
    "LM.Surface.C43_formula",
    "LM.Surface.C43_infinite",
    "LM.Surface.C43_convert",
    "LM.Surface.C43_to_area"
   ],
   "note": ""
  },
  {
   "property": "C44",
   "status": "proved",
   "theorems": [
    "LM.Surface.C44_zero_iff",
    "LM.Surface.C44_same_normals",
    "LM.Surface.C44_adjoint",
    "LM.Surface.C44_boundary_grazing"
   ],
   "note": ""
  },
  {
   "property": "C45",
   "status": "partial",
   "theorems": [
    "LM.Transport.C45_masked_images_partial",
    "LM.Transport.C45_negation_mask_light",
    "LM.Transport.C45_masked_lit_partial",
    "LM.Transport.C45_masked_lit_naive_partial",
    "LM.Material.C45_diffuse",
    "LM.Material.C45_mirror_mask",
    "LM.Material.C45_glossy",
    "LM.Material.C45_fresnel_range",
    "LM.Material.C45_glass",
    "LM.Material.C45_mixture_rr",
    "LM.Material.C45_mixture_marginalized",
    "LM.Material.C45_groups",
    "LM.Material.C45_obj_mixture_partial",
    "LM.Material.C45_negation_obj_mask",
    "LM.Material.C45_proxy",
    "LM.Material.C45_remark_nested_glass"
   ],
   "note": "False of the code: Their effect on images: at a point where the mask of an OBJ material is alpha, the transparent component of the material transmits the part 1 - alpha of the light, straight on, but that of the material for which the path tracer computes the image (`C45_masked_images_partial`) transmits all of it; unless alpha is 0, this is a different image. / The pass-through component of the OBJ mixture returns weight 1, but density 1 and value 1 - alpha: weight \u00b7 density \u2260 value whenever the mask is partly opaque, for all underlying materials. (The code computes C = f/p and then returns Vec3(1).) Partial theorems: Missing: the surface should transmit 1 - alpha of the light; the sampled weight of the transparent component is 1 instead (`C45_negation_obj_mask`). Missing: the surface should transmit 1 - alpha of the light; the sampled weight of the transparent component is 1 instead (`C45_negation_obj_mask`). Missing: as for `C45_masked_lit_partial`, and the light of the point lights and directional lights (`C100_negation_naive`). Missing: the alpha mask component (C45_negation_obj_mask)."
  },
  {
   "property": "C46",
   "status": "partial",
   "theorems": [
    "LM.Light.C46_env_round_trip",
    "LM.Light.C46_env_ray",
    "LM.Light.C46_env_direct_partial",
    "LM.Light.C46_negation_env_weights",
    "LM.Light.C46_point",
    "LM.Light.C46_directional",
    "LM.Light.C46_envconst",
    "LM.Light.C46_area",
    "LM.Light.C46_area_direct",
    "LM.Light.C46_area_density_partial",
    "LM.Light.C46_negation_scaled_area",
    "LM.Light.C46_rays_cover",
    "LM.Path.C46_path_primary_light_partial",
    "LM.Path.C46_path_primary_camera",
    "LM.Path.C46_path_direct_light_partial",
    "LM.Path.C46_path_direct_camera_partial",
    "LM.Path.C46_path_position_camera",
    "LM.Path.C46_path_position_light_partial",
    "LM.Path.C46_negation_path_position",
    "LM.Path.C46_path_component",
    "LM.Path.C46_path_direction",
    "LM.Path.C46_negation_instanced",
    "LM.Light.C46_camera_ray",
    "LM.Light.C46_camera_direct_partial",
    "LM.Light.C46_negation_camera_direct"
   ],
   "note": "False of the code: the row angle is computed from i / w as a floating point number, so it grows along the row. Every texel in the right half of the last row gets a negative weight (hence a negative selection probability and density), for every map width and height and however bright the texel. / under uniform scaling by s \u2260 1 the reported position density (used for weights, densities and MIS) is 1/s times the true density, on every triangle of every mesh: the volume factor s\u00b3 is used in place of the area factor s\u00b2. / the weight misses the selection probability, so weight \u00b7 density is 1/n. / the density is evaluated with the transform of another instance. Stated for any scene whose table lists the light node under index i with transform M, while the node maps to index j with transform M'. / a point in front of the camera but outside of the frame is connected with a non-zero weight although the importance is zero. Partial theorems: Missing: negative weights (C46_negation_env_weights). Missing: scaling (next theorem). Missing: instanced lights, see the negation. Missing: lights placed several times (C46_negation_instanced). Missing: points outside of the frame (C46_negation_camera_direct). Missing: see the negation. Missing: points outside of the frame (next theorem)."
  },
  {
   "property": "C47",
   "status": "proved",
   "theorems": [
    "LM.Light.C47_look_at",
    "LM.Light.C47_fov",
    "LM.Light.C47_primary",
    "LM.Light.C47_raster",
    "LM.Light.C47_round_trip",
    "LM.Light.C47_inverse",
    "LM.Light.C47_behind",
    "LM.Light.C47_none"
   ],
   "note": ""
  },
  {
   "property": "C48",
   "status": "proved",
   "theorems": [
    "LM.Path.C48_connect",
    "LM.Path.C48_when"
   ],
   "note": ""
  },
  {
   "property": "C49",
   "status": "proved",
   "theorems": [
    "LM.Path.C49_weight"
   ],
   "note": ""
  },
  {
   "property": "C50",
   "status": "proved",
   "theorems": [
    "LM.Path.C50_power",
    "LM.Path.C50_partition",
    "LM.Path.C50_zero",
    "LM.Path.C50_combined"
   ],
   "note": ""
  },
  {
   "property": "C51",
   "status": "proved",
   "theorems": [
    "LM.Path.C51_cache",
    "LM.Path.C51_balance",
    "LM.Path.C51_partition",
    "LM.Path.C51_density"
   ],
   "note": ""
  },
  {
   "property": "C52",
   "status": "partial",
   "theorems": [
    "LM.Path.C52_length_partial",
    "LM.Path.C52_extend",
    "LM.Path.C52_terminates",
    "LM.Path.C52_negation"
   ],
   "note": "False of the code: whenever a primary ray is sampled and hits something the subpath has two vertices. Partial theorems: Missing: the maximum 1 (C52_negation)."
  },
  {
   "property": "C53",
   "status": "partial",
   "theorems": [
    "LM.Render.C53_defined",
    "LM.Render.C53_expectation",
    "LM.Render.C53_walk_defined",
    "LM.Render.C53_walk_unbiased",
    "LM.Render.C53_pt",
    "LM.Render.C53_volpt_partial",
    "LM.Render.C53_lt",
    "LM.Render.C53_negation_rr_prob"
   ],
   "note": "False of the code: for rr_prob \u2265 1 no path survives, so every path is lost from the seventh vertex on; for rr_prob < 0 and a throughput above 1, every path survives but is scaled down by 1 / (1 - q) < 1. Partial theorems: Missing: other values of the rr_prob parameter, see the negation."
  },
  {
   "property": "C54",
   "status": "partial",
   "theorems": [
    "LM.Render.C54_material_plain",
    "LM.Render.C54_light_plain",
    "LM.Render.C54_once_partial",
    "LM.Render.C54_light_sample_alone",
    "LM.Render.C54_hit_alone",
    "LM.Render.C54_sample",
    "LM.Render.C54_volpt_sample",
    "LM.Render.C54_volpt_techniques",
    "LM.Render.C54_lt_sample",
    "LM.Render.C54_negation_weights",
    "LM.Render.C54_negation_smooth_light",
    "LM.Render.C54_negation_pt_nee_path"
   ],
   "note": "False of the code: If the light vertex found by the hit has another density than the one found by the light sample (see `C54_negation_smooth_light`), the path is not counted once: the two weights do not sum to 1. / A mesh light with interpolated normals: sampling the light evaluates its density with the face normal gn (light_area.cpp:66-73 builds the point geometry with it), the hit with the interpolated normal n. Whenever both face the shaded point and make different angles with the connection, the two densities differ, so by `C54_negation_weights` the path is not counted once. / renderer::pt_nee_path samples one light vertex and connects it to the eye subpath, or uses the hit if the last eye vertex is specular. If the sampled light is at infinity (environment or directional light) and no eye vertex is specular, every connection fails, for all subpaths and limits: the path is counted zero times. Partial theorems: Missing: lights with interpolated normals (C54_negation_smooth_light)."
  },
  {
   "property": "C55",
   "status": "proved",
   "theorems": [
    "LM.Render.C55_bdpt",
    "LM.Render.C55_pt_naive",
    "LM.Render.C55_pt_nee",
    "LM.Render.C55_lt_nee",
    "LM.Render.C55_boundary_min_verts"
   ],
   "note": ""
  },
  {
   "property": "C56",
   "status": "partial",
   "theorems": [
    "LM.Rng.C56_fresh_partial",
    "LM.Rng.C56_negation_seed_ignored",
    "LM.Rng.C56_negation_twice"
   ],
   "note": "False of the code: Once the threads have run a renderer of the class, the seed is ignored: any later render, with whatever seed or none, gives the same image as with any other. / Rendering twice with the same renderer, seed (5489), schedule and a scene of one pixel does not give the same image twice. Partial theorems: Missing: threads that have run the renderer before (C56_negation_twice)."
  },
  {
   "property": "C57",
   "status": "proved",
   "theorems": [
    "LM.Volume.C57_checker",
    "LM.Volume.C57_checker_cells",
    "LM.Volume.C57_constant",
    "LM.Volume.C57_remark_constant_default_bound",
    "LM.Volume.C57_gaussian",
    "LM.Volume.C57_gaussian_bound",
    "LM.Volume.C57_sphere",
    "LM.Volume.C57_multi",
    "LM.Volume.C57_multi_color",
    "LM.Volume.C57_remark_gaussian_cutoff"
   ],
   "note": ""
  },
  {
   "property": "C58",
   "status": "partial",
   "theorems": [
    "LM.Path.C58_path_distance_partial",
    "LM.Path.C58_path_transmittance_partial",
    "LM.Path.C58_remark_no_medium",
    "LM.Volume.C58_transmittance_partial",
    "LM.Volume.C58_multiplicative_partial",
    "LM.Volume.C58_distance_partial",
    "LM.Volume.C58_negation_graze",
    "LM.Volume.C58_delta_tracking_partial",
    "LM.Volume.C58_delta_homogeneous",
    "LM.Volume.C58_ratio_tracking_partial"
   ],
   "note": "False of the code: the range is not a number, so the transmittance is undefined although the ray crosses the (closed) medium, and no distance is sampled. Partial theorems: Missing: rays running inside a face plane of the bound (C58_negation_graze). Missing: rays running inside a face plane of the bound (C58_negation_graze). Missing: rays running inside a face plane of the bound (C58_negation_graze). Missing: rays running inside a face plane of the bound (C58_negation_graze). Missing: rays running inside a face plane of the bound (C58_negation_graze). Missing: rays running inside a face plane of the bound (C58_negation_graze), and media whose maximum density is zero, for which the code divides by zero. Missing: rays running inside a face plane of the bound (C58_negation_graze), and media whose maximum density is zero, for which the code divides by zero."
  },
  {
   "property": "C59",
   "status": "partial",
   "theorems": [
    "LM.Volume.C59_inversion_partial",
    "LM.Volume.C59_isotropic",
    "LM.Volume.C59_normalised",
    "LM.Volume.C59_azimuth",
    "LM.Volume.C59_weights",
    "LM.Volume.C59_isotropic_phase",
    "LM.Volume.C59_negation_small_g"
   ],
   "note": "False of the code: the isotropic branch is taken while the reported density is the anisotropic one; the cumulative mass at the sampled cosine is neither u0 nor 1 - u0. Partial theorems: Missing: 0 < |g| < Eps (C59_negation_small_g)."
  },
  {
   "property": "C60",
   "status": "proved",
   "theorems": [
    "LM.Obj.C60_index",
    "LM.Obj.C60_agree",
    "LM.Obj.C60_zero",
    "LM.Obj.C60_boundary_outside",
    "LM.Obj.C60_atoi",
    "LM.Obj.C60_corner"
   ],
   "note": ""
  },
  {
   "property": "C61",
   "status": "partial",
   "theorems": [
    "LM.Obj.C61_face",
    "LM.Obj.C61_quad_cover",
    "LM.Obj.C61_negation_polygon",
    "LM.Obj.C61_simple",
    "LM.Obj.C61_materials",
    "LM.Obj.C61_active",
    "LM.Obj.C61_lines",
    "LM.Obj.C61_negation_long_line",
    "LM.Obj.C61_negation_tiny",
    "LM.Obj.C61_negation_tiny_two",
    "LM.Obj.C61_tiny_partial"
   ],
   "note": "False of the code: A face with more than four corners loses all corners after the fourth. / A line that does not fit the line buffer ends the file: whatever follows is silently dropped and the load succeeds. / The plugin delivers exactly the faces whose material is that of the face before: the first face after every change of material is lost. / In particular, two faces with different materials: the second one is in no mesh. Partial theorems: Missing: shapes with faces of several materials (C61_negation_tiny, C61_negation_tiny_two)."
  },
  {
   "property": "C62",
   "status": "partial",
   "theorems": [
    "LM.Obj.C62_triples_partial",
    "LM.Obj.C62_loaded",
    "LM.Obj.C62_textures_partial",
    "LM.Obj.C62_succeeds",
    "LM.Obj.C62_roughness",
    "LM.Obj.C62_roughness_order",
    "LM.Obj.C62_material",
    "LM.Obj.C62_negation_duplicate",
    "LM.Obj.C62_negation_mesh_name",
    "LM.Obj.C62_negation_stem"
   ],
   "note": "False of the code: Two materials of the same name: a mesh with the first one gets the second one. / A material whose name is that of a mesh to come: the primitive gets the mesh as its material. / Texture files in different directories, or of different formats, with the same stem: only the first one is loaded, and both materials refer to it. Partial theorems: Missing: files with materials of the same name, or named like a mesh (C62_negation_duplicate, C62_negation_mesh_name). Missing: different files with the same stem (C62_negation_stem)."
  },
  {
   "property": "C63",
   "status": "partial",
   "theorems": [
    "LM.Pbrt.C63_world",
    "LM.Pbrt.C63_repeated_partial",
    "LM.Pbrt.C63_negation_first",
    "LM.Pbrt.C63_negation_nested"
   ],
   "note": "False of the code: The property fails: in a scene in which no object is instanced twice, no triangle mesh of any instanced object is in the scene graph (unless the same mesh is also a shape of the world itself). / The transform of a nested instance is wrong also where the instance is not lost: the transform of the first enclosing instance is applied as well. In exNested mesh 2 belongs at 14, 22, 21 and 33 and is shown at 66 only. Partial theorems: Missing from the property: the first instance of each object (C63_negation_first) and instances inside instanced objects (C63_negation_nested)."
  },
  {
   "property": "C64",
   "status": "proved",
   "theorems": [
    "LM.Log.C64_lines",
    "LM.Log.C64_log",
    "LM.Log.C64_scopes",
    "LM.Log.C64_scope_inside",
    "LM.Log.C64_uninitialised"
   ],
   "note": ""
  },
  {
   "property": "C65",
   "status": "proved",
   "theorems": [
    "LM.Progress.C65_mux",
    "LM.Progress.C65_tree",
    "LM.Progress.C65_start_first",
    "LM.Progress.C65_delay",
    "LM.Progress.C65_rate",
    "LM.Progress.C65_default",
    "LM.Progress.C65_default_defined",
    "LM.Progress.C65_boundary_no_start"
   ],
   "note": ""
  },
  {
   "property": "C66",
   "status": "partial",
   "theorems": [
    "LM.Texture.C66_coordinate",
    "LM.Texture.C66_periodic",
    "LM.Texture.C66_periodic_lookup",
    "LM.Texture.C66_lookup_partial",
    "LM.Texture.C66_pixel",
    "LM.Texture.C66_negation_channels",
    "LM.Texture.C66_negation_grey",
    "LM.Texture.C66_construct",
    "LM.Texture.C66_constant",
    "LM.Texture.C66_boundary_column"
   ],
   "note": "False of the code: the colour lookup in the last pixel of every such image reads beyond the data. / in a one-channel image the green and blue values come from the two pixels stored next. Partial theorems: Missing: images with one or two channels (see the negation)."
  },
  {
   "property": "C67",
   "status": "partial",
   "theorems": [
    "LM.Mesh.C67_triangle_raw",
    "LM.Mesh.C67_triangle_obj",
    "LM.Mesh.C67_foreach",
    "LM.Mesh.C67_count",
    "LM.Mesh.C67_foreach_defined",
    "LM.Mesh.C67_surface_raw",
    "LM.Mesh.C67_surface_obj",
    "LM.Mesh.C67_corners",
    "LM.Mesh.C67_surface_defined_partial",
    "LM.Mesh.C67_negation_mixed",
    "LM.Mesh.C67_raw_construct",
    "LM.Mesh.C67_obj_construct",
    "LM.Mesh.C67_triangle_pbrt",
    "LM.Mesh.C67_foreach_pbrt",
    "LM.Mesh.C67_defined_pbrt",
    "LM.Mesh.C67_surface_pbrt"
   ],
   "note": "False of the code: when the first corner has a normal and another has none, surface_point reads the normal array at index -1, although triangle_at accepts the face. Partial theorems: Missing: faces that mix corners with and without an attribute (see the negation)."
  },
  {
   "property": "C68",
   "status": "proved",
   "theorems": [
    "LM.MathF.C68_balance"
   ],
   "note": ""
  },
  {
   "property": "C69",
   "status": "proved",
   "theorems": [
    "LM.RenderFilm.C69_window",
    "LM.RenderFilm.C69_pixel_mean",
    "LM.RenderFilm.C69_pixel_mean_time",
    "LM.RenderFilm.C69_pixel_constant",
    "LM.RenderFilm.C69_image_mean",
    "LM.RenderFilm.C69_image_mean_time",
    "LM.RenderFilm.C69_no_loss",
    "LM.RenderFilm.C69_image_constant",
    "LM.RenderFilm.C69_cell_measure"
   ],
   "note": ""
  },
  {
   "property": "C70",
   "status": "proved",
   "theorems": [
    "LM.Material.C70_diffuse",
    "LM.Material.C70_mirror_mask",
    "LM.Material.C70_glossy",
    "LM.Material.C70_glass"
   ],
   "note": ""
  },
  {
   "property": "C71",
   "status": "partial",
   "theorems": [
    "LM.Registry.C71_unreg_keeps_other_keys",
    "LM.Registry.C71_unreg_keeps_other_names_partial",
    "LM.Registry.C71_negation_override_lost",
    "LM.Registry.C71_negation_alias_lost"
   ],
   "note": "False of the code: two implementations registered under the same key (e.g. built-in and overriding plugin); unregistering the first one, still alive as a RegEntry, removes the second, live one. / an alias taken over by another key disappears when the former owner is unregistered. Partial theorems: Missing for the full property: names that another registration shares with the unregistered one, see the negations below."
  },
  {
   "property": "C72",
   "status": "partial",
   "theorems": [
    "LM.Plugin.C72_scoped_load_ok",
    "LM.Plugin.C72_negation_partial_load_stays",
    "LM.Plugin.C72_leave",
    "LM.Plugin.C72_scope_partial",
    "LM.Plugin.C72_negation_already_loaded",
    "LM.Plugin.C72_negation_twice",
    "LM.Plugin.C72_negation_failed_stays",
    "LM.Plugin.C72_failed_first_partial"
   ],
   "note": "False of the code: when the second plugin of a scoped load fails, the constructor throws, the destructor does not run, and the first plugin stays loaded although the guard never existed. / A guard for a plugin that is loaded already loads nothing, and unloads the plugin when it is destroyed: the plugin somebody else loaded is gone. / A guard that lists a plugin twice is constructed without complaint, and ends the program when it is destroyed, whatever the system answers: the second unload fails, in a destructor. / when a plugin of the list cannot be loaded, the guard is not constructed, and all plugins before it in the list stay loaded. Partial theorems: Missing: plugins that were loaded before (C72_negation_already_loaded), or listed twice (C72_negation_twice). Missing: a later one (C72_negation_failed_stays)."
  },
  {
   "property": "C73",
   "status": "partial",
   "theorems": [
    "LM.Surface.C73_infinite_symmetric",
    "LM.Surface.C73_clear",
    "LM.Surface.C73_blocked_partial",
    "LM.Surface.C73_negation_asymmetric"
   ],
   "note": "False of the code: Visibility is not symmetric: the lower end of the query is absolute (Eps) and the upper end relative (Eps\u00b7d). Points at distance 10 with an occluder 0.005 from the first one see each other in one direction only. Partial theorems: Missing: occluders closer to an end (next theorem)."
  },
  {
   "property": "C74",
   "status": "proved",
   "theorems": [
    "LM.Surface.C74_affine",
    "LM.Surface.C74_normal",
    "LM.Surface.C74_triangle_normal",
    "LM.Surface.C74_hit_on_ray"
   ],
   "note": ""
  },
  {
   "property": "C75",
   "status": "proved",
   "theorems": [
    "LM.Surface.C75_local_trig",
    "LM.Surface.C75_boundary_plane"
   ],
   "note": ""
  },
  {
   "property": "C76",
   "status": "proved",
   "theorems": [
    "LM.Material.C76_diffuse",
    "LM.Material.C76_glossy",
    "LM.Material.C76_glass",
    "LM.Material.C76_glass_energy"
   ],
   "note": ""
  },
  {
   "property": "C77",
   "status": "partial",
   "theorems": [
    "LM.Path.C77_reciprocal_partial",
    "LM.Path.C77_local_partial",
    "LM.Path.C77_diffuse_partial",
    "LM.Path.C77_negation_shading_normal"
   ],
   "note": "False of the code: light at distance 1 above a diffuse surface point, camera at distance 5, shading normal (0, 0, 1), geometric normal (3/5, 0, 4/5). Connecting one light vertex with two eye vertices gives the contribution f, connecting two light vertices with one eye vertex gives 2 f: the shading normal correction is applied in one direction only, while the geometry terms use the shading normal in both. Partial theorems: Missing: vertices that scatter differently in the two directions, such as those with interpolated normals (C77_negation_shading_normal). Missing: vertices that scatter differently in the two directions (C77_negation_shading_normal). Missing: interpolated normals (C77_negation_shading_normal)."
  },
  {
   "property": "C78",
   "status": "proved",
   "theorems": [
    "LM.Rng.C78_range",
    "LM.Rng.C78_next",
    "LM.Rng.C78_float",
    "LM.Rng.C78_seeds",
    "LM.Rng.C78_threads",
    "LM.Rng.C78_boundary_consecutive"
   ],
   "note": ""
  },
  {
   "property": "C79",
   "status": "partial",
   "theorems": [
    "LM.Log.C79_replaces_partial",
    "LM.Log.C79_negation_leftover",
    "LM.Log.C79_negation_end"
   ],
   "note": "False of the code: after a shorter progress message the end of the longer message before it stays on the line (the padding that should hide it is never written). / the end of a progress report is not followed by a line feed, so the next message is written over it on the same line. Partial theorems: Missing: shorter messages, and the end of the report (see the negations)."
  },
  {
   "property": "C80",
   "status": "partial",
   "theorems": [
    "LM.Solid.C80_area_position_partial",
    "LM.Solid.C80_negation_area_scaled",
    "LM.Solid.C80_camera",
    "LM.Solid.C80_sphere",
    "LM.Solid.C80_cosine",
    "LM.Solid.C80_disk",
    "LM.Solid.C80_area_direct_partial",
    "LM.Solid.C80_dist2_partial",
    "LM.Solid.C80_env_direct_partial",
    "LM.Solid.C80_glossy",
    "LM.Solid.C80_point_light",
    "LM.Solid.C80_area_direction",
    "LM.Solid.C80_envconst_direct",
    "LM.Solid.C80_diffuse",
    "LM.Solid.C80_mixture_marginalized_partial",
    "LM.Solid.C80_mixture_rr",
    "LM.Solid.C80_obj_mixture",
    "LM.Solid.C80_negation_nested_mixture",
    "LM.Solid.C80_isotropic",
    "LM.Solid.C80_hg_partial",
    "LM.Solid.C80_hg_zero",
    "LM.Solid.C80_negation_hg_small"
   ],
   "note": "False of the code: Under uniform scaling by s \u2260 1 the points are not distributed with the reported density. / Mixtures may be nested, and the inner mixture then selects with the very random number the outer one has already selected with: the glossy material of the inner mixture is never sampled although both mixtures give it half of the weight. / For 0 < |g| < Eps directions are sampled uniformly while the density of the anisotropic distribution is reported. Partial theorems: Missing: transforms that do not scale areas by their determinant, for which the claim is false (next theorem). Missing: transforms that do not scale areas by their determinant (C46_negation_scaled_area). Missing: tables with zero rows (undefined), or that are initialised again (C29_negation_reinit). Missing: the weights the light actually computes can be negative (C46_negation_env_weights). Missing: mixtures of mixtures (C80_negation_nested_mixture). Missing: 0 < |g| < Eps (C80_negation_hg_small)."
  },
  {
   "property": "C81",
   "status": "partial",
   "theorems": [
    "LM.Solid.C81_area_direct_partial",
    "LM.Solid.C81_envconst_direct",
    "LM.Solid.C81_isotropic",
    "LM.Solid.C81_hg_partial",
    "LM.Solid.C81_camera",
    "LM.Solid.C81_env_direct_partial",
    "LM.Solid.C81_diffuse",
    "LM.Solid.C81_glossy",
    "LM.Solid.C81_mixture_rr",
    "LM.Solid.C81_obj_mixture",
    "LM.Solid.C81_mixture_marginalized_partial",
    "LM.Solid.C81_select_rr",
    "LM.Solid.C81_select_marginalized",
    "LM.Solid.C81_select_glass",
    "LM.Solid.C81_select_obj",
    "LM.Solid.C81_select_single",
    "LM.Solid.C81_reflected"
   ],
   "note": "Partial theorems: Missing: transforms that do not scale areas by their determinant (C80_negation_area_scaled). Missing: 0 < |g| < Eps, where the density is wrong (C80_negation_hg_small). Missing: the weights the light computes can be negative (C46_negation_env_weights). Missing: mixtures of mixtures (C80_negation_nested_mixture)."
  },
  {
   "property": "C82",
   "status": "proved",
   "theorems": [
    "LM.Transport.C82_scene",
    "LM.Transport.C82_modes_agree",
    "LM.Transport.C82_example",
    "LM.Transport.C82_example_lamp",
    "LM.Transport.C82_lamps",
    "LM.Transport.C82_map",
    "LM.Transport.C82_example_map",
    "LM.Transport.C82_walk",
    "LM.Transport.C82_outdoors",
    "LM.Transport.C82_pt",
    "LM.Transport.C82_scenes",
    "LM.Transport.C82_skins",
    "LM.Transport.C82_sky",
    "LM.Transport.C82_triangles",
    "LM.Transport.C82_naive_walk"
   ],
   "note": ""
  },
  {
   "property": "C83",
   "status": "partial",
   "theorems": [
    "LM.Bvh.C83_split_minimal_partial",
    "LM.Bvh.C83_leaf_ties",
    "LM.Bvh.C83_leaf_partial",
    "LM.Bvh.C83_negation_ties"
   ],
   "note": "False of the code: The triangles are sorted once more before they are split, and triangles with equal centres may come in another order than the one the cost was computed for. Three triangles, the first above the second, the third beside the second; one thread, and sorting that keeps the order of equal elements. The builder reaches a state in which it splits into {1} and {0, 2}, at a cost above that of a leaf, while the split {0}, {1, 2} it chose costs less than half of it. Partial theorems: Missing: triangles with equal centre coordinates (C83_negation_ties). Missing: triangles with equal centre coordinates, for which one of their orders along each axis is looked at (C83_leaf_ties), and nodes of area zero, for which the code divides by zero."
  },
  {
   "property": "C84",
   "status": "partial",
   "theorems": [
    "LM.Tracking.C84_ieee",
    "LM.Tracking.C84_empty_partial",
    "LM.Tracking.C84_ieee_media_partial",
    "LM.Tracking.C84_remark_empty_zero",
    "LM.Tracking.C84_ratio_partial",
    "LM.Tracking.C84_delta_partial",
    "LM.Tracking.C84_homogeneous_partial",
    "LM.Tracking.C84_library",
    "LM.Tracking.C84_media_partial",
    "LM.Tracking.C84_example_ball"
   ],
   "note": "Partial theorems: Missing: rays running inside a face plane of the bound (C58_negation_graze). Missing: rays running inside a face plane of the bound (C58_negation_graze). Missing: rays running inside a face plane of the bound (C58_negation_graze), and media whose maximum density is zero, for which the code divides by zero (see `C84_empty_partial`). Missing: rays running inside a face plane of the bound (C58_negation_graze), and media whose maximum density is zero, for which the code divides by zero (see `C84_empty_partial`). Missing: rays running inside a face plane of the bound (C58_negation_graze). Missing: rays running inside a face plane of the bound (C58_negation_graze), and densities that are identically zero, for which the code divides by zero (see `C84_empty_partial`)."
  },
  {
   "property": "C85",
   "status": "proved",
   "theorems": [
    "LM.Transport.C85_map",
    "LM.Transport.C85_example",
    "LM.Transport.C85_example_ball",
    "LM.Transport.C85_walk",
    "LM.Transport.C85_volpt",
    "LM.Transport.C85_scene"
   ],
   "note": ""
  },
  {
   "property": "C86",
   "status": "partial",
   "theorems": [
    "LM.Transport.C86_scenes_partial",
    "LM.Transport.C86_all_modes_partial",
    "LM.Transport.C86_negation_direct",
    "LM.Transport.C86_lt_partial",
    "LM.Transport.C86_same_image_partial",
    "LM.Transport.C86_lamps_partial",
    "LM.Transport.C86_lamps_same_image_partial",
    "LM.Transport.C86_specular_black",
    "LM.Transport.C86_negation_mirror",
    "LM.Transport.C86_outdoors_partial"
   ],
   "note": "False of the code: The light tracer and the path tracer do not compute the same image: there is a scene with one area light that the camera sees directly, in which for every maximal length of paths the image of the light tracer, summed up, is darker than that of the path tracer. The light tracer connects the vertices of the light path to the camera from the second one on, so that paths from the light to the camera are missing (renderer_lt.cpp). / The light tracer and the path tracer do not compute the same image in scenes with specular materials, not even up to the lights that the camera sees: there is a scene, a mirror under a constant sky, in which the light tracer computes black for every maximal length of paths and the path tracer the sky in the mirror, radiance 1, from three vertices on, while the camera sees no light directly. Partial theorems: Missing: lights other than area lights (`C86_lt_partial`, `C86_beam_partial` and others treat them under requirements on intersections), shading normals, and specular materials. Missing: as for `C86_lt_partial`. Missing: the light that arrives directly from the lights, which is not in the image of the light tracer (`C86_negation_direct`); scenes with specular materials (the connections to the camera miss them: `C86_specular_black`, `C86_negation_mirror`), with lights that are not area lights (point, directional and environment lights: `C86_lamps_partial`), with lights smoothed by shading normals, and with BSDFs that are not reciprocal. Missing: as for `C86_lt_partial`. Missing: as for `C86_lt_partial`, except for lights without extent and lights at infinity. Missing: as for `C86_lamps_partial`. Missing: specular materials; the point lights are in the planes of no triangles, and the directional lights are parallel to none."
  },
  {
   "property": "C87",
   "status": "proved",
   "theorems": [
    "LM.Transport.C87_bdpt",
    "LM.Transport.C87_pt_naive_path",
    "LM.Transport.C87_pt_nee_path",
    "LM.Transport.C87_lt_nee_path",
    "LM.Transport.C87_same_image",
    "LM.Transport.C87_scenes"
   ],
   "note": ""
  },
  {
   "property": "C88",
   "status": "partial",
   "theorems": [
    "LM.Transport.C88_scenes_partial",
    "LM.Transport.C88_subpaths",
    "LM.Transport.C88_bdptopt_partial",
    "LM.Transport.C88_same_image_partial",
    "LM.Transport.C88_brighter",
    "LM.Render.C88_connects",
    "LM.Transport.C88_negation_mixture"
   ],
   "note": "False of the code: renderer::bdptopt and the path tracer do not compute the same image: there is a scene with one area light on a surface whose material is a mixture of two materials, in which for every maximal length of paths the image of renderer::bdptopt, summed up, is brighter than that of the path tracer. The contribution of paths whose last vertex is found by sampling directions from the camera is the emission times the throughput at that vertex, and the throughput contains the weight of the component of the material selected there, although nothing is scattered (renderer_bdptopt.cpp:205-212, 272). Partial theorems: Missing: lights on surfaces whose materials have more components, for which it is false (`C88_negation_mixture`). Missing: lights on surfaces whose materials have more components, for which it is false (`C88_negation_mixture`). Missing: lights on surfaces whose materials have more components, for which it is false (`C88_negation_mixture`)."
  },
  {
   "property": "C89",
   "status": "partial",
   "theorems": [
    "LM.Accel.C89_closest_partial",
    "LM.Accel.C89_builds_partial",
    "LM.Accel.C89_total_partial",
    "LM.Accel.C89_negation_empty",
    "LM.Accel.C89_negation_thin"
   ],
   "note": "False of the code: A scene without triangles, for instance a camera and an environment light, cannot be built: the size computed for the node array is -1 and the allocation throws. / Surfaces below the threshold are invisible: there is a scene of one triangle and a ray that meets it at distance 1, and every query with the range [0, 2] on every build of the scene finds nothing. Partial theorems: Missing: surfaces below the threshold 1e-8 of the triangle test (they are ignored, C35_negation_threshold), and queries that do not return because the traversal stack is exceeded (C38). Missing: scenes without triangles (C89_negation_empty), and graphs with cycles, whose traversal does not end. Missing: larger scenes, where the traversal stack may be exceeded (C38)."
  },
  {
   "property": "C90",
   "status": "partial",
   "theorems": [
    "LM.Raycast.C90_returned",
    "LM.Raycast.C90_returns_partial",
    "LM.Raycast.C90_deterministic",
    "LM.Raycast.C90_centre",
    "LM.Raycast.C90_shading",
    "LM.Raycast.C90_negation_normals"
   ],
   "note": "False of the code: In the normal mode an environment light in view makes rendering undefined, whatever the schedule: the normal of the point at infinity is read, which nobody initialised. Partial theorems: Missing: the normal mode with an environment light in view (`C90_negation_normals`)."
  },
  {
   "property": "C91",
   "status": "partial",
   "theorems": [
    "LM.Fpex.C91_scopes_partial",
    "LM.Fpex.C91_inside",
    "LM.Fpex.C91_elsewhere",
    "LM.Fpex.C91_threads",
    "LM.Fpex.C91_negation_disabled",
    "LM.Fpex.C91_negation_nested",
    "LM.Fpex.C91_negation_worker"
   ],
   "note": "False of the code: The code does not restore the setting: after exceptions have been turned off on purpose, any guarded block (e.g. a ray query, or saving a film) turns them on, and the next invalid operation traps. Promised was that they stay off. / Nested guards: when the inner block ends, exceptions are on in the rest of the outer block (e.g. a ray query inside of a guarded block), and an invalid operation traps; promised was that none does. / Threads: the framework is initialised on thread 0. On another thread an invalid operation yields a value, but the same operation traps once the thread has executed a guarded block, such as a ray query. Partial theorems: Missing: nested guards, guards on threads with exceptions off (`C91_negation_nested`, `C91_negation_disabled`, `C91_negation_worker`)."
  },
  {
   "property": "C92",
   "status": "partial",
   "theorems": [
    "LM.AssetTree.C92_tree_partial",
    "LM.AssetTree.C92_remark_silent",
    "LM.AssetTree.C92_negation_silent"
   ],
   "note": "False of the code: The components owned by a component that does not report them are missing in the listing: only the line of their owner is printed. E.g. renderer::bdpt owns a scheduler, a model of a PBRT scene its meshes. Partial theorems: Missing: classes that do not report their members (`C92_negation_silent`)."
  },
  {
   "property": "C93",
   "status": "partial",
   "theorems": [
    "LM.Accel.C93_embree",
    "LM.Accel.C93_nanort",
    "LM.Accel.C93_instanced",
    "LM.Accel.C93_agree",
    "LM.Accel.C93_agree_sahbvh_partial",
    "LM.Accel.C93_remark_possible",
    "LM.Accel.C93_negation_thin",
    "LM.Accel.C93_flatten_instances"
   ],
   "note": "False of the code: The choice of the accelerator is visible: there is a scene with one small triangle and a ray such that accel::embree, accel::nanort and accel::embreeinstanced find it at distance 1, whatever was built before and whatever the library reports within its contract, while no build of accel::sahbvh ever finds it (the built-in triangle test ignores triangles whose determinant is below 1e-8). Partial theorems: Missing: thin surfaces, for which C93_negation_thin shows that it differs."
  },
  {
   "property": "C94",
   "status": "partial",
   "theorems": [
    "LM.VolRaycast.C94_construct",
    "LM.VolRaycast.C94_bounds",
    "LM.VolRaycast.C94_uniform_light",
    "LM.VolRaycast.C94_cutoff",
    "LM.VolRaycast.C94_density",
    "LM.VolRaycast.C94_negation_scale",
    "LM.VolRaycast.C94_marched",
    "LM.VolRaycast.C94_negation_march",
    "LM.VolRaycast.C94_negation_transparent",
    "LM.VolRaycast.C94_converges",
    "LM.VolRaycast.C94_returned",
    "LM.VolRaycast.C94_deterministic",
    "LM.VolRaycast.C94_returns_partial"
   ],
   "note": "False of the code: With a negative scale, which is accepted, the density exceeds the announced maximum, so that delta tracking would no longer be unbiased. / With any of the volumes of the library, rendering throws: none of them supports the march that the renderer needs. / If some channel has neither absorption nor scattering, a pixel whose ray meets the volume has no value (0/0 in that channel), although nothing is scattered in that channel and the value there should be 0. Partial theorems: Missing: channels without extinction (`C94_negation_transparent`), and volumes of the library, none of which supports marches (`C94_negation_march`)."
  },
  {
   "property": "C95",
   "status": "partial",
   "theorems": [
    "LM.CameraView.C95_constructed",
    "LM.CameraView.C95_drawn",
    "LM.CameraView.C95_raster",
    "LM.CameraView.C95_depth",
    "LM.CameraView.C95_square_pixels",
    "LM.CameraView.C95_negation_documented",
    "LM.CameraView.C95_matrix",
    "LM.CameraView.C95_negation_matrix_view",
    "LM.CameraView.C95_negation_scaled",
    "LM.CameraView.C95_negation_reported"
   ],
   "note": "False of the code: The documentation and the comments of the camera give the aspect ratio as height / width: a camera configured like that skews the image on every film that is not square. / The view matrix of a camera constructed from a matrix depends on uninitialised memory: with the same properties it is a matrix for some content and another one for another content. / A matrix with a scale is accepted, but the primary rays of the camera are then not unit vectors, as the rest of the library requires. / The parameters that a camera reports cannot be used to construct a camera again: the position is reported under another name than the one construct asks for, and it throws."
  },
  {
   "property": "C96",
   "status": "partial",
   "theorems": [
    "LM.PyConv.C96_accepted",
    "LM.PyConv.C96_arrives_partial",
    "LM.PyConv.C96_returned_partial",
    "LM.PyConv.C96_containers",
    "LM.PyConv.C96_round_trip_partial",
    "LM.PyConv.C96_back",
    "LM.PyConv.C96_component",
    "LM.PyConv.C96_negation_large",
    "LM.PyConv.C96_negation_count",
    "LM.PyConv.C96_negation_object",
    "LM.PyConv.C96_vector_partial",
    "LM.PyConv.C96_matrix_partial",
    "LM.PyConv.C96_vector_returned",
    "LM.PyConv.C96_matrix_returned",
    "LM.PyConv.C96_rejected",
    "LM.PyConv.C96_negation_short",
    "LM.PyConv.C96_negation_strided",
    "LM.PyConv.C96_negation_transposed"
   ],
   "note": "False of the code: Integers of more than 32 bits cannot be given to the library, although it has them (the number of samples per pixel is read as a 64 bit number). / Integers of more than 32 bits are returned wrong: the number of samples that rendering an image of 1920 \u00d7 1080 pixels with 2000 samples per pixel reports, 4147200000, arrives in Python as a negative number. / An instance of another bound class (an enumerator, for example) is taken for a component: undefined behaviour. Other objects are rejected, in debug builds by an assertion that ends the program. / The number of elements is not checked: an array that is too short is read beyond its end. / An array that is not contiguous is read wrong: of a[::2] the first three elements of a arrive. / A transposed view M.T arrives as M. Partial theorems: Missing: dicts with bytes as keys, which arrive as if they were strings. Missing: larger integers, see C96_negation_count. Missing: as in C96_arrives_partial. Missing: see C96_negation_short, C96_negation_strided. Missing: see C96_negation_transposed."
  },
  {
   "property": "C97",
   "status": "partial",
   "theorems": [
    "LM.EmbreeParams.C97_settings",
    "LM.EmbreeParams.C97_refused",
    "LM.EmbreeParams.C97_round_trip",
    "LM.EmbreeParams.C97_flags_partial",
    "LM.EmbreeParams.C97_negation_filter",
    "LM.EmbreeParams.C97_negation_uninitialised",
    "LM.EmbreeParams.C97_negation_unused",
    "LM.EmbreeParams.C97_flags_written_partial"
   ],
   "note": "False of the code: \"filter\" alone is ignored. / If the variable is not initialised, \"compact\" without \"dynamic\" gives flags that depend on its content. / The other options have no effect: what is handed to the library depends only on the four flags and the quality. Partial theorems: Missing: the other combinations, see C97_negation_filter and C97_negation_uninitialised. Missing: as in C97_flags_partial."
  },
  {
   "property": "C98",
   "status": "partial",
   "theorems": [
    "LM.PyLife.C98_python",
    "LM.PyLife.C98_released",
    "LM.PyLife.C98_native",
    "LM.PyLife.C98_asset_partial",
    "LM.PyLife.C98_negation_dangling",
    "LM.PyLife.C98_negation_leak",
    "LM.PyLife.C98_negation_create"
   ],
   "note": "False of the code: **C98, negation.** A reference that a Python program keeps to an asset implemented in C++ dangles once the asset is replaced: the next call through it is undefined. / **C98, negation.** The C++ part of an instance of a Python class is never deleted, also when nothing refers to the instance any more: the release function does not delete it, and clears itself, so the destruction of the Python object does not either. / **C98, negation.** An instance of a Python class that a Python program makes with `create` is not even deallocated: the reference its C++ part has to it is never given up. Partial theorems: Missing: references kept by a Python program stay usable (false, C98_negation_dangling)."
  },
  {
   "property": "C99",
   "status": "partial",
   "theorems": [
    "LM.Ao.C99_image_partial",
    "LM.Ao.C99_openness",
    "LM.Ao.C99_negation_sky",
    "LM.Ao.C99_negation_samples",
    "LM.Ao.C99_negation_film"
   ],
   "note": "False of the code: With an environment light in view rendering is undefined, whatever the schedule: the position and normal of the point at infinity are read, which nobody initialised. / Without samples a pixel that sees a surface has no value. / The film is not cleared: a scene in which nothing is seen leaves the whole film as it was, so that the image depends on what was rendered before. Partial theorems: Missing: environment lights in view (`C99_negation_sky`), no samples (`C99_negation_samples`), pixels that see nothing getting a value (`C99_negation_film`), independence of the schedule (the random numbers of a pixel come from the generator of the thread)."
  },
  {
   "property": "C100",
   "status": "partial",
   "theorems": [
    "LM.Transport.C100_example",
    "LM.Transport.C100_negation_naive",
    "LM.Transport.C100_negation_dots",
    "LM.Transport.C100_dressed_partial",
    "LM.Transport.C100_dressed_naive_partial",
    "LM.Transport.C100_scene_partial",
    "LM.Transport.C100_modes_agree",
    "LM.Transport.C100_walk",
    "LM.Transport.C100_outdoors_partial"
   ],
   "note": "False of the code: Without light sampling the same scene is black, whatever the length of the paths and the way primary rays are sampled: the modes do not agree if there are lights without extent. / With a point light in view, the images with primary rays sampled in a pixel and on the whole film differ: what is measured at the position of the light on the film is nothing in the former, and something in the latter. Partial theorems: Missing: as for `C100_scene_partial`. Missing: the light of the point lights and directional lights (`C100_negation_naive`). Missing: the mode without light sampling, which does not find lights without extent (`C100_negation_naive`); and the images of these lights themselves, points of light, that are added if primary rays are sampled on the whole film, and missing if they are sampled in a pixel (last summand, `C100_negation_dots`). Missing: as for `C100_scene_partial`; specular materials; the point lights are in the planes of no triangles, and the directional lights are parallel to none."
  },
  {
   "property": "C101",
   "status": "proved",
   "theorems": [
    "LM.Transport.C101_example",
    "LM.Transport.C101_naive_black",
    "LM.Transport.C101_scene",
    "LM.Transport.C101_naive",
    "LM.Transport.C101_walk"
   ],
   "note": ""
  },
  {
   "property": "C102",
   "status": "partial",
   "theorems": [
    "LM.PyTramp.C102_call_partial",
    "LM.PyTramp.C102_negation_foreign",
    "LM.PyTramp.C102_negation_ignored",
    "LM.PyTramp.C102_negation_max_scalar_ignored",
    "LM.PyTramp.C102_negation_max_scalar",
    "LM.PyTramp.C102_negation_rng",
    "LM.PyTramp.C102_negation_build",
    "LM.PyTramp.C102_save_load_partial",
    "LM.PyTramp.C102_negation_save"
   ],
   "note": "False of the code: A call of a method with a parameter or a result of a type not known to Python never succeeds, whatever the class implements: sample_component, sample_direction and eval of materials, sample_direction of phase functions, bound of volumes, sample_ray, sample_direction, sample_position and sample_direct of cameras and lights, pdf_ray, pdf_position and pdf_direct of lights, and two methods of scenes. So no material, phase function, camera or light that takes part in rendering can be implemented in Python. / The implementation in Python of a method without trampoline is never used: the underlying components of an asset and its values, splat of films, eval_alpha, has_alpha and buffer of textures, march of volumes, set_scene_bound and is_env of lights. / max_scalar of a volume implemented in Python does not depend on the implementation of max_scalar: has_scalar is called. / A volume whose max_scalar is 5 is used with the majorant 1. / A medium implemented in Python draws its random numbers from a copy of the generator: whatever the method does, the generator of the caller is not advanced (unless it is an object that was created in Python). So the renderer uses the same numbers again. / build of an acceleration structure implemented in Python fails for a scene that has no Python object. / save and load of a class in Python are not used for the other interfaces: nothing is written, and loading leaves the state as it was. Partial theorems: Missing: the methods with parameters or results of types that are not known to Python (`foreign`), the methods without trampoline (`ignored`), max_scalar of volumes, and calls with objects passed by reference that Python does not know yet: for these the claim is false (C102_negation_foreign, C102_negation_ignored, C102_negation_max_scalar, C102_negation_rng, C102_negation_build). Missing: the other interfaces (C102_negation_save)."
  },
  {
   "property": "C103",
   "status": "proved",
   "theorems": [
    "LM.PyParallel.C103_exclusive",
    "LM.PyParallel.C103_no_deadlock",
    "LM.PyParallel.C103_terminates",
    "LM.PyParallel.C103_returned",
    "LM.PyParallel.C103_sections",
    "LM.PyParallel.C103_foreach",
    "LM.PyParallel.C103_exception"
   ],
   "note": ""
  },
  {
   "property": "C104",
   "status": "partial",
   "theorems": [
    "LM.FilmView.C104_negation_earlier_array",
    "LM.FilmView.C104_shows",
    "LM.FilmView.C104_available",
    "LM.FilmView.C104_snapshot_partial",
    "LM.FilmView.C104_usable_partial",
    "LM.FilmView.C104_refresh",
    "LM.FilmView.C104_write",
    "LM.FilmView.C104_negation_deleted",
    "LM.FilmView.C104_negation_enlarged",
    "LM.FilmView.C104_negation_empty"
   ],
   "note": "False of the code: An array taken earlier does not keep the image it was taken from: whatever the history, after drawing any colour at any pixel of the film and asking for the film's array again, the earlier array shows the new colour. An image to be kept has to be copied, as the examples of the project do. / The array dies with its film: whatever the history, after the film is deleted (or another film is created under its name), reading any element of the array, or writing to it, is undefined behaviour. Nothing in the binding keeps the film alive. / The array dies when its film is enlarged: for every array there is a size such that after giving the film that size and asking for its array, reading any element of the earlier array is undefined behaviour, although the film is alive. / A film without pixels: creating it is accepted, asking it for its array is undefined behaviour (the first element of an empty vector). Partial theorems: Missing: the next call to buffer() on the same film, which changes it (C104_negation_earlier_array, and C104_refresh for how), and deletion of the film (C104_negation_deleted). Missing: a film that is deleted (C104_negation_deleted) or enlarged (C104_negation_enlarged)."
  },
  {
   "property": "C105",
   "status": "partial",
   "theorems": [
    "LM.Plugins.C105_create",
    "LM.Plugins.C105_loaded",
    "LM.Plugins.C105_available_partial",
    "LM.Plugins.C105_history_partial",
    "LM.Plugins.C105_destroy_partial",
    "LM.Plugins.C105_destroy_iff",
    "LM.Plugins.C105_negation_outlives",
    "LM.Plugins.C105_negation_override",
    "LM.Plugins.C105_no_unload_partial",
    "LM.Plugins.C105_foreach",
    "LM.Plugins.C105_plugin_name",
    "LM.Plugins.C105_directory",
    "LM.Plugins.C105_directory_fails",
    "LM.Plugins.C105_negation_directory_not_searched",
    "LM.Plugins.C105_negation_other_directory",
    "LM.Plugins.C105_directory_partial"
   ],
   "note": "False of the code: A component that outlives its plugin: load, create, unload (the library goes), and releasing the component calls code that is not there any more. For every library with at least one implementation. / A plugin that overrides an implementation of the program takes it away when it goes: before, the name could be created, afterwards it cannot, with no plugin loaded in both cases. / Plugins are opened by their name alone: what is loaded for a plugin in a directory is the library of that name on the search path of the system. A directory that is not on it, whose plugins are nowhere on it, cannot be loaded: the first plugin is an error. / If another directory on the search path has a library of the same name, that one is loaded, and not the one in the directory that was asked for. Partial theorems: Missing: implementations overriding each other (C105_negation_override). Missing: implementations overriding each other (C105_negation_override). Missing: components that outlive their plugin (C105_negation_outlives). Missing: histories with unloads (C105_destroy_iff, C105_negation_outlives). Missing: directories that are not searched, or not first (C105_negation_directory_not_searched, C105_negation_other_directory)."
  },
  {
   "property": "C106",
   "status": "partial",
   "theorems": [
    "LM.Threads.C106_configured",
    "LM.Threads.C106_identifiers_partial",
    "LM.Threads.C106_some_thread",
    "LM.Threads.C106_negation_other_thread",
    "LM.Threads.C106_negation_none_left",
    "LM.Threads.C106_distinct_partial",
    "LM.Threads.C106_negation_nested",
    "LM.Threads.C106_negation_two_loops",
    "LM.Threads.C106_main_thread_partial",
    "LM.Threads.C106_negation_main_thread"
   ],
   "note": "False of the code: Loops started on another thread of the system have other identifiers: after parallel::init with num_threads = 1 on one thread, a loop on another thread, on a machine with at least two threads by default, calls back with the identifier 1, although num_threads() is 1. The number is set for the calling thread only. / A configuration that leaves no thread is accepted: on a machine with m hardware threads, every number from -m downwards makes num_threads() zero or negative, and a loop still calls back, with the identifier 0. The number -1 of the project's example does this on a machine with one hardware thread. / In loops inside of loops the callbacks of all threads have the identifier 0: two of them are in progress at the same time. / Loops of two threads of the system at the same time use the same identifiers. / Every thread of the system is the main thread according to main_thread(), as long as it is not in a loop. Partial theorems: Missing: loops started on other threads of the system (`C106_negation_other_thread`) and configurations that leave no thread (`C106_negation_none_left`). Missing: loops inside of loops (`C106_negation_nested`) and loops of several threads of the system (`C106_negation_two_loops`). Missing: as there."
  },
  {
   "property": "C107",
   "status": "partial",
   "theorems": [
    "LM.SceneBound.C107_contains",
    "LM.SceneBound.C107_smallest",
    "LM.SceneBound.C107_same_triangles",
    "LM.SceneBound.C107_covers_partial",
    "LM.SceneBound.C107_negation_shared",
    "LM.SceneBound.C107_negation_tiny"
   ],
   "note": "False of the code: The sphere belongs to the light, not to the scene: after building a second scene that uses the same light asset, no emission ray of the light, whatever the random numbers, passes through a point of the first scene, although neither the first scene nor the light was touched. / \"Reaches\" is not \"meets\": the sphere is larger than the scene by one percent only, so in a scene of about a millimetre an emission ray along the diagonal arrives at a corner within less than 10^-4, the distance below which ray queries ignore intersections. Every emission ray towards the corner does so. Partial theorems: Missing: building another scene with the same light (C107_negation_shared); that a ray query finds the point (C107_negation_tiny); the directions that environment maps choose."
  },
  {
   "property": "C108",
   "status": "partial",
   "theorems": [
    "LM.Obj.C108_geometry",
    "LM.Obj.C108_materials",
    "LM.Obj.C108_faces_partial",
    "LM.Obj.C108_negation_lost",
    "LM.Obj.C108_owned",
    "LM.Obj.C108_default_partial",
    "LM.Obj.C108_negation_default",
    "LM.Obj.C108_negation_undefined"
   ],
   "note": "False of the code: In general the corners handed over, mesh after mesh, are those of the faces that have the material of the face before them: the first face after each change of material is in no mesh. / The same file, the same settings: whether the triangle is a light depends on what was in memory. The default material of the built-in loader emits nothing. / A file without positions, and a file with a shape without faces, are read outside of arrays. Partial theorems: Missing: shapes with faces of several materials (C108_negation_lost); shapes without faces and files without positions (C108_negation_undefined). Missing: other contents of this memory (C108_negation_default)."
  },
  {
   "property": "C109",
   "status": "partial",
   "theorems": [
    "LM.Poll.C109_latest",
    "LM.Poll.C109_history",
    "LM.Poll.C109_defined_partial",
    "LM.Poll.C109_negation_replaced"
   ],
   "note": "False of the code: A function that registers another function, or itself again, in place of itself and then reads something it has captured: its copy has been destroyed. Partial theorems: Missing: functions that read what they have captured later, for which it is false (`C109_negation_replaced`)."
  },
  {
   "property": "C110",
   "status": "partial",
   "theorems": [
    "LM.Log.C110_whole_partial",
    "LM.Log.C110_progress_partial",
    "LM.Log.C110_no_race_partial",
    "LM.Log.C110_negation_severity",
    "LM.Log.C110_negation_fallback"
   ],
   "note": "False of the code: A thread that calls it while another thread logs a message: a data race on the threshold. / Two threads print \"a\" and \"b\", and both lines are mixed. Partial theorems: Missing: threads that call set_severity (`C110_negation_severity`), and the time before the initialisation (`C110_negation_fallback`). Missing: as for `C110_whole_partial`. Missing: as for `C110_whole_partial`."
  }
 ]
}