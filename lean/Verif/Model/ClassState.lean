import Verif.Model.AMap
/-
  Saved members per component class: the argument list of `ar(...)` in each LM_SERIALIZE_IMPL (include/lm/serial.h:433-450)
  against the data members of the class. A class without LM_SERIALIZE_IMPL saves nothing (include/lm/component.h:221-236).
-/
namespace LM.ClassState

/-- Data members that carry the state set by `construct` or by later calls, and the members passed to the archive (serial.h:433-450 and the classes listed below). -/
structure Cls where
  name : String
  members : List String
  saved : List String
deriving DecidableEq, Repr

/-- Object state: value of each member (values as bit patterns or trees, of any type `V`) (members of the classes listed below, serial.h:433-450). -/
abbrev St (V : Type) := String → V

/-- `save`: the saved members' values, in order (serial.h:433-450). -/
def save {V : Type} (c : Cls) (s : St V) : List V := c.saved.map s

/-- `load` on a freshly created, not constructed instance whose members have whatever values `init` gives them:
    the same members in the same order. `none` models the exception for too little data (serial.h:433-450). -/
def load {V : Type} : List String → List V → St V → Option (St V × List V)
  | [], vs, s => some (s, vs)
  | m :: ms, v :: vs, s => load ms vs (fun x => if x = m then v else s x)
  | _ :: _, [], _ => none

/-- Classes of src/ with their members and saved members. -/
def classes : List Cls := [
  ⟨"scene::default", ["nodes_", "camera_", "lights_", "light_indices_map_", "env_light_", "medium_", "accel_"],
    ["accel_", "nodes_", "camera_", "lights_", "light_indices_map_", "env_light_"]⟩,             -- src/scene.cpp:22-33
  ⟨"asset_group::default", ["asset_index_map_", "assets_"], ["asset_index_map_", "assets_"]⟩,     -- src/assetgroup.cpp:14-20
  ⟨"model::wavefrontobj", ["geo_", "groups_", "assets_map_", "assets_"], ["geo_", "groups_", "assets_map_", "assets_"]⟩, -- src/model/model_wavefrontobj.cpp:39-61
  ⟨"mesh::wavefrontobj_ref", ["model_", "fs_"], ["model_", "fs_"]⟩,                               -- src/model/model_wavefrontobj.cpp:261-268
  ⟨"material::mixture_wavefrontobj", ["diffuse_", "glossy_", "mask_tex_"], ["diffuse_", "glossy_", "mask_tex_"]⟩, -- :340-348
  ⟨"film::bitmap", ["w_", "h_", "quality_", "data_"], ["w_", "h_", "quality_", "data_"]⟩,         -- src/film/film_bitmap.cpp:125-134
  ⟨"renderer::blank", ["color_", "film_"], ["color_", "film_"]⟩,                                  -- src/renderer/renderer_blank.cpp:15-22
  ⟨"renderer::pt", ["scene_", "film_", "max_verts_", "seed_", "sampling_mode_", "primary_ray_sampling_mode_", "sched_"],
    ["scene_", "film_", "max_verts_", "sampling_mode_", "sched_"]⟩,                               -- src/renderer/renderer_pt.cpp:29-42
  ⟨"renderer::raycast", ["scene_", "film_", "bg_color_", "use_constant_color_", "visualize_normal_", "color_", "sched_"],
    ["scene_", "film_", "bg_color_", "use_constant_color_", "visualize_normal_", "sched_"]⟩,      -- src/renderer/renderer_raycast.cpp:19-32
  ⟨"renderer::lt", ["scene_", "film_", "max_verts_", "seed_", "sched_"], ["scene_", "film_", "max_verts_", "seed_", "sched_"]⟩, -- renderer_lt.cpp:18-29
  ⟨"renderer::volpt", ["scene_", "film_", "max_verts_", "rr_prob_", "seed_", "sched_"],
    ["scene_", "film_", "max_verts_", "rr_prob_", "sched_"]⟩,                                     -- src/renderer/renderer_volpt.cpp:19-31
  ⟨"renderer::pt_naive_path", ["scene_", "film_", "min_verts_", "max_verts_", "seed_", "sched_"], []⟩, -- src/renderer/renderer_bdpt.cpp:38-59
  ⟨"renderer::pt_nee_path", ["scene_", "film_", "min_verts_", "max_verts_", "seed_", "sched_"], []⟩,
  ⟨"renderer::lt_nee_path", ["scene_", "film_", "min_verts_", "max_verts_", "seed_", "sched_"], []⟩,
  ⟨"renderer::bdpt", ["scene_", "film_", "min_verts_", "max_verts_", "seed_", "sched_"], []⟩,
  ⟨"renderer::bdptopt", ["scene_", "film_", "min_verts_", "max_verts_", "seed_", "sched_"], []⟩,  -- src/renderer/renderer_bdptopt.cpp:419-450
  ⟨"mesh::raw", ["ps_", "ns_", "ts_", "fs_"], ["ps_", "ns_", "ts_", "fs_"]⟩,                      -- src/mesh/mesh_raw.cpp:38-47
  ⟨"mesh::wavefrontobj", ["geo_", "fs_"], ["geo_", "fs_"]⟩,                                       -- src/mesh/mesh_wavefrontobj.cpp:24-31
  ⟨"accel::sahbvh", ["nodes_", "trs_", "indices_", "flattened_nodes_"], ["nodes_", "trs_", "indices_", "flattened_nodes_"]⟩, -- accel_sahbvh.cpp:115-124
  ⟨"material::diffuse", ["Kd_", "mapKd_"], ["Kd_", "mapKd_"]⟩,                                    -- src/material/material_diffuse.cpp:34-41
  ⟨"material::proxy", ["ref_"], ["ref_"]⟩,                                                        -- src/material/material_proxy.cpp:26-32
  ⟨"material::constant_weight_mixture_rr", ["materials_", "dist_"], ["materials_", "dist_"]⟩,     -- src/material/material_mixture.cpp:25-41
  ⟨"material::constant_weight_mixture_marginalized", ["material_groups_", "dist_"], ["material_groups_", "dist_"]⟩, -- :120-145
  ⟨"material::glass", ["Ni_"], ["Ni_"]⟩,                                                          -- src/material/material_glass.cpp:60-81
  ⟨"material::glossy", ["Ks_", "ax_", "ay_"], ["Ks_", "ax_", "ay_"]⟩,                             -- src/material/material_glossy.cpp:24-32
  ⟨"material::mirror", [], []⟩, ⟨"material::mask", [], []⟩, ⟨"phase::isotropic", [], []⟩,
  ⟨"volume::checker", ["bound_"], ["bound_"]⟩,                                                    -- src/volume/volume_checker.cpp:23-30
  ⟨"volume::constant", ["bound_", "color_", "scalar_"], ["bound_"]⟩,                              -- src/volume/volume_constant.cpp:24-33
  ⟨"volume::multi", ["bound_", "max_scalar_", "size_", "volumes_den_", "volumes_alb_"],
    ["bound_", "max_scalar_", "size_", "volumes_den_", "volumes_alb_"]⟩,                          -- src/volume/volume_multi.cpp:22-33
  ⟨"volume::sphere", ["bound_", "pos_", "radius_", "color_", "scalar_"], ["bound_", "pos_", "radius_", "color_", "scalar_"]⟩, -- volume_sphere.cpp:23-34
  ⟨"volume::gaussian", ["bound_", "pos_", "sigma_", "scalar_", "color_"], ["bound_", "pos_", "sigma_", "scalar_", "color_"]⟩, -- volume_gaussian.cpp:24-35
  ⟨"phase::hg", ["g_"], ["g_"]⟩,                                                                  -- src/phase/phase_hg.cpp:21-28
  ⟨"texture::constant", ["color_", "alpha_"], ["color_"]⟩,                                        -- src/texture/texture_constant.cpp:22-30
  ⟨"texture::bitmap", ["w_", "h_", "c_", "data_"], ["w_", "h_", "c_", "data_"]⟩,                  -- src/texture/texture_bitmap.cpp:31-42
  ⟨"light::envconst", ["Le_", "sphere_bound_"], ["Le_", "sphere_bound_"]⟩,                        -- src/light/light_envconst.cpp:21-29
  ⟨"light::env", ["sphere_bound_", "envmap_", "rot_", "dist_", "scale_"], ["sphere_bound_", "envmap_", "rot_", "dist_"]⟩, -- src/light/light_env.cpp:26-37
  ⟨"light::point", ["Le_", "position_"], ["Le_", "position_"]⟩,                                   -- src/light/light_point.cpp:22-30
  ⟨"light::area", ["Ke_", "dist_", "invA_", "mesh_"], ["Ke_", "dist_", "invA_", "mesh_"]⟩,        -- src/light/light_area.cpp:23-33
  ⟨"light::directional", ["sphere_bound_", "Le_", "direction_"], ["sphere_bound_", "Le_", "direction_"]⟩, -- src/light/light_directional.cpp:22-31
  ⟨"camera::pinhole", ["position_", "center_", "up_", "u_", "v_", "w_", "vfov_", "tf_", "aspect_"],
    ["position_", "center_", "up_", "u_", "v_", "w_", "vfov_", "tf_", "aspect_"]⟩,                -- src/camera/camera_pinhole.cpp:48-63
  ⟨"scheduler::spp::sample", ["spp_", "film_"], ["spp_", "film_"]⟩,                               -- src/scheduler.cpp:18-25
  ⟨"scheduler::spp::time", ["render_time_", "film_"], ["render_time_", "film_"]⟩,                 -- src/scheduler.cpp:58-65
  ⟨"scheduler::spi::sample", ["num_samples_"], ["num_samples_"]⟩,                                 -- src/scheduler.cpp:115-121
  ⟨"scheduler::spi::time", ["render_time_", "samples_per_iter_"], ["render_time_", "samples_per_iter_"]⟩, -- src/scheduler.cpp:146-153
  ⟨"medium::homogeneous", ["density_", "albedo_", "muA_", "muS_", "phase_", "bound_"],
    ["density_", "muA_", "muS_", "phase_", "bound_"]⟩,                                            -- src/medium/medium_homogeneous.cpp:26-38
  ⟨"medium::heterogeneous", ["volume_density_", "volme_albedo_", "phase_"], ["volume_density_", "volme_albedo_", "phase_"]⟩ -- medium_heterogeneous.cpp:26-35
]

end LM.ClassState
