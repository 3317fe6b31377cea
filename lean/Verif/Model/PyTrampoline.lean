import Mathlib.Data.Rat.Defs
import Mathlib.Tactic.Common
import Verif.Model.Archive
/-
  Components implemented in Python: the trampoline classes of src/pylm.cpp (Component_Py:123, AssetGroup_Py:249, LoggerContext_Py:306, ProgressContext_Py:385, Film_Py:462, Scene_Py:583, Accel_Py:739, Renderer_Py:761, Texture_Py:783, Mesh_Py:825,
  Material_Py:860, Phase_Py:905, Medium_Py:937, Volume_Py:965, Model_Py:1003, Camera_Py:1041, Light_Py:1132), the types registered there, and PYLM_SERIALIZE_IMPL (include/lm/pylm.h:411-435).
  Of pybind11 the following is modelled: PYBIND11_OVERLOAD looks up the Python method of the given name in the class of the object and calls it with the converted arguments; without such a method it calls the implementation of the interface, PYBIND11_OVERLOAD_PURE throws.
  An argument of a type without type caster that is not registered cannot be converted (cast_error). Arguments of registered types that are passed as lvalues are copied (return_value_policy::automatic_reference), unless the interpreter already has a wrapper for this
  very object, which is then used; pointers are passed as references to the object. A type that cannot be copied (the abstract interfaces) and has no wrapper yet is a cast_error.
  Simplifications: Python values are None, bool, int, float, str and objects of the registered types, whose contents are a number; numbers are exact and unbounded; the lifetime of returned references and the calls super().f() are not modelled.
-/
open LM.Archive
namespace LM.PyTramp

/-- The interfaces that can be implemented in Python (pylm.cpp:121-1195). -/
inductive Iface where
  | component | assetGroup | loggerContext | progressContext | film | scene | accel | renderer | texture | mesh
  | material | phase | medium | volume | model | camera | light
  deriving DecidableEq

/-- The names of the methods of the interfaces (include/lm/*.h, see `declared`). end_ is `end`. -/
inductive Name where
  | construct | underlying | foreach_underlying | underlying_value | underlying_raw_pointer | load_asset | load_serialized | log | update_indentation | set_severity
  | start | update | update_time | end_ | size | num_pixels | set_pixel | save | buffer | accum
  | splat_pixel | update_pixel | rescale | clear | splat | reset | root_node | create_primitive_node | create_group_node | create_instance_group_node
  | add_child | add_child_from_model | create_group_from_model | traverse_primitive_nodes | visit_node | node_at | num_nodes | num_lights | camera_node | medium_node
  | env_light_node | accel | set_accel | build | intersect | is_light | is_camera | sample_light_selection | pdf_light_selection | light_primitive_index_at
  | light_index_at | render | eval | eval_by_pixel_coords | eval_alpha | has_alpha | foreach_triangle | triangle_at | surface_point | num_triangles
  | sample_component | pdf_component | sample_direction | pdf_direction | is_specular_component | reflectance | sample_distance | eval_transmittance | is_emitter | phase
  | bound | has_scalar | max_scalar | eval_scalar | has_color | eval_color | march | create_primitives | foreach_node | set_aspect_ratio
  | view_matrix | projection_matrix | primary_ray | sample_ray | pdf_ray | sample_position | pdf_position | sample_direct | pdf_direct | raster_position
  | is_connectable | set_scene_bound | is_specular | is_infinite | is_env
  deriving DecidableEq

/-- The types of parameters and results (include/lm/*.h, see `declared`). int: int and long long, float: Float and double, str: std::string and const char*, callback: std::function types. -/
inductive CTy where
  | void | bool | int | float | str | json | vec2 | vec3 | mat4
  | callback | rawPointer | ray | rng | component | logLevel | progressMode | filmSize | filmBuffer
  | film | pointGeometry | sceneInteraction | sceneNode | scene | accelHit | accel | textureSize | meshPoint
  | meshTri | materialDirectionSample | phaseDirectionSample | phase | mediumDistanceSample | cameraRaySample | cameraDirectionSample | cameraPositionSample | lightRaySample
  | lightSelectionSample | lightPrimitiveIndex | textureBuffer | materialComponentSample | materialComponentSampleU | materialDirectionSampleU | transDir | phaseDirectionSampleU | bound
  | cameraRaySampleU | cameraDirectionSampleU | cameraPositionSampleU | lightRaySampleU | transform | lightDirectionSample | lightDirectionSampleU | lightPositionSample | lightPositionSampleU
  deriving DecidableEq

/-- How a parameter is passed (include/lm/*.h). value: by value, and the types whose caster always copies. -/
inductive Mode where
  | value
  | constRef
  | mutRef
  | ptr
  deriving DecidableEq

/-- A parameter of a method (include/lm/*.h). -/
structure Param where
  ty : CTy
  mode : Mode
  deriving DecidableEq

/-- A virtual method of an interface (include/lm/*.h): name, is it pure virtual, parameters, type of the result, and if None stands for a result (std::optional and pointers). -/
structure Method where
  name : Name
  pure : Bool
  params : List Param
  ret : CTy
  retNone : Bool
  deriving DecidableEq

/-- A method of a trampoline class (src/pylm.cpp): the method it overrides, the name of the Python method that is looked up, PYBIND11_OVERLOAD_PURE or PYBIND11_OVERLOAD, and the positions of the parameters that are passed on. -/
structure Slot where
  name : Name
  target : Name
  pure : Bool
  passed : List ℕ
  deriving DecidableEq

/-- The methods declared in each interface itself: the pure virtual and the virtual methods of its header. -/
def declared : Iface → List Method
  -- component.h:210-289
  | .component => [
      ⟨.construct, false, [⟨.json, .value⟩], .void, false⟩,
      ⟨.underlying, false, [⟨.str, .value⟩], .component, true⟩,
      ⟨.foreach_underlying, false, [⟨.callback, .value⟩], .void, false⟩,
      ⟨.underlying_value, false, [⟨.str, .value⟩], .json, false⟩,
      ⟨.underlying_raw_pointer, false, [⟨.str, .value⟩], .rawPointer, false⟩]
  -- assetgroup.h:49-56
  | .assetGroup => [
      ⟨.load_asset, true, [⟨.str, .value⟩, ⟨.str, .value⟩, ⟨.json, .value⟩], .component, true⟩,
      ⟨.load_serialized, true, [⟨.str, .value⟩, ⟨.str, .value⟩], .component, true⟩]
  -- loggercontext.h:29-31
  | .loggerContext => [
      ⟨.log, true, [⟨.logLevel, .value⟩, ⟨.int, .value⟩, ⟨.str, .value⟩, ⟨.int, .value⟩, ⟨.str, .value⟩], .void, false⟩,
      ⟨.update_indentation, true, [⟨.int, .value⟩], .void, false⟩,
      ⟨.set_severity, true, [⟨.int, .value⟩], .void, false⟩]
  -- progresscontext.h:30-33
  | .progressContext => [
      ⟨.start, true, [⟨.progressMode, .value⟩, ⟨.int, .value⟩, ⟨.float, .value⟩], .void, false⟩,
      ⟨.update, true, [⟨.int, .value⟩], .void, false⟩,
      ⟨.update_time, true, [⟨.float, .value⟩], .void, false⟩,
      ⟨.end_, true, [], .void, false⟩]
  -- film.h:60-202
  | .film => [
      ⟨.size, true, [], .filmSize, false⟩,
      ⟨.num_pixels, true, [], .int, false⟩,
      ⟨.set_pixel, true, [⟨.int, .value⟩, ⟨.int, .value⟩, ⟨.vec3, .value⟩], .void, false⟩,
      ⟨.save, true, [⟨.str, .value⟩], .bool, false⟩,
      ⟨.buffer, true, [], .filmBuffer, false⟩,
      ⟨.accum, true, [⟨.film, .ptr⟩], .void, false⟩,
      ⟨.splat_pixel, true, [⟨.int, .value⟩, ⟨.int, .value⟩, ⟨.vec3, .value⟩], .void, false⟩,
      ⟨.update_pixel, true, [⟨.int, .value⟩, ⟨.int, .value⟩, ⟨.callback, .value⟩], .void, false⟩,
      ⟨.rescale, true, [⟨.float, .value⟩], .void, false⟩,
      ⟨.clear, true, [], .void, false⟩,
      ⟨.splat, false, [⟨.vec2, .value⟩, ⟨.vec3, .value⟩], .void, false⟩]
  -- scene.h:42-421
  | .scene => [
      ⟨.reset, true, [], .void, false⟩,
      ⟨.root_node, true, [], .int, false⟩,
      ⟨.create_primitive_node, true, [⟨.json, .value⟩], .int, false⟩,
      ⟨.create_group_node, true, [⟨.mat4, .value⟩], .int, false⟩,
      ⟨.create_instance_group_node, true, [], .int, false⟩,
      ⟨.add_child, true, [⟨.int, .value⟩, ⟨.int, .value⟩], .void, false⟩,
      ⟨.add_child_from_model, true, [⟨.int, .value⟩, ⟨.str, .value⟩], .void, false⟩,
      ⟨.create_group_from_model, true, [⟨.str, .value⟩], .int, false⟩,
      ⟨.traverse_primitive_nodes, true, [⟨.callback, .value⟩], .void, false⟩,
      ⟨.visit_node, true, [⟨.int, .value⟩, ⟨.callback, .value⟩], .void, false⟩,
      ⟨.node_at, true, [⟨.int, .value⟩], .sceneNode, false⟩,
      ⟨.num_nodes, true, [], .int, false⟩,
      ⟨.num_lights, true, [], .int, false⟩,
      ⟨.camera_node, true, [], .int, false⟩,
      ⟨.medium_node, true, [], .int, false⟩,
      ⟨.env_light_node, true, [], .int, false⟩,
      ⟨.accel, true, [], .accel, true⟩,
      ⟨.set_accel, true, [⟨.str, .value⟩], .void, false⟩,
      ⟨.build, true, [], .void, false⟩,
      ⟨.intersect, true, [⟨.ray, .value⟩, ⟨.float, .value⟩, ⟨.float, .value⟩], .sceneInteraction, true⟩,
      ⟨.is_light, true, [⟨.sceneInteraction, .constRef⟩], .bool, false⟩,
      ⟨.is_camera, true, [⟨.sceneInteraction, .constRef⟩], .bool, false⟩,
      ⟨.sample_light_selection, true, [⟨.float, .value⟩], .lightSelectionSample, false⟩,
      ⟨.pdf_light_selection, true, [⟨.int, .value⟩], .float, false⟩,
      ⟨.light_primitive_index_at, true, [⟨.int, .value⟩], .lightPrimitiveIndex, false⟩,
      ⟨.light_index_at, true, [⟨.int, .value⟩], .int, false⟩]
  -- accel.h:38-70
  | .accel => [
      ⟨.build, true, [⟨.scene, .constRef⟩], .void, false⟩,
      ⟨.intersect, true, [⟨.ray, .value⟩, ⟨.float, .value⟩, ⟨.float, .value⟩], .accelHit, true⟩]
  -- renderer.h:25-25
  | .renderer => [
      ⟨.render, true, [], .json, false⟩]
  -- texture.h:62-115
  | .texture => [
      ⟨.size, true, [], .textureSize, false⟩,
      ⟨.eval, true, [⟨.vec2, .value⟩], .vec3, false⟩,
      ⟨.eval_by_pixel_coords, true, [⟨.int, .value⟩, ⟨.int, .value⟩], .vec3, false⟩,
      ⟨.eval_alpha, false, [⟨.vec2, .value⟩], .float, false⟩,
      ⟨.has_alpha, false, [], .bool, false⟩,
      ⟨.buffer, false, [], .textureBuffer, false⟩]
  -- mesh.h:75-100
  | .mesh => [
      ⟨.foreach_triangle, true, [⟨.callback, .value⟩], .void, false⟩,
      ⟨.triangle_at, true, [⟨.int, .value⟩], .meshTri, false⟩,
      ⟨.surface_point, true, [⟨.int, .value⟩, ⟨.vec2, .value⟩], .meshPoint, false⟩,
      ⟨.num_triangles, true, [], .int, false⟩]
  -- material.h:64-162
  | .material => [
      ⟨.sample_component, true, [⟨.materialComponentSampleU, .constRef⟩, ⟨.pointGeometry, .constRef⟩, ⟨.vec3, .value⟩], .materialComponentSample, false⟩,
      ⟨.pdf_component, true, [⟨.int, .value⟩, ⟨.pointGeometry, .constRef⟩, ⟨.vec3, .value⟩], .float, false⟩,
      ⟨.sample_direction, true, [⟨.materialDirectionSampleU, .constRef⟩, ⟨.pointGeometry, .constRef⟩, ⟨.vec3, .value⟩, ⟨.int, .value⟩, ⟨.transDir, .value⟩], .materialDirectionSample, true⟩,
      ⟨.pdf_direction, true, [⟨.pointGeometry, .constRef⟩, ⟨.vec3, .value⟩, ⟨.vec3, .value⟩, ⟨.int, .value⟩, ⟨.bool, .value⟩], .float, false⟩,
      ⟨.eval, true, [⟨.pointGeometry, .constRef⟩, ⟨.vec3, .value⟩, ⟨.vec3, .value⟩, ⟨.int, .value⟩, ⟨.transDir, .value⟩, ⟨.bool, .value⟩], .vec3, false⟩,
      ⟨.is_specular_component, true, [⟨.int, .value⟩], .bool, false⟩,
      ⟨.reflectance, true, [⟨.pointGeometry, .constRef⟩], .vec3, false⟩]
  -- phase.h:41-59
  | .phase => [
      ⟨.sample_direction, true, [⟨.phaseDirectionSampleU, .constRef⟩, ⟨.pointGeometry, .constRef⟩, ⟨.vec3, .value⟩], .phaseDirectionSample, true⟩,
      ⟨.pdf_direction, true, [⟨.pointGeometry, .constRef⟩, ⟨.vec3, .value⟩, ⟨.vec3, .value⟩], .float, false⟩,
      ⟨.eval, true, [⟨.pointGeometry, .constRef⟩, ⟨.vec3, .value⟩, ⟨.vec3, .value⟩], .vec3, false⟩]
  -- medium.h:44-69
  | .medium => [
      ⟨.sample_distance, true, [⟨.rng, .mutRef⟩, ⟨.ray, .value⟩, ⟨.float, .value⟩, ⟨.float, .value⟩], .mediumDistanceSample, true⟩,
      ⟨.eval_transmittance, true, [⟨.rng, .mutRef⟩, ⟨.ray, .value⟩, ⟨.float, .value⟩, ⟨.float, .value⟩], .vec3, false⟩,
      ⟨.is_emitter, true, [], .bool, false⟩,
      ⟨.phase, true, [], .phase, true⟩]
  -- volume.h:28-93
  | .volume => [
      ⟨.bound, true, [], .bound, false⟩,
      ⟨.has_scalar, true, [], .bool, false⟩,
      ⟨.max_scalar, true, [], .float, false⟩,
      ⟨.eval_scalar, false, [⟨.vec3, .value⟩], .float, false⟩,
      ⟨.has_color, true, [], .bool, false⟩,
      ⟨.eval_color, false, [⟨.vec3, .value⟩], .vec3, false⟩,
      ⟨.march, false, [⟨.ray, .value⟩, ⟨.float, .value⟩, ⟨.float, .value⟩, ⟨.float, .value⟩, ⟨.callback, .value⟩], .void, false⟩]
  -- model.h:56-80
  | .model => [
      ⟨.create_primitives, true, [⟨.callback, .value⟩], .void, false⟩,
      ⟨.foreach_node, true, [⟨.callback, .value⟩], .void, false⟩]
  -- camera.h:40-228
  | .camera => [
      ⟨.set_aspect_ratio, true, [⟨.float, .value⟩], .void, false⟩,
      ⟨.view_matrix, true, [], .mat4, false⟩,
      ⟨.projection_matrix, true, [], .mat4, false⟩,
      ⟨.primary_ray, true, [⟨.vec2, .value⟩], .ray, false⟩,
      ⟨.sample_ray, true, [⟨.cameraRaySampleU, .constRef⟩], .cameraRaySample, true⟩,
      ⟨.pdf_ray, true, [⟨.pointGeometry, .constRef⟩, ⟨.vec3, .value⟩], .float, false⟩,
      ⟨.sample_direction, true, [⟨.cameraDirectionSampleU, .constRef⟩, ⟨.pointGeometry, .constRef⟩], .cameraDirectionSample, true⟩,
      ⟨.pdf_direction, true, [⟨.pointGeometry, .constRef⟩, ⟨.vec3, .value⟩], .float, false⟩,
      ⟨.sample_position, true, [⟨.cameraPositionSampleU, .constRef⟩], .cameraPositionSample, true⟩,
      ⟨.pdf_position, true, [⟨.pointGeometry, .constRef⟩], .float, false⟩,
      ⟨.sample_direct, true, [⟨.cameraRaySampleU, .constRef⟩, ⟨.pointGeometry, .constRef⟩], .cameraRaySample, true⟩,
      ⟨.pdf_direct, true, [⟨.pointGeometry, .constRef⟩, ⟨.pointGeometry, .constRef⟩, ⟨.vec3, .value⟩], .float, false⟩,
      ⟨.raster_position, true, [⟨.vec3, .value⟩], .vec2, true⟩,
      ⟨.is_connectable, true, [⟨.pointGeometry, .constRef⟩], .bool, false⟩,
      ⟨.eval, true, [⟨.vec3, .value⟩], .vec3, false⟩]
  -- light.h:34-208
  | .light => [
      ⟨.set_scene_bound, false, [⟨.bound, .constRef⟩], .void, false⟩,
      ⟨.sample_ray, true, [⟨.lightRaySampleU, .constRef⟩, ⟨.transform, .constRef⟩], .lightRaySample, true⟩,
      ⟨.pdf_ray, true, [⟨.pointGeometry, .constRef⟩, ⟨.vec3, .value⟩, ⟨.transform, .constRef⟩, ⟨.bool, .value⟩], .float, false⟩,
      ⟨.sample_direction, true, [⟨.lightDirectionSampleU, .constRef⟩, ⟨.pointGeometry, .constRef⟩], .lightDirectionSample, true⟩,
      ⟨.pdf_direction, true, [⟨.pointGeometry, .constRef⟩, ⟨.vec3, .value⟩], .float, false⟩,
      ⟨.sample_position, true, [⟨.lightPositionSampleU, .constRef⟩, ⟨.transform, .constRef⟩], .lightPositionSample, true⟩,
      ⟨.pdf_position, true, [⟨.pointGeometry, .constRef⟩, ⟨.transform, .constRef⟩], .float, false⟩,
      ⟨.sample_direct, true, [⟨.lightRaySampleU, .constRef⟩, ⟨.pointGeometry, .constRef⟩, ⟨.transform, .constRef⟩], .lightRaySample, true⟩,
      ⟨.pdf_direct, true, [⟨.pointGeometry, .constRef⟩, ⟨.pointGeometry, .constRef⟩, ⟨.transform, .constRef⟩, ⟨.vec3, .value⟩, ⟨.bool, .value⟩], .float, false⟩,
      ⟨.is_specular, true, [], .bool, false⟩,
      ⟨.is_infinite, true, [], .bool, false⟩,
      ⟨.is_env, false, [], .bool, false⟩,
      ⟨.is_connectable, true, [⟨.pointGeometry, .constRef⟩], .bool, false⟩,
      ⟨.eval, true, [⟨.pointGeometry, .constRef⟩, ⟨.vec3, .value⟩, ⟨.bool, .value⟩], .vec3, false⟩]

/-- The trampoline classes. -/
def trampoline : Iface → List Slot
  -- pylm.cpp:126-128
  | .component => [
      ⟨.construct, .construct, false, [0]⟩]
  -- pylm.cpp:250-258
  | .assetGroup => [
      ⟨.construct, .construct, false, [0]⟩,
      ⟨.load_asset, .load_asset, true, [0, 1, 2]⟩,
      ⟨.load_serialized, .load_serialized, true, [0, 1]⟩]
  -- pylm.cpp:307-321
  | .loggerContext => [
      ⟨.construct, .construct, false, [0]⟩,
      ⟨.log, .log, true, [0, 1, 2, 3, 4]⟩,
      ⟨.update_indentation, .update_indentation, true, [0]⟩,
      ⟨.set_severity, .set_severity, true, [0]⟩]
  -- pylm.cpp:386-404
  | .progressContext => [
      ⟨.construct, .construct, false, [0]⟩,
      ⟨.start, .start, true, [0, 1, 2]⟩,
      ⟨.end_, .end_, true, []⟩,
      ⟨.update, .update, true, [0]⟩,
      ⟨.update_time, .update_time, true, [0]⟩]
  -- pylm.cpp:464-496
  | .film => [
      ⟨.construct, .construct, false, [0]⟩,
      ⟨.size, .size, true, []⟩,
      ⟨.num_pixels, .num_pixels, true, []⟩,
      ⟨.set_pixel, .set_pixel, true, [0, 1, 2]⟩,
      ⟨.save, .save, true, [0]⟩,
      ⟨.buffer, .buffer, true, []⟩,
      ⟨.accum, .accum, true, [0]⟩,
      ⟨.splat_pixel, .splat_pixel, true, [0, 1, 2]⟩,
      ⟨.update_pixel, .update_pixel, true, [0, 1, 2]⟩,
      ⟨.rescale, .rescale, true, [0]⟩,
      ⟨.clear, .clear, true, []⟩]
  -- pylm.cpp:585-670
  | .scene => [
      ⟨.construct, .construct, false, [0]⟩,
      ⟨.reset, .reset, true, []⟩,
      ⟨.root_node, .root_node, true, []⟩,
      ⟨.create_primitive_node, .create_primitive_node, true, [0]⟩,
      ⟨.create_group_node, .create_group_node, true, [0]⟩,
      ⟨.create_instance_group_node, .create_instance_group_node, true, []⟩,
      ⟨.add_child, .add_child, true, [0, 1]⟩,
      ⟨.add_child_from_model, .add_child_from_model, true, [0, 1]⟩,
      ⟨.create_group_from_model, .create_group_from_model, true, [0]⟩,
      ⟨.num_nodes, .num_nodes, true, []⟩,
      ⟨.num_lights, .num_lights, true, []⟩,
      ⟨.camera_node, .camera_node, true, []⟩,
      ⟨.medium_node, .medium_node, true, []⟩,
      ⟨.env_light_node, .env_light_node, true, []⟩,
      ⟨.traverse_primitive_nodes, .traverse_primitive_nodes, true, [0]⟩,
      ⟨.visit_node, .visit_node, true, [0, 1]⟩,
      ⟨.node_at, .node_at, true, [0]⟩,
      ⟨.accel, .accel, true, []⟩,
      ⟨.set_accel, .set_accel, true, [0]⟩,
      ⟨.build, .build, true, []⟩,
      ⟨.intersect, .intersect, true, [0, 1, 2]⟩,
      ⟨.is_light, .is_light, true, [0]⟩,
      ⟨.is_camera, .is_camera, true, [0]⟩,
      ⟨.sample_light_selection, .sample_light_selection, true, [0]⟩,
      ⟨.pdf_light_selection, .pdf_light_selection, true, [0]⟩,
      ⟨.light_primitive_index_at, .light_primitive_index_at, true, [0]⟩,
      ⟨.light_index_at, .light_index_at, true, [0]⟩]
  -- pylm.cpp:740-748
  | .accel => [
      ⟨.construct, .construct, false, [0]⟩,
      ⟨.build, .build, true, [0]⟩,
      ⟨.intersect, .intersect, true, [0, 1, 2]⟩]
  -- pylm.cpp:763-768
  | .renderer => [
      ⟨.construct, .construct, false, [0]⟩,
      ⟨.render, .render, true, []⟩]
  -- pylm.cpp:784-795
  | .texture => [
      ⟨.construct, .construct, false, [0]⟩,
      ⟨.size, .size, true, []⟩,
      ⟨.eval, .eval, true, [0]⟩,
      ⟨.eval_by_pixel_coords, .eval_by_pixel_coords, true, [0, 1]⟩]
  -- pylm.cpp:826-840
  | .mesh => [
      ⟨.construct, .construct, false, [0]⟩,
      ⟨.foreach_triangle, .foreach_triangle, true, [0]⟩,
      ⟨.triangle_at, .triangle_at, true, [0]⟩,
      ⟨.surface_point, .surface_point, true, [0, 1]⟩,
      ⟨.num_triangles, .num_triangles, true, []⟩]
  -- pylm.cpp:861-884
  | .material => [
      ⟨.construct, .construct, false, [0]⟩,
      ⟨.sample_component, .sample_component, true, [0, 1, 2]⟩,
      ⟨.pdf_component, .pdf_component, true, [0, 1, 2]⟩,
      ⟨.sample_direction, .sample_direction, true, [0, 1, 2, 3, 4]⟩,
      ⟨.pdf_direction, .pdf_direction, true, [0, 1, 2, 3, 4]⟩,
      ⟨.eval, .eval, true, [0, 1, 2, 3, 4, 5]⟩,
      ⟨.is_specular_component, .is_specular_component, true, [0]⟩,
      ⟨.reflectance, .reflectance, true, [0]⟩]
  -- pylm.cpp:906-917
  | .phase => [
      ⟨.construct, .construct, false, [0]⟩,
      ⟨.sample_direction, .sample_direction, true, [0, 1, 2]⟩,
      ⟨.pdf_direction, .pdf_direction, true, [0, 1, 2]⟩,
      ⟨.eval, .eval, true, [0, 1, 2]⟩]
  -- pylm.cpp:938-952
  | .medium => [
      ⟨.construct, .construct, false, [0]⟩,
      ⟨.sample_distance, .sample_distance, true, [0, 1, 2, 3]⟩,
      ⟨.eval_transmittance, .eval_transmittance, true, [0, 1, 2, 3]⟩,
      ⟨.is_emitter, .is_emitter, true, []⟩,
      ⟨.phase, .phase, true, []⟩]
  -- pylm.cpp:966-986
  | .volume => [
      ⟨.construct, .construct, false, [0]⟩,
      ⟨.bound, .bound, true, []⟩,
      ⟨.has_scalar, .has_scalar, true, []⟩,
      ⟨.max_scalar, .has_scalar, true, []⟩,
      ⟨.eval_scalar, .eval_scalar, false, [0]⟩,
      ⟨.has_color, .has_color, true, []⟩,
      ⟨.eval_color, .eval_color, false, [0]⟩]
  -- pylm.cpp:1004-1012
  | .model => [
      ⟨.construct, .construct, false, [0]⟩,
      ⟨.create_primitives, .create_primitives, true, [0]⟩,
      ⟨.foreach_node, .foreach_node, true, [0]⟩]
  -- pylm.cpp:1042-1096
  | .camera => [
      ⟨.construct, .construct, false, [0]⟩,
      ⟨.set_aspect_ratio, .set_aspect_ratio, true, [0]⟩,
      ⟨.view_matrix, .view_matrix, true, []⟩,
      ⟨.projection_matrix, .projection_matrix, true, []⟩,
      ⟨.primary_ray, .primary_ray, true, [0]⟩,
      ⟨.sample_ray, .sample_ray, true, [0]⟩,
      ⟨.pdf_ray, .pdf_ray, true, [0, 1]⟩,
      ⟨.sample_direction, .sample_direction, true, [0, 1]⟩,
      ⟨.pdf_direction, .pdf_direction, true, [0, 1]⟩,
      ⟨.sample_position, .sample_position, true, [0]⟩,
      ⟨.pdf_position, .pdf_position, true, [0]⟩,
      ⟨.sample_direct, .sample_direct, true, [0, 1]⟩,
      ⟨.pdf_direct, .pdf_direct, true, [0, 1, 2]⟩,
      ⟨.raster_position, .raster_position, true, [0]⟩,
      ⟨.is_connectable, .is_connectable, true, [0]⟩,
      ⟨.eval, .eval, true, [0]⟩]
  -- pylm.cpp:1133-1176
  | .light => [
      ⟨.construct, .construct, false, [0]⟩,
      ⟨.sample_ray, .sample_ray, true, [0, 1]⟩,
      ⟨.pdf_ray, .pdf_ray, true, [0, 1, 2, 3]⟩,
      ⟨.sample_direction, .sample_direction, true, [0, 1]⟩,
      ⟨.pdf_direction, .pdf_direction, true, [0, 1]⟩,
      ⟨.sample_position, .sample_position, true, [0, 1]⟩,
      ⟨.pdf_position, .pdf_position, true, [0, 1]⟩,
      ⟨.sample_direct, .sample_direct, true, [0, 1, 2]⟩,
      ⟨.pdf_direct, .pdf_direct, true, [0, 1, 2, 3, 4]⟩,
      ⟨.is_specular, .is_specular, true, []⟩,
      ⟨.is_infinite, .is_infinite, true, []⟩,
      ⟨.is_connectable, .is_connectable, true, [0]⟩,
      ⟨.eval, .eval, true, [0, 1, 2]⟩]

/-- The methods of an interface, with those it inherits from Component (component.h:210-289); save and load to archives are modelled below. -/
def methods (i : Iface) : List Method :=
  match i with
  | .component => declared .component
  | i => declared .component ++ declared i

/-- The types with a type caster that copies the value: pybind11's own (pylm.h:9-12: stl.h, functional.h, numpy.h) and pylm.h:20-295. rawPointer: void pointers are capsules. -/
def hasCaster : CTy → Bool
  | .void | .bool | .int | .float | .str | .json | .vec2 | .vec3 | .mat4 | .callback | .rawPointer => true
  | _ => false

/-- The types registered with pybind11::class_ and pybind11::enum_ (src/pylm.cpp). -/
def registered : CTy → Bool
  | .ray => true  -- pylm.cpp:72
  | .rng => true  -- pylm.cpp:82
  | .component => true  -- pylm.cpp:131
  | .logLevel => true  -- pylm.cpp:286
  | .progressMode => true  -- pylm.cpp:371
  | .filmSize => true  -- pylm.cpp:441
  | .filmBuffer => true  -- pylm.cpp:446
  | .film => true  -- pylm.cpp:498
  | .pointGeometry => true  -- pylm.cpp:514
  | .sceneInteraction => true  -- pylm.cpp:533
  | .sceneNode => true  -- pylm.cpp:573
  | .scene => true  -- pylm.cpp:673
  | .accelHit => true  -- pylm.cpp:732
  | .accel => true  -- pylm.cpp:750
  | .textureSize => true  -- pylm.cpp:780
  | .meshPoint => true  -- pylm.cpp:814
  | .meshTri => true  -- pylm.cpp:820
  | .materialDirectionSample => true  -- pylm.cpp:855
  | .phaseDirectionSample => true  -- pylm.cpp:900
  | .phase => true  -- pylm.cpp:919
  | .mediumDistanceSample => true  -- pylm.cpp:931
  | .cameraRaySample => true  -- pylm.cpp:1025
  | .cameraDirectionSample => true  -- pylm.cpp:1031
  | .cameraPositionSample => true  -- pylm.cpp:1036
  | .lightRaySample => true  -- pylm.cpp:1126
  | _ => false

/-- The abstract classes among the registered types, which cannot be copied (component.h:61-111, film.h:50, scene.h:27, accel.h:22, phase.h:21). -/
def abstract_ : CTy → Bool
  | .component | .film | .scene | .accel | .phase => true
  | _ => false

/-- Python values (simplified, see the head of this file; pylm.h:20-295). -/
inductive PyVal where
  | none
  | bool (b : Bool)
  | int (z : ℤ)
  | float (q : ℚ)
  | str (s : String)
  | obj (ty : CTy) (n : ℕ)
  deriving DecidableEq

/-- Conversion of a result to the type declared in the interface (detail::cast_safe in PYBIND11_OVERLOAD_INT, used at src/pylm.cpp:127-1175): none is a cast_error. bool: objects with __bool__; float: numbers and bool; int: int and bool; json: everything but objects
    (see the model of C96 for what it converts to); None for nullopt and null pointers. -/
def load (t : CTy) (optional : Bool) (v : PyVal) : Option PyVal :=
  if optional && v = .none then some .none else
  match t, v with
  | .void, _ => some .none
  | .bool, .bool b => some (.bool b)
  | .bool, .none => some (.bool false)
  | .bool, .int z => some (.bool (z ≠ 0))
  | .bool, .float q => some (.bool (q ≠ 0))
  | .int, .int z => some (.int z)
  | .int, .bool b => some (.int (if b then 1 else 0))
  | .float, .float q => some (.float q)
  | .float, .int z => some (.float z)
  | .float, .bool b => some (.float (if b then 1 else 0))
  | .str, .str s => some (.str s)
  | .json, .obj _ _ => Option.none
  | .json, v => some v
  | t, .obj u n => if t = u ∧ (hasCaster t || registered t) = true then some (.obj u n) else Option.none
  | _, _ => Option.none

/-- What a Python method does: it raises an exception, or returns a value after it has changed the objects it was given; `after k` is the state of its k-th argument (used at src/pylm.cpp:127-1175). -/
inductive PyRes where
  | raises (e : String)
  | returns (v : PyVal) (after : ℕ → PyVal)

/-- A class defined in Python: its methods (pylm.h:303-335, the class given to reg). -/
def PyClass := Name → Option (List PyVal → PyRes)

/-- An actual argument of a C++ call: its value, and if the interpreter already has a wrapper for this very object (detail::find_registered_python_instance, used at src/pylm.cpp:127-1175). -/
structure Actual where
  val : PyVal
  wrapped : Bool

/-- What the C++ caller of a method observes (src/pylm.cpp:127-1175). result: the value, and for every parameter passed by non-const reference or by pointer (with its position) the state of the object after the call. -/
inductive Outcome where
  | result (v : PyVal) (objects : List (ℕ × PyVal))
  /-- The implementation of the interface runs. -/
  | inherited
  /-- Exceptions: of the Python method, a failed conversion, "Tried to call pure virtual function". -/
  | pyError (e : String)
  | castError
  | pureVirtual
  deriving DecidableEq

/-- Can the argument be converted to a Python object (used at src/pylm.cpp:127-1175; see the head of this file). -/
def converts (p : Param) (a : Actual) : Bool :=
  hasCaster p.ty || (registered p.ty && (p.mode == .ptr || !abstract_ p.ty || a.wrapped))

/-- Is the Python object the object of the caller, and not a copy (used at src/pylm.cpp:127-1175; see the head of this file). -/
def shares (p : Param) (a : Actual) : Bool :=
  registered p.ty && (p.mode == .ptr || (p.mode == .mutRef || p.mode == .constRef) && a.wrapped)

/-- PYBIND11_OVERLOAD and PYBIND11_OVERLOAD_PURE (used at src/pylm.cpp:127-1175) in the trampoline `s` of the method `m`, called with the arguments `args`. -/
def dispatch (s : Slot) (m : Method) (c : PyClass) (args : ℕ → Actual) : Outcome :=
  match c s.target with
  | none => if s.pure then .pureVirtual else .inherited
  | some f =>
    let given := s.passed.filterMap fun k => (m.params[k]?).map fun p => (k, p)
    if given.all (fun kp => converts kp.2 (args kp.1)) then
      match f (given.map fun kp => (args kp.1).val) with
      | .raises e => .pyError e
      | .returns v after =>
        match load m.ret m.retNone v with
        | none => .castError
        | some r => .result r <| (given.zipIdx.filter fun x => x.1.2.mode == .mutRef || x.1.2.mode == .ptr).map fun x =>
            (x.1.1, if shares x.1.2 (args x.1.1) then after x.2 else (args x.1.1).val)
    else .castError

/-- A virtual call of the method `m` of the interface `i` on an instance of the Python class `c` (src/pylm.cpp:121-1195): the trampoline class overrides the method, or the implementation of the interface is called. -/
def call (i : Iface) (m : Method) (c : PyClass) (args : ℕ → Actual) : Outcome :=
  match (trampoline i).find? (fun s => s.name = m.name) with
  | some s => dispatch s m c args
  | none => .inherited

/-- The interfaces whose trampoline class contains PYLM_SERIALIZE_IMPL (pylm.cpp:125, 762). -/
def serializes : Iface → Bool
  | .component | .renderer => true
  | _ => false

/-- The Python methods save and load of a class whose instances have states of type σ (pylm.h:411-435); they are optional. The result of save and the argument of load are strings of bytes. -/
structure PySerial (σ : Type) where
  save : Option (σ → List ℕ)
  load : Option (List ℕ → σ → σ)

/-- save(OutputArchive&) on an instance of a Python class (pylm.h:412-422): the string is written to the archive. The default implementation writes nothing (component.h:234-236). -/
def saveTo {σ : Type} (i : Iface) (e : Endian) (c : PySerial σ) (s : σ) : Bytes :=
  if serializes i then
    match c.save with
    | some f => enc e (.seq (.word 1)) (f s)
    | none => []
  else []

/-- load(InputArchive&) on an instance of a Python class (pylm.h:423-434): a string is read from the archive and passed to the method; none: exception of the archive. The default implementation reads nothing (component.h:221-223). -/
def loadFrom {σ : Type} (i : Iface) (e : Endian) (swap : Bool) (c : PySerial σ) (bs : Bytes) (s : σ) : Option (σ × Bytes) :=
  if serializes i then
    match c.load with
    | some g => (dec e swap (.seq (.word 1)) bs).map fun r => (g r.1 s, r.2)
    | none => some (s, bs)
  else some (s, bs)

end LM.PyTramp
