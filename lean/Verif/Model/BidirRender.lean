import Verif.Model.Bidir
import Verif.Model.Renderer
/-
  The renderers on bidirectional paths: src/renderer/renderer_bdpt.cpp (pt_naive_path, pt_nee_path, lt_nee_path, bdpt), with the sampling of subpaths, include/lm/bidir.h:507-575.
  One call of the `process` callback is one sample. The random numbers a call consumes are the arguments `rsE` (eye subpath) and `rsL` (light subpath); the iteration that starts with n vertices consumes those of index n.
-/
namespace LM.Render
open LM LM.Surface LM.Material LM.Light LM.Volume LM.Path

/-- The ray of one iteration of the random walk: undefined, leave the loop, or a ray with the vertices so far (bidir.h:517-539). -/
inductive SubRay
  | undef
  | stop
  | ray (vs : List Vert) (o d : V3 ℝ)

/-- The ray of one iteration, bidir.h:517-539: the primary ray, whose origin becomes the first vertex, or a direction sampled at the last vertex. -/
noncomputable def subpathRay (W : World) (dir : TransDir) (vs : List Vert) (r : Rnd) : SubRay :=
  if vs.length = 0 then
    match samplePrimaryRay W r.light dir with
    | .undef => .undef
    | .fail => .stop
    | .ok sp wo _ => .ray (vs ++ [⟨sp, 0⟩]) sp.geom.p wo
  else
    match subpathVertexAt vs ((vs.length : Int) - 1) with
    | none => .undef
    | some v => match direction (some v) (subpathVertexAt vs ((vs.length : Int) - 2)) with
      | none => .undef
      | some wi => match sampleDirection W r.dir v.sp wi v.comp dir with
        | .undef => .undef
        | .fail => .stop
        | .ok wo _ => .ray vs v.sp.geom.p wo

/-- The loop of sample_subpath_from_endpoint, bidir.h:516-555, at most k iterations (each adds a vertex, or leaves the loop). -/
noncomputable def subpathLoop (W : World) (Q : Query) (maxVerts : ℤ) (dir : TransDir) (rs : ℕ → Rnd) : ℕ → List Vert → Option (List Vert)
  | 0, vs => some vs
  | k + 1, vs =>
    if (vs.length : ℤ) < maxVerts then
      match subpathRay W dir vs (rs vs.length) with
      | .undef => none
      | .stop => some vs
      | .ray vs' o d => match Q.isect o d with
        | none => some vs'
        | some hit => match sampleComponent W (rs vs.length).comp hit (-d) with
          | none => none
          | some (c, _) => if hit.geom.infinite then some (vs' ++ [⟨hit, c⟩]) else subpathLoop W Q maxVerts dir rs k (vs' ++ [⟨hit, c⟩])
    else some vs

/-- sample_subpath, bidir.h:571-575, 507-512. -/
noncomputable def sampleSubpath (W : World) (Q : Query) (maxVerts : ℤ) (dir : TransDir) (rs : ℕ → Rnd) : Option (List Vert) :=
  if maxVerts = 0 then some [] else subpathLoop W Q maxVerts dir rs maxVerts.toNat []

/-- Path::raster_position, bidir.h:167-171: dereferences the result. -/
noncomputable def rasterOf (W : World) (vs : List Vert) : Option (ℝ × ℝ) := do
  let d ← direction (vertexAt vs 0 .EL) (vertexAt vs 1 .EL)
  let rp ← rasterAt W d
  rp

open Classical in
/-- One full path: connection, sampling weight, weight for the combination of strategies (bdpt only), splat (renderer_bdpt.cpp:91-112, 179-193, 241-280, 357-389). -/
noncomputable def pathSplat (W : World) (Q : Query) (mis : Bool) (L E : List Vert) (st : ℕ × ℕ) : Option (List Splat) :=
  match connect W Q.visible L E st.1 st.2 with
  | .undef => none
  | .fail => some []
  | .ok vs => do
    let C ← samplingWeight W vs st.1
    if C = 0 then return []
    else
      let w ← if mis then misWeight W vs st.1 else some 1
      let rp ← rasterOf W vs
      return [⟨if st.1 = 0 then .hit else .nee, st.1 + st.2, rp, w • C⟩]

/-- The splats of the iterations, in order; undefined if one of them is (renderer_bdpt.cpp:83, 150, 227, 350). -/
def gather : List (Option (List Splat)) → Option (List Splat)
  | [] => some []
  | x :: xs => do
    let a ← x
    let b ← gather xs
    return a ++ b

/-- renderer::bdpt, renderer_bdpt.cpp:343-394. -/
noncomputable def bdptSample (W : World) (Q : Query) (minVerts maxVerts : ℤ) (rsE rsL : ℕ → Rnd) : Option (List Splat) := do
  let E ← sampleSubpath W Q maxVerts .EL rsE
  let L ← sampleSubpath W Q maxVerts .LE rsL
  gather ((bdptPairs minVerts maxVerts L.length E.length).map (pathSplat W Q true L E))

/-- renderer::pt_naive_path, renderer_bdpt.cpp:78-113. -/
noncomputable def ptNaivePathSample (W : World) (Q : Query) (minVerts maxVerts : ℤ) (rsE : ℕ → Rnd) : Option (List Splat) := do
  let E ← sampleSubpath W Q maxVerts .EL rsE
  gather ((ptNaivePairs minVerts maxVerts E.length).map (pathSplat W Q false [] E))

/-- The strategies of pt_nee_path need the answers of is_specular: those of the vertices of the eye subpath, renderer_bdpt.cpp:168-169. -/
noncomputable def specularity (W : World) (E : List Vert) : Option (List Bool) := E.mapM fun v => isSpecularComponent W v.sp v.comp

/-- renderer::pt_nee_path, renderer_bdpt.cpp:142-194; nL > 0 is an assertion. is_specular_component is evaluated for all vertices of the eye subpath (in the code, for those that are connected). -/
noncomputable def ptNeePathSample (W : World) (Q : Query) (minVerts maxVerts : ℤ) (rsE rsL : ℕ → Rnd) : Option (List Splat) := do
  let E ← sampleSubpath W Q maxVerts .EL rsE
  let L ← sampleSubpath W Q 1 .LE rsL
  if L.length = 0 then none
  else
    let spec ← specularity W E
    gather ((ptNeePairs minVerts maxVerts L.length E.length fun i => spec[i]? == some true).map (pathSplat W Q false L E))

/-- renderer::lt_nee_path, renderer_bdpt.cpp:220-281; nE > 0 is an assertion. -/
noncomputable def ltNeePathSample (W : World) (Q : Query) (minVerts maxVerts : ℤ) (rsE rsL : ℕ → Rnd) : Option (List Splat) := do
  let E ← sampleSubpath W Q 1 .EL rsE
  let L ← sampleSubpath W Q maxVerts .LE rsL
  if E.length = 0 then none
  else gather ((ltNeePairs minVerts maxVerts L.length E.length).map (pathSplat W Q false L E))

end LM.Render
