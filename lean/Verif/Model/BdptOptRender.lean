import Verif.Model.BdptOpt
import Verif.Model.BidirRender
/-
  renderer::bdptopt, src/renderer/renderer_bdptopt.cpp: contribution of two connected subpaths (224-312) and the loop over the strategies (478-518).
  As in Model/BidirRender.lean, the random numbers a call of the `process` callback consumes are the arguments `rsE` and `rsL`.
-/
namespace LM.Render
open LM LM.Surface LM.Material LM.Light LM.Volume LM.Path

/-- The samplers of one iteration of the random walk, with their random numbers (renderer_bdptopt.cpp:139, 177, 205). -/
noncomputable def stepOf (W : World) (dir : TransDir) (r : Rnd) : OptStep :=
  ⟨samplePrimaryRay W r.light dir, fun sp wi c => Path.sampleDirection W r.dir sp wi c dir, fun sp wi => Path.sampleComponent W r.comp sp wi⟩

/-- sample_subpath, renderer_bdptopt.cpp:130-222. `junk`, `junkW` are the contents of uninitialised members. -/
noncomputable def sampleSubpathOpt (W : World) (Q : Query) (junk : ℝ) (junkW : V3 ℝ) (maxVerts : ℤ) (dir : TransDir) (rs : ℕ → Rnd) : Option (List CV) :=
  optWalk W Q.isect junk junkW maxVerts (fun n => stepOf W dir (rs n)) maxVerts.toNat [] junkW

/-- The checks of connect_and_eval_contrb: whether the strategy (s, t) can sample the path (renderer_bdptopt.cpp:230-264). s + t ≥ 2 is an assertion (233). -/
noncomputable def optSamplable (W : World) (L E : List CV) (s t : ℕ) : Option Bool :=
  if s + t < 2 then none
  else if s = 0 then do
    let v ← E[t - 1]?
    return !v.sp.geom.degenerated
  else if t = 0 then do
    let v ← L[s - 1]?
    return !v.sp.geom.degenerated
  else do
    let vL ← L[s - 1]?
    let vE ← E[t - 1]?
    let cL ← if s = 1 then isConnectableEndpoint W vL.sp else some true
    if !cL then return false
    else
      let cE ← if t = 1 then isConnectableEndpoint W vE.sp else some true
      if !cE then return false
      else if vL.sp.geom.infinite || vE.sp.geom.infinite then return false
      else
        let sL ← isSpecularComponent W vL.sp vL.comp
        if sL then return false
        else return !(← isSpecularComponent W vE.sp vE.comp)

/-- The contribution of the connected subpaths, renderer_bdptopt.cpp:266-290. If the connected vertices are not visible from each other (283-285) it is 0 here: the function returns nullopt for it
    as for a contribution 0 (291-293). -/
noncomputable def optContrb (W : World) (vis : SI → SI → Bool) (L E : List CV) (s t : ℕ) : Option (V3 ℝ) :=
  if s = 0 then do
    let v ← E[t - 1]?
    let Le ← evalContrbDirection W (v.sp.asType .light) 0 v.wRev 0 .LE true
    return Le * v.alpha
  else if t = 0 then do
    let v ← L[s - 1]?
    let We ← evalContrbDirection W (v.sp.asType .camera) 0 v.wRev 0 .EL true
    return We * v.alpha
  else do
    let vL ← L[s - 1]?
    let vE ← E[t - 1]?
    if !vis vL.sp vE.sp then return 0
    else
      let dL ← direction (some vL.vert) (some vE.vert)
      let fL ← evalContrbDirection W vL.sp vL.wRev dL vL.comp .LE true
      let dE ← direction (some vE.vert) (some vL.vert)
      let fE ← evalContrbDirection W vE.sp vE.wRev dE vE.comp .EL true
      let G ← geometryTerm vL.sp.geom vE.sp.geom
      return (G • (vL.alpha * fL)) * fE * vE.alpha

/-- The raster position, renderer_bdptopt.cpp:295-309; the result of raster_position is dereferenced. -/
noncomputable def optRaster (W : World) (L E : List CV) (s t : ℕ) : Option (ℝ × ℝ) :=
  if t = 0 then do
    let v ← L[s - 1]?
    let rp ← rasterAt W v.wFwd
    rp
  else if t = 1 then do
    let vL ← if s = 0 then none else L[s - 1]?
    let vE ← E[0]?
    let d ← direction (some vE.vert) (some vL.vert)
    let rp ← rasterAt W d
    rp
  else do
    let vE ← E[0]?
    let rp ← rasterAt W vE.wFwd
    rp

open Classical in
/-- One strategy: contribution, weight and splat (renderer_bdptopt.cpp:230-312, 500-511). -/
noncomputable def optSplat (W : World) (Q : Query) (L E : List CV) (st : ℕ × ℕ) : Option (List Splat) := do
  let ok ← optSamplable W L E st.1 st.2
  if !ok then return []
  else
    let C ← optContrb W Q.visible L E st.1 st.2
    if C = 0 then return []
    else
      let rp ← optRaster W L E st.1 st.2
      let w ← misWeightOpt W L E st.1 st.2
      return [⟨if st.1 = 0 then .hit else .nee, st.1 + st.2, rp, w • C⟩]

/-- renderer::bdptopt, renderer_bdptopt.cpp:478-518: the strategies are enumerated as in renderer::bdpt (493-498). -/
noncomputable def bdptOptSample (W : World) (Q : Query) (junk : ℝ) (junkW : V3 ℝ) (minVerts maxVerts : ℤ) (rsE rsL : ℕ → Rnd) : Option (List Splat) := do
  let E ← sampleSubpathOpt W Q junk junkW maxVerts .EL rsE
  let L ← sampleSubpathOpt W Q junk junkW maxVerts .LE rsL
  gather ((bdptPairs minVerts maxVerts L.length E.length).map (optSplat W Q L E))

end LM.Render
