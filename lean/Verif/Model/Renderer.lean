import Verif.Model.PathApi
/-
  Random-walk renderers: src/renderer/renderer_pt.cpp, renderer_lt.cpp, renderer_volpt.cpp, and the strategy loops of renderer_bdpt.cpp / renderer_bdptopt.cpp.
  One call of the `process` callback is one sample. The random numbers a call consumes are the argument `rs`; ray queries are the record `Query`.
  Null pointers, empty optionals dereferenced, out-of-range accesses and undefined numbers are the outcome none. Counters are natural numbers.
-/
namespace LM.Render
open LM LM.Surface LM.Material LM.Light LM.Volume LM.Path

/-- scene->intersect({o, d}) and scene->visible(s1, s2) (scene.h:147-156, 343-364). -/
structure Query where
  isect : V3 ℝ → V3 ℝ → Option SI
  visible : SI → SI → Bool

/-- Random numbers of one iteration: for sample_direct, sample_direction, roulette and sample_component (renderer_pt.cpp:142-300). -/
structure Rnd where
  light : RaySampleU
  dir : DirU
  rr : ℝ
  comp : ℝ

/-- path::raster_position, path.h:733-736: none is a missing camera, some none the empty optional. -/
noncomputable def rasterAt (W : World) (wo : V3 ℝ) : Option (Option (ℝ × ℝ)) :=
  W.st.camera.bind (fun n => (W.cameraAt n).map (fun c => rasterPosition c wo))

/-- Scene_::is_light, scene.cpp:353-362. is_emitter() of both media is false (medium_homogeneous.cpp:98-100, medium_heterogeneous.cpp:107-109). -/
def isLight (W : World) (sp : SI) : Option Bool :=
  match W.prim sp.primitive with
  | none => none
  | some p => match sp.kind with
    | .medium => p.medium.map (fun _ => false)
    | _ => some p.light.isSome

/-- as_type(LightEndpoint), scene.h: the same point as a light endpoint (scene.h:40-57). -/
def asLight (sp : SI) : SI := { sp with kind := .light }

/-- Russian roulette, renderer_pt.cpp:282-286, renderer_lt.cpp:147-151, renderer_volpt.cpp:158-164, 336-342. `qmin` is .2 or rr_prob.
    none: undefined division; some none: break; some (some t): new throughput. -/
noncomputable def roulette (qmin : ℝ) (thr : V3 ℝ) (u : ℝ) : Option (Option (V3 ℝ)) :=
  let q := max qmin (1 - compMax thr)
  if u < q then some none else (divV thr (1 - q)).map some

/-- `if (num_verts > 5) { ... }` (renderer_pt.cpp:281). -/
noncomputable def rouletteAt (qmin : ℝ) (nv : ℕ) (thr : V3 ℝ) (u : ℝ) : Option (Option (V3 ℝ)) :=
  if nv > 5 then roulette qmin thr u else some (some thr)

/-! ### Path tracing, renderer_pt.cpp:89-302 -/

/-- SamplingMode, renderer_pt.cpp:19-23. -/
inductive Mode | naive | nee | mis
deriving DecidableEq

/-- sampling_mode_, primary_ray_sampling_mode_ == Pixel, max_verts_ (a negative one behaves as 0) (renderer_pt.cpp:29-38). -/
structure Cfg where
  mode : Mode
  pixel : Bool
  maxVerts : ℕ

/-- The variables of the walk: sp, comp, wi, throughput, raster_pos (renderer_pt.cpp:112-122). -/
structure St where
  sp : SI
  comp : ℕ
  wi : V3 ℝ
  thr : V3 ℝ
  rp : ℝ × ℝ

/-- Which technique made a contribution (observed only) (renderer_pt.cpp:142-271). -/
inductive Tech | nee | hit
deriving DecidableEq

/-- film_->splat(rp, C), with the number of vertices of the full path and the technique (renderer_pt.cpp:142-271). -/
structure Splat where
  tech : Tech
  verts : ℕ
  rp : ℝ × ℝ
  C : V3 ℝ

/-- The next vertex found by an iteration: the hit, the direction towards it, the throughput before roulette and the raster position (renderer_pt.cpp:194-234). -/
structure Hop where
  hit : SI
  wo : V3 ℝ
  thr : V3 ℝ
  rp : ℝ × ℝ

/-- The end of an iteration, the same in the three renderers (renderer_pt.cpp:276-300, renderer_lt.cpp:141-165, renderer_volpt.cpp:153-177, 331-355): termination at infinity,
    roulette `rr`, component sampling, update. some none: break. -/
noncomputable def advance (W : World) (rr : ℕ → V3 ℝ → ℝ → Option (Option (V3 ℝ))) (nv : ℕ) (h : Hop) (r : Rnd) : Option (Option St) :=
  if h.hit.geom.infinite then some none
  else match rr nv h.thr r.rr with
    | none => none
    | some none => some none
    | some (some thr) => (sampleComponent W r.comp h.hit (-h.wo)).map (fun s => some ⟨h.hit, s.1, -h.wo, s.2 • thr, h.rp⟩)

/-- `for (num_verts = nv; num_verts < max_verts_; num_verts++)` with k iterations left (renderer_pt.cpp:123, renderer_lt.cpp:92, renderer_volpt.cpp:103, 240):
    `body` is the iteration up to roulette. `rs nv` are the random numbers of iteration nv. -/
noncomputable def walk (W : World) (rr : ℕ → V3 ℝ → ℝ → Option (Option (V3 ℝ))) (body : ℕ → St → Rnd → Option (List Splat × Option Hop)) (rs : ℕ → Rnd) : ℕ → ℕ → St → Option (List Splat)
  | 0, _, _ => some []
  | k + 1, nv, st =>
    match body nv st (rs nv) with
    | none => none
    | some (out, none) => some out
    | some (out, some h) => match advance W rr nv h (rs nv) with
      | none => none
      | some none => some out
      | some (some st') => (walk W rr body rs k (nv + 1) st').map (fun rest => out ++ rest)

/-- samplable_by_nee, renderer_pt.cpp:127-140. -/
noncomputable def byNee (W : World) (c : Cfg) (nv : ℕ) (st : St) : Option Bool :=
  if c.mode = .naive then some false
  else (isSpecularComponent W st.sp st.comp).map (fun sp => if c.pixel then decide (nv > 1) && !sp else !sp)

/-- mis_w of the NEE edge, renderer_pt.cpp:168-187. -/
noncomputable def neeWeight (W : World) (c : Cfg) (st : St) (spL : SI) (woL : V3 ℝ) : Option ℝ :=
  if c.mode = .nee then some 1
  else do
    let specL ← isSpecularComponent W spL 0
    if specL || spL.geom.degenerated then return 1
    else
      let pLight ← pdfDirect W st.sp spL woL true
      let pBsdf ← pdfDirection W st.sp st.wi (-woL) st.comp true
      return MathF.balanceHeuristic pLight pBsdf

open Classical in
/-- The NEE edge for a light sample, renderer_pt.cpp:148-191. -/
noncomputable def neeSplat (W : World) (Q : Query) (c : Cfg) (nv : ℕ) (st : St) (spL : SI) (woL wL : V3 ℝ) : Option (List Splat) :=
  if !Q.visible st.sp spL then some []
  else do
    let rp ← if nv = 1 then rasterAt W (-woL) else some (some st.rp)
    match rp with
    | none => return []
    | some rp =>
      let fs ← evalContrbDirection W st.sp st.wi (-woL) st.comp .EL true
      if fs = 0 then return []
      else
        let w ← neeWeight W c st spL woL
        return [⟨.nee, nv + 1, rp, w • (st.thr * fs * wL)⟩]

/-- renderer_pt.cpp:142-192. -/
noncomputable def ptNee (W : World) (Q : Query) (c : Cfg) (nv : ℕ) (st : St) (r : Rnd) : Option (List Splat) := do
  let b ← byNee W c nv st
  if b then
    match sampleDirect W r.light st.sp .LE with
    | .undef => none
    | .fail => return []
    | .ok spL woL wL => neeSplat W Q c nv st spL woL wL
  else return []

/-- mis_w of the direct hit, renderer_pt.cpp:251-266. -/
noncomputable def hitWeight (W : World) (c : Cfg) (nee : Bool) (st : St) (wo : V3 ℝ) (spL : SI) : Option ℝ :=
  if c.mode = .naive then some 1
  else if !nee then some 1
  else do
    let pBsdf ← pdfDirection W st.sp st.wi wo st.comp true
    let pLight ← pdfDirect W st.sp spL (-wo) true
    return MathF.balanceHeuristic pBsdf pLight

/-- The contribution of a direct hit, renderer_pt.cpp:236-271. `thr` is the throughput after renderer_pt.cpp:229, `rp` the raster position after renderer_pt.cpp:215. -/
noncomputable def hitSplat (W : World) (c : Cfg) (nv : ℕ) (st : St) (wo : V3 ℝ) (thr : V3 ℝ) (rp : ℝ × ℝ) (hit : SI) : Option (List Splat) := do
  let nee ← byNee W c nv st
  if c.mode = .nee ∧ nee = true then return []
  else
    let l ← isLight W hit
    if l then
      let fs ← evalContrbDirection W (asLight hit) 0 (-wo) st.comp .LE true
      let w ← hitWeight W c nee st wo (asLight hit)
      return [⟨.hit, nv + 1, rp, w • (thr * fs)⟩]
    else return []

/-- renderer_pt.cpp:213-216. -/
noncomputable def newRaster (W : World) (nv : ℕ) (st : St) (wo : V3 ℝ) : Option (ℝ × ℝ) :=
  if nv = 1 then (rasterAt W wo).bind id else some st.rp

/-- One iteration of the walk up to roulette, renderer_pt.cpp:124-271. -/
noncomputable def ptBody (W : World) (Q : Query) (c : Cfg) (nv : ℕ) (st : St) (r : Rnd) : Option (List Splat × Option Hop) := do
  let a ← ptNee W Q c nv st r
  match sampleDirection W r.dir st.sp st.wi st.comp .EL with
  | .undef => none
  | .fail => return (a, none)
  | .ok wo w =>
    let rp ← newRaster W nv st wo
    match Q.isect st.sp.geom.p wo with
    | none => return (a, none)
    | some hit =>
      let b ← hitSplat W c nv st wo (st.thr * w) rp hit
      return (a ++ b, some ⟨hit, wo, st.thr * w, rp⟩)

/-- The initial vertex, renderer_pt.cpp:112-122. -/
noncomputable def ptStart (W : World) (uc : ℝ) (u : RaySampleU) : Option St :=
  match samplePosition W u .EL with
  | .ok sp _ w => (sampleComponent W uc sp 0).map (fun s => ⟨sp, s.1, 0, s.2 • w, (0, 0)⟩)
  | _ => none

/-- One sample of renderer::pt (renderer_pt.cpp:90-302). -/
noncomputable def ptSample (W : World) (Q : Query) (c : Cfg) (u : RaySampleU) (uc : ℝ) (rs : ℕ → Rnd) : Option (List Splat) := do
  let st ← ptStart W uc u
  walk W (rouletteAt (2 / 10)) (ptBody W Q c) rs (c.maxVerts - 1) 1 st

/-! ### Volumetric path tracing, renderer_volpt.cpp:58-370 (VOLPT_IMAGE_SAMPLING 0) -/

/-- path::sample_distance(rng, scene, sp, wo) and path::eval_transmittance(rng, scene, sp1, sp2) at iteration nv (path.h:640-794, renderer_volpt.cpp:104-148, 241-326). -/
structure VQuery where
  dist : ℕ → SI → V3 ℝ → DRes
  tr : ℕ → SI → SI → Option (V3 ℝ)

/-- samplable_by_nee of renderer::volpt, renderer_volpt.cpp:245; renderer::volpt_naive has no NEE. -/
noncomputable def volByNee (W : World) (naive : Bool) (nv : ℕ) (st : St) : Option Bool :=
  if naive then some false else if nv > 1 then (isSpecularComponent W st.sp st.comp).map (fun b => !b) else some false

open Classical in
/-- The NEE edge of renderer::volpt, renderer_volpt.cpp:247-278. -/
noncomputable def volNee (W : World) (Q : VQuery) (naive : Bool) (nv : ℕ) (st : St) (r : Rnd) : Option (List Splat) := do
  let b ← volByNee W naive nv st
  if b then
    match sampleDirect W r.light st.sp .LE with
    | .undef => none
    | .fail => return []
    | .ok spL woL wL =>
      let rp ← if nv = 1 then rasterAt W (-woL) else some (some st.rp)
      match rp with
      | none => return []
      | some rp =>
        let tr ← Q.tr nv st.sp spL
        if tr = 0 then return []
        else
          let fs ← evalContrbDirection W st.sp st.wi (-woL) st.comp .EL true
          if fs = 0 then return []
          else return [⟨.nee, nv + 1, rp, st.thr * tr * fs * wL⟩]
  else return []

/-- Emission at the next interaction, renderer_volpt.cpp:141-148, 319-326. -/
noncomputable def volHit (W : World) (naive : Bool) (nv : ℕ) (st : St) (wo thr : V3 ℝ) (rp : ℝ × ℝ) (hit : SI) : Option (List Splat) := do
  let nee ← volByNee W naive nv st
  if nee then return []
  else
    let l ← isLight W hit
    if l then
      let Le ← evalContrbDirection W (asLight hit) 0 (-wo) st.comp .LE true
      return [⟨.hit, nv + 1, rp, thr * Le⟩]
    else return []

/-- One iteration of renderer::volpt (renderer_volpt.cpp:241-326) or renderer::volpt_naive (104-148, `naive`) up to roulette. -/
noncomputable def volBody (W : World) (Q : VQuery) (naive : Bool) (nv : ℕ) (st : St) (r : Rnd) : Option (List Splat × Option Hop) := do
  let a ← volNee W Q naive nv st r
  match sampleDirection W r.dir st.sp st.wi st.comp .EL with
  | .undef => none
  | .fail => return (a, none)
  | .ok wo w =>
    let rp ← newRaster W nv st wo
    match Q.dist nv st.sp wo with
    | .undef => none
    | .fail => return (a, none)
    | .ok hit wd =>
      let b ← volHit W naive nv st wo (st.thr * (w * wd)) rp hit
      return (a ++ b, some ⟨hit, wo, st.thr * (w * wd), rp⟩)

/-- One sample of renderer::volpt / renderer::volpt_naive, renderer_volpt.cpp:66-178, 203-356. -/
noncomputable def volSample (W : World) (Q : VQuery) (naive : Bool) (rrProb : ℝ) (maxVerts : ℕ) (u : RaySampleU) (uc : ℝ) (rs : ℕ → Rnd) : Option (List Splat) := do
  let st ← ptStart W uc u
  walk W (rouletteAt rrProb) (volBody W Q naive) rs (maxVerts - 1) 1 st

/-! ### Light tracing, renderer_lt.cpp:57-167 -/

/-- The NEE edge to the camera, renderer_lt.cpp:94-115. -/
noncomputable def ltNee (W : World) (Q : Query) (nv : ℕ) (st : St) (r : Rnd) : Option (List Splat) :=
  match sampleDirect W r.light st.sp .EL with
  | .undef => none
  | .fail => some []
  | .ok spE woE wE =>
    if !Q.visible st.sp spE then some []
    else do
      match ← rasterAt W woE with
      | none => return []
      | some rp =>
        let fs ← evalContrbDirection W st.sp st.wi (-woE) st.comp .LE true
        return [⟨.nee, nv + 1, rp, st.thr * fs * wE⟩]

/-- One iteration up to roulette, renderer_lt.cpp:93-136. -/
noncomputable def ltBody (W : World) (Q : Query) (nv : ℕ) (st : St) (r : Rnd) : Option (List Splat × Option Hop) := do
  let a ← ltNee W Q nv st r
  match sampleDirection W r.dir st.sp st.wi st.comp .LE with
  | .undef => none
  | .fail => return (a, none)
  | .ok wo w =>
    match Q.isect st.sp.geom.p wo with
    | none => return (a, none)
    | some hit => return (a, some ⟨hit, wo, st.thr * w, st.rp⟩)

/-- One sample of renderer::lt, renderer_lt.cpp:57-166. s_primary is dereferenced without a test (renderer_lt.cpp:67). -/
noncomputable def ltSample (W : World) (Q : Query) (maxVerts : ℕ) (u : RaySampleU) (uc : ℝ) (rs : ℕ → Rnd) : Option (List Splat) :=
  match samplePrimaryRay W u .LE with
  | .ok sp wo w => match Q.isect sp.geom.p wo with
    | none => some []
    | some hit =>
      if hit.geom.infinite then some []
      else do
        let (comp, wc) ← sampleComponent W uc hit (-wo)
        walk W (rouletteAt (2 / 10)) (ltBody W Q) rs (maxVerts - 2) 2 ⟨hit, comp, -wo, wc • w, (0, 0)⟩
  | _ => none

/-! ### Strategy loops of the bidirectional renderers -/

/-- renderer::bdpt lines 350-355 and renderer::bdptopt lines 493-498: the pairs (s, t) for which a connection is attempted, in order (renderer_bdpt.cpp:350-355, renderer_bdptopt.cpp:493-498). -/
def bdptPairs (minVerts maxVerts : ℤ) (nL nE : ℕ) : List (ℕ × ℕ) :=
  (List.range (nL + 1)).flatMap (fun s => ((List.range (nE + 1)).filter (fun t => ¬ (((s + t : ℕ) : ℤ) < minVerts ∨ maxVerts < ((s + t : ℕ) : ℤ)))).map (fun t => (s, t)))

/-- renderer::pt_naive_path, renderer_bdpt.cpp:83-90. -/
def ptNaivePairs (minVerts maxVerts : ℤ) (nE : ℕ) : List (ℕ × ℕ) :=
  ((List.range (nE + 1)).filter (fun t : ℕ => 2 ≤ t ∧ ¬ ((t : ℤ) < minVerts ∨ maxVerts < (t : ℤ)))).map (fun t => (0, t))

/-- The choice of strategy for n vertices in renderer::pt_nee_path, renderer_bdpt.cpp:155-177; `spec i` tells whether vertex i of the eye subpath is specular. -/
def ptNeePair (nL nE : ℕ) (spec : ℕ → Bool) (n : ℕ) : Option (ℕ × ℕ) :=
  if 1 > nL ∨ n - 1 > nE then none
  else
    let st := if spec (n - 2) then (0, n) else (1, n - 1)
    if st.1 > nL ∨ st.2 > nE then none else some st

/-- renderer::pt_nee_path, renderer_bdpt.cpp:150-177. -/
def ptNeePairs (minVerts maxVerts : ℤ) (nL nE : ℕ) (spec : ℕ → Bool) : List (ℕ × ℕ) :=
  ((List.range (nL + nE + 1)).filter (fun n : ℕ => 2 ≤ n ∧ ¬ ((n : ℤ) < minVerts ∨ maxVerts < (n : ℤ)))).filterMap (ptNeePair nL nE spec)

/-- renderer::lt_nee_path, renderer_bdpt.cpp:227-237. -/
def ltNeePairs (minVerts maxVerts : ℤ) (nL nE : ℕ) : List (ℕ × ℕ) :=
  ((List.range (nL + nE + 1)).filter (fun n : ℕ => 2 ≤ n ∧ ¬ ((n : ℤ) < minVerts ∨ maxVerts < (n : ℤ)))).filterMap
    (fun n => if n - 1 > nL ∨ 1 > nE then none else some (n - 1, 1))

end LM.Render
