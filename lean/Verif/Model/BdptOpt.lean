import Verif.Model.Bidir
/-
  The optimized bidirectional path tracer, src/renderer/renderer_bdptopt.cpp: sampling subpaths with a cache (130-222) and the incremental weight (315-409).
  is_samplable_bidir (54-87) and direction (111-126) are those of include/lm/bidir.h.
-/
namespace LM.Path
open LM LM.Surface LM.Material LM.Light LM.Volume

/-- Vert with cache, renderer_bdptopt.cpp:22-32. -/
structure CV where
  sp : SI
  comp : Nat
  wFwd : V3 ℝ
  wRev : V3 ℝ
  pdfFwd : ℝ
  pdfRev : ℝ
  alpha : V3 ℝ

/-- The vertex without cache (renderer_bdptopt.cpp:22-32). -/
def CV.vert (v : CV) : Vert := ⟨v.sp, v.comp⟩
/-- std::swap of w_rev and w_fwd and of pdf_fwd and pdf_rev, renderer_bdptopt.cpp:325-329. -/
def CV.flip (v : CV) : CV := { v with wFwd := v.wRev, wRev := v.wFwd, pdfFwd := v.pdfRev, pdfRev := v.pdfFwd }
/-- as_type of the interaction, renderer_bdptopt.cpp:323-324. -/
def CV.asType (v : CV) (k : Kind) : CV := { v with sp := v.sp.asType k }

/-! ### Sampling a subpath -/

/-- The samplers, with the random numbers of one iteration: primary ray, direction, component (renderer_bdptopt.cpp:139, 177, 205). -/
structure OptStep where
  start : SRes
  dir : SI → V3 ℝ → Nat → DirRes
  comp : SI → V3 ℝ → Option (Nat × ℝ)

/-- State of the random walk: path, pdf_fwd_next and throughput (renderer_bdptopt.cpp:130-137). -/
structure OptSt where
  vs : List CV
  next : ℝ
  thr : V3 ℝ

/-- pdf_fwd of the initial vertex, renderer_bdptopt.cpp:148-156. -/
noncomputable def startPdf (W : World) (sp : SI) : Option ℝ := do
  let conn ← isConnectableEndpoint W sp
  if conn then pdfPosition W sp else return 1

/-- The ray part of one iteration, renderer_bdptopt.cpp:137-198; outer none: undefined; inner none: break. `junk` is the content of uninitialised members. -/
noncomputable def optRay (W : World) (junk : ℝ) (a : OptStep) (vs : List CV) (thr : V3 ℝ) : Option (Option OptSt) :=
  if vs.length = 0 then
    match a.start with
    | .undef => none
    | .fail => some none
    | .ok sp wo C => do
      let p ← startPdf W sp
      let al ← divF 1 p
      let conn ← isConnectableEndpoint W sp
      let next ← if conn then pdfDirection W sp 0 wo 0 false else pdfPrimaryRay W sp wo false
      return some ⟨[⟨sp, 0, wo, 0, p, junk, V3.all al⟩], next, C⟩
  else
    match vs[vs.length - 1]? with
    | none => none
    | some v => match a.dir v.sp v.wRev v.comp with
      | .undef => none
      | .fail => some none
      | .ok wo C => do
        let v := { v with wFwd := wo }
        let vp ← vs[vs.length - 2]?
        let rev ← if vp.sp.geom.degenerated then some 1
          else (pdfDirection W v.sp v.wFwd v.wRev v.comp false).bind (fun p => convertToArea p v.sp.geom vp.sp.geom)
        let next ← pdfDirection W v.sp v.wRev v.wFwd v.comp false
        return some ⟨(vs.set (vs.length - 1) v).set (vs.length - 2) { vp with pdfRev := rev }, next, thr * C⟩

/-- The loop of sample_subpath, renderer_bdptopt.cpp:130-222, at most k iterations (each adds a vertex, or leaves the loop); `isect o d` is Scene::intersect of the ray; the iteration that starts with
    n vertices uses the samplers `st n`. none: undefined. -/
noncomputable def optWalk (W : World) (isect : V3 ℝ → V3 ℝ → Option SI) (junk : ℝ) (junkW : V3 ℝ) (maxVerts : ℤ) (st : ℕ → OptStep) : ℕ → List CV → V3 ℝ → Option (List CV)
  | 0, vs, _ => some vs
  | k + 1, vs, thr =>
    if (vs.length : ℤ) < maxVerts then
      match optRay W junk (st vs.length) vs thr with
      | none => none
      | some none => some vs
      | some (some s) => match s.vs[s.vs.length - 1]? with
        | none => none
        | some v => match isect v.sp.geom.p v.wFwd with
          | none => some s.vs
          | some hit => match (st vs.length).comp hit (-v.wFwd), convertToArea s.next v.sp.geom hit.geom with
            | some (c, wc), some p =>
              let thr := wc • s.thr
              let vs' := s.vs ++ [⟨hit, c, junkW, -v.wFwd, p, junk, thr⟩]
              if hit.geom.infinite then some vs' else optWalk W isect junk junkW maxVerts st k vs' thr
            | _, _ => none
    else some vs

/-! ### The weight -/

/-- The index of vertex_at(i, dir) in a path of n vertices; none: nullptr (renderer_bdptopt.cpp:36-53). -/
def idx (n : ℕ) (i : Int) (dir : TransDir) : Option ℕ := if 0 ≤ i ∧ i < n then some (index n i dir).toNat else none
/-- vertex_at (renderer_bdptopt.cpp:46-53). -/
def cvAt (path : List CV) (i : Option ℕ) : Option CV := i.bind (fun i => path[i]?)
/-- Writing through the pointer vertex_at returned (renderer_bdptopt.cpp:50-53). -/
def setAt (path : List CV) (i : Option ℕ) (f : CV → CV) : List CV := match i with
  | none => path
  | some i => path.modify i f

/-- The full path, renderer_bdptopt.cpp:316-329. -/
def fullPath (L E : List CV) (s t : ℕ) : List CV :=
  let path := L.take s ++ (E.take t).reverse
  let path := path.modify 0 (·.asType .light)
  let path := path.modify (path.length - 1) (·.asType .camera)
  path.mapIdx (fun i v => if s ≤ i then v.flip else v)

/-- The new vL->pdf_rev, renderer_bdptopt.cpp:342-352. -/
noncomputable def newRev (W : World) (vL vE : Option CV) : Option ℝ :=
  match vL with
  | none => some 0
  | some vL => match vE with
    | none => startPdf W vL.sp
    | some vE => (pdfDirection W vE.sp vE.wFwd vE.wRev vE.comp false).bind (fun p => convertToArea p vE.sp.geom vL.sp.geom)
/-- The new vE->pdf_fwd, renderer_bdptopt.cpp:353-363. -/
noncomputable def newFwd (W : World) (vL vE : Option CV) : Option ℝ :=
  match vE with
  | none => some 0
  | some vE => match vL with
    | none => startPdf W vE.sp
    | some vL => (pdfDirection W vL.sp vL.wRev vL.wFwd vL.comp false).bind (fun p => convertToArea p vL.sp.geom vE.sp.geom)
/-- The new vL_prev->pdf_rev, renderer_bdptopt.cpp:364-375. -/
noncomputable def newRevPrev (W : World) (vLp vL vE : Option CV) : Option ℝ :=
  match vLp, vL with
  | some vLp, some vL => do
    let primary ← match vE with
      | none => (isConnectableEndpoint W vL.sp).map (fun b => !b)
      | some _ => some false
    let p ← if primary then pdfPrimaryRay W vL.sp vL.wRev false else pdfDirection W vL.sp vL.wFwd vL.wRev vL.comp false
    convertToArea p vL.sp.geom vLp.sp.geom
  | _, _ => some 0
/-- The new vE_prev->pdf_fwd, renderer_bdptopt.cpp:376-387. -/
noncomputable def newFwdPrev (W : World) (vEp vE vL : Option CV) : Option ℝ :=
  match vEp, vE with
  | some vEp, some vE => do
    let primary ← match vL with
      | none => (isConnectableEndpoint W vE.sp).map (fun b => !b)
      | some _ => some false
    let p ← if primary then pdfPrimaryRay W vE.sp vE.wFwd false else pdfDirection W vE.sp vE.wRev vE.wFwd vE.comp false
    convertToArea p vE.sp.geom vEp.sp.geom
  | _, _ => some 0

/-- Recomputing cached values, renderer_bdptopt.cpp:331-387. The new values are computed from directions, which are updated first, and never from each other, so they are computed here before they are written. -/
noncomputable def fixup (W : World) (path : List CV) (s t : ℕ) : Option (List CV) := do
  let n := path.length
  let iL := idx n (s - 1) .LE
  let iE := idx n (t - 1) .EL
  let iLp := idx n (s - 2) .LE
  let iEp := idx n (t - 2) .EL
  let dL ← direction ((cvAt path iL).map CV.vert) ((cvAt path iE).map CV.vert)
  let dE ← direction ((cvAt path iE).map CV.vert) ((cvAt path iL).map CV.vert)
  let vL := (cvAt path iL).map (fun v => { v with wFwd := dL })
  let vE := (cvAt path iE).map (fun v => { v with wRev := dE })
  let rL ← newRev W vL vE
  let fE ← newFwd W vL vE
  let rLp ← newRevPrev W (cvAt path iLp) vL vE
  let fEp ← newFwdPrev W (cvAt path iEp) vE vL
  let path := setAt path iL (fun v => { v with wFwd := dL, pdfRev := rL })
  let path := setAt path iE (fun v => { v with wRev := dE, pdfFwd := fE })
  let path := setAt path iLp (fun v => { v with pdfRev := rLp })
  return setAt path iEp (fun v => { v with pdfFwd := fEp })

/-- The first loop, renderer_bdptopt.cpp:390-398: k iterations from i. -/
noncomputable def sumUp (W : World) (path : List CV) : ℕ → ℕ → ℝ → ℝ → Option ℝ
  | 0, _, _, sum => some sum
  | k + 1, i, r, sum => do
    let v ← path[i]?
    let q ← divF v.pdfFwd v.pdfRev
    let r := r * q
    let ok ← isSamplable W (path.map CV.vert) (i + 1)
    sumUp W path k (i + 1) r (if ok then sum + r else sum)

/-- The second loop, renderer_bdptopt.cpp:399-406: for i = k - 1, ..., 0. -/
noncomputable def sumDown (W : World) (path : List CV) : ℕ → ℝ → ℝ → Option ℝ
  | 0, _, sum => some sum
  | i + 1, r, sum => do
    let v ← path[i]?
    let q ← divF v.pdfRev v.pdfFwd
    let r := r * q
    let ok ← isSamplable W (path.map CV.vert) i
    sumDown W path i r (if ok then sum + r else sum)

/-- mis_weight_bidir, renderer_bdptopt.cpp:315-409. -/
noncomputable def misWeightOpt (W : World) (L E : List CV) (s t : ℕ) : Option ℝ := do
  let path ← fixup W (fullPath L E s t) s t
  let sum ← sumUp W path t s 1 0
  let sum ← sumDown W path s 1 sum
  divF 1 (1 + sum)

end LM.Path
