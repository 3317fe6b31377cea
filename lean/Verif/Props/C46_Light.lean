import Verif.Model.Light
import Verif.Props.C45_Material
namespace LM.Light
open LM LM.MathF LM.Surface LM.Material

/-! ### Specification -/

/-- Random numbers in [0,1). -/
def RayU.Valid (u : RayU) : Prop := (0 ≤ u.up0 ∧ u.up0 < 1) ∧ (0 ≤ u.up1 ∧ u.up1 < 1) ∧ (0 ≤ u.upc ∧ u.upc < 1) ∧ (0 ≤ u.ud0 ∧ u.ud0 < 1) ∧ (0 ≤ u.ud1 ∧ u.ud1 < 1)

/-- Emission sampling: always yields a ray with a unit direction whose reported density is positive, and weight · density = emission. -/
def RayEst (L : Light) (M : Aff ℝ) : Prop :=
  ∀ us : RayU, us.Valid → ∃ g wo C p, L.sampleRay us M = .ok g wo C ∧ V3.dot wo wo = 1 ∧ L.pdfRay g wo M false = some p ∧ 0 < p ∧ p • C = L.eval g wo false

/-- Direction sampling at a given point of the light. -/
def DirEst (L : Light) (g : Geom) : Prop :=
  ∀ us : RayU, us.Valid → ∃ wo C p, L.sampleDirection us g = .ok g wo C ∧ V3.dot wo wo = 1 ∧ L.pdfDirection g wo = some p ∧ 0 < p ∧ p • C = L.eval g wo false

/-- Position sampling: the weight is the reciprocal of the reported density. -/
def PosEst (L : Light) (M : Aff ℝ) : Prop :=
  ∀ us : RayU, us.Valid → ∃ g wo C p, L.samplePosition us M = .ok g wo C ∧ L.pdfPosition g M = some p ∧ 0 < p ∧ p • C = V3.all 1

/-- Sampling towards a given point g with outcome r: if a ray is returned, its direction has unit length, the reported density is positive, and weight · density = emission. -/
def DirectEst (L : Light) (g : Geom) (M : Aff ℝ) (r : Res) : Prop :=
  ∀ gL wo C, r = .ok gL wo C → V3.dot wo wo = 1 ∧ ∃ p, L.pdfDirect g gL M wo false = some p ∧ 0 < p ∧ p • C = L.eval gL wo false

/-- Direction and position sampling throw Unsupported. -/
def JointOnly (L : Light) : Prop :=
  (∀ us g, L.sampleDirection us g = .unsupported) ∧ (∀ us M, L.samplePosition us M = .unsupported) ∧ (∀ g wo, L.pdfDirection g wo = none) ∧ (∀ g M, L.pdfPosition g M = none)

/-! ### Lemmas -/

theorem ray_ok (g : Geom) (wo Le : V3 ℝ) (p : ℝ) (h : 0 < p) : ∃ C, ray g wo Le (some p) = .ok g wo C ∧ p • C = Le := by
  refine ⟨(1 / p) • Le, by simp [ray, divV, h.ne'], ?_⟩
  rw [smul_smul, mul_one_div_cancel h.ne', one_smul]

theorem rayOrFail_zero (g : Geom) (wo Le : V3 ℝ) : rayOrFail g wo Le (some 0) = .fail := by simp [rayOrFail]

theorem rayOrFail_pos (g : Geom) (wo Le : V3 ℝ) (p : ℝ) (h : 0 < p) : ∃ C, rayOrFail g wo Le (some p) = .ok g wo C ∧ p • C = Le := by
  obtain ⟨C, e, hc⟩ := ray_ok g wo Le p h
  exact ⟨C, by simp only [rayOrFail, Option.some.injEq, h.ne', if_false]; exact e, hc⟩

theorem rayOrFail_inv (g wo' : _) (Le : V3 ℝ) (p : Option ℝ) (gL : Geom) (wo C : V3 ℝ) (h : rayOrFail g wo' Le p = .ok gL wo C) (hp : ∀ q, p = some q → 0 ≤ q) :
    gL = g ∧ wo = wo' ∧ ∃ q, p = some q ∧ 0 < q ∧ q • C = Le := by
  cases p with
  | none => simp [rayOrFail, ray] at h
  | some q =>
    rcases (hp q rfl).lt_or_eq with h0 | h0
    · obtain ⟨C', e, hc⟩ := rayOrFail_pos g wo' Le q h0
      rw [e] at h; cases h
      exact ⟨rfl, rfl, q, rfl, h0, hc⟩
    · rw [← h0, rayOrFail_zero] at h; cases h

theorem normalize_unit {v w : V3 ℝ} (h : normalize v = some w) : V3.dot w w = 1 ∧ ∃ k : ℝ, 0 < k ∧ v = k • w := by
  unfold Material.normalize at h
  split at h
  · cases h
  · next h0 =>
    cases h
    have hp := dot_self_pos h0
    have hs := Real.sqrt_pos.mpr hp
    refine ⟨?_, Real.sqrt (V3.dot v v), hs, ?_⟩
    · rw [V3.dot_smul_left, V3.dot_smul_right, ← mul_assoc, sqrt_inv_mul _ hp]; field_simp
    · rw [smul_smul, mul_one_div_cancel hs.ne', one_smul]

theorem normalize_of_ne {v : V3 ℝ} (h : v ≠ 0) : ∃ w, normalize v = some w := by
  have : V3.dot v v ≠ 0 := fun e => h (dot_self_zero e)
  exact ⟨_, by simp only [Material.normalize, if_neg this]; rfl⟩

theorem normalize_none {v : V3 ℝ} (h : normalize v = none) : v = 0 := by
  by_contra hc
  obtain ⟨w, e⟩ := normalize_of_ne hc
  rw [h] at e; cases e

theorem pdfSphere_pos : 0 < pdfSphere := by unfold pdfSphere; have := Real.pi_pos; positivity
theorem pdfCosine_pos : 0 < pdfCosine := by unfold pdfCosine; have := Real.pi_pos; positivity
theorem pdfDisk_pos (r : ℝ) (h : 0 < r) : ∃ p, pdfDisk r = some p ∧ 0 < p ∧ p = 1 / (Real.pi * r ^ 2) := by
  have hp := Real.pi_pos
  exact ⟨1 / (Real.pi * r * r), by simp [pdfDisk, divF, h.ne', hp.ne'], by positivity, by rw [pow_two, mul_assoc]⟩

theorem convert_nonneg (p : ℝ) (hp : 0 ≤ p) (g : Geom) (d : V3 ℝ) : 0 ≤ convertSAtoProjSA p g d := by
  unfold convertSAtoProjSA
  simp only
  split
  · exact hp
  · split <;> positivity

theorem convert_pos (p : ℝ) (hp : 0 < p) (g : Geom) (d : V3 ℝ) (h : g.degenerated = true ∨ V3.dot g.n d ≠ 0) : 0 < convertSAtoProjSA p g d := by
  unfold convertSAtoProjSA
  rcases h with h | h
  · simp [h, hp]
  · have : 0 < |V3.dot g.n d| := abs_pos.mpr h
    simp only [this.ne', if_false]
    split <;> positivity

theorem overG_nonneg {x : ℝ} (hx : 0 ≤ x) {s1 s2 : Geom} {q : ℝ} (h : overG x (geometryTerm s1 s2) = some q) : 0 ≤ q := by
  unfold overG at h
  obtain ⟨G, hG, e⟩ := Option.map_eq_some_iff.mp h
  have := C43_nonneg s1 s2 G hG
  rw [← e]
  split <;> positivity

/-! ### Point lights -/

/-- C46. Point lights. Sampling towards g fails exactly if the geometry term vanishes, and is undefined only at the light itself. -/
theorem C46_point (Le position junk : V3 ℝ) (M : Aff ℝ) : let L := point Le position junk
    RayEst L M ∧ PosEst L M ∧ (∀ g, DirEst L g) ∧ ∀ (us : RayU) (g : Geom), g.infinite = false → g.p ≠ position →
      DirectEst L g M (L.sampleDirect us g M) ∧ L.sampleDirect us g M ≠ .undef ∧
      (L.sampleDirect us g M = .fail ↔ geometryTerm g (makeDegenerated position junk) = some 0) := by
  intro L
  refine ⟨fun us hu => ?_, fun us _ => ?_, fun g us hu => ?_, fun us g hf hg => ?_⟩
  · obtain ⟨C, e, hc⟩ := ray_ok (makeDegenerated position junk) (sampleUniformSphere us.ud0 us.ud1) Le _ pdfSphere_pos
    exact ⟨_, _, C, pdfSphere, e, (C34_sphere _ _ hu.2.2.2.1.1 hu.2.2.2.1.2.le).1, rfl, pdfSphere_pos, hc⟩
  · exact ⟨_, _, _, 1, rfl, rfl, one_pos, one_smul _ _⟩
  · obtain ⟨C, e, hc⟩ := ray_ok g (sampleUniformSphere us.ud0 us.ud1) Le _ pdfSphere_pos
    exact ⟨_, C, pdfSphere, e, (C34_sphere _ _ hu.2.2.2.1.1 hu.2.2.2.1.2.le).1, rfl, pdfSphere_pos, hc⟩
  · have hne : g.p - position ≠ 0 := sub_ne_zero.mpr hg
    obtain ⟨wo, hw⟩ := normalize_of_ne hne
    have hs : L.sampleDirect us g M = rayOrFail (makeDegenerated position junk) wo Le (overG 1 (geometryTerm g (makeDegenerated position junk))) := by
      show (point Le position junk).sampleDirect us g M = _
      simp only [point, hw]
    obtain ⟨G, hG⟩ : ∃ G, geometryTerm g (makeDegenerated position junk) = some G := by
      unfold geometryTerm
      simp only [hf, makeDegenerated, Bool.false_and, Bool.false_eq_true, if_false, Bool.or_self]
      split
      · next h0 => exact (hne (by rw [dot_sub_swap] at h0; exact dot_self_zero h0)).elim
      · exact ⟨_, rfl⟩
    have hnn := C43_nonneg _ _ _ hG
    refine ⟨fun gL wo' C h => ?_, ?_, ?_⟩
    · rw [hs] at h
      obtain ⟨h1, h2, q, hq, h3, h4⟩ := rayOrFail_inv _ _ _ _ _ _ _ h (fun q hq => overG_nonneg zero_le_one hq)
      refine ⟨by rw [h2]; exact (normalize_unit hw).1, q, ?_, h3, h4⟩
      rw [h1]; exact hq
    · rw [hs, hG]
      rcases hnn.lt_or_eq with h0 | h0
      · obtain ⟨C, e, _⟩ := rayOrFail_pos (makeDegenerated position junk) wo Le (1 / G) (by positivity)
        simp [overG, h0.ne'] at e ⊢; rw [e]; simp
      · simp [overG, ← h0, rayOrFail_zero]
    · rw [hs, hG]
      rcases hnn.lt_or_eq with h0 | h0
      · obtain ⟨C, e, _⟩ := rayOrFail_pos (makeDegenerated position junk) wo Le (1 / G) (by positivity)
        simp only [overG, Option.map_some, h0.ne', if_false, e, reduceCtorEq, Option.some.injEq]
      · simp [overG, ← h0, rayOrFail_zero]

/-! ### Lights at infinity -/

/-- C46. Directional lights: rays, and sampling towards a point, which fails exactly at grazing incidence on a surface. With `eval_delta` the emission is zero. -/
theorem C46_directional (sgn : V3 ℝ → Bool) (junk Le direction c : V3 ℝ) (r : ℝ) (hd : V3.dot direction direction = 1) (hr : 0 < r) (M : Aff ℝ) :
    let L := directional sgn junk Le direction c r
    RayEst L M ∧ JointOnly L ∧ (∀ g wo, L.eval g wo true = V3.all 0) ∧ ∀ (us : RayU) (g : Geom), DirectEst L g M (L.sampleDirect us g M) ∧
      (L.sampleDirect us g M = .fail ↔ g.degenerated = false ∧ V3.dot g.n direction = 0) ∧
      (¬ (g.degenerated = false ∧ V3.dot g.n direction = 0) → ∃ gL C, L.sampleDirect us g M = .ok gL direction C ∧ gL.infinite = true ∧ gL.wo = direction) := by
  intro L
  obtain ⟨p, hp, hpos, _⟩ := pdfDisk_pos r hr
  refine ⟨fun us _ => ?_, ⟨fun _ _ => rfl, fun _ _ => rfl, fun _ _ => rfl, fun _ _ => rfl⟩, fun _ _ => rfl, fun us g => ?_⟩
  · obtain ⟨C, e, hc⟩ := ray_ok (makeInfinite direction (diskPoint sgn c r direction us) junk) direction Le p hpos
    refine ⟨makeInfinite direction (diskPoint sgn c r direction us) junk, _, C, p, ?_, hd, by simp only [L, directional, hp]; rfl, hpos, hc⟩
    simp only [L, directional, hp]; exact e
  · have hnn := convert_nonneg 1 zero_le_one g (-direction)
    have hs : L.sampleDirect us g M = rayOrFail (makeInfinite direction junk junk) direction Le (some (convertSAtoProjSA 1 g (-direction))) := rfl
    have hok : ¬ (g.degenerated = false ∧ V3.dot g.n direction = 0) → ∃ C, L.sampleDirect us g M = .ok (makeInfinite direction junk junk) direction C := by
      intro h
      have := convert_pos 1 one_pos g (-direction) (by
        rw [V3.dot_neg_right]
        by_contra hc
        apply h
        push Not at hc
        exact ⟨by simpa using hc.1, by linarith [hc.2]⟩)
      obtain ⟨C, e, _⟩ := rayOrFail_pos (makeInfinite direction junk junk) direction Le _ this
      exact ⟨C, by rw [hs, e]⟩
    refine ⟨fun gL wo' C h => ?_, ⟨fun h => ?_, fun ⟨h1, h2⟩ => ?_⟩, fun h => ?_⟩
    · rw [hs] at h
      obtain ⟨h1, h2, q, hq, h3, h4⟩ := rayOrFail_inv _ _ _ _ _ _ _ h (fun q hq => by cases hq; exact hnn)
      cases hq
      exact ⟨by rw [h2]; exact hd, _, by rw [h1]; rfl, h3, h4⟩
    · by_contra hc
      obtain ⟨C, e⟩ := hok hc
      rw [h] at e; cases e
    · rw [hs, (C43_convert 1 g (-direction)).2.2 h1 (by rw [V3.dot_neg_right, h2, neg_zero]), rayOrFail_zero]
    · obtain ⟨C, e⟩ := hok h
      exact ⟨_, C, e, rfl, rfl⟩

/-- C46. Constant environment lights. -/
theorem C46_envconst (sgn : V3 ℝ → Bool) (junk Le c : V3 ℝ) (r : ℝ) (hr : 0 < r) (M : Aff ℝ) :
    let L := envconst sgn junk Le c r
    RayEst L M ∧ JointOnly L ∧ ∀ (us : RayU) (g : Geom), us.Valid → DirectEst L g M (L.sampleDirect us g M) ∧
      (L.sampleDirect us g M = .fail ↔ g.degenerated = false ∧ V3.dot g.n (sampleUniformSphere us.ud0 us.ud1) = 0) ∧ L.sampleDirect us g M ≠ .undef := by
  intro L
  obtain ⟨p, hp, hpos, _⟩ := pdfDisk_pos r hr
  have hsp := pdfSphere_pos
  refine ⟨fun us hu => ?_, ⟨fun _ _ => rfl, fun _ _ => rfl, fun _ _ => rfl, fun _ _ => rfl⟩, fun us g hu => ?_⟩
  · have hd := (C34_sphere us.ud0 us.ud1 hu.2.2.2.1.1 hu.2.2.2.1.2.le).1
    obtain ⟨C, e, hc⟩ := ray_ok (makeInfinite (sampleUniformSphere us.ud0 us.ud1) (diskPoint sgn c r (sampleUniformSphere us.ud0 us.ud1) us) junk) (sampleUniformSphere us.ud0 us.ud1) Le (pdfSphere * p) (by positivity)
    refine ⟨makeInfinite (sampleUniformSphere us.ud0 us.ud1) (diskPoint sgn c r (sampleUniformSphere us.ud0 us.ud1) us) junk, _, C, pdfSphere * p, ?_, hd, by simp only [L, envconst, hp]; rfl, by positivity, hc⟩
    simp only [L, envconst, hp, Option.map_some]; exact e
  · set d := sampleUniformSphere us.ud0 us.ud1 with hd
    have hunit := (C34_sphere us.ud0 us.ud1 hu.2.2.2.1.1 hu.2.2.2.1.2.le).1
    have hnn := convert_nonneg pdfSphere hsp.le g (-d)
    have hs : L.sampleDirect us g M = rayOrFail (makeInfinite d junk junk) d Le (some (convertSAtoProjSA pdfSphere g (-d))) := rfl
    refine ⟨fun gL wo' C h => ?_, ?_, ?_⟩
    · rw [hs] at h
      obtain ⟨h1, h2, q, hq, h3, h4⟩ := rayOrFail_inv _ _ _ _ _ _ _ h (fun q hq => by cases hq; exact hnn)
      cases hq
      exact ⟨by rw [h2]; exact hunit, _, by rw [h1]; rfl, h3, h4⟩
    · constructor
      · intro h
        by_contra hc
        have := convert_pos pdfSphere hsp g (-d) (by
          rw [V3.dot_neg_right]
          by_contra hc'
          apply hc
          push Not at hc'
          exact ⟨by simpa using hc'.1, by linarith [hc'.2]⟩)
        obtain ⟨C, e, _⟩ := rayOrFail_pos (makeInfinite d junk junk) d Le _ this
        rw [hs, e] at h; cases h
      · rintro ⟨h1, h2⟩
        rw [hs, (C43_convert pdfSphere g (-d)).2.2 h1 (by rw [V3.dot_neg_right, h2, neg_zero]), rayOrFail_zero]
    · rw [hs]
      rcases hnn.lt_or_eq with h0 | h0
      · obtain ⟨C, e, _⟩ := rayOrFail_pos (makeInfinite d junk junk) d Le _ h0
        rw [e]; simp
      · rw [← h0, rayOrFail_zero]; simp

/-! ### Area lights -/

theorem triArea_nonneg (t : Tri) : 0 ≤ triArea t := by
  unfold triArea
  have := safeSqrt_nonneg (V3.dot (V3.cross (t.b - t.a) (t.c - t.a)) (V3.cross (t.b - t.a) (t.c - t.a)))
  simp only
  positivity

theorem normalM_ne (M : Aff ℝ) (h : M.det ≠ 0) (n : V3 ℝ) (hn : V3.dot n n = 1) : M.normalM n ≠ 0 := by
  intro e
  have := C74_normal M h n n
  rw [e, hn] at this
  simp [V3.dot] at this

/-- Sampling a position on the mesh always gives a point of one of the triangles (in world space) with positive probability, and with a proper frame. -/
theorem sampleOnMesh_spec (sgn : V3 ℝ → Bool) (junk : V3 ℝ) (ts : List Tri) (us : RayU) (M : Aff ℝ) (hu : us.Valid) (hA : 0 < (ts.map triArea).sum) (hM : M.det ≠ 0) :
    ∃ g t, sampleOnMesh sgn junk ts us M = some g ∧ t ∈ ts ∧ 0 < triArea t ∧ g.infinite = false ∧ g.degenerated = false ∧ OnSurface g ∧ g.gn = g.n ∧
      g.p = M.app (sampleTriangle t.a t.b t.c us.up0 us.up1) ∧ ∃ k : ℝ, 0 < k ∧ g.n = k • M.normalM (V3.cross (t.b - t.a) (t.c - t.a)) := by
  obtain ⟨c, h1, h2, h3⟩ := Dist.C28_sample (ts.map triArea) (by simpa using fun t _ => triArea_nonneg t) hA
  obtain ⟨⟨i, hi, e1, e2⟩, _⟩ := h3 us.upc hu.2.2.1.1 hu.2.2.1.2
  obtain ⟨c', h1', hp, _⟩ := Dist.C28_pmf (ts.map triArea) hA.ne'
  rw [h1] at h1'; cases h1'
  rw [hp i hi] at e2
  have hi' : i < ts.length := by simpa using hi
  have hpos : 0 < triArea ts[i] := by
    by_contra hc
    have h0 : triArea ts[i] = 0 := le_antisymm (not_lt.mp hc) (triArea_nonneg _)
    simp [h0] at e2
  obtain ⟨t, ht⟩ : ∃ t, ts[i] = t := ⟨_, rfl⟩
  rw [ht] at hpos
  have hcr : V3.cross (t.b - t.a) (t.c - t.a) ≠ 0 := by
    intro e
    unfold triArea at hpos
    simp [e, V3.dot, safeSqrt] at hpos
  obtain ⟨gn, hgn⟩ := normalize_of_ne hcr
  obtain ⟨hgu, k, hk, hke⟩ := normalize_unit hgn
  obtain ⟨gnT, hgT⟩ := normalize_of_ne (normalM_ne M hM gn hgu)
  obtain ⟨hgTu, k', hk', hke'⟩ := normalize_unit hgT
  refine ⟨makeOnSurface (M.app (sampleTriangle t.a t.b t.c us.up0 us.up1)) gnT gnT (sgn gnT) junk, t, ?_, ht ▸ List.getElem_mem hi', hpos, rfl, rfl, C32_basis gnT (sgn gnT) hgTu, rfl, rfl, ?_⟩
  · have hget : ts[i]? = some t := by rw [← ht]; exact List.getElem?_eq_getElem hi'
    simp only [sampleOnMesh, areaDist, distOf_eq, h1, Option.bind_eq_bind, Option.bind_some, e1, hget, geometryNormal, hgn, divF, hM, if_false, hgT]; rfl
  · refine ⟨(1 / k') * (1 / k), by positivity, ?_⟩
    have e3 : M.normalM (k • gn) = k • M.normalM gn := by unfold Aff.normalM; ext <;> simp <;> ring
    rw [hke, e3, hke', smul_smul, smul_smul]
    show gnT = _
    rw [show 1 / k' * (1 / k) * k * k' = 1 by field_simp, one_smul]

theorem transformedInvA_pos (ts : List Tri) (M : Aff ℝ) (hA : 0 < (ts.map triArea).sum) (hM : M.det ≠ 0) :
    ∃ p, transformedInvA ts M = some p ∧ 0 < p ∧ p = 1 / ((ts.map triArea).sum * |M.det|) := by
  have hd : 0 < |M.det| := abs_pos.mpr hM
  refine ⟨1 / (ts.map triArea).sum / |M.det|, by simp [transformedInvA, invA, divF, hA.ne', hM], by positivity, by rw [div_div]⟩

theorem cosineAround_spec (sgn : V3 ℝ → Bool) (g : Geom) (us : RayU) (hu : us.Valid) (hn : V3.dot g.n g.n = 1) :
    V3.dot (cosineAround sgn g us) (cosineAround sgn g us) = 1 ∧ 0 < V3.dot (cosineAround sgn g us) g.n := by
  obtain ⟨c1, _, c3, _⟩ := C34_cosine us.ud0 us.ud1 hu.2.2.2.1.1 hu.2.2.2.1.2.le
  obtain ⟨f1, f2, _⟩ := C32_frame _ _ _ (sampleCosineWeighted us.ud0 us.ud1) (sampleCosineWeighted us.ud0 us.ud1) (C32_basis g.n (sgn g.n) hn)
  exact ⟨by unfold cosineAround; simp only; rw [f1, c1], by unfold cosineAround; simp only; rw [f2]; exact c3 hu.2.2.2.1.2⟩

/-- C46. Area lights with positive total area under any invertible transform: emission rays, directions and positions.
    Rays leave the front side, and positions are points of the transformed mesh. -/
theorem C46_area (sgn : V3 ℝ → Bool) (junk Ke : V3 ℝ) (ts : List Tri) (M : Aff ℝ) (hA : 0 < (ts.map triArea).sum) (hM : M.det ≠ 0) :
    let L := area sgn junk Ke ts
    RayEst L M ∧ PosEst L M ∧ (∀ g, V3.dot g.n g.n = 1 → DirEst L g) ∧
    (∀ us : RayU, us.Valid → ∃ g wo C, L.sampleRay us M = .ok g wo C ∧ 0 < V3.dot wo g.n ∧ L.eval g wo false = Ke ∧ ∃ t ∈ ts, InTriangle g.p (M.app t.a) (M.app t.b) (M.app t.c)) := by
  intro L
  obtain ⟨pA, hp, hpos, _⟩ := transformedInvA_pos ts M hA hM
  have hc0 := pdfCosine_pos
  have key : ∀ us : RayU, us.Valid → ∃ g wo C t, L.sampleRay us M = .ok g wo C ∧ V3.dot wo wo = 1 ∧ 0 < V3.dot wo g.n ∧ (pA * pdfCosine) • C = Ke ∧ t ∈ ts ∧ g.p = M.app (sampleTriangle t.a t.b t.c us.up0 us.up1) := by
    intro us hu
    obtain ⟨g, t, e, ht, _, _, _, ho, _, hgp, _⟩ := sampleOnMesh_spec sgn junk ts us M hu hA hM
    obtain ⟨hw1, hw2⟩ := cosineAround_spec sgn g us hu ho.2.2.1
    obtain ⟨C, e2, hC⟩ := ray_ok g (cosineAround sgn g us) (areaEval Ke g (cosineAround sgn g us)) (pA * pdfCosine) (by positivity)
    refine ⟨g, _, C, t, ?_, hw1, hw2, ?_, ht, hgp⟩
    · show (area sgn junk Ke ts).sampleRay us M = _
      simp only [area, e, hp, Option.map_some]; exact e2
    · rw [hC, areaEval, if_neg (not_le.mpr hw2)]
  refine ⟨fun us hu => ?_, fun us hu => ?_, fun g hn us hu => ?_, fun us hu => ?_⟩
  · obtain ⟨g, wo, C, t, e, h1, h2, h3, _⟩ := key us hu
    refine ⟨g, wo, C, pA * pdfCosine, e, h1, ?_, by positivity, ?_⟩
    · show (area sgn junk Ke ts).pdfRay g wo M false = _
      simp only [area, hp, Option.map_some, if_neg (not_le.mpr h2)]
    · rw [h3]; show Ke = areaEval Ke g wo; rw [areaEval, if_neg (not_le.mpr h2)]
  · obtain ⟨g, t, e, _⟩ := sampleOnMesh_spec sgn junk ts us M hu hA hM
    obtain ⟨C, e2, hC⟩ := ray_ok g 0 (V3.all 1) pA hpos
    exact ⟨g, 0, C, pA, by show (area sgn junk Ke ts).samplePosition us M = _; simp only [area, e, hp]; exact e2, hp, hpos, hC⟩
  · obtain ⟨hw1, hw2⟩ := cosineAround_spec sgn g us hu hn
    obtain ⟨C, e2, hC⟩ := ray_ok g (cosineAround sgn g us) (areaEval Ke g (cosineAround sgn g us)) pdfCosine hc0
    refine ⟨_, C, pdfCosine, e2, hw1, ?_, hc0, hC⟩
    show (area sgn junk Ke ts).pdfDirection g _ = _
    simp only [area, if_neg (not_le.mpr hw2)]
  · obtain ⟨g, wo, C, t, e, _, h2, _, ht, hgp⟩ := key us hu
    refine ⟨g, wo, C, e, h2, by show areaEval Ke g wo = _; rw [areaEval, if_neg (not_le.mpr h2)], t, ht, ?_⟩
    obtain ⟨α, β, γ, ha, hb, hc, hs, hx⟩ := C34_triangle t.a t.b t.c us.up0 us.up1 hu.1.1 hu.1.2.le hu.2.1.1 hu.2.1.2.le
    refine ⟨α, β, γ, ha, hb, hc, hs, ?_⟩
    have hα : α = 1 - β - γ := by linarith
    rw [hgp, hx, hα, C74_affine]

/-- C46. Area lights, sampling towards a finite point g: where the sampled position differs from g.p, the result is a ray with weight · density = emission,
    or a failure exactly if the light faces away or the geometry term is zero. -/
theorem C46_area_direct (sgn : V3 ℝ → Bool) (junk Ke : V3 ℝ) (ts : List Tri) (M : Aff ℝ) (hA : 0 < (ts.map triArea).sum) (hM : M.det ≠ 0)
    (us : RayU) (hu : us.Valid) (g : Geom) (hf : g.infinite = false) : let L := area sgn junk Ke ts
    ∃ gL, sampleOnMesh sgn junk ts us M = some gL ∧ (gL.p ≠ g.p → ∃ wo, normalize (g.p - gL.p) = some wo ∧ DirectEst L g M (L.sampleDirect us g M) ∧
      (L.sampleDirect us g M = .fail ↔ V3.dot wo gL.n ≤ 0 ∨ geometryTerm g gL = some 0) ∧
      (¬ (V3.dot wo gL.n ≤ 0 ∨ geometryTerm g gL = some 0) → ∃ C, L.sampleDirect us g M = .ok gL wo C)) := by
  intro L
  obtain ⟨pA, hp, hpos, _⟩ := transformedInvA_pos ts M hA hM
  obtain ⟨gL, t, e, ht, _, hLf, hLd, ho, _, hgp, _⟩ := sampleOnMesh_spec sgn junk ts us M hu hA hM
  refine ⟨gL, e, fun hne => ?_⟩
  have hne' : g.p - gL.p ≠ 0 := sub_ne_zero.mpr (Ne.symm hne)
  obtain ⟨wo, hw⟩ := normalize_of_ne hne'
  have hs : L.sampleDirect us g M = rayOrFail gL wo (areaEval Ke gL wo) (areaPdfDirect ts g gL M wo) := by
    show (area sgn junk Ke ts).sampleDirect us g M = _
    simp only [area, e, hw]
  obtain ⟨G, hG⟩ : ∃ G, geometryTerm g gL = some G := by
    unfold geometryTerm
    simp only [hf, hLf, Bool.false_and, Bool.false_eq_true, if_false, Bool.or_self]
    split
    · next h0 => exact (hne' (by rw [dot_sub_swap] at h0; exact dot_self_zero h0)).elim
    · exact ⟨_, rfl⟩
  have hnn := C43_nonneg _ _ _ hG
  have hpdf : areaPdfDirect ts g gL M wo = some (if V3.dot wo gL.n ≤ 0 then 0 else if G = 0 then 0 else pA / G) := by
    unfold areaPdfDirect
    rw [hp, hG]
    by_cases hc : V3.dot wo gL.n ≤ 0
    · simp [hc]
    · simp [hc, overG]
  have hok : ¬ (V3.dot wo gL.n ≤ 0 ∨ geometryTerm g gL = some 0) → ∃ C, L.sampleDirect us g M = .ok gL wo C := by
    intro h
    push Not at h
    have hG0 : G ≠ 0 := fun h' => h.2 (by rw [hG, h'])
    have hGp : 0 < G := lt_of_le_of_ne hnn (Ne.symm hG0)
    obtain ⟨C, e2, _⟩ := rayOrFail_pos gL wo (areaEval Ke gL wo) (pA / G) (by positivity)
    refine ⟨C, ?_⟩
    rw [hs, hpdf, if_neg (not_le.mpr h.1), if_neg hG0, e2]
  refine ⟨wo, hw, fun g' wo' C h => ?_, ⟨fun h => ?_, fun h => ?_⟩, hok⟩
  · rw [hs] at h
    obtain ⟨h1, h2, q, hq, h3, h4⟩ := rayOrFail_inv _ _ _ _ _ _ _ h (fun q hq => by
      rw [hpdf] at hq; cases hq; split
      · exact le_rfl
      · split <;> positivity)
    refine ⟨by rw [h2]; exact (normalize_unit hw).1, q, ?_, h3, ?_⟩
    · rw [h1, h2]; exact hq
    · rw [h4, h1, h2]; rfl
  · by_contra hc
    obtain ⟨C, e2⟩ := hok hc
    rw [h] at e2; cases e2
  · rw [hs, hpdf]
    rcases h with h | h
    · rw [if_pos h, rayOrFail_zero]
    · rw [hG] at h; cases h
      rw [if_pos rfl, ite_self, rayOrFail_zero]

/-! ### Is the reported area density the true one? -/

/-- The transformed triangle. -/
noncomputable def Tri.map (M : Aff ℝ) (t : Tri) : Tri := ⟨M.app t.a, M.app t.b, M.app t.c⟩

/-- The density, with respect to area in world space, with which positions on the transformed triangle are generated: the triangle is selected with
    probability pmf(i) and the position is uniform in it (C34), an affine map keeps it uniform, so this is probability over transformed area. -/
noncomputable def trueDensity (ts : List Tri) (M : Aff ℝ) (i : Nat) (hi : i < ts.length) : Option ℝ :=
  (areaDist ts).map (fun d => Dist.pmf d i / triArea (ts[i].map M))

theorem cross_lin (M : Aff ℝ) (hM : M.det ≠ 0) (t : Tri) : V3.cross ((t.map M).b - (t.map M).a) ((t.map M).c - (t.map M).a) = M.det • M.normalM (V3.cross (t.b - t.a) (t.c - t.a)) := by
  rw [C74_triangle_normal M hM]
  have h1 : (t.map M).b - (t.map M).a = M.lin (t.b - t.a) := by simp only [Tri.map, Aff.app, Aff.lin]; ext <;> simp <;> ring
  have h2 : (t.map M).c - (t.map M).a = M.lin (t.c - t.a) := by simp only [Tri.map, Aff.app, Aff.lin]; ext <;> simp <;> ring
  rw [h1, h2]

theorem trueDensity_eq (ts : List Tri) (M : Aff ℝ) (i : Nat) (hi : i < ts.length) (hA : 0 < (ts.map triArea).sum) :
    trueDensity ts M i hi = some (triArea ts[i] / (ts.map triArea).sum / triArea (ts[i].map M)) := by
  obtain ⟨c, h1, h2, _⟩ := Dist.C28_pmf (ts.map triArea) hA.ne'
  simp only [trueDensity, areaDist, distOf_eq, h1, Option.map_some, h2 i (by simpa using hi), List.getElem_map]

/-- C46 (partial). Under rigid motions (orthonormal columns) the reported position density is the true one on every triangle of positive area. Missing: scaling (next theorem). -/
theorem C46_area_density_partial (sgn : V3 ℝ → Bool) (junk Ke : V3 ℝ) (ts : List Tri) (M : Aff ℝ) (hM : Orthonormal M.c1 M.c2 M.c3) (i : Nat) (hi : i < ts.length) (ht : 0 < triArea ts[i]) (g : Geom) :
    (area sgn junk Ke ts).pdfPosition g M = trueDensity ts M i hi := by
  have hA : 0 < (ts.map triArea).sum :=
    lt_of_lt_of_le ht (List.single_le_sum (by simpa using fun t _ => triArea_nonneg t) _ (List.mem_map_of_mem (List.getElem_mem hi)))
  obtain ⟨h1, h2, h3, h12, h13, h23, hc⟩ := hM
  have hdet : M.det = 1 := by
    unfold Aff.det
    have : V3.dot M.c1 (V3.cross M.c2 M.c3) = V3.dot (V3.cross M.c1 M.c2) M.c3 := by simp only [V3.dot, V3.cross]; ring
    rw [this, hc, h3]
  obtain ⟨p, hp, _, he⟩ := transformedInvA_pos ts M hA (by rw [hdet]; norm_num)
  show transformedInvA ts M = _
  rw [trueDensity_eq ts M i hi hA, hp, he]
  have harea : triArea (ts[i].map M) = triArea ts[i] := by
    unfold triArea
    simp only
    congr 2
    have hl : ∀ a b : V3 ℝ, V3.dot (M.lin a) (M.lin b) = V3.dot a b := fun a b => (C32_frame M.c1 M.c2 M.c3 a b ⟨h1, h2, h3, h12, h13, h23, hc⟩).1
    have lag : ∀ a b : V3 ℝ, V3.dot (V3.cross a b) (V3.cross a b) = V3.dot a a * V3.dot b b - V3.dot a b * V3.dot a b := by intro a b; simp only [V3.dot, V3.cross]; ring
    have h1 : (ts[i].map M).b - (ts[i].map M).a = M.lin (ts[i].b - ts[i].a) := by simp only [Tri.map, Aff.app, Aff.lin]; ext <;> simp <;> ring
    have h2 : (ts[i].map M).c - (ts[i].map M).a = M.lin (ts[i].c - ts[i].a) := by simp only [Tri.map, Aff.app, Aff.lin]; ext <;> simp <;> ring
    rw [h1, h2, lag, lag, hl, hl, hl]
  rw [harea, hdet, abs_one, mul_one]
  congr 1
  field_simp

/-- Uniform scaling by s. -/
noncomputable def scaleBy (s : ℝ) : Aff ℝ := ⟨⟨s, 0, 0⟩, ⟨0, s, 0⟩, ⟨0, 0, s⟩, 0⟩

/-- C46 fails: under uniform scaling by s ≠ 1 the reported position density (used for weights, densities and MIS) is 1/s times the true density, on every triangle of every mesh:
    the volume factor s³ is used in place of the area factor s². -/
theorem C46_negation_scaled_area (sgn : V3 ℝ → Bool) (junk Ke : V3 ℝ) (ts : List Tri) (s : ℝ) (hs : 0 < s) (hs1 : s ≠ 1) (i : Nat) (hi : i < ts.length) (ht : 0 < triArea ts[i]) (g : Geom) :
    ∃ p q, (area sgn junk Ke ts).pdfPosition g (scaleBy s) = some p ∧ trueDensity ts (scaleBy s) i hi = some q ∧ s * p = q ∧ p ≠ q := by
  have hA : 0 < (ts.map triArea).sum :=
    lt_of_lt_of_le ht (List.single_le_sum (by simpa using fun t _ => triArea_nonneg t) _ (List.mem_map_of_mem (List.getElem_mem hi)))
  have hdet : (scaleBy s).det = s ^ 3 := by simp [Aff.det, scaleBy, V3.dot, V3.cross]; ring
  have hd0 : (scaleBy s).det ≠ 0 := by rw [hdet]; positivity
  obtain ⟨p, hp, hpp, he⟩ := transformedInvA_pos ts (scaleBy s) hA hd0
  have harea : triArea (ts[i].map (scaleBy s)) = s ^ 2 * triArea ts[i] := by
    unfold triArea
    simp only
    have hcr : V3.cross ((ts[i].map (scaleBy s)).b - (ts[i].map (scaleBy s)).a) ((ts[i].map (scaleBy s)).c - (ts[i].map (scaleBy s)).a) = (s ^ 2) • V3.cross (ts[i].b - ts[i].a) (ts[i].c - ts[i].a) := by
      simp only [Tri.map, Aff.app, Aff.lin, scaleBy, V3.cross]; ext <;> simp <;> ring
    rw [hcr, V3.dot_smul_left, V3.dot_smul_right, safeSqrt_of_nonneg (by have := dot_self_nonneg (V3.cross (ts[i].b - ts[i].a) (ts[i].c - ts[i].a)); positivity), safeSqrt_of_nonneg (dot_self_nonneg _),
      ← mul_assoc, Real.sqrt_mul (by positivity), Real.sqrt_mul_self (by positivity)]
    ring
  refine ⟨p, _, hp, trueDensity_eq ts (scaleBy s) i hi hA, ?_, ?_⟩
  · rw [he, harea, hdet, abs_of_pos (by positivity)]; field_simp
  · intro h
    rw [he, harea, hdet, abs_of_pos (by positivity)] at h
    field_simp at h
    exact hs1 h.symm

theorem frame_complete (u v n : V3 ℝ) (h : Orthonormal u v n) (w : V3 ℝ) : w = V3.dot w u • u + V3.dot w v • v + V3.dot w n • n := by
  obtain ⟨uu, vv, nn, uv, un, vn, hc⟩ := h
  have vu : V3.dot v u = 0 := by rw [V3.dot_comm]; exact uv
  have nu : V3.dot n u = 0 := by rw [V3.dot_comm]; exact un
  have nv : V3.dot n v = 0 := by rw [V3.dot_comm]; exact vn
  have r1 : V3.dot (w - (V3.dot w u • u + V3.dot w v • v + V3.dot w n • n)) u = 0 := by
    simp only [V3.dot_sub_left, V3.dot_add_left, V3.dot_smul_left, uu, vu, nu]; ring
  have r2 : V3.dot (w - (V3.dot w u • u + V3.dot w v • v + V3.dot w n • n)) v = 0 := by
    simp only [V3.dot_sub_left, V3.dot_add_left, V3.dot_smul_left, vv, uv, nv]; ring
  have r3 : V3.dot (w - (V3.dot w u • u + V3.dot w v • v + V3.dot w n • n)) n = 0 := by
    simp only [V3.dot_sub_left, V3.dot_add_left, V3.dot_smul_left, nn, un, vn]; ring
  have cramer : ∀ r : V3 ℝ, V3.dot n (V3.cross u v) • r = V3.dot r u • V3.cross v n + V3.dot r v • V3.cross n u + V3.dot r n • V3.cross u v := by
    intro r; ext <;> simp [V3.dot, V3.cross] <;> ring
  have h0 := cramer (w - (V3.dot w u • u + V3.dot w v • v + V3.dot w n • n))
  rw [r1, r2, r3, hc, nn, one_smul, zero_smul, zero_smul, zero_smul, add_zero, add_zero] at h0
  exact sub_eq_zero.mp h0

/-! ### Emission rays of infinite lights cover the scene -/

/-- C46. The disk of emission rays covers the scene: for every unit direction and every point x of the (non-degenerate) scene bound, some random numbers generate a ray through x that starts in front of it. -/
theorem C46_rays_cover (sgn : V3 ℝ → Bool) (bmin bmax d x : V3 ℝ) (hd : V3.dot d d = 1) (hx : (bmin.x ≤ x.x ∧ x.x ≤ bmax.x) ∧ (bmin.y ≤ x.y ∧ x.y ≤ bmax.y) ∧ (bmin.z ≤ x.z ∧ x.z ≤ bmax.z))
    (hne : bmin ≠ bmax) : ∃ us : RayU, us.Valid ∧ ∃ t : ℝ, 0 ≤ t ∧ diskPoint sgn (sphereBound bmin bmax).1 (sphereBound bmin bmax).2 d us + t • d = x := by
  set c := (sphereBound bmin bmax).1 with hc
  set r := (sphereBound bmin bmax).2 with hr
  obtain ⟨hxx, hxy, hxz⟩ := hx
  have hcx : c.x = (bmax.x + bmin.x) / 2 := by rw [hc]; simp [sphereBound]; ring
  have hcy : c.y = (bmax.y + bmin.y) / 2 := by rw [hc]; simp [sphereBound]; ring
  have hcz : c.z = (bmax.z + bmin.z) / 2 := by rw [hc]; simp [sphereBound]; ring
  have hR : V3.dot (x - c) (x - c) ≤ V3.dot (bmax - c) (bmax - c) := by
    simp only [V3.dot, V3.sub_x, V3.sub_y, V3.sub_z, hcx, hcy, hcz]
    nlinarith [mul_nonneg (sub_nonneg.mpr hxx.1) (sub_nonneg.mpr hxx.2), mul_nonneg (sub_nonneg.mpr hxy.1) (sub_nonneg.mpr hxy.2), mul_nonneg (sub_nonneg.mpr hxz.1) (sub_nonneg.mpr hxz.2)]
  have hR0 : 0 < V3.dot (bmax - c) (bmax - c) := by
    apply dot_self_pos
    intro h
    have := dot_self_zero h
    apply hne
    have h1 := congrArg V3.x this
    have h2 := congrArg V3.y this
    have h3 := congrArg V3.z this
    simp only [V3.sub_x, V3.sub_y, V3.sub_z, V3.zero_x, V3.zero_y, V3.zero_z, hcx, hcy, hcz] at h1 h2 h3
    ext <;> linarith
  have hrv : r = Real.sqrt (V3.dot (bmax - c) (bmax - c)) * (101 / 100) := rfl
  have hs0 := Real.sqrt_pos.mpr hR0
  have hsq := Real.sq_sqrt hR0.le
  have hrp : 0 < r := by rw [hrv]; positivity
  have hr2 : V3.dot (x - c) (x - c) < r ^ 2 := by rw [hrv, mul_pow, hsq]; nlinarith
  obtain ⟨u1, u2, u3, u4, u5, u6, u7⟩ := C32_basis d (sgn d) hd
  set u := (orthonormalBasis d (sgn d)).1
  set v := (orthonormalBasis d (sgn d)).2
  -- coordinates of x - c
  have hdec : x - c = V3.dot (x - c) u • u + V3.dot (x - c) v • v + V3.dot (x - c) d • d := by
    have := frame_complete u v d ⟨u1, u2, u3, u4, u5, u6, u7⟩ (x - c)
    exact this
  have hpyth : V3.dot (x - c) (x - c) = V3.dot (x - c) u ^ 2 + V3.dot (x - c) v ^ 2 + V3.dot (x - c) d ^ 2 := by
    conv_lhs => rw [hdec]
    have := (C32_frame u v d ⟨V3.dot (x - c) u, V3.dot (x - c) v, V3.dot (x - c) d⟩ ⟨V3.dot (x - c) u, V3.dot (x - c) v, V3.dot (x - c) d⟩ ⟨u1, u2, u3, u4, u5, u6, u7⟩).1
    rw [this]; simp only [V3.dot]; ring
  obtain ⟨a, b, ha, hb, hab⟩ := C34_disk_onto (V3.dot (x - c) u / r) (V3.dot (x - c) v / r) (by
    rw [div_pow, div_pow, ← add_div, div_lt_one (by positivity)]
    nlinarith [sq_nonneg (V3.dot (x - c) d)])
  refine ⟨⟨a, b, 0, 0, 0⟩, ⟨ha, hb, ⟨le_rfl, one_pos⟩, ⟨le_rfl, one_pos⟩, ⟨le_rfl, one_pos⟩⟩, r + V3.dot (x - c) d, ?_, ?_⟩
  · have : V3.dot (x - c) d ^ 2 < r ^ 2 := by nlinarith [sq_nonneg (V3.dot (x - c) u), sq_nonneg (V3.dot (x - c) v)]
    have := abs_lt_of_sq_lt_sq this hrp.le
    linarith [(abs_lt.mp this).1]
  · unfold diskPoint
    simp only [hab]
    rw [div_mul_cancel₀ _ hrp.ne', div_mul_cancel₀ _ hrp.ne']
    have : c + r • -d + (V3.dot (x - c) u • u + V3.dot (x - c) v • v) + (r + V3.dot (x - c) d) • d = c + (V3.dot (x - c) u • u + V3.dot (x - c) v • v + V3.dot (x - c) d • d) := by
      rw [add_smul, smul_neg]; abel
    rw [this, ← hdec]; abel

/-! ### Non-vacuity -/

/-- A unit square of two triangles. -/
noncomputable def exSquare : List Tri := [⟨⟨0, 0, 0⟩, ⟨1, 0, 0⟩, ⟨0, 1, 0⟩⟩, ⟨⟨1, 0, 0⟩, ⟨1, 1, 0⟩, ⟨0, 1, 0⟩⟩]
theorem exSquare_area : (exSquare.map triArea).sum = 1 := by norm_num [exSquare, triArea, V3.cross, V3.dot, safeSqrt]
example : 0 < (exSquare.map triArea).sum ∧ (scaleBy 2).det ≠ 0 := by
  refine ⟨by rw [exSquare_area]; norm_num, ?_⟩
  norm_num [Aff.det, scaleBy, V3.dot, V3.cross]
example : Orthonormal (⟨0, 1, 0⟩ : V3 ℝ) ⟨-1, 0, 0⟩ ⟨0, 0, 1⟩ := by
  refine ⟨?_, ?_, ?_, ?_, ?_, ?_, ?_⟩ <;> simp [V3.dot, V3.cross]
example : ∃ (h : 1 < exSquare.length), 0 < triArea exSquare[1] := ⟨by simp [exSquare], by norm_num [exSquare, triArea, V3.cross, V3.dot, safeSqrt]⟩

end LM.Light
