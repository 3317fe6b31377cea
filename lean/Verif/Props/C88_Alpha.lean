import Verif.Props.C51_Walk
import Verif.Model.BdptOptRender
/-
  C88: the throughput cached with the vertices of a subpath is its sampling weight.
-/
namespace LM.Path
open LM LM.Surface LM.Material LM.Light LM.Volume

/-- What the cached throughputs of a subpath are, vertex by vertex: the reciprocal of the density of the first vertex, then a factor value / (density of the direction · probability of the component) per vertex. If the value
    is 0, the density may be anything. -/
structure Throughput (W : World) (dir : TransDir) (A : List CV) : Prop where
  first : ∀ v, A[0]? = some v → ∃ conn p, isConnectableEndpoint W v.sp = some conn ∧ startPdf W v.sp = some p ∧ p ≠ 0 ∧ pdfComponent W v.sp 0 v.comp = some 1 ∧ v.alpha = V3.all (1 / p)
  step : ∀ i v v', A[i]? = some v → A[i + 1]? = some v' → ∃ f, evalContrbDirection W v.sp v.wRev v.wFwd v.comp dir false = some f ∧ (f = 0 → v'.alpha = 0) ∧
    (f ≠ 0 → ∃ pd pc, (i = 0 ∧ isConnectableEndpoint W v.sp = some false → pdfPrimaryRay W v.sp v.wFwd false = some pd) ∧
      (¬ (i = 0 ∧ isConnectableEndpoint W v.sp = some false) → pdfDirection W v.sp v.wRev v.wFwd v.comp false = some pd) ∧ pd ≠ 0 ∧
      pdfComponent W v'.sp (-v.wFwd) v'.comp = some pc ∧ pc ≠ 0 ∧ v'.alpha = v.alpha * ((1 / pc) • ((1 / pd) • f)))

theorem divV_some {f : V3 ℝ} {p : ℝ} (hp : p ≠ 0) : divV f p = some ((1 / p) • f) := by
  unfold divV
  rw [if_neg hp]

section
variable {W : World} {dir : TransDir} {A : List CV} {vs : List Vert} {l : ℕ}

/-- A throughput 0 stays 0. -/
theorem Throughput.zero (T : Throughput W dir A) {i k : ℕ} {v w : CV} (hv : A[i]? = some v) (hw : A[i + k]? = some w) (h0 : v.alpha = 0) : w.alpha = 0 := by
  induction k generalizing w with
  | zero => rw [Nat.add_zero, hv] at hw; cases hw; exact h0
  | succ k ih =>
    have hlt := (List.getElem?_eq_some_iff.mp hw).1
    obtain ⟨u, hu⟩ : ∃ u, A[i + k]? = some u := ⟨_, List.getElem?_eq_getElem (by omega)⟩
    have hu0 := ih hu
    obtain ⟨f, -, h1, h2⟩ := T.step (i + k) u w hu hw
    by_cases hf : f = 0
    · exact h1 hf
    · obtain ⟨pd, pc, -, -, -, -, -, e⟩ := h2 hf
      rw [e, hu0]
      ext <;> simp

/-- The loop of eval_subpath_sampling_weight multiplies the factors of the cached throughput. -/
theorem Throughput.loop (T : Throughput W dir A) (h0 : ∀ v, A[0]? = some v → v.wRev = 0)
    (hd : ∀ i v v', A[i]? = some v → A[i + 1]? = some v' → direction (some v.vert) (some v'.vert) = some v.wFwd ∧ direction (some v'.vert) (some v.vert) = some v'.wRev)
    (hl : l ≤ A.length) (al : ∀ i : ℕ, i < l → vertexAt vs i dir = A[i]?.map CV.vert) (k : ℕ) : ∀ (i : ℕ) (v w : CV), i + k < l → (i = 0 → isConnectableEndpoint W v.sp ≠ some false) →
      A[i]? = some v → A[i + k]? = some w → alphaLoop W vs dir k i v.alpha = some w.alpha := by
  induction k with
  | zero => intro i v w _ _ hv hw; rw [Nat.add_zero, hv] at hw; cases hw; rfl
  | succ k ih =>
    intro i v w hi hc hv hw
    obtain ⟨v', hv'⟩ : ∃ v', A[i + 1]? = some v' := ⟨_, List.getElem?_eq_getElem (by omega)⟩
    have e0 : vertexAt vs (i : ℤ) dir = some v.vert := by rw [al i (by omega), hv]; rfl
    have e1 : vertexAt vs ((i : ℤ) + 1) dir = some v'.vert := by
      have := al (i + 1) (by omega)
      rw [hv'] at this
      exact_mod_cast this
    have ew : direction (some v.vert) (vertexAt vs ((i : ℤ) - 1) dir) = some v.wRev := by
      cases i with
      | zero =>
        have : vertexAt vs (((0 : ℕ) : ℤ) - 1) dir = none := by unfold vertexAt; rw [if_neg (by simp)]
        rw [this, h0 v hv]
        rfl
      | succ j =>
        obtain ⟨u, hu⟩ : ∃ u, A[j]? = some u := ⟨_, List.getElem?_eq_getElem (by omega)⟩
        have : vertexAt vs (((j + 1 : ℕ) : ℤ) - 1) dir = some u.vert := by
          rw [show ((j + 1 : ℕ) : ℤ) - 1 = (j : ℕ) by push_cast; ring, al j (by omega), hu]
          rfl
        rw [this]
        exact (hd j u v hu hv).2
    obtain ⟨f, hf, z, nz⟩ := T.step i v v' hv hv'
    rw [alphaLoop]
    simp only [e0, e1, ew, (hd i v v' hv hv').1, Option.bind_eq_bind, Option.bind_some]
    have hf' : evalContrbDirection W v.vert.sp v.wRev v.wFwd v.vert.comp dir false = some f := hf
    rw [hf']
    simp only [Option.bind_some]
    split_ifs with hz
    · rw [T.zero hv' (k := k) (by rw [show i + 1 + k = i + (k + 1) by omega]; exact hw) (z hz)]
      rfl
    · obtain ⟨pd, pc, -, h2, hpd0, hpc, hpc0, e⟩ := nz hz
      have hpd := h2 (fun h => hc h.1 h.2)
      have hpc' : pdfComponent W v'.vert.sp (-v.wFwd) v'.vert.comp = some pc := hpc
      have hpd' : pdfDirection W v.vert.sp v.wRev v.wFwd v.vert.comp false = some pd := hpd
      rw [hpc', hpd']
      simp only [Option.bind_some, divV_some hpd0, divV_some hpc0]
      rw [← e]
      exact_mod_cast ih (i + 1) v' w (by omega) (by omega) hv' (by rw [show i + 1 + k = i + (k + 1) by omega]; exact hw)

/-- The cached throughput of the l-th vertex is the sampling weight of the first l vertices. -/
theorem Throughput.weight (T : Throughput W dir A) (h0 : ∀ v, A[0]? = some v → v.wRev = 0)
    (hd : ∀ i v v', A[i]? = some v → A[i + 1]? = some v' → direction (some v.vert) (some v'.vert) = some v.wFwd ∧ direction (some v'.vert) (some v.vert) = some v'.wRev)
    (h1 : 1 ≤ l) (hl : l ≤ A.length) (al : ∀ i : ℕ, i < l → vertexAt vs i dir = A[i]?.map CV.vert) {w : CV} (hw : A[l - 1]? = some w)
    (hone : l = 1 → isConnectableEndpoint W w.sp ≠ some false) : subpathWeight W vs l dir = some w.alpha := by
  obtain ⟨v, hv⟩ : ∃ v, A[0]? = some v := ⟨_, List.getElem?_eq_getElem (by omega)⟩
  obtain ⟨conn, p, hconn, hp, hp0, hpc, ha⟩ := T.first v hv
  have e0 : vertexAt vs 0 dir = some v.vert := by have := al 0 (by omega); rw [hv] at this; exact_mod_cast this
  have hconn' : isConnectableEndpoint W v.vert.sp = some conn := hconn
  have hpc' : pdfComponent W v.vert.sp 0 v.vert.comp = some 1 := hpc
  rw [subpathWeight, if_neg (by omega)]
  simp only [e0, hconn', Option.bind_eq_bind, Option.bind_some]
  cases conn with
  | true =>
    have hpos : pdfPosition W v.vert.sp = some p := by
      unfold startPdf at hp
      simp only [hconn, Option.bind_eq_bind, Option.bind_some, if_true] at hp
      exact hp
    simp only [hpos, hpc', Option.bind_some, if_true, divV_some (show p * 1 ≠ 0 by rwa [mul_one])]
    have e : (1 / (p * 1)) • V3.all (1 : ℝ) = v.alpha := by rw [ha, mul_one]; ext <;> simp [V3.all]
    rw [e]
    have := T.loop h0 hd hl al (l - 1) 0 v w (by omega) (fun _ => by rw [hconn]; simp) hv (by rw [Nat.zero_add]; exact hw)
    exact_mod_cast this
  | false =>
    have hl2 : l ≠ 1 := by
      intro h
      refine hone h ?_
      rw [h, hv] at hw
      cases hw
      exact hconn
    obtain ⟨v', hv'⟩ : ∃ v', A[0 + 1]? = some v' := ⟨_, List.getElem?_eq_getElem (by omega)⟩
    have e1 : vertexAt vs 1 dir = some v'.vert := by have := al 1 (by omega); rw [hv'] at this; exact_mod_cast this
    obtain ⟨f, hf, z, nz⟩ := T.step 0 v v' hv hv'
    have hw' : A[0 + 1 + (l - 2)]? = some w := by rw [show 0 + 1 + (l - 2) = l - 1 by omega]; exact hw
    have hf' : evalContrbDirection W v.vert.sp 0 v.wFwd v.vert.comp dir false = some f := by rw [← h0 v hv]; exact hf
    rw [if_neg hl2]
    simp only [e1, (hd 0 v v' hv hv').1, hf', Option.bind_some, Bool.false_eq_true, if_false]
    split_ifs with hz
    · rw [T.zero hv' hw' (z hz)]
      rfl
    · obtain ⟨pd, pc, h2, -, hpd0, hpcn, hpcn0, e⟩ := nz hz
      have hpd : pdfPrimaryRay W v.vert.sp v.wFwd false = some pd := h2 ⟨rfl, hconn⟩
      have hpcn' : pdfComponent W v'.vert.sp (-v.wFwd) v'.vert.comp = some pc := hpcn
      have hp1 : p = 1 := by
        unfold startPdf at hp
        simp only [hconn, Option.bind_eq_bind, Option.bind_some, Bool.false_eq_true, if_false] at hp
        exact (Option.some.inj hp).symm
      simp only [hpc', hpcn', hpd, Option.bind_some, divV_some (show pd * 1 * pc ≠ 0 by rw [mul_one]; exact mul_ne_zero hpd0 hpcn0)]
      have e' : (1 / (pd * 1 * pc)) • f = v'.alpha := by
        rw [e, ha, hp1, mul_one]
        ext <;> simp [V3.all] <;> ring
      rw [e']
      have := T.loop h0 hd hl al (l - 2) 1 v' w (by omega) (by omega) hv' hw'
      exact_mod_cast this

end

end LM.Path
