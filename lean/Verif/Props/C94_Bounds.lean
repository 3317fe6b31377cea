import Verif.Props.C94_VolRaycast
/-
  C94: what the values of the volume ray casting renderer obey, and where it fails.
-/
namespace LM.VolRaycast
open LM LM.Film LM.Scheduler LM.Surface LM.Material LM.Light LM.Path LM.Render LM.Accel LM.RenderFilm Finset

/-! ### Sums over a march -/

theorem trans_succ (mu step : ℝ) (ρ : ℕ → ℝ) (k : ℕ) : trans mu step ρ (k + 1) = trans mu step ρ k * Real.exp (-(mu * (step * ρ k))) := by
  simp only [trans, Finset.sum_range_succ, ← Real.exp_add]
  ring_nf

theorem trans_pos (mu step : ℝ) (ρ : ℕ → ℝ) (k : ℕ) : 0 < trans mu step ρ k := Real.exp_pos _

/-- What a step takes out of the ray is the difference of the transmittances. -/
theorem trans_step (mu step : ℝ) (ρ : ℕ → ℝ) (k : ℕ) : trans mu step ρ k * (1 - Real.exp (-(mu * (step * ρ k)))) = trans mu step ρ k - trans mu step ρ (k + 1) := by
  rw [trans_succ]; ring

theorem trans_anti {mu step : ℝ} {ρ : ℕ → ℝ} {n : ℕ} (hmu : 0 ≤ mu) (hs : 0 ≤ step) (hρ : ∀ k, k < n → 0 ≤ ρ k) {a b : ℕ} (hab : a ≤ b) (hb : b ≤ n) : trans mu step ρ b ≤ trans mu step ρ a := by
  refine Real.exp_le_exp.mpr (neg_le_neg (mul_le_mul_of_nonneg_left (mul_le_mul_of_nonneg_left ?_ hs) hmu))
  refine Finset.sum_le_sum_of_subset_of_nonneg (fun x hx => ?_) (fun i hi _ => hρ i ?_)
  · rw [Finset.mem_range] at hx ⊢; omega
  · rw [Finset.mem_range] at hi; omega

theorem trans_le_one {mu step : ℝ} {ρ : ℕ → ℝ} {n : ℕ} (hmu : 0 ≤ mu) (hs : 0 ≤ step) (hρ : ∀ k, k < n → 0 ≤ ρ k) {b : ℕ} (hb : b ≤ n) : trans mu step ρ b ≤ 1 := by
  rw [← trans_zero mu step ρ]
  exact trans_anti hmu hs hρ (Nat.zero_le _) hb

theorem trans_drop {mu step : ℝ} {ρ : ℕ → ℝ} {n : ℕ} (hmu : 0 ≤ mu) (hs : 0 ≤ step) (hρ : ∀ k, k < n → 0 ≤ ρ k) {k : ℕ} (hk : k < n) : 0 ≤ trans mu step ρ k - trans mu step ρ (k + 1) :=
  sub_nonneg.mpr (trans_anti hmu hs hρ (Nat.le_succ k) hk)

/-- The medium and the light are physical: coefficients, emitted light and density are not negative, every channel has some extinction, and the steps are not negative. -/
structure Physical (c : Cfg) (g : Grid) : Prop where
  total : c.muT = c.muA + c.muS
  absorb : ∀ i, 0 ≤ ch c.muA i
  scatter : ∀ i, 0 ≤ ch c.muS i
  extinct : ∀ i, 0 < ch c.muT i
  light : ∀ i, 0 ≤ ch c.Le i
  step : 0 ≤ c.step
  stepShadow : 0 ≤ c.stepShadow
  density : ∀ p r, g.scalar p = some r → 0 ≤ r

/-- The albedo times the emitted light. -/
noncomputable def top (c : Cfg) (i : Fin 3) : ℝ := ch c.muS i / ch c.muT i * ch c.Le i

theorem Physical.top_nonneg {c : Cfg} {g : Grid} (h : Physical c g) (i : Fin 3) : 0 ≤ top c i :=
  mul_nonneg (div_nonneg (h.scatter i) (h.extinct i).le) (h.light i)

theorem Lit.nonneg {c : Cfg} {g : Grid} {p : V3 ℝ} {S : Fin 3 → ℝ} (h : Lit c g p S) (i : Fin 3) : 0 < S i := by
  obtain ⟨ts, ρ, n, _, _, _, h4⟩ := h
  rw [h4]
  exact trans_pos _ _ _ _

theorem Lit.le_one {c : Cfg} {g : Grid} (hP : Physical c g) {p : V3 ℝ} {S : Fin 3 → ℝ} (h : Lit c g p S) (i : Fin 3) : S i ≤ 1 := by
  obtain ⟨ts, ρ, n, _, h2, _, h4⟩ := h
  rw [h4]
  refine trans_le_one (hP.extinct i).le hP.stepShadow (n := n) (fun k hk => ?_) le_rfl
  obtain ⟨t, _, ht⟩ := h2 k hk
  exact hP.density _ _ ht

theorem estimate_sum {c : Cfg} {step : ℝ} {ρ : ℕ → ℝ} {n : ℕ} {S : ℕ → Fin 3 → ℝ} (i : Fin 3) :
    ∑ k ∈ range n, ch c.muS i / ch c.muT i * ch c.Le i * trans (ch c.muT i) step ρ k * S k i * (1 - Real.exp (-(ch c.muT i * (step * ρ k)))) =
      top c i * ∑ k ∈ range n, S k i * (trans (ch c.muT i) step ρ k - trans (ch c.muT i) step ρ (k + 1)) := by
  rw [Finset.mul_sum]
  refine Finset.sum_congr rfl fun k _ => ?_
  rw [← trans_step]
  unfold top
  ring

/-! ### Theorems -/

/-- C94. The configured light direction may have any length but zero: the march towards the light uses the unit vector along it. The extinction is the sum of absorption and scattering, and everything else is as configured. -/
theorem C94_construct (step stepShadow cutoff : ℝ) (dir Le muA muS : V3 ℝ) (hd : dir ≠ 0) : ∃ c, construct step stepShadow dir Le muA muS cutoff = some c ∧ V3.dot c.lightDir c.lightDir = 1 ∧ (∃ k : ℝ, 0 < k ∧ dir = k • c.lightDir) ∧
    c.step = step ∧ c.stepShadow = stepShadow ∧ c.Le = Le ∧ c.muA = muA ∧ c.muS = muS ∧ (∀ i, ch c.muT i = ch muA i + ch muS i) ∧ c.cutoff = cutoff := by
  have hdd : V3.dot dir dir ≠ 0 := by
    intro e
    apply hd
    simp only [V3.dot] at e
    have hx : dir.x = 0 := by nlinarith [sq_nonneg dir.x, sq_nonneg dir.y, sq_nonneg dir.z]
    have hy : dir.y = 0 := by nlinarith [sq_nonneg dir.x, sq_nonneg dir.y, sq_nonneg dir.z]
    have hz : dir.z = 0 := by nlinarith [sq_nonneg dir.x, sq_nonneg dir.y, sq_nonneg dir.z]
    ext <;> assumption
  have hn : Material.normalize dir = some ((1 / Real.sqrt (V3.dot dir dir)) • dir) := by rw [Material.normalize, if_neg hdd]
  obtain ⟨u1, u2⟩ := Light.normalize_unit hn
  exact ⟨_, by rw [construct, hn]; rfl, u1, u2, rfl, rfl, rfl, rfl, rfl, fun i => ch_add _ _ i, rfl⟩

/-- C94. In a physical medium a value is never negative, and never more than the emitted light times the albedo. -/
theorem C94_bounds (c : Cfg) (g : Grid) (hP : Physical c g) (o d L : V3 ℝ) (h : Estimate c g o d L) (i : Fin 3) : 0 ≤ ch L i ∧ ch L i ≤ ch c.muS i / ch c.muT i * ch c.Le i ∧ ch L i ≤ ch c.Le i := by
  obtain ⟨ts, ρ, n, S, _, h2, _, h4⟩ := h
  have hρ : ∀ k, k < n → 0 ≤ ρ k := fun k hk => by
    obtain ⟨t, _, ht, _⟩ := h2 k hk
    exact hP.density _ _ ht
  have hS : ∀ k, k < n → 0 ≤ S k i ∧ S k i ≤ 1 := fun k hk => by
    obtain ⟨t, _, _, hl⟩ := h2 k hk
    exact ⟨(hl.nonneg i).le, hl.le_one hP i⟩
  have hle : ch L i ≤ top c i := by
    rw [h4, estimate_sum]
    refine (mul_le_mul_of_nonneg_left ?_ (hP.top_nonneg i)).trans (mul_one _).le
    calc ∑ k ∈ range n, S k i * (trans (ch c.muT i) c.step ρ k - trans (ch c.muT i) c.step ρ (k + 1))
        ≤ ∑ k ∈ range n, (trans (ch c.muT i) c.step ρ k - trans (ch c.muT i) c.step ρ (k + 1)) := by
          refine Finset.sum_le_sum fun k hk => ?_
          have hk := Finset.mem_range.mp hk
          exact mul_le_of_le_one_left (trans_drop (hP.extinct i).le hP.step hρ hk) (hS k hk).2
      _ = 1 - trans (ch c.muT i) c.step ρ n := by rw [Finset.sum_range_sub', trans_zero]
      _ ≤ 1 := by linarith [trans_pos (ch c.muT i) c.step ρ n]
  refine ⟨?_, hle, hle.trans ?_⟩
  · rw [h4, estimate_sum]
    refine mul_nonneg (hP.top_nonneg i) (Finset.sum_nonneg fun k hk => ?_)
    have hk := Finset.mem_range.mp hk
    exact mul_nonneg (hS k hk).1 (trans_drop (hP.extinct i).le hP.step hρ hk)
  · refine mul_le_of_le_one_left (hP.light i) ((div_le_one (hP.extinct i)).mpr ?_)
    rw [hP.total, ch_add]
    linarith [hP.absorb i]

/-- C94. Where the same part s of the light arrives at every visited point, the value is exact: the albedo times the light times the part of the ray that the optical depth ∑ step × density takes out, as for a continuous medium of
    that depth. -/
theorem C94_uniform_light (c : Cfg) (g : Grid) (o d L : V3 ℝ) (s : Fin 3 → ℝ) (hs : ∀ p S, Lit c g p S → S = s) (h : Estimate c g o d L) :
    ∃ ts ρ n, g.march o d Eps Surface.Inf c.step = some ts ∧ (∀ k, k < n → ∃ t, ts[k]? = some t ∧ g.scalar (o + t • d) = some (ρ k)) ∧ Stops (ch c.muT) c.step c.cutoff ρ ts.length n ∧
      ∀ i, ch L i = ch c.muS i / ch c.muT i * ch c.Le i * s i * (1 - Real.exp (-(ch c.muT i * ∑ k ∈ range n, c.step * ρ k))) := by
  obtain ⟨ts, ρ, n, S, h1, h2, h3, h4⟩ := h
  refine ⟨ts, ρ, n, h1, fun k hk => ?_, h3, fun i => ?_⟩
  · obtain ⟨t, a, b, _⟩ := h2 k hk
    exact ⟨t, a, b⟩
  · rw [h4, estimate_sum]
    have e : ∑ k ∈ range n, S k i * (trans (ch c.muT i) c.step ρ k - trans (ch c.muT i) c.step ρ (k + 1)) =
        ∑ k ∈ range n, s i * (trans (ch c.muT i) c.step ρ k - trans (ch c.muT i) c.step ρ (k + 1)) := by
      refine Finset.sum_congr rfl fun k hk => ?_
      obtain ⟨t, _, _, hl⟩ := h2 k (Finset.mem_range.mp hk)
      rw [hs _ _ hl]
    rw [e, ← Finset.mul_sum, Finset.sum_range_sub', trans_zero, ← Finset.mul_sum]
    unfold top trans
    ring

theorem sq_le_sum (f : Fin 3 → ℝ) (i : Fin 3) : f i ^ 2 ≤ ∑ j, f j ^ 2 := Finset.single_le_sum (f := fun j => f j ^ 2) (fun _ _ => sq_nonneg _) (Finset.mem_univ i)

/-- Where a march ends, what is left is nothing or below the root of the cutoff. -/
theorem Stops.rest {mu : Fin 3 → ℝ} {step cutoff : ℝ} {ρ : ℕ → ℝ} {len n : ℕ} (h : Stops mu step cutoff ρ len n) (i : Fin 3) : n = len ∨ trans (mu i) step ρ n ≤ Real.sqrt cutoff := by
  rcases Nat.lt_or_ge n len with hn | hn
  · right
    refine Real.le_sqrt_of_sq_le ?_
    exact (sq_le_sum (fun j => trans (mu j) step ρ n) i).trans (h.2.2 hn).2.le
  · left
    exact le_antisymm h.1 hn

theorem Stops.full {mu : Fin 3 → ℝ} {step cutoff : ℝ} {ρ : ℕ → ℝ} {len n : ℕ} (h : Stops mu step cutoff ρ len n) (h0 : cutoff ≤ 0) : n = len := by
  rcases Nat.lt_or_ge n len with hn | hn
  · have := (h.2.2 hn).2
    have : (0 : ℝ) ≤ ∑ i, trans (mu i) step ρ n ^ 2 := Finset.sum_nonneg fun _ _ => sq_nonneg _
    linarith
  · exact le_antisymm h.1 hn

theorem trans_congr {mu step : ℝ} {ρ ρ' : ℕ → ℝ} {n : ℕ} (h : ∀ k, k < n → ρ k = ρ' k) : trans mu step ρ n = trans mu step ρ' n := by
  unfold trans
  rw [Finset.sum_congr rfl fun k hk => h k (Finset.mem_range.mp hk)]

theorem Lit.cut {c : Cfg} {g : Grid} (hP : Physical c g) {p : V3 ℝ} {S S' : Fin 3 → ℝ} (h : Lit c g p S) (h' : Lit { c with cutoff := 0 } g p S') (i : Fin 3) : S' i ≤ S i ∧ S i ≤ S' i + Real.sqrt c.cutoff := by
  obtain ⟨ts, ρ, n, h1, h2, h3, h4⟩ := h
  obtain ⟨ts', ρ', n', h1', h2', h3', h4'⟩ := h'
  obtain rfl : ts = ts' := Option.some.inj (h1.symm.trans h1')
  have hn' := h3'.full le_rfl
  subst hn'
  have hle := h3.1
  have hρ : ∀ k, k < ts.length → 0 ≤ ρ' k := fun k hk => by
    obtain ⟨t, _, ht⟩ := h2' k hk
    exact hP.density _ _ ht
  have heq : ∀ k, k < n → ρ k = ρ' k := fun k hk => by
    obtain ⟨t, a, b⟩ := h2 k hk
    obtain ⟨t', a', b'⟩ := h2' k (by omega)
    obtain rfl : t = t' := Option.some.inj (a.symm.trans a')
    exact Option.some.inj (b.symm.trans b')
  have hrest := h3.rest i
  rw [h4, h4', trans_congr heq]
  refine ⟨trans_anti (hP.extinct i).le hP.stepShadow hρ hle le_rfl, ?_⟩
  rcases hrest with e | e
  · rw [e]
    exact le_add_of_nonneg_right (Real.sqrt_nonneg _)
  · rw [trans_congr heq] at e
    exact e.trans (le_add_of_nonneg_left (trans_pos _ _ _ _).le)

/-- C94. The cutoff changes a value by at most the emitted light times the albedo times the root of the cutoff, compared with marches that go on to the end of the volume. -/
theorem C94_cutoff (c : Cfg) (g : Grid) (hP : Physical c g) (o d L L' : V3 ℝ) (h : Estimate c g o d L) (h' : Estimate { c with cutoff := 0 } g o d L') (i : Fin 3) :
    |ch L i - ch L' i| ≤ ch c.muS i / ch c.muT i * ch c.Le i * Real.sqrt c.cutoff := by
  obtain ⟨ts, ρ, n, S, h1, h2, h3, h4⟩ := h
  obtain ⟨ts', ρ', n', S', h1', h2', h3', h4'⟩ := h'
  obtain rfl : ts = ts' := Option.some.inj (h1.symm.trans h1')
  have hn' := h3'.full le_rfl
  subst hn'
  have hle := h3.1
  have hρ : ∀ k, k < ts.length → 0 ≤ ρ' k := fun k hk => by
    obtain ⟨t, _, ht, _⟩ := h2' k hk
    exact hP.density _ _ ht
  have heq : ∀ k, k < n → ρ k = ρ' k := fun k hk => by
    obtain ⟨t, a, b, _⟩ := h2 k hk
    obtain ⟨t', a', b', _⟩ := h2' k (by omega)
    obtain rfl : t = t' := Option.some.inj (a.symm.trans a')
    exact Option.some.inj (b.symm.trans b')
  have hcut : ∀ k, k < n → S' k i ≤ S k i ∧ S k i ≤ S' k i + Real.sqrt c.cutoff := fun k hk => by
    obtain ⟨t, a, _, b⟩ := h2 k hk
    obtain ⟨t', a', _, b'⟩ := h2' k (by omega)
    obtain rfl : t = t' := Option.some.inj (a.symm.trans a')
    exact b.cut hP b' i
  have hS' : ∀ k, k < ts.length → 0 ≤ S' k i ∧ S' k i ≤ 1 := fun k hk => by
    obtain ⟨t, _, _, hl⟩ := h2' k hk
    have hP' : Physical { c with cutoff := 0 } g := ⟨hP.total, hP.absorb, hP.scatter, hP.extinct, hP.light, hP.step, hP.stepShadow, hP.density⟩
    exact ⟨(hl.nonneg i).le, hl.le_one hP' i⟩
  have hrest := h3.rest i
  rw [trans_congr heq] at hrest
  have e1 : ch L i = top c i * ∑ k ∈ range n, S k i * (trans (ch c.muT i) c.step ρ' k - trans (ch c.muT i) c.step ρ' (k + 1)) := by
    rw [h4, estimate_sum]
    congr 1
    refine Finset.sum_congr rfl fun k hk => ?_
    have hk := Finset.mem_range.mp hk
    rw [trans_congr (n := k) fun j hj => heq j (by omega), trans_congr (n := k + 1) fun j hj => heq j (by omega)]
  have e2 : ch L' i = top c i * ∑ k ∈ range ts.length, S' k i * (trans (ch c.muT i) c.step ρ' k - trans (ch c.muT i) c.step ρ' (k + 1)) := by
    rw [h4']
    exact estimate_sum (c := c) i
  set w : ℕ → ℝ := fun k => trans (ch c.muT i) c.step ρ' k - trans (ch c.muT i) c.step ρ' (k + 1) with hw
  have hw0 : ∀ k, k < ts.length → 0 ≤ w k := fun k hk => trans_drop (hP.extinct i).le hP.step hρ hk
  have hsplit : ∑ k ∈ range ts.length, S' k i * w k = ∑ k ∈ range n, S' k i * w k + ∑ k ∈ Ico n ts.length, S' k i * w k := by
    rw [Finset.sum_range_add_sum_Ico _ hle]
  have hA : 0 ≤ ∑ k ∈ range n, S k i * w k - ∑ k ∈ range n, S' k i * w k ∧ ∑ k ∈ range n, S k i * w k - ∑ k ∈ range n, S' k i * w k ≤ Real.sqrt c.cutoff := by
    rw [← Finset.sum_sub_distrib]
    constructor
    · refine Finset.sum_nonneg fun k hk => ?_
      have hk := Finset.mem_range.mp hk
      rw [← sub_mul]
      exact mul_nonneg (sub_nonneg.mpr (hcut k hk).1) (hw0 k (by omega))
    · calc ∑ k ∈ range n, (S k i * w k - S' k i * w k) ≤ ∑ k ∈ range n, Real.sqrt c.cutoff * w k := by
            refine Finset.sum_le_sum fun k hk => ?_
            have hk := Finset.mem_range.mp hk
            rw [← sub_mul]
            exact mul_le_mul_of_nonneg_right (by linarith [(hcut k hk).2]) (hw0 k (by omega))
        _ = Real.sqrt c.cutoff * (1 - trans (ch c.muT i) c.step ρ' n) := by rw [← Finset.mul_sum, hw, Finset.sum_range_sub', trans_zero]
        _ ≤ Real.sqrt c.cutoff := mul_le_of_le_one_right (Real.sqrt_nonneg _) (by linarith [trans_pos (ch c.muT i) c.step ρ' n])
  have hB : 0 ≤ ∑ k ∈ Ico n ts.length, S' k i * w k ∧ ∑ k ∈ Ico n ts.length, S' k i * w k ≤ Real.sqrt c.cutoff := by
    constructor
    · exact Finset.sum_nonneg fun k hk => mul_nonneg (hS' k (Finset.mem_Ico.mp hk).2).1 (hw0 k (Finset.mem_Ico.mp hk).2)
    · calc ∑ k ∈ Ico n ts.length, S' k i * w k ≤ ∑ k ∈ Ico n ts.length, w k :=
            Finset.sum_le_sum fun k hk => mul_le_of_le_one_left (hw0 k (Finset.mem_Ico.mp hk).2) (hS' k (Finset.mem_Ico.mp hk).2).2
        _ = trans (ch c.muT i) c.step ρ' n - trans (ch c.muT i) c.step ρ' ts.length := by
            have a := Finset.sum_range_add_sum_Ico w hle
            have b := Finset.sum_range_sub' (trans (ch c.muT i) c.step ρ') n
            have b' := Finset.sum_range_sub' (trans (ch c.muT i) c.step ρ') ts.length
            rw [hw] at a ⊢
            linarith
        _ ≤ Real.sqrt c.cutoff := by
            rcases hrest with e | e
            · rw [e, sub_self]; exact Real.sqrt_nonneg _
            · linarith [trans_pos (ch c.muT i) c.step ρ' ts.length]
  rw [e1, e2, ← mul_sub, abs_mul, abs_of_nonneg (hP.top_nonneg i)]
  refine mul_le_mul_of_nonneg_left ?_ (hP.top_nonneg i)
  rw [hsplit, abs_le]
  constructor <;> linarith [hA.1, hA.2, hB.1, hB.2]

/-- C94. For a scale that is not negative, the density of an OpenVDB volume lies between 0 and the maximum that it announces, if the loader's values lie between 0 and the loader's maximum. -/
theorem C94_density (l : Vdb) (scale : ℝ) (hs : 0 ≤ scale) (hl : ∀ p, 0 ≤ l.eval p ∧ l.eval p ≤ l.max) (p : V3 ℝ) (r : ℝ) (h : (l.grid scale).scalar p = some r) : 0 ≤ r ∧ r ≤ l.maxScalar scale := by
  obtain rfl := Option.some.inj h
  exact ⟨mul_nonneg (hl p).1 hs, mul_le_mul_of_nonneg_right (hl p).2 hs⟩

/-- C94. With a negative scale, which is accepted, the density exceeds the announced maximum, so that delta tracking would no longer be unbiased. -/
theorem C94_negation_scale : ∃ l : Vdb, (∀ p, 0 ≤ l.eval p ∧ l.eval p ≤ l.max) ∧ ∃ p r, (l.grid (-1)).scalar p = some r ∧ l.maxScalar (-1) < r :=
  ⟨⟨fun p => if p = 0 then 1 else 0, 1, fun _ _ _ _ _ => []⟩, fun p => by dsimp only; split <;> norm_num, ⟨1, 0, 0⟩, 0, by simp [Vdb.grid, V3.ext_iff], by simp [Vdb.maxScalar]⟩

theorem casts_out (W : World) (g : Grid) (c : Cfg) (e : Out (Bitmap (V3 ℝ))) (b : Bitmap (V3 ℝ)) (i : ℕ) (is : List ℕ) (h : (cast W g c b.w b.h i = .throw ∧ e = .throw) ∨ (cast W g c b.w b.h i = .undef ∧ e = .undef)) :
    casts W g c b (i :: is) = e := by
  rcases h with ⟨h, rfl⟩ | ⟨h, rfl⟩ <;> simp only [casts, h]

theorem calls_cons (env : Env) (count : ℕ → ℕ) (n : ℕ) (hE : env.Complete n) (hn : 0 < n) : ∃ i is, (sppSample env count n 1).2.map Prod.fst = i :: is := by
  have hperm := Raycast.calls_perm env count n hE
  cases h : (sppSample env count n 1).2.map Prod.fst with
  | nil =>
    rw [h] at hperm
    have := hperm.length_eq
    rw [List.length_range] at this
    simp at this
    omega
  | cons i is => exact ⟨i, is, rfl⟩

/-- The points of a march from a to b: in the range, and at least a step apart. -/
def Within (a b s : ℝ) (ts : List ℝ) : Prop := (∀ t ∈ ts, a ≤ t ∧ t ≤ b) ∧ ts.Pairwise fun t u => t + s ≤ u

/-- C94. The march of an OpenVDB volume always is supported, stays in the range asked for makes steps of the length asked for at least, and comes near every point of the volume V on the ray, if the march of the loader does. -/
theorem C94_marched (l : Vdb) (scale : ℝ) (V : V3 ℝ → V3 ℝ → Set ℝ) (hl : ∀ o d a b s, Within a b s (l.march o d a b s) ∧ ∀ t ∈ V o d, a ≤ t → t + s ≤ b → ∃ u ∈ l.march o d a b s, |u - t| ≤ s) (o d : V3 ℝ) (a b s : ℝ) :
    ∃ ts, (l.grid scale).march o d a b s = some ts ∧ Within a b s ts ∧ ∀ t ∈ V o d, a ≤ t → t + s ≤ b → ∃ u ∈ ts, |u - t| ≤ s :=
  ⟨_, rfl, hl o d a b s⟩

/-- C94. With any of the volumes of the library, rendering throws: none of them supports the march that the renderer needs. -/
theorem C94_negation_march (W : World) (v : Volume.Vol) (c : Cfg) (cam : Camera) (hs : Raycast.Sees W cam) (hp : cam.Proper) (b : Bitmap (V3 ℝ)) (hb : 0 < b.w * b.h) (env : Env) (count : ℕ → ℕ) (hE : env.Complete (b.w * b.h)) :
    render W (ofVol v) c b (sppSample env count (b.w * b.h) 1) = .throw := by
  obtain ⟨i, is, hi⟩ := calls_cons env count _ hE hb
  unfold render
  rw [hi]
  refine casts_out _ _ _ _ _ _ _ (.inl ⟨?_, rfl⟩)
  obtain ⟨n, hn, hcam⟩ := hs
  obtain ⟨d, hd, -⟩ := C47_primary cam hp ((((i % b.w : ℕ) : ℝ) + 1 / 2) / b.w) ((((i / b.w : ℕ) : ℝ) + 1 / 2) / b.h)
  have hw : (clear b).w = b.w := rfl
  have hh : (clear b).h = b.h := rfl
  simp only [cast, hn, hcam, hw, hh, hd, radiance, ofVol]

/-- C94. If some channel has neither absorption nor scattering, a pixel whose ray meets the volume has no value (0/0 in that channel), although nothing is scattered in that channel and the value there should be 0. -/
theorem C94_negation_transparent (W : World) (g : Grid) (c : Cfg) (cam : Camera) (hs : Raycast.Sees W cam) (hp : cam.Proper) (b : Bitmap (V3 ℝ)) (hb : 0 < b.w * b.h) (env : Env) (count : ℕ → ℕ) (hE : env.Complete (b.w * b.h))
    (hsc : ∀ p, (g.scalar p).isSome) (hm : ∀ o d a b s, ∃ t ts, g.march o d a b s = some (t :: ts)) (j : Fin 3) (hj : ch c.muT j = 0) :
    render W g c b (sppSample env count (b.w * b.h) 1) = .undef := by
  obtain ⟨i, is, hi⟩ := calls_cons env count _ hE hb
  unfold render
  rw [hi]
  refine casts_out _ _ _ _ _ _ _ (.inr ⟨?_, rfl⟩)
  obtain ⟨n, hn, hcam⟩ := hs
  obtain ⟨d, hd, -⟩ := C47_primary cam hp ((((i % b.w : ℕ) : ℝ) + 1 / 2) / b.w) ((((i / b.w : ℕ) : ℝ) + 1 / 2) / b.h)
  have hw : (clear b).w = b.w := rfl
  have hh : (clear b).h = b.h := rfl
  have hdiv : divVV c.muS c.muT = none := by
    cases hq : divVV c.muS c.muT with
    | none => rfl
    | some q => exact absurd hj (ch_divVV hq j).2
  obtain ⟨t, ts, ht⟩ := hm cam.position d Eps Surface.Inf c.step
  obtain ⟨r, hr⟩ := Option.isSome_iff_exists.mp (hsc (cam.position + t • d))
  obtain ⟨S, hS⟩ := shadow_returns c g hsc (fun o d a b s => by obtain ⟨t, ts, e⟩ := hm o d a b s; rw [e]; rfl) (cam.position + t • d)
  simp only [cast, hn, hcam, hw, hh, hd, radiance, ht, along, mainStep, stepT, hr, Option.map_some, hS, hdiv]

/-! ### An example -/

/-- A loader with density 1 everywhere and marches of three steps. -/
noncomputable def exVdb : Vdb := ⟨fun _ => 1, 1, fun _ _ a _ s => [a, a + s, a + 2 * s]⟩

theorem exCfg : ∃ c, construct 1 1 ⟨0, 0, 1⟩ ⟨1, 1, 1⟩ ⟨1, 1, 1⟩ ⟨1, 1, 1⟩ 0 = some c ∧ c.step = 1 ∧ c.stepShadow = 1 ∧ c.Le = ⟨1, 1, 1⟩ ∧ c.muA = ⟨1, 1, 1⟩ ∧ c.muS = ⟨1, 1, 1⟩ ∧ c.muT = ⟨1, 1, 1⟩ + ⟨1, 1, 1⟩ ∧ c.cutoff = 0 := by
  cases h : normalize (⟨0, 0, 1⟩ : V3 ℝ) with
  | none =>
    have h' : Material.normalize (⟨0, 0, 1⟩ : V3 ℝ) = none := h
    simp [Material.normalize, V3.dot] at h'
  | some l => exact ⟨_, by simp only [construct, h]; rfl, rfl, rfl, rfl, rfl, rfl, rfl, rfl⟩

/-- The hypotheses are met: in a medium of density 1 with three steps of optical depth 2 each, every pixel shows 1/2 · exp(-6) · (1 - exp(-6)). -/
example (b : Bitmap (V3 ℝ)) (hw : b.w = 2) (hh : b.h = 1) : ∃ c f, construct 1 1 ⟨0, 0, 1⟩ ⟨1, 1, 1⟩ ⟨1, 1, 1⟩ ⟨1, 1, 1⟩ 0 = some c ∧ Physical c (exVdb.grid 1) ∧
    render Transport.exFloor (exVdb.grid 1) c b (sppSample exEnv (fun _ => 0) (b.w * b.h) 1) = .ret f ∧
    ∀ x, x < 2 → ∃ v, pixel f x 0 = some v ∧ ∀ i, ch v i = 1 / 2 * Real.exp (-6) * (1 - Real.exp (-6)) := by
  obtain ⟨c, hc, c1, c2, c3, c4, c5, c6, c7⟩ := exCfg
  have hmu : ∀ i, ch c.muT i = 2 := fun i => by rw [c6, ch_add, ch_one]; norm_num
  have hsees : Raycast.Sees Transport.exFloor exCam := ⟨_, rfl, rfl⟩
  have hE : exEnv.Complete (b.w * b.h) := by rw [hw, hh]; exact exEnv_complete
  obtain ⟨f, hf⟩ := C94_returns_partial Transport.exFloor (exVdb.grid 1) c exCam hsees Transport.exCam_proper b exEnv (fun _ => 0) hE (fun _ => rfl) (fun _ _ _ _ _ => rfl) (fun i => by rw [hmu]; norm_num)
  have hP : Physical c (exVdb.grid 1) := ⟨by rw [c4, c5, c6], fun i => by rw [c4, ch_one]; norm_num, fun i => by rw [c5, ch_one]; norm_num, fun i => by rw [hmu]; norm_num, fun i => by rw [c3, ch_one]; norm_num,
    by rw [c1]; norm_num, by rw [c2]; norm_num, fun p r hr => by obtain rfl := Option.some.inj hr; simp [exVdb]⟩
  refine ⟨c, f, hc, hP, hf, fun x hx => ?_⟩
  obtain ⟨_, _, hpx⟩ := C94_returned _ _ _ exCam hsees Transport.exCam_proper _ exEnv (fun _ => 0) hE f hf
  obtain ⟨v, hv, cam, d, _, _, _, hest⟩ := hpx x 0 (by omega) (by omega)
  refine ⟨v, hv, fun i => ?_⟩
  have hlit : ∀ p S, Lit c (exVdb.grid 1) p S → S = fun _ => Real.exp (-6) := by
    rintro p S ⟨ts, ρ, n, h1, h2, h3, h4⟩
    obtain rfl := Option.some.inj h1
    obtain rfl := h3.full c7.le
    have hρ : ∀ k, k < 3 → ρ k = 1 := fun k hk => by
      obtain ⟨t, _, e⟩ := h2 k hk
      have := Option.some.inj e
      simp [exVdb] at this
      exact this.symm
    funext j
    rw [h4, hmu]
    change trans 2 c.stepShadow ρ 3 = _
    rw [trans_congr (ρ' := fun _ => 1) hρ, trans, c2]
    norm_num
  obtain ⟨ts, ρ, n, h1, h2, h3, h4⟩ := C94_uniform_light c _ _ _ _ _ hlit hest
  obtain rfl := Option.some.inj h1
  obtain rfl := h3.full c7.le
  have hρ : ∀ k, k < 3 → ρ k = 1 := fun k hk => by
    obtain ⟨t, _, e⟩ := h2 k hk
    have := Option.some.inj e
    simp [exVdb] at this
    exact this.symm
  rw [h4, hmu, c5, c3, ch_one]
  change 1 / 2 * 1 * Real.exp (-6) * (1 - Real.exp (-(2 * ∑ k ∈ range 3, c.step * ρ k))) = _
  rw [Finset.sum_congr rfl fun k hk => by rw [c1, hρ k (Finset.mem_range.mp hk)]]
  norm_num

/-- A loader that meets the hypothesis, with a volume between 1 and 3 on every ray. -/
example : Within 1 3 1 [1, 2, 3] := ⟨by intro t ht; simp at ht; rcases ht with rfl | rfl | rfl <;> norm_num, by simp; norm_num⟩

end LM.VolRaycast
