import Verif.Model.VolRaycast
import Verif.Props.C90_Raycast
/-
  C94: the image of the volume ray casting renderer.
-/
namespace LM.VolRaycast
open LM LM.Film LM.Scheduler LM.Surface LM.Material LM.Light LM.Path LM.Render LM.Accel LM.RenderFilm Finset

/-! ### Specification -/

/-- The colour channels of a vector. -/
def ch (v : V3 ℝ) : Fin 3 → ℝ := ![v.x, v.y, v.z]

/-- The transmittance after k steps through the densities ρ 0, ρ 1, …, for the extinction coefficient mu per unit of density: exp(-mu ∫ρ), with the integral replaced by the sum over the steps. -/
noncomputable def trans (mu step : ℝ) (ρ : ℕ → ℝ) (k : ℕ) : ℝ := Real.exp (-(mu * (step * ∑ j ∈ range k, ρ j)))

/-- A march of at most `len` steps ends after n steps: at the end, or at the first step after which the transmittance is negligible, that is the sum of the squares over the channels is below the cutoff. -/
def Stops (mu : Fin 3 → ℝ) (step cutoff : ℝ) (ρ : ℕ → ℝ) (len n : ℕ) : Prop :=
  n ≤ len ∧ (∀ k, 1 ≤ k → k < n → cutoff ≤ ∑ i, trans (mu i) step ρ k ^ 2) ∧ (n < len → 1 ≤ n ∧ ∑ i, trans (mu i) step ρ n ^ 2 < cutoff)

/-- S is the part of the light that arrives at p. -/
def Lit (c : Cfg) (g : Grid) (p : V3 ℝ) (S : Fin 3 → ℝ) : Prop :=
  ∃ ts ρ n, g.march p c.lightDir Eps Surface.Inf c.stepShadow = some ts ∧ (∀ k, k < n → ∃ t, ts[k]? = some t ∧ g.scalar (p + t • c.lightDir) = some (ρ k)) ∧
    Stops (ch c.muT) c.stepShadow c.cutoff ρ ts.length n ∧ ∀ i, S i = trans (ch c.muT i) c.stepShadow ρ n

/-- L is the light scattered once towards o from the volume seen in direction d: the sum, over the steps of the march, of albedo × emitted light × transmittance up to the step × light arriving there × what the step takes
    out of the ray. -/
def Estimate (c : Cfg) (g : Grid) (o d L : V3 ℝ) : Prop :=
  ∃ ts ρ n, ∃ S : ℕ → Fin 3 → ℝ, g.march o d Eps Surface.Inf c.step = some ts ∧ (∀ k, k < n → ∃ t, ts[k]? = some t ∧ g.scalar (o + t • d) = some (ρ k) ∧ Lit c g (o + t • d) (S k)) ∧
    Stops (ch c.muT) c.step c.cutoff ρ ts.length n ∧
    ∀ i, ch L i = ∑ k ∈ range n, ch c.muS i / ch c.muT i * ch c.Le i * trans (ch c.muT i) c.step ρ k * S k i * (1 - Real.exp (-(ch c.muT i * (c.step * ρ k))))

/-- v is the value of the ray through the centre of pixel (x, y) of a w × h image. -/
def Shows (W : World) (g : Grid) (c : Cfg) (w h x y : ℕ) (v : V3 ℝ) : Prop :=
  ∃ cam d, Raycast.Sees W cam ∧ V3.dot d d = 1 ∧ cam.Towards d (((x : ℝ) + 1 / 2) / w) (((y : ℝ) + 1 / 2) / h) ∧ Estimate c g cam.position d v

/-! ### Marches -/

theorem ch_ext {v w : V3 ℝ} (h : ∀ i, ch v i = ch w i) : v = w := by
  ext
  · exact h 0
  · exact h 1
  · exact h 2

theorem ch_mul (v w : V3 ℝ) (i : Fin 3) : ch (v * w) i = ch v i * ch w i := by fin_cases i <;> rfl
theorem ch_add (v w : V3 ℝ) (i : Fin 3) : ch (v + w) i = ch v i + ch w i := by fin_cases i <;> rfl
theorem ch_sub (v w : V3 ℝ) (i : Fin 3) : ch (v - w) i = ch v i - ch w i := by fin_cases i <;> rfl
theorem ch_one (i : Fin 3) : ch ⟨1, 1, 1⟩ i = 1 := by fin_cases i <;> rfl
theorem ch_zero (i : Fin 3) : ch 0 i = 0 := by fin_cases i <;> rfl
theorem ch_dot (v : V3 ℝ) : V3.dot v v = ∑ i, ch v i ^ 2 := by
  rw [Fin.sum_univ_three]
  simp only [V3.dot, ch, Matrix.cons_val_zero, Matrix.cons_val_one, Matrix.cons_val]
  ring

theorem ch_step (c : Cfg) (step r : ℝ) (i : Fin 3) : ch (expV (-(step • (r • c.muT)))) i = Real.exp (-(ch c.muT i * (step * r))) := by
  fin_cases i <;> (simp only [ch, expV, V3.neg_x, V3.neg_y, V3.neg_z, V3.smul_x, V3.smul_y, V3.smul_z]; simp; ring)

/-- The densities with one more in front. -/
def push (r : ℝ) (ρ : ℕ → ℝ) : ℕ → ℝ
  | 0 => r
  | k + 1 => ρ k

theorem trans_zero (mu step : ℝ) (ρ : ℕ → ℝ) : trans mu step ρ 0 = 1 := by simp [trans]

theorem trans_push (mu step r : ℝ) (ρ : ℕ → ℝ) (k : ℕ) : trans mu step (push r ρ) (k + 1) = Real.exp (-(mu * (step * r))) * trans mu step ρ k := by
  simp only [trans, Finset.sum_range_succ', push, ← Real.exp_add]
  ring_nf

/-- The number of steps, from any transmittance at the start. -/
def StopsFrom (A : Fin 3 → ℝ) (mu : Fin 3 → ℝ) (step cutoff : ℝ) (ρ : ℕ → ℝ) (len n : ℕ) : Prop :=
  n ≤ len ∧ (∀ k, 1 ≤ k → k < n → cutoff ≤ ∑ i, (A i * trans (mu i) step ρ k) ^ 2) ∧ (n < len → 1 ≤ n ∧ ∑ i, (A i * trans (mu i) step ρ n) ^ 2 < cutoff)

theorem StopsFrom.push {A B mu : Fin 3 → ℝ} {step cutoff r : ℝ} {ρ : ℕ → ℝ} {len n : ℕ} (h : StopsFrom B mu step cutoff ρ len n) (hB : ∀ i, B i = A i * Real.exp (-(mu i * (step * r)))) (hc : cutoff ≤ ∑ i, B i ^ 2) :
    StopsFrom A mu step cutoff (push r ρ) (len + 1) (n + 1) := by
  obtain ⟨h1, h2, h3⟩ := h
  have e : ∀ k, ∑ i, (A i * trans (mu i) step (VolRaycast.push r ρ) (k + 1)) ^ 2 = ∑ i, (B i * trans (mu i) step ρ k) ^ 2 := by
    intro k
    refine Finset.sum_congr rfl fun i _ => ?_
    rw [trans_push, hB i]
    ring
  refine ⟨by omega, fun k hk1 hk2 => ?_, fun hn => ⟨by omega, ?_⟩⟩
  · obtain ⟨k, rfl⟩ : ∃ k', k = k' + 1 := ⟨k - 1, by omega⟩
    rw [e]
    rcases Nat.eq_zero_or_pos k with rfl | hk
    · simpa [trans_zero] using hc
    · exact h2 k hk (by omega)
  · rw [e]
    exact (h3 (by omega)).2

theorem shadow_along (c : Cfg) (g : Grid) (p : V3 ℝ) : ∀ (ts : List ℝ) (Tr S : V3 ℝ), along (shadowStep c g p) ts Tr = .ret S →
    ∃ ρ n, (∀ k, k < n → ∃ t, ts[k]? = some t ∧ g.scalar (p + t • c.lightDir) = some (ρ k)) ∧ StopsFrom (ch Tr) (ch c.muT) c.stepShadow c.cutoff ρ ts.length n ∧
      ∀ i, ch S i = ch Tr i * trans (ch c.muT i) c.stepShadow ρ n
  | [], Tr, S, h => by
    cases h
    exact ⟨fun _ => 0, 0, fun k hk => by omega, ⟨le_rfl, fun k h1 h2 => by omega, fun h => absurd h (by simp)⟩, fun i => by rw [trans_zero, mul_one]⟩
  | t :: ts, Tr, S, h => by
    cases hr : g.scalar (p + t • c.lightDir) with
    | none => simp [along, shadowStep, stepT, hr] at h
    | some r =>
      have hT : ∀ i, ch (Tr * expV (-(c.stepShadow • (r • c.muT)))) i = ch Tr i * Real.exp (-(ch c.muT i * (c.stepShadow * r))) := fun i => by rw [ch_mul, ch_step]
      simp only [along, shadowStep, stepT, hr, Option.map_some] at h
      by_cases hlt : V3.dot (Tr * expV (-(c.stepShadow • (r • c.muT)))) (Tr * expV (-(c.stepShadow • (r • c.muT)))) < c.cutoff
      · simp only [hlt, decide_true, Bool.not_true, Out.ret.injEq] at h
        subst h
        have e : ∀ i, trans (ch c.muT i) c.stepShadow (push r fun _ => 0) 1 = Real.exp (-(ch c.muT i * (c.stepShadow * r))) := fun i => by
          rw [trans_push, trans_zero, mul_one]
        refine ⟨push r (fun _ => 0), 1, fun k hk => ?_, ⟨by simp, fun k h1 h2 => by omega, fun _ => ⟨le_rfl, ?_⟩⟩, fun i => by rw [e, hT]⟩
        · obtain rfl : k = 0 := by omega
          exact ⟨t, rfl, hr⟩
        · rw [ch_dot] at hlt
          simpa only [hT, e] using hlt
      · simp only [hlt, decide_false, Bool.not_false] at h
        obtain ⟨ρ, n, h1, h2, h3⟩ := shadow_along c g p ts _ S h
        refine ⟨push r ρ, n + 1, fun k hk => ?_, h2.push hT (by rw [← ch_dot]; exact not_lt.mp hlt), fun i => by rw [h3, trans_push, hT]; ring⟩
        cases k with
        | zero => exact ⟨t, rfl, hr⟩
        | succ k => exact h1 k (by omega)

theorem stopsFrom_one {mu : Fin 3 → ℝ} {step cutoff : ℝ} {ρ : ℕ → ℝ} {len n : ℕ} : StopsFrom (ch ⟨1, 1, 1⟩) mu step cutoff ρ len n ↔ Stops mu step cutoff ρ len n := by
  unfold StopsFrom Stops
  simp only [ch_one, one_mul]

theorem shadow_lit {c : Cfg} {g : Grid} {p S : V3 ℝ} (h : shadow c g p = .ret S) : Lit c g p (ch S) := by
  unfold shadow at h
  cases hm : g.march p c.lightDir Eps Surface.Inf c.stepShadow with
  | none => rw [hm] at h; cases h
  | some ts =>
    rw [hm] at h
    obtain ⟨ρ, n, h1, h2, h3⟩ := shadow_along c g p ts _ S h
    exact ⟨ts, ρ, n, hm, h1, stopsFrom_one.mp h2, fun i => by rw [h3, ch_one, one_mul]⟩

theorem ch_divVV {a b q : V3 ℝ} (h : divVV a b = some q) (i : Fin 3) : ch q i = ch a i / ch b i ∧ ch b i ≠ 0 := by
  simp only [divVV, divF] at h
  by_cases hx : b.x = 0
  · simp [hx] at h
  by_cases hy : b.y = 0
  · simp [hx, hy] at h
  by_cases hz : b.z = 0
  · simp [hx, hy, hz] at h
  simp [hx, hy, hz] at h
  subst h
  fin_cases i
  · exact ⟨rfl, hx⟩
  · exact ⟨rfl, hy⟩
  · exact ⟨rfl, hz⟩

theorem main_along (c : Cfg) (g : Grid) (o d : V3 ℝ) : ∀ (ts : List ℝ) (L Tr : V3 ℝ) (s : V3 ℝ × V3 ℝ), along (mainStep c g o d) ts (L, Tr) = .ret s →
    ∃ ρ n, ∃ S : ℕ → Fin 3 → ℝ, (∀ k, k < n → ∃ t, ts[k]? = some t ∧ g.scalar (o + t • d) = some (ρ k) ∧ Lit c g (o + t • d) (S k)) ∧ StopsFrom (ch Tr) (ch c.muT) c.step c.cutoff ρ ts.length n ∧
      ∀ i, ch s.1 i = ch L i + ∑ k ∈ range n, ch c.muS i / ch c.muT i * ch c.Le i * (ch Tr i * trans (ch c.muT i) c.step ρ k) * S k i * (1 - Real.exp (-(ch c.muT i * (c.step * ρ k))))
  | [], L, Tr, s, h => by
    cases h
    exact ⟨fun _ => 0, 0, fun _ _ => 0, fun k hk => by omega, ⟨le_rfl, fun k h1 h2 => by omega, fun h => absurd h (by simp)⟩, fun i => by simp⟩
  | t :: ts, L, Tr, s, h => by
    cases hr : g.scalar (o + t • d) with
    | none => simp [along, mainStep, stepT, hr] at h
    | some r =>
      cases hs : shadow c g (o + t • d) with
      | throw => simp [along, mainStep, stepT, hr, hs] at h
      | undef => simp [along, mainStep, stepT, hr, hs] at h
      | ret S0 =>
        have hlit := shadow_lit hs
        cases ha : divVV c.muS c.muT with
        | none => simp [along, mainStep, stepT, hr, hs, ha] at h
        | some a =>
          have hT : ∀ i, ch (Tr * expV (-(c.step • (r • c.muT)))) i = ch Tr i * Real.exp (-(ch c.muT i * (c.step * r))) := fun i => by rw [ch_mul, ch_step]
          have hL : ∀ i, ch (L + a * c.Le * Tr * S0 * (⟨1, 1, 1⟩ - expV (-(c.step • (r • c.muT))))) i =
              ch L i + ch c.muS i / ch c.muT i * ch c.Le i * ch Tr i * ch S0 i * (1 - Real.exp (-(ch c.muT i * (c.step * r)))) := fun i => by
            rw [ch_add, ch_mul, ch_mul, ch_mul, ch_mul, ch_sub, ch_one, ch_step, (ch_divVV ha i).1]
          simp only [along, mainStep, stepT, hr, hs, ha, Option.map_some] at h
          by_cases hlt : V3.dot (Tr * expV (-(c.step • (r • c.muT)))) (Tr * expV (-(c.step • (r • c.muT)))) < c.cutoff
          · simp only [hlt, decide_true, Bool.not_true, Out.ret.injEq] at h
            subst h
            have e : ∀ i, trans (ch c.muT i) c.step (push r fun _ => 0) 1 = Real.exp (-(ch c.muT i * (c.step * r))) := fun i => by
              rw [trans_push, trans_zero, mul_one]
            refine ⟨push r (fun _ => 0), 1, fun _ => ch S0, fun k hk => ?_, ⟨by simp, fun k h1 h2 => by omega, fun _ => ⟨le_rfl, ?_⟩⟩, fun i => ?_⟩
            · obtain rfl : k = 0 := by omega
              exact ⟨t, rfl, hr, hlit⟩
            · rw [ch_dot] at hlt
              simpa only [hT, e] using hlt
            · rw [hL, Finset.sum_range_one, trans_zero, mul_one]
              rfl
          · simp only [hlt, decide_false, Bool.not_false] at h
            obtain ⟨ρ, n, S, h1, h2, h3⟩ := main_along c g o d ts _ _ s h
            refine ⟨push r ρ, n + 1, fun k => match k with
              | 0 => ch S0
              | k + 1 => S k, fun k hk => ?_, h2.push hT (by rw [← ch_dot]; exact not_lt.mp hlt), fun i => ?_⟩
            · cases k with
              | zero => exact ⟨t, rfl, hr, hlit⟩
              | succ k => exact h1 k (by omega)
            · rw [h3, hL, Finset.sum_range_succ', add_assoc, add_comm (∑ k ∈ range n, _)]
              congr 2
              · rw [trans_zero, mul_one]; rfl
              · refine Finset.sum_congr rfl fun k _ => ?_
                rw [trans_push, hT, ← mul_assoc (ch Tr i)]
                rfl

/-- The value computed for a ray is the sum of the single scattering terms along it. -/
theorem radiance_estimate {c : Cfg} {g : Grid} {o d L : V3 ℝ} (h : radiance c g o d = .ret L) : Estimate c g o d L := by
  unfold radiance at h
  cases hm : g.march o d Eps Surface.Inf c.step with
  | none => rw [hm] at h; cases h
  | some ts =>
    rw [hm] at h
    dsimp only at h
    cases ha : along (mainStep c g o d) ts (0, ⟨1, 1, 1⟩) with
    | throw => rw [ha] at h; cases h
    | undef => rw [ha] at h; cases h
    | ret s =>
      rw [ha] at h
      cases h
      obtain ⟨ρ, n, S, h1, h2, h3⟩ := main_along c g o d ts _ _ s ha
      refine ⟨ts, ρ, n, S, hm, h1, stopsFrom_one.mp h2, fun i => ?_⟩
      rw [h3, ch_zero, zero_add]
      simp only [ch_one, one_mul]

/-! ### Returning -/

theorem shadow_returns (c : Cfg) (g : Grid) (hs : ∀ p, (g.scalar p).isSome) (hm : ∀ o d a b s, (g.march o d a b s).isSome) (p : V3 ℝ) : ∃ S, shadow c g p = .ret S := by
  have key : ∀ (ts : List ℝ) (Tr : V3 ℝ), ∃ S, along (shadowStep c g p) ts Tr = .ret S := by
    intro ts
    induction ts with
    | nil => exact fun Tr => ⟨Tr, rfl⟩
    | cons t ts ih =>
      intro Tr
      obtain ⟨r, hr⟩ := Option.isSome_iff_exists.mp (hs (p + t • c.lightDir))
      simp only [along, shadowStep, stepT, hr, Option.map_some]
      split
      · exact ih _
      · exact ⟨_, rfl⟩
      · rename_i h; cases h
      · rename_i h; cases h
  obtain ⟨ts, ht⟩ := Option.isSome_iff_exists.mp (hm p c.lightDir Eps Surface.Inf c.stepShadow)
  obtain ⟨S, hS⟩ := key ts ⟨1, 1, 1⟩
  exact ⟨S, by simp only [shadow, ht, hS]⟩

theorem radiance_returns (c : Cfg) (g : Grid) (hs : ∀ p, (g.scalar p).isSome) (hm : ∀ o d a b s, (g.march o d a b s).isSome) (ha : ∀ i, ch c.muT i ≠ 0) (o d : V3 ℝ) : ∃ L, radiance c g o d = .ret L := by
  have hdiv : ∃ q, divVV c.muS c.muT = some q := by
    have hx : c.muT.x ≠ 0 := ha 0
    have hy : c.muT.y ≠ 0 := ha 1
    have hz : c.muT.z ≠ 0 := ha 2
    simp [divVV, divF, hx, hy, hz]
  obtain ⟨q, hq⟩ := hdiv
  have key : ∀ (ts : List ℝ) (s : V3 ℝ × V3 ℝ), ∃ s', along (mainStep c g o d) ts s = .ret s' := by
    intro ts
    induction ts with
    | nil => exact fun s => ⟨s, rfl⟩
    | cons t ts ih =>
      intro s
      obtain ⟨r, hr⟩ := Option.isSome_iff_exists.mp (hs (o + t • d))
      obtain ⟨S, hS⟩ := shadow_returns c g hs hm (o + t • d)
      simp only [along, mainStep, stepT, hr, Option.map_some, hS, hq]
      split
      · exact ih _
      · exact ⟨_, rfl⟩
      · rename_i h; cases h
      · rename_i h; cases h
  obtain ⟨ts, ht⟩ := Option.isSome_iff_exists.mp (hm o d Eps Surface.Inf c.step)
  obtain ⟨s, hS⟩ := key ts (0, ⟨1, 1, 1⟩)
  exact ⟨s.1, by simp only [radiance, ht, hS]⟩

/-! ### The film -/

theorem casts_spec (W : World) (G : Grid) (c : Cfg) (w h : ℕ) (hw : 0 < w) (v : ℕ → V3 ℝ) (hv : ∀ i, i < w * h → cast W G c w h i = .ret ((i % w, i / w), v i)) :
    ∀ (is : List ℕ) (b : Bitmap (V3 ℝ)), WF b → b.w = w → b.h = h → (∀ i ∈ is, i < w * h) →
      ∃ f, casts W G c b is = .ret f ∧ WF f ∧ f.w = w ∧ f.h = h ∧ ∀ x y, x < w → y < h → pixel f x y = if y * w + x ∈ is then some (v (y * w + x)) else pixel b x y
  | [], b, hb, hbw, hbh, _ => ⟨b, rfl, hb, hbw, hbh, fun x y _ _ => by simp⟩
  | i :: is, b, hb, hbw, hbh, hi => by
    have hil := hi i (by simp)
    have hx : i % w < b.w := by rw [hbw]; exact Nat.mod_lt _ hw
    have hy : i / w < b.h := by rw [hbh]; exact Nat.div_lt_of_lt_mul hil
    obtain ⟨b', e, q1, q2, q3⟩ := (C25_write b hb (i % w) (i / w) hx hy (v i) id).1
    have hdim : b'.w = b.w ∧ b'.h = b.h := by
      unfold setPixel at e
      obtain ⟨dd, _, rfl⟩ := Option.map_eq_some_iff.mp e
      exact ⟨rfl, rfl⟩
    obtain ⟨f, f1, f0, f2, f3, f4⟩ := casts_spec W G c w h hw v hv is b' q1 (hdim.1.trans hbw) (hdim.2.trans hbh) (fun j hj => hi j (by simp [hj]))
    refine ⟨f, ?_, f0, f2, f3, ?_⟩
    · simp only [casts, hbw, hbh, hv i hil, e, f1]
    · intro x y hxw hyh
      rw [f4 x y hxw hyh]
      by_cases h1 : y * w + x ∈ is
      · simp [h1]
      · rw [if_neg h1]
        by_cases h2 : y * w + x = i
        · subst h2
          have ex : (y * w + x) % w = x := by rw [Nat.add_comm, Nat.add_mul_mod_self_right, Nat.mod_eq_of_lt hxw]
          have ey : (y * w + x) / w = y := by rw [Nat.add_comm, Nat.add_mul_div_right _ _ hw, Nat.div_eq_of_lt hxw, Nat.zero_add]
          rw [if_pos (by simp)]
          rw [ex, ey] at q2
          exact q2
        · rw [if_neg (by simp [h1, h2])]
          refine q3 x y (by rw [hbw]; exact hxw) ?_
          rintro e
          obtain ⟨rfl, rfl⟩ := Prod.mk.inj e
          exact h2 (by rw [Nat.mul_comm]; exact Nat.div_add_mod i w)

theorem casts_ret (W : World) (G : Grid) (c : Cfg) (w h : ℕ) : ∀ (is : List ℕ) (b f : Bitmap (V3 ℝ)), b.w = w → b.h = h → casts W G c b is = .ret f →
    ∀ i ∈ is, ∃ q, cast W G c w h i = .ret q
  | [], _, _, _, _, _ => by simp
  | j :: is, b, f, hbw, hbh, hr => by
    cases hc : cast W G c b.w b.h j with
    | undef => simp [casts, hc] at hr
    | throw => simp [casts, hc] at hr
    | ret q =>
      obtain ⟨p, v⟩ := q
      simp only [casts, hc] at hr
      cases he : setPixel b p.1 p.2 v with
      | none => simp [he] at hr
      | some b' =>
        simp only [he] at hr
        have hdim : b'.w = b.w ∧ b'.h = b.h := by
          unfold setPixel at he
          obtain ⟨dd, _, rfl⟩ := Option.map_eq_some_iff.mp he
          exact ⟨rfl, rfl⟩
        rw [hbw, hbh] at hc
        intro i hi
        rcases List.mem_cons.mp hi with rfl | hi
        · exact ⟨_, hc⟩
        · exact casts_ret W G c w h is b' f (hdim.1.trans hbw) (hdim.2.trans hbh) hr i hi

/-- The value of a pixel, when it has one: a function of the scene alone. -/
theorem cast_eq {W : World} {G : Grid} {c : Cfg} {w h i : ℕ} {cam : Camera} (hs : Raycast.Sees W cam) (hp : cam.Proper) {q : (ℕ × ℕ) × V3 ℝ} (hc : cast W G c w h i = .ret q) :
    q.1 = (i % w, i / w) ∧ Shows W G c w h (i % w) (i / w) q.2 := by
  obtain ⟨n, hn, hcam⟩ := hs
  obtain ⟨d, hd, h1, ht⟩ := C47_primary cam hp ((((i % w : ℕ) : ℝ) + 1 / 2) / w) ((((i / w : ℕ) : ℝ) + 1 / 2) / h)
  simp only [cast, hn, hcam, hd] at hc
  cases hr : radiance c G cam.position d with
  | undef => simp [hr] at hc
  | throw => simp [hr] at hc
  | ret C =>
    simp only [hr, Out.ret.injEq] at hc
    subst hc
    exact ⟨rfl, cam, d, ⟨n, hn, hcam⟩, h1, ht, radiance_estimate hr⟩

theorem render_pixels (W : World) (G : Grid) (c : Cfg) (cam : Camera) (hs : Raycast.Sees W cam) (hp : cam.Proper) (b : Bitmap (V3 ℝ)) (env : Env) (count : ℕ → ℕ) (hE : env.Complete (b.w * b.h))
    (f : Bitmap (V3 ℝ)) (h : render W G c b (sppSample env count (b.w * b.h) 1) = .ret f) :
    f.w = b.w ∧ f.h = b.h ∧ ∀ x y, x < b.w → y < b.h → ∃ v, pixel f x y = some v ∧ cast W G c b.w b.h (y * b.w + x) = .ret ((x, y), v) := by
  unfold render at h
  have hperm := Raycast.calls_perm env count (b.w * b.h) hE
  have hsh := casts_ret W G c b.w b.h _ (clear b) f rfl rfl h
  rcases Nat.eq_zero_or_pos b.w with h0 | hw
  · have hnil : (sppSample env count (b.w * b.h) 1).2.map Prod.fst = [] := by
      have := hperm.length_eq
      rw [List.length_range, h0, Nat.zero_mul] at this
      rw [h0, Nat.zero_mul]
      exact List.length_eq_zero_iff.mp this
    rw [hnil] at h
    cases h
    exact ⟨rfl, rfl, fun x y hx => by omega⟩
  choose! g hg using hsh
  have hv : ∀ i, i < b.w * b.h → cast W G c b.w b.h i = .ret ((i % b.w, i / b.w), (g i).2) := by
    intro i hi
    have e := hg i (hperm.mem_iff.mpr (List.mem_range.mpr hi))
    rw [e, ← (cast_eq hs hp e).1]
  obtain ⟨f', e, _, f2, f3, f4⟩ := casts_spec W G c b.w b.h hw (fun i => (g i).2) hv _ (clear b) (Raycast.clear_wf b) rfl rfl (fun i hi => List.mem_range.mp (hperm.mem_iff.mp hi))
  rw [e] at h
  cases h
  refine ⟨f2, f3, fun x y hx hy => ?_⟩
  have hi : y * b.w + x < b.w * b.h := by nlinarith
  have hm := hperm.mem_iff.mpr (List.mem_range.mpr hi)
  refine ⟨(g (y * b.w + x)).2, by rw [f4 x y hx hy, if_pos hm], ?_⟩
  have := hv _ hi
  rwa [show (y * b.w + x) % b.w = x by rw [Nat.add_comm, Nat.add_mul_mod_self_right, Nat.mod_eq_of_lt hx],
    show (y * b.w + x) / b.w = y by rw [Nat.add_comm, Nat.add_mul_div_right _ _ hw, Nat.div_eq_of_lt hx, Nat.zero_add]] at this

/-! ### Theorems -/

/-- C94. If rendering returns, with any number of threads and any interleaving, then every pixel of the film shows the single scattering estimate for the ray through its centre, whatever the film held before. -/
theorem C94_returned (W : World) (g : Grid) (c : Cfg) (cam : Camera) (hs : Raycast.Sees W cam) (hp : cam.Proper) (b : Bitmap (V3 ℝ)) (env : Env) (count : ℕ → ℕ) (hE : env.Complete (b.w * b.h))
    (f : Bitmap (V3 ℝ)) (h : render W g c b (sppSample env count (b.w * b.h) 1) = .ret f) :
    f.w = b.w ∧ f.h = b.h ∧ ∀ x y, x < b.w → y < b.h → ∃ v, pixel f x y = some v ∧ Shows W g c b.w b.h x y v := by
  obtain ⟨h1, h2, h3⟩ := render_pixels W g c cam hs hp b env count hE f h
  refine ⟨h1, h2, fun x y hx hy => ?_⟩
  obtain ⟨v, e1, e2⟩ := h3 x y hx hy
  refine ⟨v, e1, ?_⟩
  have := (cast_eq hs hp e2).2
  have hw : 0 < b.w := by omega
  rwa [show (y * b.w + x) % b.w = x by rw [Nat.add_comm, Nat.add_mul_mod_self_right, Nat.mod_eq_of_lt hx],
    show (y * b.w + x) / b.w = y by rw [Nat.add_comm, Nat.add_mul_div_right _ _ hw, Nat.div_eq_of_lt hx, Nat.zero_add]] at this

/-- C94. The image does not depend on the schedule, the number of threads or the previous content of the film. -/
theorem C94_deterministic (W : World) (g : Grid) (c : Cfg) (cam : Camera) (hs : Raycast.Sees W cam) (hp : cam.Proper) (b b' : Bitmap (V3 ℝ)) (hbw : b'.w = b.w) (hbh : b'.h = b.h)
    (env env' : Env) (count count' : ℕ → ℕ) (hE : env.Complete (b.w * b.h)) (hE' : env'.Complete (b.w * b.h)) (f f' : Bitmap (V3 ℝ))
    (h : render W g c b (sppSample env count (b.w * b.h) 1) = .ret f) (h' : render W g c b' (sppSample env' count' (b.w * b.h) 1) = .ret f') (x y : ℕ) (hx : x < b.w) (hy : y < b.h) :
    pixel f x y = pixel f' x y := by
  obtain ⟨_, _, p1⟩ := render_pixels W g c cam hs hp b env count hE f h
  obtain ⟨_, _, p2⟩ := render_pixels W g c cam hs hp b' env' count' (by rw [hbw, hbh]; exact hE') f' (by rw [hbw, hbh]; exact h')
  obtain ⟨v, e1, q1⟩ := p1 x y hx hy
  obtain ⟨v', e2, q2⟩ := p2 x y (by omega) (by omega)
  rw [hbw, hbh, q1] at q2
  cases q2
  rw [e1, e2]

/-- C94 (partial). Rendering with a volume that supports marches and an extinction that is not zero in any channel returns, under every schedule. Missing: channels without extinction (`C94_negation_transparent`), and volumes of
    the library, none of which supports marches (`C94_negation_march`). -/
theorem C94_returns_partial (W : World) (g : Grid) (c : Cfg) (cam : Camera) (hs : Raycast.Sees W cam) (hp : cam.Proper) (b : Bitmap (V3 ℝ)) (env : Env) (count : ℕ → ℕ) (hE : env.Complete (b.w * b.h))
    (hsc : ∀ p, (g.scalar p).isSome) (hm : ∀ o d a b s, (g.march o d a b s).isSome) (ha : ∀ i, ch c.muT i ≠ 0) : ∃ f, render W g c b (sppSample env count (b.w * b.h) 1) = .ret f := by
  have hperm := Raycast.calls_perm env count (b.w * b.h) hE
  have hex : ∀ i, ∃ v, cast W g c b.w b.h i = .ret ((i % b.w, i / b.w), v) := by
    intro i
    obtain ⟨n, hn, hcam⟩ := hs
    obtain ⟨d, hd, -⟩ := C47_primary cam hp ((((i % b.w : ℕ) : ℝ) + 1 / 2) / b.w) ((((i / b.w : ℕ) : ℝ) + 1 / 2) / b.h)
    obtain ⟨L, hL⟩ := radiance_returns c g hsc hm ha cam.position d
    exact ⟨L, by simp only [cast, hn, hcam, hd, hL]⟩
  choose v hv using hex
  unfold render
  rcases Nat.eq_zero_or_pos b.w with h0 | hw
  · have hnil : (sppSample env count (b.w * b.h) 1).2.map Prod.fst = [] := by
      have := hperm.length_eq
      rw [List.length_range, h0, Nat.zero_mul] at this
      rw [h0, Nat.zero_mul]
      exact List.length_eq_zero_iff.mp this
    rw [hnil]
    exact ⟨_, rfl⟩
  obtain ⟨f, e, _⟩ := casts_spec W g c b.w b.h hw v (fun i _ => hv i) _ (clear b) (Raycast.clear_wf b) rfl rfl (fun i hi => List.mem_range.mp (hperm.mem_iff.mp hi))
  exact ⟨f, e⟩

end LM.VolRaycast
