import Verif.Model.Rng
import Mathlib.Tactic.Positivity
import Mathlib.Tactic.NormNum
import Mathlib.Tactic.FieldSimp
import Mathlib.Tactic.Linarith
/-
  C56: rendering with a fixed seed is reproducible. C78: random numbers lie in [0, 1).
-/
namespace LM.Rng

/-! ### C78 -/

theorem word_lt (m m' : Mt) (x : ℕ) (hm : ∀ y ∈ m, y < 2 ^ 32) (h : word m = some (x, m')) : x < 2 ^ 32 ∧ (∀ y ∈ m', y < 2 ^ 32) ∧ m'.length = m.length := by
  unfold word at h
  split at h
  · next x0 x1 rest xm hx =>
    simp only [Option.some.injEq, Prod.mk.injEq] at h
    have h0 : x0 < 2 ^ 32 := hm x0 (by simp)
    have h1 : x1 < 2 ^ 32 := hm x1 (by simp)
    have h2 : xm < 2 ^ 32 := hm xm (List.mem_of_getElem? hx)
    have hs : ∀ a k : ℕ, a < 2 ^ 32 → a >>> k < 2 ^ 32 := fun a k h => lt_of_le_of_lt (by rw [Nat.shiftRight_eq_div_pow]; exact Nat.div_le_self _ _) h
    have hy : (x0 &&& 0x80000000) ||| (x1 &&& 0x7fffffff) < 2 ^ 32 := Nat.or_lt_two_pow (Nat.and_lt_two_pow _ (by norm_num)) (Nat.and_lt_two_pow _ (by norm_num))
    have hnew : xm ^^^ ((((x0 &&& 0x80000000) ||| (x1 &&& 0x7fffffff)) >>> 1) ^^^ (if ((x0 &&& 0x80000000) ||| (x1 &&& 0x7fffffff)) % 2 = 1 then 0x9908b0df else 0)) < 2 ^ 32 := by
      refine Nat.xor_lt_two_pow h2 (Nat.xor_lt_two_pow (hs _ _ hy) ?_)
      split_ifs <;> norm_num
    have ht : ∀ a : ℕ, a < 2 ^ 32 → temper a < 2 ^ 32 := by
      intro a ha
      unfold temper
      have s1 := Nat.xor_lt_two_pow ha (hs a 11 ha)
      have s2 := Nat.xor_lt_two_pow s1 (Nat.and_lt_two_pow (((a ^^^ (a >>> 11)) <<< 7) % 2 ^ 32) (show 0x9d2c5680 < 2 ^ 32 by norm_num))
      have s3 := Nat.xor_lt_two_pow s2 (Nat.and_lt_two_pow ((((a ^^^ (a >>> 11)) ^^^ ((((a ^^^ (a >>> 11)) <<< 7) % 2 ^ 32) &&& 0x9d2c5680)) <<< 15) % 2 ^ 32) (show 0xefc60000 < 2 ^ 32 by norm_num))
      exact Nat.xor_lt_two_pow s3 (hs _ 18 s3)
    obtain ⟨e1, e2⟩ := h
    refine ⟨by rw [← e1]; exact ht _ hnew, ?_, by rw [← e2]; simp⟩
    rw [← e2]
    intro y hy'
    rcases List.mem_append.mp hy' with h | h
    · exact hm y (List.mem_cons_of_mem _ h)
    · rw [List.mem_singleton] at h
      rw [h]; exact hnew
  · cases h

theorem words_spec : ∀ k i x, x < 2 ^ 32 → (words k i x).length = k ∧ ∀ y ∈ words k i x, y < 2 ^ 32
  | 0, _, _, _ => ⟨rfl, by simp [words]⟩
  | k + 1, i, x, hx => by
    obtain ⟨h1, h2⟩ := words_spec k (i + 1) ((1812433253 * (x ^^^ (x >>> 30)) + (i + 1)) % 2 ^ 32) (Nat.mod_lt _ (by norm_num))
    refine ⟨by rw [words, List.length_cons, h1], ?_⟩
    intro y hy
    rcases List.mem_cons.mp hy with rfl | h
    · exact hx
    · exact h2 y h

theorem word_some (m : Mt) (h : m.length = 624) : ∃ x m', word m = some (x, m') := by
  match m, h with
  | x0 :: x1 :: rest, h =>
    have : (x0 :: x1 :: rest)[397]? = some ((x0 :: x1 :: rest)[397]'(by rw [h]; norm_num)) := List.getElem?_eq_getElem _
    unfold word
    rw [this]
    exact ⟨_, _, rfl⟩

/-- A generator state the program can reach: a seeded one, or one after a drawn number. -/
inductive Reachable : Mt → Prop
  | seed (s : ℕ) : Reachable (seed s)
  | draw (m m' : Mt) (x : ℚ) : Reachable m → u m = some (x, m') → Reachable m'

theorem u_spec (m : Mt) (h1 : m.length = 624) (h2 : ∀ y ∈ m, y < 2 ^ 32) : ∃ x m', u m = some (x, m') ∧ 0 ≤ x ∧ x < 1 ∧ m'.length = 624 ∧ ∀ y ∈ m', y < 2 ^ 32 := by
  obtain ⟨a, ma, ha⟩ := word_some m h1
  obtain ⟨a1, a2, a3⟩ := word_lt m ma a h2 ha
  obtain ⟨b, mb, hb⟩ := word_some ma (a3.trans h1)
  obtain ⟨b1, b2, b3⟩ := word_lt ma mb b a2 hb
  have ha' : (a : ℚ) + 1 ≤ 2 ^ 32 := by exact_mod_cast a1
  have hb' : (b : ℚ) + 1 ≤ 2 ^ 32 := by exact_mod_cast b1
  refine ⟨((a : ℚ) + b * 2 ^ 32) / 2 ^ 64, mb, by simp [u, ha, hb], by positivity, ?_, b3.trans (a3.trans h1), b2⟩
  rw [div_lt_one (by norm_num)]
  nlinarith

theorem reachable_spec (m : Mt) (h : Reachable m) : m.length = 624 ∧ ∀ y ∈ m, y < 2 ^ 32 := by
  induction h with
  | seed s => exact words_spec 624 0 (s % 2 ^ 32) (Nat.mod_lt _ (by norm_num))
  | draw m m' x _ hd ih =>
    obtain ⟨x', m'', e, _, _, h3, h4⟩ := u_spec m ih.1 ih.2
    rw [hd] at e
    cases e
    exact ⟨h3, h4⟩

/-- C78. Whatever the seed and however many numbers have been drawn, the next number exists and lies in [0, 1). -/
theorem C78_range (m : Mt) (h : Reachable m) : ∃ x m', u m = some (x, m') ∧ 0 ≤ x ∧ x < 1 ∧ Reachable m' := by
  obtain ⟨h1, h2⟩ := reachable_spec m h
  obtain ⟨x, m', e, a, b, _, _⟩ := u_spec m h1 h2
  exact ⟨x, m', e, a, b, .draw m m' x h e⟩

/-- C78. next<T>() delivers the requested number of values, all in [0, 1). -/
theorem C78_next (k : ℕ) : ∀ m, Reachable m → ∃ xs m', next k m = some (xs, m') ∧ xs.length = k ∧ (∀ x ∈ xs, 0 ≤ x ∧ x < 1) ∧ Reachable m' := by
  induction k with
  | zero => intro m h; exact ⟨[], m, rfl, rfl, by simp, h⟩
  | succ k ih =>
    intro m h
    obtain ⟨x, m1, e1, a, b, h1⟩ := C78_range m h
    obtain ⟨xs, m2, e2, l, c, h2⟩ := ih m1 h1
    refine ⟨x :: xs, m2, by simp [next, e1, e2], by simp [l], ?_, h2⟩
    intro y hy
    rcases List.mem_cons.mp hy with rfl | hy
    · exact ⟨a, b⟩
    · exact c y hy

/-- C78. The single precision generator: if F is the set of floats containing 0, the conversion yields one of the floats next to the number, and nextafter the float below, the result is a float in [0, 1), at most the
    double precision number. -/
theorem C78_float (F : Set ℚ) (cast pred : ℚ → ℚ) (h0 : (0 : ℚ) ∈ F) (hcast : ∀ x, cast x ∈ F) (hnear : ∀ x f, f ∈ F → (f ≤ x → f ≤ cast x) ∧ (x ≤ f → cast x ≤ f))
    (hpred : ∀ f ∈ F, (∃ g ∈ F, g < f) → pred f ∈ F ∧ pred f < f ∧ ∀ g ∈ F, g < f → g ≤ pred f) (rd : ℚ) (hrd : 0 ≤ rd ∧ rd < 1) :
    uFloat cast pred rd ∈ F ∧ 0 ≤ uFloat cast pred rd ∧ uFloat cast pred rd ≤ rd ∧ uFloat cast pred rd < 1 := by
  have key : uFloat cast pred rd ∈ F ∧ 0 ≤ uFloat cast pred rd ∧ uFloat cast pred rd ≤ rd := by
    unfold uFloat
    split_ifs with h
    · have hpos : 0 < cast rd := lt_of_le_of_lt hrd.1 h
      obtain ⟨p1, p2, p3⟩ := hpred (cast rd) (hcast rd) ⟨0, h0, hpos⟩
      refine ⟨p1, p3 0 h0 hpos, ?_⟩
      by_contra hc
      push Not at hc
      exact absurd ((hnear rd (pred (cast rd)) p1).2 hc.le) (not_le.mpr p2)
    · exact ⟨hcast rd, (hnear rd 0 h0).1 hrd.1, not_lt.mp h⟩
  exact ⟨key.1, key.2.1, key.2.2, lt_of_le_of_lt key.2.2 hrd.2⟩

/-! ### C56 -/

variable {A : Type} [AddCommMonoid A]

/-- What thread t contributes in a render in which it starts from the generator m and gets the calls es, in order. -/
def stream (body : ℕ → ℕ → Mt → A × Mt) : Mt → List Ev → A
  | _, [] => 0
  | m, e :: es => (body e.pixel e.sample m).1 + stream body (body e.pixel e.sample m).2 es

theorem generator_other (sd : Option ℕ) (device : ℕ → ℕ) (slots slots' : Slots) (t : ℕ) (h : slots t = slots' t) : generator sd device slots t = generator sd device slots' t := by
  unfold generator; rw [h]

/-- The image is the sum over the threads of what each contributes with its own generator. -/
theorem calls_sum (sd : Option ℕ) (device : ℕ → ℕ) (body : ℕ → ℕ → Mt → A × Mt) (n : ℕ) : ∀ (es : List Ev) (slots : Slots), (∀ e ∈ es, e.thread < n) →
    (calls sd device body slots es).1.sum = ((List.range n).map (fun t => stream body (generator sd device slots t) (es.filter (fun e => e.thread = t)))).sum := by
  intro es
  induction es with
  | nil => intro slots _; simp [calls, stream]
  | cons e es ih =>
    intro slots h
    have he : e.thread < n := h e (by simp)
    set r := call sd device body slots e with hr
    have hc : calls sd device body slots (e :: es) = (r.1 :: (calls sd device body r.2 es).1, (calls sd device body r.2 es).2) := rfl
    rw [hc, List.sum_cons, ih r.2 (fun x hx => h x (List.mem_cons_of_mem _ hx))]
    -- only the term of thread e.thread differs
    have key : ∀ (l : List ℕ), l.Nodup → 
        (l.map (fun t => stream body (generator sd device slots t) ((e :: es).filter (fun e => e.thread = t)))).sum =
        (if e.thread ∈ l then r.1 else 0) + (l.map (fun t => stream body (generator sd device r.2 t) (es.filter (fun e => e.thread = t)))).sum := by
      intro l
      induction l with
      | nil => intro _; simp
      | cons t l ihl =>
        intro hn
        rw [List.nodup_cons] at hn
        rw [List.map_cons, List.sum_cons, List.map_cons, List.sum_cons, ihl hn.2]
        by_cases ht : e.thread = t
        · have hnot : e.thread ∉ l := by rw [ht]; exact hn.1
          rw [if_neg hnot, if_pos (by simp [ht]), List.filter_cons_of_pos (by simp [ht])]
          have h1 : stream body (generator sd device slots t) (e :: es.filter (fun e => e.thread = t)) = r.1 + stream body (generator sd device r.2 t) (es.filter (fun e => e.thread = t)) := by
            have : generator sd device r.2 t = (body e.pixel e.sample (generator sd device slots t)).2 := by
              unfold generator
              simp [hr, call, ht]
              rfl
            rw [stream, this, hr]
            simp [call, ht]
          rw [h1]
          simp only [zero_add, add_assoc]
        · have : generator sd device slots t = generator sd device r.2 t := by
            apply generator_other
            simp [hr, call, Ne.symm ht]
          rw [List.filter_cons_of_neg (by simp [ht]), this]
          have : (e.thread ∈ t :: l) ↔ e.thread ∈ l := by simp [ht]
          simp only [this]
          rw [add_left_comm]
    rw [key _ List.nodup_range, if_pos (List.mem_range.mpr he)]

/-- C78. Different seeds (as words) give different generators. -/
theorem C78_seeds (a b : ℕ) (h : a % 2 ^ 32 ≠ b % 2 ^ 32) : seed a ≠ seed b := by
  intro e
  have key : ∀ k x y, words (k + 1) 0 x = words (k + 1) 0 y → x = y := fun k x y h => by
    rw [words, words] at h
    exact (List.cons.inj h).1
  exact h (key 623 _ _ e)

/-- C78. With a fixed seed, the threads of a render that have not run this renderer class before start from pairwise different generators. -/
theorem C78_threads (s : ℕ) (device : ℕ → ℕ) (slots : Slots) (t t' : ℕ) (ht : t < 2 ^ 32) (ht' : t' < 2 ^ 32) (hne : t ≠ t') (hf : slots t = none) (hf' : slots t' = none) :
    generator (some s) device slots t ≠ generator (some s) device slots t' := by
  unfold generator
  rw [hf, hf']
  exact C78_seeds (s + t) (s + t') (by omega)

/-- C78, boundary. The streams of a render with seed s + 1 are those of a render with seed s, moved by one thread: two renders with consecutive seeds are not independent. -/
theorem C78_boundary_consecutive (s : ℕ) (device : ℕ → ℕ) (slots : Slots) (t : ℕ) (hf : slots t = none) (hf' : slots (t + 1) = none) :
    generator (some (s + 1)) device slots t = generator (some s) device slots (t + 1) := by
  unfold generator
  rw [hf, hf']
  simp only
  rw [show s + 1 + t = s + (t + 1) by omega]

example : generator (some 42) (fun _ => 0) (fun _ => none) 0 ≠ generator (some 42) (fun _ => 0) (fun _ => none) 7 := C78_threads 42 _ _ 0 7 (by norm_num) (by norm_num) (by norm_num) rfl rfl

/-- C56 (partial: no thread has run this renderer class before). With a fixed seed, the image depends only on which calls each thread gets, in which order: two renders, by any two renderers of the class with this seed,
    in any processes, with any interleavings of the threads and whatever the random device, give the same image. Missing: threads that have run the renderer before (C56_negation_twice). -/
theorem C56_fresh_partial (s : ℕ) (device device' : ℕ → ℕ) (body : ℕ → ℕ → Mt → A × Mt) (slots slots' : Slots) (es es' : List Ev)
    (hf : ∀ e ∈ es, slots e.thread = none) (hf' : ∀ e ∈ es', slots' e.thread = none)
    (hsame : ∀ t, es.filter (fun e => e.thread = t) = es'.filter (fun e => e.thread = t)) :
    (render (some s) device body slots es).1 = (render (some s) device' body slots' es').1 := by
  obtain ⟨n, hn⟩ : ∃ n, (∀ e ∈ es, e.thread < n) ∧ ∀ e ∈ es', e.thread < n := by
    have : ∀ l : List Ev, ∃ n, ∀ e ∈ l, e.thread < n := by
      intro l
      induction l with
      | nil => exact ⟨0, by simp⟩
      | cons e l ih =>
        obtain ⟨n, hn⟩ := ih
        refine ⟨max n (e.thread + 1), fun x hx => ?_⟩
        rcases List.mem_cons.mp hx with rfl | hx
        · omega
        · have := hn x hx; omega
    obtain ⟨n, hn⟩ := this es
    obtain ⟨m, hm⟩ := this es'
    exact ⟨max n m, fun e he => by have := hn e he; omega, fun e he => by have := hm e he; omega⟩
  show (calls _ _ _ _ _).1.sum = (calls _ _ _ _ _).1.sum
  rw [calls_sum _ _ _ n es slots hn.1, calls_sum _ _ _ n es' slots' hn.2]
  congr 1
  apply List.map_congr_left
  intro t _
  rw [← hsame t]
  cases hx : es.filter (fun e => e.thread = t) with
  | nil => rfl
  | cons e l =>
    have h1 : e ∈ es.filter (fun e => e.thread = t) := by rw [hx]; simp
    have h2 : e ∈ es'.filter (fun e => e.thread = t) := by rw [← hsame t, hx]; simp
    have e1 : slots t = none := by
      have := hf e (List.mem_filter.mp h1).1
      have ht : e.thread = t := by simpa using (List.mem_filter.mp h1).2
      rwa [ht] at this
    have e2 : slots' t = none := by
      have := hf' e (List.mem_filter.mp h2).1
      have ht : e.thread = t := by simpa using (List.mem_filter.mp h2).2
      rwa [ht] at this
    unfold generator
    rw [e1, e2]

/-- C56, negation. Once the threads have run a renderer of the class, the seed is ignored: any later render, with whatever seed or none, gives the same image as with any other. -/
theorem C56_negation_seed_ignored (sd sd' : Option ℕ) (device device' : ℕ → ℕ) (body : ℕ → ℕ → Mt → A × Mt) (es : List Ev) : ∀ (slots : Slots), (∀ e ∈ es, (slots e.thread).isSome) →
    render sd device body slots es = render sd' device' body slots es := by
  have key : ∀ slots : Slots, (∀ e ∈ es, (slots e.thread).isSome) → calls sd device body slots es = calls sd' device' body slots es := by
    induction es with
    | nil => intro slots _; rfl
    | cons e es ih =>
      intro slots h
      obtain ⟨m, hm⟩ := Option.isSome_iff_exists.mp (h e (by simp))
      have hc : call sd device body slots e = call sd' device' body slots e := by
        unfold call generator
        rw [hm]
      unfold calls
      rw [hc]
      have := ih (call sd' device' body slots e).2 (fun x hx => by
        simp only [call]
        split_ifs
        · rfl
        · exact h x (List.mem_cons_of_mem _ hx))
      simp only [this]
  intro slots h
  unfold render
  rw [key slots h]

/-- The image of one pixel that shows the next random number. -/
def exBody (_ _ : ℕ) (m : Mt) : ℚ × Mt :=
  match u m with
  | some r => r
  | none => (0, m)
def exEvs : List Ev := [⟨0, 0, 0⟩]

set_option maxRecDepth 100000 in
/-- The model of std::mt19937 yields the known first words for the default seed 5489. -/
theorem mt_first : ∃ m1 m2 m3 m4, word (seed 5489) = some (3499211612, m1) ∧ word m1 = some (581869302, m2) ∧ word m2 = some (3890346734, m3) ∧ word m3 = some (3586334585, m4) := by
  refine ⟨_, _, _, _, rfl, rfl, rfl, rfl⟩

/-- C56, negation. Rendering twice with the same renderer, seed (5489), schedule and a scene of one pixel does not give the same image twice. -/
theorem C56_negation_twice (device : ℕ → ℕ) :
    let first := render (some 5489) device exBody (fun _ => none) exEvs
    let second := render (some 5489) device exBody first.2 exEvs
    first.1 = (3499211612 + 581869302 * 2 ^ 32) / 2 ^ 64 ∧ second.1 = (3890346734 + 3586334585 * 2 ^ 32) / 2 ^ 64 ∧ first.1 ≠ second.1 := by
  obtain ⟨m1, m2, m3, m4, h1, h2, h3, h4⟩ := mt_first
  have u1 : u (seed 5489) = some ((3499211612 + 581869302 * 2 ^ 32) / 2 ^ 64, m2) := by
    simp [u, h1, h2]
  have u2 : u m2 = some ((3890346734 + 3586334585 * 2 ^ 32) / 2 ^ 64, m4) := by
    simp [u, h3, h4]
  have f1 : render (some 5489) device exBody (fun _ => none) exEvs = ((3499211612 + 581869302 * 2 ^ 32) / 2 ^ 64, fun t => if t = 0 then some m2 else none) := by
    simp only [render, exEvs, calls, call, generator, exBody, Nat.add_zero, u1, List.sum_cons, List.sum_nil, add_zero]
  intro first second
  have e1 : first.1 = (3499211612 + 581869302 * 2 ^ 32) / 2 ^ 64 := by rw [show first = _ from f1]
  have e2 : second.1 = (3890346734 + 3586334585 * 2 ^ 32) / 2 ^ 64 := by
    have : second = render (some 5489) device exBody (fun t => if t = 0 then some m2 else none) exEvs := by
      show render _ _ _ first.2 _ = _
      rw [show first = _ from f1]
    rw [this]
    simp only [render, exEvs, calls, call, generator, exBody, if_true, u2, List.sum_cons, List.sum_nil, add_zero]
  refine ⟨e1, e2, ?_⟩
  rw [e1, e2]
  norm_num

/-- Non-vacuity of `C56_fresh_partial`: two interleavings of two threads with two calls each. -/
example : let es : List Ev := [⟨0, 0, 0⟩, ⟨1, 1, 0⟩, ⟨0, 2, 0⟩, ⟨1, 3, 0⟩]
    let es' : List Ev := [⟨1, 1, 0⟩, ⟨1, 3, 0⟩, ⟨0, 0, 0⟩, ⟨0, 2, 0⟩]
    (∀ t, es.filter (fun e => e.thread = t) = es'.filter (fun e => e.thread = t)) ∧ es.map (·.pixel) ≠ es'.map (·.pixel) := by
  refine ⟨fun t => ?_, by simp⟩
  by_cases h0 : 0 = t
  · subst h0; simp
  · by_cases h1 : 1 = t
    · subst h1; simp
    · simp [h0, h1]

/-- Non-vacuity of `C78_float`: the floats 0 and 1, rounding to the nearest. 3/4 would become 1 and is corrected to 0. -/
example : let cast : ℚ → ℚ := fun x => if x ≥ 1 / 2 then 1 else 0
    (∀ x, cast x ∈ ({0, 1} : Set ℚ)) ∧ (∀ x f, f ∈ ({0, 1} : Set ℚ) → (f ≤ x → f ≤ cast x) ∧ (x ≤ f → cast x ≤ f)) ∧
    (∀ f ∈ ({0, 1} : Set ℚ), (∃ g ∈ ({0, 1} : Set ℚ), g < f) → (0 : ℚ) ∈ ({0, 1} : Set ℚ) ∧ 0 < f ∧ ∀ g ∈ ({0, 1} : Set ℚ), g < f → g ≤ 0) ∧ uFloat cast (fun _ => 0) (3 / 4) = 0 := by
  refine ⟨fun x => by dsimp only; split_ifs <;> simp, ?_, ?_, by norm_num [uFloat]⟩
  · rintro x f (rfl | rfl)
    · dsimp only; constructor <;> intro h <;> split_ifs <;> linarith
    · dsimp only; constructor <;> intro h <;> split_ifs <;> linarith
  · rintro f (rfl | rfl) ⟨g, hg, hlt⟩
    · rcases hg with rfl | rfl <;> linarith
    · refine ⟨by simp, one_pos, ?_⟩
      rintro g (rfl | rfl) h <;> linarith

end LM.Rng
