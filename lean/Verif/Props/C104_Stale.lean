import Verif.Props.C104_View
import Mathlib.Tactic.NormNum
/-
  C104: arrays taken earlier, and a concrete history.
-/
namespace LM.FilmView
open LM.Film

variable {K : Type} [Field K]

/-- C104, violated part. An array taken earlier does not keep the image it was taken from: whatever the history, after drawing any colour at any pixel of the film and
    asking for the film's array again, the earlier array shows the new colour. An image to be kept has to be copied, as the examples of the project do. -/
theorem C104_negation_earlier_array (grow : Nat → Nat) (hg : ∀ n, n < grow n) (sf : Nat) (hs : 0 < sf) (cmds : List (Cmd K)) (hc : ∀ c ∈ cmds, Consistent c)
    (s : World K) (h : run grow sf (init K) cmds = some s) (f : Nat) (v : View) (s' : World K) (ht : take grow s f = some (v, s'))
    (x y : Nat) (hx : x < v.w) (hy : y < v.h) (col : V3 K) :
    ∃ s'', run grow sf s' [.edit f (.setPixel x y col), .buffer f] = some s'' ∧ ∀ c, c < 3 → read sf s'' v y x c = .val (chan col c) := by
  obtain ⟨hi, hw⟩ := reach hg hc h
  obtain ⟨o, t, cells, h1, h2, h3, _, h4, h5, h6, _⟩ := take_cells hg hi ht
  have hwf := hw f o h1
  obtain ⟨⟨b', e1, e2, e3, _⟩, _⟩ := C25_write o.bmp hwf x y (h4 ▸ hx) (h5 ▸ hy) col id
  have hwh : b'.w = o.bmp.w ∧ b'.h = o.bmp.h := (edit_wf hw hwf (f := f) (e := .setPixel x y col) trivial e1).2 (fun _ _ h => by cases h) (fun _ h => by cases h)
  have st : step grow sf s' (.edit f (.setPixel x y col)) = some { s' with film := setF s'.film f (some ⟨b', t⟩) } := by
    simp only [step, h2, edit, Option.bind_eq_bind, Option.bind_some, e1]
  obtain ⟨s2, hs2⟩ : ∃ s2 : World K, s2 = { s' with film := setF s'.film f (some ⟨b', t⟩) } := ⟨_, rfl⟩
  rw [← hs2] at st
  have hf2 : s2.film f = some ⟨b', t⟩ := by rw [hs2]; exact setF_self _ _ _
  have hrun : run grow sf (init K) (cmds ++ [.buffer f, .edit f (.setPixel x y col)]) = some s2 := by
    have hb : step grow sf s (.buffer f) = some s' := by rw [step_buffer, ht]; rfl
    rw [run, List.foldlM_append]
    show (run grow sf (init K) cmds >>= _) = _
    rw [h]
    simp only [Option.bind_eq_bind, Option.bind_some, List.foldlM_cons, List.foldlM_nil, hb, st]
    rfl
  have hpos : 0 < b'.w * b'.h := by
    rw [hwh.1, hwh.2, ← h4, ← h5]
    exact Nat.mul_pos (by omega) (by omega)
  have hcons : ∀ c ∈ cmds ++ [Cmd.buffer f, Cmd.edit f (.setPixel x y col)], Consistent c := by
    intro c hcc
    simp only [List.mem_append, List.mem_cons, List.not_mem_nil, or_false] at hcc
    rcases hcc with hcc | rfl | rfl
    · exact hc c hcc
    · trivial
    · trivial
  obtain ⟨v2, s3, ht2⟩ := (C104_available grow hg sf _ hcons s2 hrun f ⟨b', t⟩ hf2).mpr hpos
  have hl : ∀ c ∈ [Cmd.edit f (.setPixel x y col)], Consistent c ∧ AtMost (v.w * v.h) f c := by
    intro c hcc
    rw [List.mem_singleton] at hcc
    subst hcc
    exact ⟨trivial, trivial⟩
  have hr1 : run grow sf s' [.edit f (.setPixel x y col)] = some s2 := by
    rw [run, List.foldlM_cons, st]; rfl
  obtain ⟨_, hsh⟩ := C104_refresh grow hg sf hs cmds hc s h f v s' ht _ hl s2 hr1 v2 s3 ht2
  obtain ⟨o2, t2, k1, _, _, k4, k5, _⟩ := take_spec grow hg (Inv.run hg _ Inv.init hrun) ht2
  rw [hf2] at k1; cases k1
  obtain ⟨o3, m1, m2, _⟩ := hsh (by rw [k4, h4]; exact hwh.1) (by rw [k5, h5]; exact hwh.2)
  rw [hf2] at m1; cases m1
  refine ⟨s3, ?_, ?_⟩
  · have hb : step grow sf s2 (.buffer f) = some s3 := by rw [step_buffer, ht2]; rfl
    rw [run, List.foldlM_cons, st]
    simp only [Option.bind_eq_bind, Option.bind_some, List.foldlM_cons, List.foldlM_nil, hb]
    rfl
  · intro c hcc
    obtain ⟨px, p1, p2⟩ := m2.2.2.1 y x c (by show y < b'.h; rw [hwh.2, ← h5]; exact hy) (by show x < b'.w; rw [hwh.1, ← h4]; exact hx) hcc
    have p1 : pixel b' x y = some px := p1
    rw [e3] at p1
    cases p1
    exact p2

/-! ### A concrete history: a film of two pixels by one, drawn on, shown, drawn on again -/

/-- The growth policy of libstdc++: 1, 2, 4, 8, ... -/
def twice (n : Nat) : Nat := if n = 0 then 1 else 2 * n

theorem twice_lt (n : Nat) : n < twice n := by unfold twice; split <;> omega

/-- create a 2 x 1 film, set_pixel(1, 0, (1, 2, 3)). -/
def drawn : List (Cmd ℚ) := [.create 7 2 1, .edit 7 (.setPixel 1 0 ⟨1, 2, 3⟩)]

theorem drawn_consistent : ∀ c ∈ drawn, Consistent c := by
  intro c hc
  simp only [drawn, List.mem_cons, List.not_mem_nil, or_false] at hc
  rcases hc with rfl | rfl <;> trivial

/-- The history runs, and the film gives an array. -/
theorem drawn_runs : ∃ s v s', run twice 8 (init ℚ) drawn = some s ∧ take twice s 7 = some (v, s') ∧ v.w = 2 ∧ v.h = 1 := ⟨_, _, _, rfl, rfl, rfl, rfl⟩

/-- Beside C104_shows: element [0, 1, 2] of the array is 3, element [0, 0, 2] is 0, and [0, 2, 0] and [1, 0, 0] are refused. -/
example : ∃ s v s', run twice 8 (init ℚ) drawn = some s ∧ take twice s 7 = some (v, s') ∧
    read 8 s' v 0 1 2 = .val 3 ∧ read 8 s' v 0 0 2 = .val 0 ∧ read 8 s' v 0 2 0 = .indexError ∧ read 8 s' v 1 0 0 = .indexError :=
  ⟨_, _, _, rfl, rfl, rfl, rfl, rfl, rfl⟩

/-- Beside C104_snapshot_partial: clearing and enlarging the film in between is allowed. -/
example : ∃ s v s' s'', run twice 8 (init ℚ) drawn = some s ∧ take twice s 7 = some (v, s') ∧
    (∀ c ∈ ([.edit 7 .clear, .create 8 5 5, .buffer 8, .edit 7 (.construct 9 9)] : List (Cmd ℚ)), Leaves 7 v.block c) ∧
    run twice 8 s' [.edit 7 .clear, .create 8 5 5, .buffer 8, .edit 7 (.construct 9 9)] = some s'' ∧ read 8 s'' v 0 1 2 = .val 3 := by
  refine ⟨_, _, _, _, rfl, rfl, ?_, rfl, rfl⟩
  intro c hc
  simp only [List.mem_cons, List.not_mem_nil, or_false] at hc
  rcases hc with rfl | rfl | rfl | rfl
  · trivial
  · exact (by decide : (8 : Nat) ≠ 7)
  · exact (by decide : (8 : Nat) ≠ 7)
  · trivial

/-- Beside C104_usable_partial and C104_refresh: a smaller size, an array of it, the old size again, and writing through the first array. -/
example : ∃ s v s' s2 v2 s3, run twice 8 (init ℚ) drawn = some s ∧ take twice s 7 = some (v, s') ∧
    (∀ c ∈ ([.edit 7 (.construct 1 1), .buffer 7, .write v 0 1 0 9, .edit 7 (.construct 2 1)] : List (Cmd ℚ)), Consistent c ∧ AtMost (v.w * v.h) 7 c) ∧
    run twice 8 s' [.edit 7 (.construct 1 1), .buffer 7, .write v 0 1 0 9, .edit 7 (.construct 2 1)] = some s2 ∧ read 8 s2 v 0 1 0 = .val 9 ∧
    take twice s2 7 = some (v2, s3) ∧ v2.w = v.w ∧ v2.h = v.h ∧ read 8 s3 v 0 1 0 = .val 0 := by
  refine ⟨_, _, _, _, _, _, rfl, rfl, ?_, rfl, rfl, rfl, rfl, rfl, rfl⟩
  intro c hc
  simp only [List.mem_cons, List.not_mem_nil, or_false] at hc
  rcases hc with rfl | rfl | rfl | rfl
  · exact ⟨trivial, fun _ => by decide⟩
  · exact ⟨trivial, trivial⟩
  · exact ⟨trivial, trivial⟩
  · exact ⟨trivial, fun _ => by decide⟩

/-- Beside C104_write: the first array can be written to. -/
example : ∃ s v s' s'', run twice 8 (init ℚ) drawn = some s ∧ take twice s 7 = some (v, s') ∧ write 8 s' v 0 1 0 9 = some s'' ∧ 0 < v.h ∧ 1 < v.w :=
  ⟨_, _, _, _, rfl, rfl, rfl, by decide, by decide⟩

/-- Beside C104_negation_earlier_array: the two colours differ. -/
example : ∃ s v s' s'', run twice 8 (init ℚ) drawn = some s ∧ take twice s 7 = some (v, s') ∧ read 8 s' v 0 1 0 = .val 1 ∧
    run twice 8 s' [.edit 7 (.setPixel 1 0 ⟨5, 5, 5⟩), .buffer 7] = some s'' ∧ read 8 s'' v 0 1 0 = .val 5 := ⟨_, _, _, _, rfl, rfl, rfl, rfl, rfl⟩

/-- Beside C104_negation_deleted and C104_negation_enlarged: the hypotheses are those of C104_shows, met by `drawn`. -/
example : ∃ s v s' s'', run twice 8 (init ℚ) drawn = some s ∧ take twice s 7 = some (v, s') ∧ step twice 8 s' (.destroy 7) = some s'' ∧ read 8 s'' v 0 1 0 = .undef :=
  ⟨_, _, _, _, rfl, rfl, rfl, rfl⟩

end LM.FilmView
