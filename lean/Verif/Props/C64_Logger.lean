import Verif.Model.Logger
import Mathlib.Data.List.Infix
import Mathlib.Algebra.BigOperators.Group.List.Basic
import Mathlib.Tactic.Linarith
import Mathlib.Tactic.NormNum
/-
  C64: log filtering, line splitting and indentation; C79: progress lines on a terminal.

  Specification: histories are lists of calls. `quiet ops`: no init and no shutdown in ops. `threshold`: argument of the last set_severity.
  `IsLevel ns k`: k is the greatest sum of a suffix of the list of indentation changes ns (the empty suffix included) - the level a counter that never
  goes below zero shows. `Lines msg ls`: ls are the lines of msg. `Term`: a terminal, with carriage return and line feed.
-/
namespace LM.Log

/-! ### Specification -/

/-- No init and no shutdown in the history. -/
def quiet (ops : List Op) : Prop := ∀ o ∈ ops, o ≠ .init ∧ o ≠ .shutdown

/-- The severities set, in order. -/
def severities (ops : List Op) : List Int := ops.filterMap fun o => match o with | .setSeverity n => some n | _ => none

/-- The last severity set, or the default. -/
def threshold (dflt : Int) (ops : List Op) : Int := (severities ops).getLastD dflt

/-- The indentation changes, in order. -/
def changes (ops : List Op) : List Int := ops.filterMap fun o => match o with | .updateIndentation n => some n | _ => none

/-- k is the greatest sum of a suffix. -/
def IsLevel (ns : List Int) (k : Int) : Prop := (∃ t, t <:+ ns ∧ t.sum = k) ∧ ∀ t, t <:+ ns → t.sum ≤ k

/-- What precedes the text of a line at level k: two dots per level and a blank. -/
def dots (k : Int) : Text := if k > 0 then List.replicate (2 * k).toNat '.' ++ [' '] else []

/-- ls are the lines of msg: they contain no line feed, and closing each with a line feed gives msg, whose own final line feed may be missing. -/
def Lines (msg : Text) (ls : List Text) : Prop :=
  (∀ l ∈ ls, '\n' ∉ l) ∧ (ls.flatMap fun l => l ++ ['\n']) = if msg.getLast? = some '\n' then msg else msg ++ ['\n']

/-! ### Lines -/

theorem getlines_spec (msg acc : Text) (ha : '\n' ∉ acc) (hne : acc ++ msg ≠ []) : (∀ l ∈ getlines acc msg, '\n' ∉ l) ∧
    ((getlines acc msg).flatMap fun l => l ++ ['\n']) = if (acc ++ msg).getLast? = some '\n' then acc ++ msg else acc ++ msg ++ ['\n'] := by
  induction msg generalizing acc with
  | nil =>
    have hne' : acc ≠ [] := by simpa using hne
    unfold getlines
    rw [if_neg hne', List.append_nil]
    refine ⟨by simpa using ha, ?_⟩
    rw [if_neg]
    · simp
    · intro h
      exact ha (List.mem_of_getLast? h)
  | cons c r ih =>
    unfold getlines
    by_cases hc : c = '\n'
    · subst hc
      rw [if_pos rfl]
      by_cases hr : r = []
      · subst hr
        have e : getlines [] [] = [] := by simp [getlines]
        rw [e]
        refine ⟨by simpa using ha, ?_⟩
        rw [if_pos (by simp)]; simp
      · obtain ⟨h1, h2⟩ := ih [] (by simp) (by simpa using hr)
        refine ⟨?_, ?_⟩
        · intro l hl
          rcases List.mem_cons.mp hl with rfl | hl
          · exact ha
          · exact h1 l hl
        · rw [List.flatMap_cons, h2, List.nil_append]
          have e : (acc ++ '\n' :: r).getLast? = r.getLast? := by
            rw [List.getLast?_append, List.getLast?_cons_of_ne_nil hr]
            cases hq : r.getLast? with
            | none => exact absurd (List.getLast?_eq_none_iff.mp hq) hr
            | some _ => rfl
          rw [e]
          split_ifs <;> simp
    · rw [if_neg hc]
      obtain ⟨h1, h2⟩ := ih (acc ++ [c]) (by simp only [List.mem_append, List.mem_singleton]; rintro (h | h); exact ha h; exact hc h.symm) (by simp)
      refine ⟨h1, ?_⟩
      rw [h2]
      have : acc ++ [c] ++ r = acc ++ c :: r := by simp
      rw [this]

/-- The lines a message is printed as. -/
def printed (msg : Text) : List Text := if msg = [] then [[]] else getlines [] msg

/-- C64. The printed lines are the lines of the message (an empty message is one empty line). -/
theorem C64_lines (msg : Text) : Lines msg (printed msg) := by
  unfold printed
  by_cases h : msg = []
  · subst h
    rw [if_pos rfl]
    exact ⟨by simp, by simp⟩
  · rw [if_neg h]
    obtain ⟨h1, h2⟩ := getlines_spec msg [] (by simp) (by simpa using h)
    exact ⟨h1, h2⟩

/-- The lines of a message are determined by the specification. -/
theorem lines_unique (ls ls' : List Text) (h : ∀ l ∈ ls, '\n' ∉ l) (h' : ∀ l ∈ ls', '\n' ∉ l) (e : (ls.flatMap fun l => l ++ ['\n']) = ls'.flatMap fun l => l ++ ['\n']) : ls = ls' := by
  have cut : ∀ (a b x y : Text), '\n' ∉ a → '\n' ∉ b → a ++ '\n' :: x = b ++ '\n' :: y → a = b ∧ x = y := by
    intro a
    induction a with
    | nil =>
      intro b x y _ hb e
      cases b with
      | nil => exact ⟨rfl, by simpa using e⟩
      | cons c b => simp only [List.nil_append, List.cons_append, List.cons.injEq] at e; exact absurd (List.mem_cons_self) (by rw [← e.1] at hb; exact hb)
    | cons c a ih =>
      intro b x y ha hb e
      cases b with
      | nil => simp only [List.nil_append, List.cons_append, List.cons.injEq] at e; exact absurd (List.mem_cons_self) (by rw [e.1] at ha; exact ha)
      | cons c' b =>
        simp only [List.cons_append, List.cons.injEq] at e
        obtain ⟨h1, h2⟩ := ih b x y (fun h => ha (List.mem_cons_of_mem _ h)) (fun h => hb (List.mem_cons_of_mem _ h)) e.2
        exact ⟨by rw [e.1, h1], h2⟩
  induction ls generalizing ls' with
  | nil =>
    cases ls' with
    | nil => rfl
    | cons l ls' => simp at e
  | cons l ls ih =>
    cases ls' with
    | nil => simp at e
    | cons l' ls' =>
      simp only [List.flatMap_cons, List.append_assoc, List.singleton_append] at e
      obtain ⟨h1, h2⟩ := cut l l' _ _ (h l (by simp)) (h' l' (by simp)) e
      rw [h1, ih ls' (fun x hx => h x (by simp [hx])) (fun x hx => h' x (by simp [hx])) h2]

/-! ### Histories -/

theorem run_append (dflt : Int) (a b : List Op) : run dflt (a ++ b) = b.foldl (step dflt) (run dflt a) := by
  unfold run; rw [List.foldl_append]

theorem isLevel_snoc (ns : List Int) (k n : Int) (h : IsLevel ns k) : IsLevel (ns ++ [n]) (max (k + n) 0) := by
  obtain ⟨⟨t, ht, hk⟩, hmax⟩ := h
  refine ⟨?_, ?_⟩
  · rcases le_total 0 (k + n) with h0 | h0
    · refine ⟨t ++ [n], ?_, by rw [List.sum_append, hk, List.sum_singleton, max_eq_left h0]⟩
      obtain ⟨r, rfl⟩ := ht
      exact ⟨r, by simp⟩
    · exact ⟨[], List.nil_suffix, by rw [max_eq_right h0]; rfl⟩
  · intro s hs
    rcases List.eq_nil_or_concat s with rfl | ⟨s', x, rfl⟩
    · simp
    · obtain ⟨r, hr⟩ := hs
      rw [List.concat_eq_append, ← List.append_assoc] at hr
      have := List.append_inj' hr rfl
      obtain ⟨h1, h2⟩ := this
      have hx : x = n := by simpa using h2
      subst hx
      have hl := hmax s' ⟨r, h1⟩
      rw [List.concat_eq_append, List.sum_append, List.sum_singleton]
      exact le_max_of_le_left (by linarith)

theorem isLevel_nonneg {ns : List Int} {k : Int} (h : IsLevel ns k) : 0 ≤ k := by simpa using h.2 [] List.nil_suffix

theorem isLevel_unique {ns : List Int} {k k' : Int} (h : IsLevel ns k) (h' : IsLevel ns k') : k = k' := by
  obtain ⟨⟨t, ht, e⟩, m⟩ := h
  obtain ⟨⟨t', ht', e'⟩, m'⟩ := h'
  have a := m' t ht
  have b := m t' ht'
  omega

/-- What the context holds after init and the calls ops. -/
structure Holds (dflt : Int) (ops : List Op) (c : Ctx) : Prop where
  severity : c.severity = threshold dflt ops
  level : IsLevel (changes ops) c.indentation
  str : c.indentStr = dots c.indentation

theorem ctx_spec (dflt : Int) (s : St) (ops : List Op) (hq : quiet ops) (hs : s.ctx = some { severity := dflt }) :
    ∃ c, (ops.foldl (step dflt) s).ctx = some c ∧ Holds dflt ops c := by
  induction ops using List.reverseRecOn with
  | nil => exact ⟨_, hs, rfl, ⟨⟨[], List.nil_suffix, rfl⟩, by intro t ht; rw [List.suffix_nil.mp ht]; rfl⟩, rfl⟩
  | append_singleton ops o ih =>
    obtain ⟨c, hc, ⟨h1, h2, h3⟩⟩ := ih (fun x hx => hq x (by simp [hx]))
    rw [List.foldl_append, List.foldl_cons, List.foldl_nil]
    generalize hS : ops.foldl (step dflt) s = S at hc
    have ho := hq o (by simp)
    have tA : ∀ o', severities (ops ++ [o']) = severities ops ++ severities [o'] := by intro o'; unfold severities; rw [List.filterMap_append]
    have cA : ∀ o', changes (ops ++ [o']) = changes ops ++ changes [o'] := by intro o'; unfold changes; rw [List.filterMap_append]
    cases o with
    | init => exact absurd rfl ho.1
    | shutdown => exact absurd rfl ho.2
    | setSeverity n =>
      refine ⟨{ c with severity := n }, by simp [step, hc], ?_, ?_, h3⟩
      · unfold threshold; rw [tA]; simp [severities]
      · rw [cA]; simpa [changes] using h2
    | updateIndentation n =>
      refine ⟨ctxIndent c n, by simp [step, hc], ?_, ?_, ?_⟩
      · unfold threshold; rw [tA]
        have : (ctxIndent c n).severity = c.severity := by unfold ctxIndent; dsimp only; split_ifs <;> rfl
        rw [this, h1]; simp [severities, threshold]
      · rw [cA]
        have e : (ctxIndent c n).indentation = max (c.indentation + n) 0 := by
          unfold ctxIndent; dsimp only
          split_ifs with h
          · rw [max_eq_left h.le]
          · rw [max_eq_right (by omega)]
        rw [e]
        exact isLevel_snoc _ _ _ h2
      · unfold ctxIndent dots; dsimp only
        by_cases h : c.indentation + n > 0
        · rw [if_pos h]; dsimp only; rw [if_pos h]
        · rw [if_neg h]; simp
    | log l sv hd m =>
      refine ⟨c, ?_, ?_, ?_, h3⟩
      · simp only [step, hc]
        unfold ctxLog; dsimp only
        split_ifs <;> exact hc
      · unfold threshold; rw [tA, h1]; simp [severities, threshold]
      · rw [cA]; simpa [changes] using h2

/-- C64. After any history that initialises the logger and continues with any calls, an ordinary message is printed exactly when its severity is at least the threshold set last; it is printed as its lines, each with the header and the indentation of the current level. The level is the greatest suffix sum of the changes made since init, so it is never negative. -/
theorem C64_log (dflt : Int) (pre ops : List Op) (hq : quiet ops) (level sev : Int) (hl : level ≠ progressLevel) (header msg : Text) (k : Int) (hk : IsLevel (changes ops) k) :
    (run dflt (pre ++ .init :: ops ++ [.log level sev header msg])).out = (run dflt (pre ++ .init :: ops)).out ++
      (if threshold dflt ops ≤ sev then (printed msg).flatMap (fun l => header ++ dots k ++ l ++ ['\n']) else []) ∧ 0 ≤ k := by
  refine ⟨?_, isLevel_nonneg hk⟩
  have e : pre ++ .init :: ops = (pre ++ [.init]) ++ ops := by simp
  have hinit : (run dflt (pre ++ [.init])).ctx = some { severity := dflt } := by
    rw [run_append]; rfl
  obtain ⟨c, hc, ⟨h1, h2, h3⟩⟩ := ctx_spec dflt (run dflt (pre ++ [.init])) ops hq hinit
  rw [← run_append, ← e] at hc
  rw [run_append dflt (pre ++ .init :: ops)]
  generalize hS : run dflt (pre ++ .init :: ops) = S at hc ⊢
  have hlev : ¬(level = progressLevel ∨ level = progressEndLevel) := by
    rintro (h | h)
    · exact hl h
    · exact hl h
  have hkc : k = c.indentation := isLevel_unique hk h2
  simp only [List.foldl_cons, List.foldl_nil, step, hc]
  unfold ctxLog; dsimp only
  rw [h1]
  by_cases hsv : threshold dflt ops > sev
  · rw [if_pos hsv, if_neg (by omega), List.append_nil]
  · rw [if_neg hsv, if_neg hlev, if_pos (show threshold dflt ops ≤ sev by omega)]
    have pl : ∀ l, processLine c header l = header ++ dots k ++ l ++ ['\n'] := by
      intro l; unfold processLine; rw [h3, hkc]; simp
    unfold printed
    by_cases hm : msg = []
    · rw [if_pos hm, if_pos hm]; simp [pl]
    · rw [if_neg hm, if_neg hm, show processLine c header = (fun l => header ++ dots k ++ l ++ ['\n']) from funext pl]

/-- Indentation calls as scopes make them: nothing but log and severity calls and complete scopes. -/
inductive Nested : List Op → Prop
  | nil : Nested []
  | log (l s : Int) (h m : Text) : Nested [.log l s h m]
  | severity (n : Int) : Nested [.setSeverity n]
  | scope (b : List Op) : Nested b → Nested (.updateIndentation 1 :: b ++ [.updateIndentation (-1)])
  | append (a b : List Op) : Nested a → Nested b → Nested (a ++ b)

theorem changes_append (a b : List Op) : changes (a ++ b) = changes a ++ changes b := by unfold changes; rw [List.filterMap_append]

theorem nested_level {b : List Op} (hb : Nested b) : ∀ ns k, IsLevel ns k → IsLevel (ns ++ changes b) k := by
  induction hb with
  | nil => intro ns k h; simpa [changes] using h
  | log l s h m => intro ns k h; simpa [changes] using h
  | severity n => intro ns k h; simpa [changes] using h
  | scope b hb ih =>
    intro ns k h
    have e : changes (.updateIndentation 1 :: b ++ [.updateIndentation (-1)]) = [1] ++ changes b ++ [-1] := by
      rw [changes_append]; simp [changes]
    rw [e, ← List.append_assoc, ← List.append_assoc]
    have h0 := isLevel_nonneg h
    have h1 := isLevel_snoc ns k 1 h
    rw [max_eq_left (by omega)] at h1
    have h2 := isLevel_snoc _ _ (-1) (ih _ _ h1)
    rwa [max_eq_left (by omega), Int.add_neg_cancel_right] at h2
  | append a b _ _ iha ihb =>
    intro ns k h
    rw [changes_append, ← List.append_assoc]
    exact ihb _ _ (iha _ _ h)

/-- C64. Properly nested indentation scopes restore the indentation: after them every message is printed at the level before them. -/
theorem C64_scopes (ops b : List Op) (hb : Nested b) (k : Int) : IsLevel (changes ops) k ↔ IsLevel (changes (ops ++ b)) k := by
  have ex : ∀ ns : List Int, ∃ k, IsLevel ns k := by
    intro ns
    induction ns using List.reverseRecOn with
    | nil => exact ⟨0, ⟨[], List.nil_suffix, rfl⟩, by intro t ht; rw [List.suffix_nil.mp ht]; rfl⟩
    | append_singleton ns n ih => obtain ⟨k, h⟩ := ih; exact ⟨_, isLevel_snoc ns k n h⟩
  rw [changes_append]
  constructor
  · exact nested_level hb _ _
  · intro h
    obtain ⟨k', h'⟩ := ex (changes ops)
    have := isLevel_unique h (nested_level hb _ _ h')
    rw [this]; exact h'

/-- C64. Inside a scope the level is one more than outside. -/
theorem C64_scope_inside (ops : List Op) (k : Int) (h : IsLevel (changes ops) k) : IsLevel (changes (ops ++ [.updateIndentation 1])) (k + 1) := by
  rw [changes_append]
  have := isLevel_snoc _ _ 1 h
  rwa [max_eq_left (by have := isLevel_nonneg h; omega)] at this

/-- What an uninitialised logger writes for a call. -/
def rawText : Op → Text
  | .log _ _ _ m => m ++ ['\n']
  | _ => []

/-- C64. Before init and after shutdown, messages of every severity go to stdout as they are, and indentation and severity calls have no effect on later output. -/
theorem C64_uninitialised (dflt : Int) (pre ops : List Op) (hp : pre = [] ∨ pre.getLast? = some .shutdown) (hq : ∀ o ∈ ops, o ≠ .init) :
    (run dflt (pre ++ ops)).ctx = none ∧ (run dflt (pre ++ ops)).out = (run dflt pre).out ++ ops.flatMap rawText := by
  have h0 : (run dflt pre).ctx = none := by
    rcases hp with rfl | hp
    · rfl
    · obtain ⟨ys, rfl⟩ := List.getLast?_eq_some_iff.mp hp
      rw [run_append]; rfl
  rw [run_append]
  generalize run dflt pre = S at h0
  induction ops generalizing S with
  | nil => exact ⟨h0, by simp⟩
  | cons o ops ih =>
    rw [List.foldl_cons, List.flatMap_cons]
    have ho := hq o (by simp)
    have hS : (step dflt S o).ctx = none ∧ (step dflt S o).out = S.out ++ rawText o := by
      cases o with
      | init => exact absurd rfl ho
      | shutdown => simp [step, rawText]
      | setSeverity n => simp [step, rawText, h0]
      | updateIndentation n => simp [step, rawText, h0]
      | log l s h m => simp [step, rawText, h0]
    obtain ⟨a, b⟩ := ih (fun x hx => hq x (by simp [hx])) _ hS.1
    exact ⟨a, by rw [b, hS.2, List.append_assoc]⟩

/-! ### C79: progress lines on a terminal -/

/-- A terminal: the finished lines, the line under the cursor and the cursor column. -/
structure Term where
  done : List Text := []
  cur : Text := []
  col : Nat := 0

/-- One character: line feed finishes the line, carriage return moves the cursor to the first column, any other character overwrites the column under the cursor. -/
def Term.put (t : Term) (c : Char) : Term :=
  if c = '\n' then ⟨t.done ++ [t.cur], [], 0⟩
  else if c = '\r' then { t with col := 0 }
  else { t with cur := t.cur.take t.col ++ [c] ++ t.cur.drop (t.col + 1), col := t.col + 1 }

def Term.show' (t : Term) (s : Text) : Term := s.foldl Term.put t

/-- Text without control characters. -/
def Plain (s : Text) : Prop := ∀ c ∈ s, c ≠ '\n' ∧ c ≠ '\r'

theorem show_plain (s : Text) (hs : Plain s) (t : Term) (hc : t.col ≤ t.cur.length) :
    t.show' s = ⟨t.done, t.cur.take t.col ++ s ++ t.cur.drop (t.col + s.length), t.col + s.length⟩ := by
  induction s generalizing t with
  | nil => simp [Term.show']
  | cons c s ih =>
    have h := hs c (by simp)
    have e : t.show' (c :: s) = (t.put c).show' s := rfl
    have ep : t.put c = { t with cur := t.cur.take t.col ++ [c] ++ t.cur.drop (t.col + 1), col := t.col + 1 } := by
      unfold Term.put; rw [if_neg h.1, if_neg h.2]
    have hlen : (t.cur.take t.col).length = t.col := by rw [List.length_take]; omega
    rw [e, ep, ih (fun x hx => hs x (by simp [hx])) _ (by simp; omega)]
    dsimp only
    congr 1
    · have h1 : (t.cur.take t.col ++ [c] ++ t.cur.drop (t.col + 1)).take (t.col + 1) = t.cur.take t.col ++ [c] := by
        rw [List.take_append_of_le_length (by simp; omega)]
        rw [List.take_of_length_le (by simp)]
      have h2 : (t.cur.take t.col ++ [c] ++ t.cur.drop (t.col + 1)).drop (t.col + 1 + s.length) = t.cur.drop (t.col + (c :: s).length) := by
        rw [List.drop_append, List.drop_of_length_le (by simp; omega), List.nil_append, List.drop_drop]
        congr 1
        simp; omega
      rw [h1, h2]; simp
    · simp; omega

theorem show_append (t : Term) (a b : Text) : t.show' (a ++ b) = (t.show' a).show' b := by unfold Term.show'; rw [List.foldl_append]

/-- On the line under the cursor, at column 0: a plain text replaces as many characters as it has. -/
theorem show_cr (s : Text) (hs : Plain s) (done : List Text) (cur : Text) : (Term.show' ⟨done, cur, 0⟩ (s ++ ['\r'])) = ⟨done, s ++ cur.drop s.length, 0⟩ := by
  rw [show_append, show_plain s hs _ (Nat.zero_le _)]
  simp [Term.show', Term.put]

/-- What a progress call writes: the padding is always empty, since every progress message resets the remembered length (Progress and ProgressEnd are the same level). -/
theorem progress_out (c : Ctx) (s : St) (hs : s.maxLen = 0 ∧ s.spaces = []) (sev : Int) (hsev : c.severity ≤ sev) (level : Int) (hl : level = progressLevel ∨ level = progressEndLevel) (header msg : Text) :
    (ctxLog s c level sev header msg).out = s.out ++ (header ++ (c.indentStr ++ msg) ++ ['\r']) ∧ (ctxLog s c level sev header msg).maxLen = 0 ∧ (ctxLog s c level sev header msg).spaces = [] := by
  have hl' : level = progressEndLevel := by rcases hl with h | h <;> exact h
  unfold ctxLog
  dsimp only
  rw [if_neg (by omega), if_pos hl, if_pos hl']
  dsimp only
  rw [if_neg (by omega), hs.2]
  simp

/-- The remembered length is 0 and the padding is empty in every reachable state. -/
theorem statics (dflt : Int) (ops : List Op) : (run dflt ops).maxLen = 0 ∧ (run dflt ops).spaces = [] := by
  induction ops using List.reverseRecOn with
  | nil => exact ⟨rfl, rfl⟩
  | append_singleton ops o ih =>
    rw [run_append]
    generalize run dflt ops = S at ih ⊢
    cases o with
    | log l sv h m =>
      simp only [List.foldl_cons, List.foldl_nil, step]
      rcases hc : S.ctx with _ | c
      · exact ih
      · dsimp only
        by_cases hl : l = progressLevel ∨ l = progressEndLevel
        · by_cases hsv : c.severity ≤ sv
          · exact (progress_out c S ih sv hsv l hl h m).2
          · unfold ctxLog; rw [if_pos (by omega)]; exact ih
        · unfold ctxLog; dsimp only
          rw [if_neg hl]
          split_ifs <;> exact ih
    | _ => simpa [step] using ih

/-- A progress message shown on a terminal, after any history. -/
theorem progress_shown (dflt : Int) (pre ops : List Op) (hq : quiet ops) (k : Int) (hk : IsLevel (changes ops) k) (level sev : Int) (hl : level = progressLevel ∨ level = progressEndLevel)
    (hsev : threshold dflt ops ≤ sev) (header msg : Text) :
    (run dflt (pre ++ .init :: ops ++ [.log level sev header msg])).out = (run dflt (pre ++ .init :: ops)).out ++ (header ++ dots k ++ msg ++ ['\r']) := by
  have e : pre ++ .init :: ops = (pre ++ [.init]) ++ ops := by simp
  have hinit : (run dflt (pre ++ [.init])).ctx = some { severity := dflt } := by rw [run_append]; rfl
  obtain ⟨c, hc, ⟨h1, h2, h3⟩⟩ := ctx_spec dflt (run dflt (pre ++ [.init])) ops hq hinit
  rw [← run_append, ← e] at hc
  have hst := statics dflt (pre ++ .init :: ops)
  rw [run_append dflt (pre ++ .init :: ops)]
  simp only [List.foldl_cons, List.foldl_nil, step, hc]
  rw [(progress_out c _ hst sev (by omega) level hl header msg).1, h3, isLevel_unique hk h2]
  simp

/-- C79 (messages that do not get shorter). A progress message at least as long as what the line shows replaces it: the terminal shows exactly the last progress message. Missing: shorter messages, and the end of the report (see the negations). -/
theorem C79_replaces_partial (dflt : Int) (pre ops : List Op) (hq : quiet ops) (k : Int) (hk : IsLevel (changes ops) k) (sev : Int) (hsev : threshold dflt ops ≤ sev) (header msg : Text)
    (hp : Plain (header ++ dots k ++ msg)) (hcol : (Term.show' {} (run dflt (pre ++ .init :: ops)).out).col = 0)
    (hlen : (Term.show' {} (run dflt (pre ++ .init :: ops)).out).cur.length ≤ (header ++ dots k ++ msg).length) :
    (Term.show' {} (run dflt (pre ++ .init :: ops ++ [.log progressLevel sev header msg])).out).cur = header ++ dots k ++ msg := by
  rw [progress_shown dflt pre ops hq k hk progressLevel sev (Or.inl rfl) hsev, show_append]
  generalize Term.show' {} (run dflt (pre ++ .init :: ops)).out = T at hcol hlen
  obtain ⟨d, cur, col⟩ := T
  dsimp only at hcol hlen
  subst hcol
  rw [show_cr _ hp]
  dsimp only
  rw [List.drop_of_length_le hlen, List.append_nil]

/-- C79 is false: after a shorter progress message the end of the longer message before it stays on the line (the padding that should hide it is never written). -/
theorem C79_negation_leftover (dflt : Int) (pre ops : List Op) (hq : quiet ops) (k : Int) (hk : IsLevel (changes ops) k) (sev : Int) (hsev : threshold dflt ops ≤ sev) (h1 m1 h2 m2 : Text)
    (hp1 : Plain (h1 ++ dots k ++ m1)) (hp2 : Plain (h2 ++ dots k ++ m2)) (hcol : (Term.show' {} (run dflt (pre ++ .init :: ops)).out).col = 0)
    (hempty : (Term.show' {} (run dflt (pre ++ .init :: ops)).out).cur = []) (hlt : (h2 ++ dots k ++ m2).length < (h1 ++ dots k ++ m1).length) :
    (Term.show' {} (run dflt (pre ++ .init :: ops ++ [.log progressLevel sev h1 m1] ++ [.log progressLevel sev h2 m2])).out).cur
      = (h2 ++ dots k ++ m2) ++ (h1 ++ dots k ++ m1).drop (h2 ++ dots k ++ m2).length ∧ (h1 ++ dots k ++ m1).drop (h2 ++ dots k ++ m2).length ≠ [] := by
  have q2 : quiet (ops ++ [.log progressLevel sev h1 m1]) := by
    intro o ho
    rcases List.mem_append.mp ho with ho | ho
    · exact hq o ho
    · rw [List.mem_singleton.mp ho]; exact ⟨by simp, by simp⟩
  have k2 : IsLevel (changes (ops ++ [.log progressLevel sev h1 m1])) k := by rw [changes_append]; simpa [changes] using hk
  have t2 : threshold dflt (ops ++ [.log progressLevel sev h1 m1]) = threshold dflt ops := by unfold threshold severities; rw [List.filterMap_append]; simp
  have e2 : pre ++ .init :: ops ++ [.log progressLevel sev h1 m1] = pre ++ .init :: (ops ++ [.log progressLevel sev h1 m1]) := by simp
  refine ⟨?_, ?_⟩
  · rw [e2, progress_shown dflt pre _ q2 k k2 progressLevel sev (Or.inl rfl) (by rw [t2]; exact hsev), ← e2,
      progress_shown dflt pre ops hq k hk progressLevel sev (Or.inl rfl) hsev, show_append {} (_ ++ (h1 ++ dots k ++ m1 ++ ['\r'])), show_append {} _ (h1 ++ dots k ++ m1 ++ ['\r'])]
    generalize Term.show' {} (run dflt (pre ++ .init :: ops)).out = T at hcol hempty
    obtain ⟨d, cur, col⟩ := T
    dsimp only at hcol hempty
    subst hcol hempty
    rw [show_cr _ hp1, show_cr _ hp2]
    simp
  · intro h
    rw [List.drop_eq_nil_iff] at h
    omega

/-- C79 is false: the end of a progress report is not followed by a line feed, so the next message is written over it on the same line. -/
theorem C79_negation_end (dflt : Int) (pre ops : List Op) (hq : quiet ops) (k : Int) (hk : IsLevel (changes ops) k) (sev sev2 : Int) (hsev : threshold dflt ops ≤ sev) (hsev2 : threshold dflt ops ≤ sev2)
    (level : Int) (hl : level ≠ progressLevel) (h1 m1 h2 m2 : Text)
    (hp1 : Plain (h1 ++ dots k ++ m1)) (hp2 : Plain (h2 ++ dots k ++ m2)) (hne : m2 ≠ []) (hcol : (Term.show' {} (run dflt (pre ++ .init :: ops)).out).col = 0)
    (hempty : (Term.show' {} (run dflt (pre ++ .init :: ops)).out).cur = []) :
    (Term.show' {} (run dflt (pre ++ .init :: ops ++ [.log progressEndLevel sev h1 m1] ++ [.log level sev2 h2 m2])).out).done
      = (Term.show' {} (run dflt (pre ++ .init :: ops)).out).done ++ [(h2 ++ dots k ++ m2) ++ (h1 ++ dots k ++ m1).drop (h2 ++ dots k ++ m2).length] := by
  have q2 : quiet (ops ++ [.log progressEndLevel sev h1 m1]) := by
    intro o ho
    rcases List.mem_append.mp ho with ho | ho
    · exact hq o ho
    · rw [List.mem_singleton.mp ho]; exact ⟨by simp, by simp⟩
  have k2 : IsLevel (changes (ops ++ [.log progressEndLevel sev h1 m1])) k := by rw [changes_append]; simpa [changes] using hk
  have t2 : threshold dflt (ops ++ [.log progressEndLevel sev h1 m1]) = threshold dflt ops := by unfold threshold severities; rw [List.filterMap_append]; simp
  have e2 : pre ++ .init :: ops ++ [.log progressEndLevel sev h1 m1] = pre ++ .init :: (ops ++ [.log progressEndLevel sev h1 m1]) := by simp
  have hpr : printed m2 = [m2] := by
    have hpl : ∀ c ∈ m2, c ≠ '\n' ∧ c ≠ '\r' := fun c hc => hp2 c (by simp [hc])
    apply lines_unique _ _ (C64_lines m2).1 (by simp only [List.mem_singleton, forall_eq]; exact fun h => (hpl _ h).1 rfl)
    rw [(C64_lines m2).2, if_neg (fun h => (hpl _ (List.mem_of_getLast? h)).1 rfl)]
    simp
  rw [e2, (C64_log dflt pre _ q2 level sev2 hl h2 m2 k k2).1, ← e2, if_pos (by rw [t2]; exact hsev2), hpr,
    progress_shown dflt pre ops hq k hk progressEndLevel sev (Or.inr rfl) hsev, show_append {} (_ ++ (h1 ++ dots k ++ m1 ++ ['\r'])), show_append {} _ (h1 ++ dots k ++ m1 ++ ['\r'])]
  generalize Term.show' {} (run dflt (pre ++ .init :: ops)).out = T at hcol hempty
  obtain ⟨d, cur, col⟩ := T
  dsimp only at hcol hempty
  subst hcol hempty
  rw [show_cr _ hp1]
  simp only [List.flatMap_cons, List.flatMap_nil, List.append_nil, List.drop_nil]
  rw [show_append, show_plain _ hp2 _ (Nat.zero_le _)]
  simp [Term.show', Term.put]

/-! ### Concrete cases -/

example : quiet [.updateIndentation 1, .setSeverity 5, .log 10 10 "h".toList "a".toList, .updateIndentation (-3)] ∧ IsLevel (changes [.updateIndentation 1, .setSeverity 5, .log 10 10 "h".toList "a".toList]) 1 := by
  refine ⟨by intro o ho; simp only [List.mem_cons, List.not_mem_nil, or_false] at ho; rcases ho with rfl | rfl | rfl | rfl <;> simp, ?_⟩
  exact ⟨⟨[1], List.suffix_rfl, rfl⟩, by intro t ht; rcases List.suffix_cons_iff.mp ht with rfl | h; rfl; rw [List.suffix_nil.mp h]; decide⟩

example : (run 0 [.init, .updateIndentation 1, .log 10 10 "[I] ".toList "ab\ncd\n".toList, .log 10 (-1) [] "hidden".toList]).out = "[I] .. ab\n[I] .. cd\n".toList := by decide +kernel
example : Nested [.updateIndentation 1, .log 10 10 [] [], .updateIndentation (-1)] := .scope [.log 10 10 [] []] (.log _ _ _ _)
/-- The hypotheses of the negations hold right after init. -/
example : quiet [] ∧ IsLevel (changes []) 0 ∧ (Term.show' {} (run 0 ([] ++ .init :: [])).out).col = 0 ∧ (Term.show' {} (run 0 ([] ++ .init :: [])).out).cur = [] ∧ Plain ("[I] ".toList ++ dots 0 ++ "Processing 10%".toList) :=
  ⟨by intro o ho; simp at ho, ⟨⟨[], List.nil_suffix, rfl⟩, by intro t ht; rw [List.suffix_nil.mp ht]; rfl⟩, rfl, rfl, by unfold Plain; decide⟩
example : (Term.show' {} (run 0 [.init, .log 100 100 [] "Processing, ETA=100.0s".toList, .log 100 100 [] "Processing, ETA=9.0s".toList]).out).cur = "Processing, ETA=9.0s0s".toList := by decide +kernel

end LM.Log
