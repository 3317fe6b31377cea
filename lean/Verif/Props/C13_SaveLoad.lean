import Verif.Spec.SaveLoad
import Verif.Props.C03_Locator
namespace LM.SaveLoad
open LM.Locator (Comp Res)
open LM.Locator.Spec (print GoodName At)
open Spec

mutual
inductive Rel {A B : Type} (D : Data A → Data B → Prop) : Node A → Node B → Prop where
  | mk {d d' ks ks'} : D d d' → RelK D ks ks' → Rel D (.mk d ks) (.mk d' ks')
inductive RelK {A B : Type} (D : Data A → Data B → Prop) : Kids A → Kids B → Prop where
  | nil : RelK D .nil .nil
  | null {n r r'} : RelK D r r' → RelK D (.null n r) (.null n r')
  | cons {n c c' r r'} : Rel D c c' → RelK D r r' → RelK D (.cons n c r) (.cons n c' r')
end

section rel
variable {A B : Type} {D : Data A → Data B → Prop}

theorem RelK.kid_fwd (ks : Kids A) (ks' : Kids B) (h : RelK D ks ks') (s : Str) (c : Node A) (hk : kid ks s = some c) :
    ∃ c', kid ks' s = some c' ∧ Rel D c c' := by
  match ks, ks', h with
  | .nil, .nil, _ => cases hk
  | .null n r, .null _ r', .null h => exact RelK.kid_fwd r r' h s c hk
  | .cons n c0 r, .cons _ c0' r', .cons h1 h2 =>
    simp only [kid] at hk ⊢
    by_cases hn : n = s
    · rw [if_pos hn] at hk ⊢; cases hk; exact ⟨_, rfl, h1⟩
    · rw [if_neg hn] at hk ⊢; exact RelK.kid_fwd r r' h2 s c hk

theorem RelK.kid_bwd (ks : Kids A) (ks' : Kids B) (h : RelK D ks ks') (s : Str) (c' : Node B) (hk : kid ks' s = some c') :
    ∃ c, kid ks s = some c ∧ Rel D c c' := by
  match ks, ks', h with
  | .nil, .nil, _ => cases hk
  | .null n r, .null _ r', .null h => exact RelK.kid_bwd r r' h s c' hk
  | .cons n c0 r, .cons _ c0' r', .cons h1 h2 =>
    simp only [kid] at hk ⊢
    by_cases hn : n = s
    · rw [if_pos hn] at hk ⊢; cases hk; exact ⟨_, rfl, h1⟩
    · rw [if_neg hn] at hk ⊢; exact RelK.kid_bwd r r' h2 s c' hk

theorem dataAt_cons {W : Type} (t : Node W) (s : Str) (q : List Str) :
    dataAt t (s :: q) = match kid t.kids s with | none => none | some c => dataAt c q := by
  unfold dataAt
  rw [nodeAt]
  cases kid t.kids s <;> rfl

theorem Rel.dataAt_fwd (t : Node A) (t' : Node B) (h : Rel D t t') (q : List Str) (d : Data A) (hd : dataAt t q = some d) :
    ∃ d', dataAt t' q = some d' ∧ D d d' := by
  induction q generalizing t t' with
  | nil => cases h with | mk h1 _ => cases hd; exact ⟨_, rfl, h1⟩
  | cons s q ih =>
    rw [dataAt_cons] at hd ⊢
    cases h with
    | @mk d0 d0' ks ks' _ hk =>
      simp only [Node.kids] at hd ⊢
      cases hc : kid ks s with
      | none => rw [hc] at hd; cases hd
      | some c =>
        rw [hc] at hd
        obtain ⟨c', hc', hr⟩ := RelK.kid_fwd _ _ hk s c hc
        rw [hc']
        exact ih c c' hr hd

theorem Rel.dataAt_bwd (t : Node A) (t' : Node B) (h : Rel D t t') (q : List Str) (d' : Data B) (hd : dataAt t' q = some d') :
    ∃ d, dataAt t q = some d ∧ D d d' := by
  induction q generalizing t t' with
  | nil => cases h with | mk h1 _ => cases hd; exact ⟨_, rfl, h1⟩
  | cons s q ih =>
    rw [dataAt_cons] at hd ⊢
    cases h with
    | @mk d0 d0' ks ks' _ hk =>
      simp only [Node.kids] at hd ⊢
      cases hc : kid ks' s with
      | none => rw [hc] at hd; cases hd
      | some c =>
        rw [hc] at hd
        obtain ⟨c', hc', hr⟩ := RelK.kid_bwd _ _ hk s c hc
        rw [hc']
        exact ih c' c hr hd
end rel

mutual
/-- Structural version of "for every component". -/
def All {W : Type} (P : Data W → Prop) : Node W → Prop
  | .mk d ks => P d ∧ AllK P ks
def AllK {W : Type} (P : Data W → Prop) : Kids W → Prop
  | .nil => True
  | .null _ r => AllK P r
  | .cons _ c r => All P c ∧ AllK P r
end

mutual
theorem all_of_dataAt {W : Type} (P : Data W → Prop) (t : Node W) (hn : NamesOk t) (h : ∀ q d, dataAt t q = some d → P d) : All P t := by
  match t, hn with
  | .mk d ks, hn =>
    refine ⟨h [] d rfl, allK_of_dataAt P ks hn (fun s c q d' hc hd => ?_)⟩
    refine h (s :: q) d' ?_
    rw [dataAt_cons]
    simp only [Node.kids, hc, hd]
theorem allK_of_dataAt {W : Type} (P : Data W → Prop) (ks : Kids W) (hn : NamesOkK ks)
    (h : ∀ s c q d, kid ks s = some c → dataAt c q = some d → P d) : AllK P ks := by
  match ks, hn with
  | .nil, _ => trivial
  | .null n r, hn => exact allK_of_dataAt P r hn h
  | .cons n c r, hn =>
    refine ⟨all_of_dataAt P c hn.2.2.1 (fun q d hd => h n c q d (by simp [kid]) hd), ?_⟩
    refine allK_of_dataAt P r hn.2.2.2 (fun s c' q d hc hd => h s c' q d ?_ hd)
    by_cases hs : n = s
    · subst hs; rw [hn.2.1] at hc; cases hc
    · simp [kid, hs, hc]
end

/-- What the first loading phase makes of a weak reference. -/
def WPend (locOf : Nat → Option Str) (root root' : Str) : Option Nat → Option Str → Prop
  | none, none => True
  | some i, some s => ∃ loc r, locOf i = some loc ∧ relLoc root loc = .ok r ∧ s = root' ++ r
  | _, _ => False

/-- What the first loading phase makes of a component. -/
structure DPend (locOf : Nat → Option Str) (root root' : Str) (d : Data (Option Nat)) (d' : Data (Option Str)) : Prop where
  key : d'.key = d.key
  payload : d'.payload = d.payload
  loc : ∃ r, relLoc root d.loc = .ok r ∧ d'.loc = root' ++ r
  weak : List.Forall₂ (WPend locOf root root') d.weak d'.weak

theorem loadNums_ok (xs : List Nat) (rest : List Tok) : loadNums xs.length (xs.map .num ++ rest) = .ok (xs, rest) := by
  induction xs with
  | nil => rfl
  | cons x xs ih => simp only [List.length_cons, List.map_cons, List.cons_append, loadNums, ih]

theorem loadWeaks_ok (locOf : Nat → Option Str) (root root' : Str) (ws : List (Option Nat)) (ts rest : List Tok)
    (h : saveWeaks locOf root ws = .ok ts) :
    ∃ ws', loadWeaks root' ws.length (ts ++ rest) = .ok (ws', rest) ∧ List.Forall₂ (WPend locOf root root') ws ws' := by
  induction ws generalizing ts with
  | nil => cases h; exact ⟨[], rfl, .nil⟩
  | cons w ws ih =>
    rw [saveWeaks] at h
    cases h1 : saveWeak locOf root w with
    | error e => rw [h1] at h; cases h
    | ok a =>
      rw [h1] at h
      cases h2 : saveWeaks locOf root ws with
      | error e => rw [h2] at h; cases h
      | ok b =>
        rw [h2] at h
        cases h
        obtain ⟨ws', hl, hf⟩ := ih b h2
        cases w with
        | none =>
          cases h1
          refine ⟨none :: ws', ?_, .cons trivial hf⟩
          simp only [List.length_cons, List.cons_append, List.nil_append, loadWeaks, if_true, hl]
        | some i =>
          simp only [saveWeak] at h1
          cases h3 : locOf i with
          | none => rw [h3] at h1; cases h1
          | some loc =>
            rw [h3] at h1
            simp only at h1
            cases h4 : relLoc root loc with
            | error e => rw [h4] at h1; cases h1
            | ok r =>
              rw [h4] at h1
              cases h1
              refine ⟨some (root' ++ r) :: ws', ?_, .cons ⟨loc, r, h3, h4, rfl⟩ hf⟩
              simp only [List.length_cons, List.cons_append, List.nil_append, loadWeaks]
              simp [hl]

mutual
theorem load_save (C : Classes) (R : Option Comp) (locOf : Nat → Option Str) (root root' : Str) (t : Node (Option Nat)) (ts rest : List Tok)
    (hs : saveNode R locOf root t = .ok ts) (hk : KeysKnown C t) (fuel next : Nat) (hf : ts.length ≤ fuel) :
    ∃ t' next', loadPtr C root' fuel (ts ++ rest) next = .ok (some t', rest, next') ∧ Rel (DPend locOf root root') t t' ∧
      next ≤ next' ∧ (∀ i ∈ ids t', next ≤ i ∧ i < next') ∧ (ids t').Nodup := by
  match t with
  | .mk d ks =>
    rw [saveNode] at hs
    cases h1 : checkLoc R d.id d.loc with
    | error e => rw [h1] at hs; cases hs
    | ok u =>
      rw [h1] at hs
      simp only at hs
      cases h2 : relLoc root d.loc with
      | error e => rw [h2] at hs; cases hs
      | ok r =>
        rw [h2] at hs
        simp only at hs
        cases h3 : saveWeaks locOf root d.weak with
        | error e => rw [h3] at hs; cases hs
        | ok ws =>
          rw [h3] at hs
          simp only at hs
          cases h4 : saveKids R locOf root ks with
          | error e => rw [h4] at hs; cases hs
          | ok tk =>
            rw [h4] at hs
            cases hs
            simp only [List.length_append, List.length_cons, List.length_nil] at hf
            obtain ⟨fuel, rfl⟩ : ∃ f, fuel = f + 1 := ⟨fuel - 1, by omega⟩
            obtain ⟨ks', next', hl, hr, hle, hid, hnd⟩ := loadK_saveK C R locOf root root' ks tk rest h4 hk.2 fuel (next + 1) (by omega)
            obtain ⟨ws', hw, hwf⟩ := loadWeaks_ok locOf root root' d.weak ws (tk ++ rest) h3
            refine ⟨.mk ⟨next, d.key, root' ++ r, d.payload, ws'⟩ ks', next', ?_, .mk ⟨rfl, rfl, ⟨r, h2, rfl⟩, hwf⟩ hr, by omega, ?_, ?_⟩
            · simp only [List.cons_append, List.nil_append, List.append_assoc, loadPtr]
              simp only [hk.1, loadNums_ok, hw, hl, Nat.one_ne_zero, if_false, Bool.true_eq_false]
            · intro i hi
              simp only [ids, List.mem_cons] at hi
              rcases hi with rfl | hi
              · exact ⟨Nat.le_refl _, by omega⟩
              · have := hid i hi; omega
            · simp only [ids, List.nodup_cons]
              exact ⟨fun hmem => by have := hid next hmem; omega, hnd⟩
theorem loadK_saveK (C : Classes) (R : Option Comp) (locOf : Nat → Option Str) (root root' : Str) (ks : Kids (Option Nat)) (ts rest : List Tok)
    (hs : saveKids R locOf root ks = .ok ts) (hk : KeysKnownK C ks) (fuel next : Nat) (hf : ts.length ≤ fuel) :
    ∃ ks' next', loadKids C root' fuel (ts ++ rest) next = .ok (ks', rest, next') ∧ RelK (DPend locOf root root') ks ks' ∧
      next ≤ next' ∧ (∀ i ∈ idsK ks', next ≤ i ∧ i < next') ∧ (idsK ks').Nodup := by
  match ks with
  | .nil =>
    cases hs
    obtain ⟨fuel, rfl⟩ : ∃ f, fuel = f + 1 := ⟨fuel - 1, by simp at hf; omega⟩
    exact ⟨.nil, next, by simp [loadKids], .nil, Nat.le_refl _, (by intro i hi; cases hi), List.nodup_nil⟩
  | .null n r =>
    rw [saveKids] at hs
    cases h1 : saveKids R locOf root r with
    | error e => rw [h1] at hs; cases hs
    | ok tk =>
      rw [h1] at hs
      cases hs
      simp only [List.length_append, List.length_cons, List.length_nil] at hf
      obtain ⟨fuel, rfl⟩ : ∃ f, fuel = f + 2 := ⟨fuel - 2, by omega⟩
      obtain ⟨ks', next', hl, hr, hle, hid, hnd⟩ := loadK_saveK C R locOf root root' r tk rest h1 hk (fuel + 1) next (by omega)
      refine ⟨.null n ks', next', ?_, .null hr, hle, hid, hnd⟩
      simp [loadKids, loadPtr, hl]
  | .cons n c r =>
    rw [saveKids] at hs
    cases h0 : saveNode R locOf root c with
    | error e => rw [h0] at hs; cases hs
    | ok ta =>
      rw [h0] at hs
      simp only at hs
      cases h1 : saveKids R locOf root r with
      | error e => rw [h1] at hs; cases hs
      | ok tk =>
        rw [h1] at hs
        cases hs
        simp only [List.length_append, List.length_cons, List.length_nil] at hf
        obtain ⟨fuel, rfl⟩ : ∃ f, fuel = f + 1 := ⟨fuel - 1, by omega⟩
        obtain ⟨c', n1, hl0, hr0, hle0, hid0, hnd0⟩ := load_save C R locOf root root' c ta (tk ++ rest) h0 hk.1 fuel next (by omega)
        obtain ⟨ks', n2, hl, hr, hle, hid, hnd⟩ := loadK_saveK C R locOf root root' r tk rest h1 hk.2 fuel n1 (by omega)
        refine ⟨.cons n c' ks', n2, ?_, .cons hr0 hr, by omega, ?_, ?_⟩
        · simp [loadKids, hl0, hl]
        · intro i hi
          simp only [idsK, List.mem_append] at hi
          rcases hi with hi | hi
          · have := hid0 i hi; omega
          · have := hid i hi; omega
        · simp only [idsK]
          rw [List.nodup_append]
          refine ⟨hnd0, hnd, ?_⟩
          intro a ha b hb hab
          have := hid0 a ha
          have := hid b hb
          omega
end

/-- A component can be saved: its check passes and all locators are below the root. -/
structure Savable (R : Option Comp) (locOf : Nat → Option Str) (root : Str) (d : Data (Option Nat)) : Prop where
  check : checkLoc R d.id d.loc = .ok ()
  rel : ∃ r, relLoc root d.loc = .ok r
  weak : ∀ i, some i ∈ d.weak → ∃ loc r, locOf i = some loc ∧ relLoc root loc = .ok r ∧ root.isPrefixOf loc = true

theorem saveWeaks_ok (locOf : Nat → Option Str) (root : Str) (ws : List (Option Nat))
    (h : ∀ i, some i ∈ ws → ∃ loc r, locOf i = some loc ∧ relLoc root loc = .ok r ∧ root.isPrefixOf loc = true) :
    ∃ ts, saveWeaks locOf root ws = .ok ts := by
  induction ws with
  | nil => exact ⟨_, rfl⟩
  | cons w ws ih =>
    obtain ⟨b, hb⟩ := ih (fun i hi => h i (by simp [hi]))
    cases w with
    | none => exact ⟨_, by simp only [saveWeaks, saveWeak, hb]; rfl⟩
    | some i =>
      obtain ⟨loc, r, h1, h2, _⟩ := h i (by simp)
      exact ⟨_, by simp only [saveWeaks, saveWeak, h1, h2, hb]; rfl⟩

mutual
theorem save_ok (R : Option Comp) (locOf : Nat → Option Str) (root : Str) (t : Node (Option Nat)) (h : All (Savable R locOf root) t) :
    ∃ ts, saveNode R locOf root t = .ok ts := by
  match t, h with
  | .mk d ks, h =>
    obtain ⟨ts, hts⟩ := saveK_ok R locOf root ks h.2
    obtain ⟨ws, hws⟩ := saveWeaks_ok locOf root d.weak h.1.weak
    obtain ⟨r, hr⟩ := h.1.rel
    exact ⟨_, by rw [saveNode, h.1.check]; simp only [hr, hws, hts]; rfl⟩
theorem saveK_ok (R : Option Comp) (locOf : Nat → Option Str) (root : Str) (ks : Kids (Option Nat)) (h : AllK (Savable R locOf root) ks) :
    ∃ ts, saveKids R locOf root ks = .ok ts := by
  match ks, h with
  | .nil, _ => exact ⟨_, rfl⟩
  | .null n r, h =>
    obtain ⟨ts, hts⟩ := saveK_ok R locOf root r h
    exact ⟨_, by rw [saveKids, hts]⟩
  | .cons n c r, h =>
    obtain ⟨ta, hta⟩ := save_ok R locOf root c h.1
    obtain ⟨ts, hts⟩ := saveK_ok R locOf root r h.2
    exact ⟨_, by rw [saveKids, hta]; simp only [hts]; rfl⟩
end

theorem checkWeaks_ok (locOf : Nat → Option Str) (root : Str) (ws : List (Option Nat))
    (h : ∀ i, some i ∈ ws → ∃ loc r, locOf i = some loc ∧ relLoc root loc = .ok r ∧ root.isPrefixOf loc = true) :
    checkWeaks locOf root ws = .ok () := by
  induction ws with
  | nil => rfl
  | cons w ws ih =>
    have hb := ih (fun i hi => h i (by simp [hi]))
    cases w with
    | none => simp only [checkWeaks, hb]
    | some i =>
      obtain ⟨loc, r, h1, h2, h3⟩ := h i (by simp)
      simp only [checkWeaks, h1, h3, if_true, hb]

mutual
theorem check_ok (C : Classes) (R : Option Comp) (locOf : Nat → Option Str) (root : Str) (t : Node (Option Nat)) (h : All (Savable R locOf root) t) :
    checkNode C locOf root t = .ok () := by
  match t, h with
  | .mk d ks, h =>
    rw [checkNode]
    split
    · rfl
    · rw [checkWeaks_ok locOf root d.weak h.1.weak]
      exact checkK_ok C R locOf root ks h.2
theorem checkK_ok (C : Classes) (R : Option Comp) (locOf : Nat → Option Str) (root : Str) (ks : Kids (Option Nat)) (h : AllK (Savable R locOf root) ks) :
    checkKids C locOf root ks = .ok () := by
  match ks, h with
  | .nil, _ => rfl
  | .null n r, h => rw [checkKids]; exact checkK_ok C R locOf root r h
  | .cons n c r, h =>
    rw [checkKids, check_ok C R locOf root c h.1]
    exact checkK_ok C R locOf root r h.2
end

/-- What the second loading phase makes of a component. -/
structure DRes (R : Option Comp) (d : Data (Option Str)) (d' : Data (Option Nat)) : Prop where
  id : d'.id = d.id
  key : d'.key = d.key
  loc : d'.loc = d.loc
  payload : d'.payload = d.payload
  weak : List.Forall₂ (fun w w' => resolveWeak R w = .ok w' ∧ w'.isSome = w.isSome) d.weak d'.weak

theorem resolveWeaks_ok (R : Option Comp) (ws : List (Option Str)) (h : ∀ w ∈ ws, ∃ w', resolveWeak R w = .ok w' ∧ w'.isSome = w.isSome) :
    ∃ ws', resolveWeaks R ws = .ok ws' ∧ List.Forall₂ (fun w w' => resolveWeak R w = .ok w' ∧ w'.isSome = w.isSome) ws ws' := by
  induction ws with
  | nil => exact ⟨[], rfl, .nil⟩
  | cons w ws ih =>
    obtain ⟨w', hw⟩ := h w (by simp)
    obtain ⟨ws', hws, hf⟩ := ih (fun v hv => h v (by simp [hv]))
    exact ⟨w' :: ws', by simp only [resolveWeaks, hw.1, hws], .cons hw hf⟩

mutual
theorem resolve_ok (R : Option Comp) (t : Node (Option Str)) (h : All (fun d => ∀ w ∈ d.weak, ∃ w', resolveWeak R w = .ok w' ∧ w'.isSome = w.isSome) t) :
    ∃ t', resolveNode R t = .ok t' ∧ Rel (DRes R) t t' := by
  match t, h with
  | .mk d ks, h =>
    obtain ⟨ws', hws, hf⟩ := resolveWeaks_ok R d.weak h.1
    obtain ⟨ks', hk, hr⟩ := resolveK_ok R ks h.2
    exact ⟨.mk ⟨d.id, d.key, d.loc, d.payload, ws'⟩ ks', by simp only [resolveNode, hws, hk], .mk ⟨rfl, rfl, rfl, rfl, hf⟩ hr⟩
theorem resolveK_ok (R : Option Comp) (ks : Kids (Option Str)) (h : AllK (fun d => ∀ w ∈ d.weak, ∃ w', resolveWeak R w = .ok w' ∧ w'.isSome = w.isSome) ks) :
    ∃ ks', resolveKids R ks = .ok ks' ∧ RelK (DRes R) ks ks' := by
  match ks, h with
  | .nil, _ => exact ⟨.nil, rfl, .nil⟩
  | .null n r, h =>
    obtain ⟨ks', hk, hr⟩ := resolveK_ok R r h
    exact ⟨.null n ks', by simp only [resolveKids, hk], .null hr⟩
  | .cons n c r, h =>
    obtain ⟨c', hc, hrc⟩ := resolve_ok R c h.1
    obtain ⟨ks', hk, hr⟩ := resolveK_ok R r h.2
    exact ⟨.cons n c' ks', by simp only [resolveKids, hc, hk], .cons hrc hr⟩
end

mutual
theorem namesOk_rel {A B : Type} {D : Data A → Data B → Prop} (t : Node A) (t' : Node B) (h : Rel D t t') (hn : NamesOk t) : NamesOk t' := by
  match t, t', h with
  | .mk _ ks, .mk _ ks', .mk _ h => exact namesOkK_rel ks ks' h hn
theorem namesOkK_rel {A B : Type} {D : Data A → Data B → Prop} (ks : Kids A) (ks' : Kids B) (h : RelK D ks ks') (hn : NamesOkK ks) : NamesOkK ks' := by
  match ks, ks', h with
  | .nil, .nil, _ => trivial
  | .null n r, .null _ r', .null h => exact namesOkK_rel r r' h hn
  | .cons n c r, .cons _ c' r', .cons h1 h2 =>
    refine ⟨hn.1, ?_, namesOk_rel c c' h1 hn.2.2.1, namesOkK_rel r r' h2 hn.2.2.2⟩
    cases hc : kid r' n with
    | none => rfl
    | some x =>
      obtain ⟨y, hy, _⟩ := RelK.kid_bwd r r' h2 n x hc
      rw [hn.2.1] at hy; cases hy
end

theorem wpend_isSome (locOf : Nat → Option Str) (root root' : Str) (ws : List (Option Nat)) (ws' : List (Option Str))
    (h : List.Forall₂ (WPend locOf root root') ws ws') : ws'.map Option.isSome = ws.map Option.isSome := by
  induction h with
  | nil => rfl
  | @cons a b _ _ hab _ ih => cases a <;> cases b <;> simp_all [WPend]

mutual
theorem shape_rel {A B : Type} {D : Data (Option A) → Data (Option B) → Prop}
    (hD : ∀ d d', D d d' → d'.key = d.key ∧ d'.payload = d.payload ∧ d'.weak.map Option.isSome = d.weak.map Option.isSome)
    (t : Node (Option A)) (t' : Node (Option B)) (h : Rel D t t') : shape t' = shape t := by
  match t, t', h with
  | .mk d ks, .mk d' ks', .mk hd h =>
    obtain ⟨h1, h2, h3⟩ := hD d d' hd
    rw [shape, shape, h1, h2, h3, shapeK_rel hD ks ks' h]
theorem shapeK_rel {A B : Type} {D : Data (Option A) → Data (Option B) → Prop}
    (hD : ∀ d d', D d d' → d'.key = d.key ∧ d'.payload = d.payload ∧ d'.weak.map Option.isSome = d.weak.map Option.isSome)
    (ks : Kids (Option A)) (ks' : Kids (Option B)) (h : RelK D ks ks') : shapes ks' = shapes ks := by
  match ks, ks', h with
  | .nil, .nil, _ => rfl
  | .null n r, .null _ r', .null h => rw [shapes, shapes, shapeK_rel hD r r' h]
  | .cons n c r, .cons _ c' r', .cons h1 h2 => rw [shapes, shapes, shape_rel hD c c' h1, shapeK_rel hD r r' h2]
end

theorem dres_isSome (R : Option Comp) (ws : List (Option Str)) (ws' : List (Option Nat))
    (h : List.Forall₂ (fun w w' => resolveWeak R w = .ok w' ∧ w'.isSome = w.isSome) ws ws') : ws'.map Option.isSome = ws.map Option.isSome := by
  induction h with
  | nil => rfl
  | cons hab _ ih => rw [List.map_cons, List.map_cons, ih, hab.2]

theorem forall₂_comp {A B E : Type} {P : A → B → Prop} {Q : B → E → Prop} {S : A → E → Prop} (a : List A) (b : List B) (c : List E)
    (h1 : List.Forall₂ P a b) (h2 : List.Forall₂ Q b c) (h : ∀ x ∈ a, ∀ y z, P x y → Q y z → S x z) : List.Forall₂ S a c := by
  induction h1 generalizing c with
  | nil => cases h2; exact .nil
  | cons hp _ ih =>
    cases h2 with
    | cons hq hqs => exact .cons (h _ (by simp) _ _ hp hq) (ih _ hqs (fun x hx => h x (by simp [hx])))

theorem kid_good {W : Type} (ks : Kids W) (hn : NamesOkK ks) (s : Str) (c : Node W) (h : kid ks s = some c) : GoodName s ∧ NamesOk c := by
  match ks, hn with
  | .nil, _ => cases h
  | .null n r, hn => exact kid_good r hn s c h
  | .cons n c' r, hn =>
    simp only [kid] at h
    split at h
    · next e => subst e; cases h; exact ⟨hn.1, hn.2.2.1⟩
    · exact kid_good r hn.2.2.2 s c h

theorem path_good {W : Type} (t : Node W) (hn : NamesOk t) (q : List Str) (d : Data W) (h : dataAt t q = some d) : ∀ n ∈ q, GoodName n := by
  induction q generalizing t with
  | nil => intro n hn; cases hn
  | cons s q ih =>
    rw [dataAt_cons] at h
    match t, hn with
    | .mk d0 ks, hn =>
      simp only [Node.kids] at h
      cases hc : kid ks s with
      | none => rw [hc] at h; cases h
      | some c =>
        rw [hc] at h
        obtain ⟨hg, hc'⟩ := kid_good ks hn s c hc
        intro n hmem
        rcases List.mem_cons.mp hmem with rfl | hmem
        · exact hg
        · exact ih c hc' h n hmem

theorem print_append (p q : List Str) : print (p ++ q) = print p ++ q.flatMap (fun n => '.' :: n) := by
  simp [print, List.flatMap_append]

theorem relLoc_print (p q : List Str) : relLoc (print p) (print (p ++ q)) = .ok (q.flatMap (fun n => '.' :: n)) ∧
    (print p).isPrefixOf (print (p ++ q)) = true := by
  have h : (print p).isPrefixOf (print (p ++ q)) = true := by
    rw [List.isPrefixOf_iff_prefix, print_append]; exact List.prefix_append _ _
  refine ⟨?_, h⟩
  unfold relLoc
  rw [if_neg (by simp [print]), if_pos h, print_append]
  simp

/-- C13 / C14. Any tree of owned components with consistent locators, exposed by the hierarchy, with weak references inside of the tree:
    saving succeeds, and loading the data (with anything behind it) at any place `p'`, into any hierarchy `R'` that exposes the loaded tree there,
    consumes exactly the saved data, creates new instances only, and yields a copy of the tree with every weak reference pointing to the component
    at the same place of the copy. -/
theorem C13_round_trip (C : Classes) (R : Comp) (locOf : Nat → Option Str) (p : List Str) (t : Node (Option Nat))
    (hp : ∀ n ∈ p, GoodName n) (hn : NamesOk t) (hl : Located p t) (hx : Exposed R p t) (hc : Closed t) (hk : KeysKnown C t)
    (hloc : ∀ q d, dataAt t q = some d → locOf d.id = some d.loc) :
    ∃ ts, saveComp C (some R) locOf t = .ok ts ∧
      ∀ (p' : List Str) (rest : List Tok) (next : Nat), (∀ n ∈ p', GoodName n) →
        ∃ pend next', loadComp C (print p') (ts ++ rest) next = .ok (some pend, rest, next') ∧
          (ids pend).Nodup ∧ (∀ i ∈ ids pend, next ≤ i ∧ i < next') ∧
          ∀ R', Exposed R' p' pend → ∃ t', resolveNode (some R') pend = .ok t' ∧ CopyAt p' t t' := by
  have hroot : t.data.loc = print p := by
    have := hl [] t.data rfl
    simpa using this
  have hsav : All (Savable (some R) locOf (print p)) t := by
    apply all_of_dataAt _ t hn
    intro q d hd
    have hdl := hl q d hd
    obtain ⟨c, hat, hid⟩ := hx q d hd
    have hgood : ∀ n ∈ p ++ q, GoodName n := by
      intro n hmem
      rcases List.mem_append.mp hmem with h | h
      · exact hp n h
      · exact path_good t hn q d hd n h
    refine ⟨?_, ⟨_, by rw [hdl]; exact (relLoc_print p q).1⟩, ?_⟩
    · unfold checkLoc
      rw [hdl, if_neg (by simp [print]), Locator.C03_get_by_path_partial R c (p ++ q) hgood hat]
      simp [hid]
    · intro i hi
      obtain ⟨s, d', hd', hid'⟩ := hc q d i hd hi
      refine ⟨print (p ++ s), _, ?_, (relLoc_print p s).1, (relLoc_print p s).2⟩
      rw [← hid', hloc s d' hd', hl s d' hd']
  obtain ⟨ts, hts⟩ := save_ok (some R) locOf (print p) t hsav
  refine ⟨ts, ?_, ?_⟩
  · unfold saveComp
    rw [hroot, check_ok C (some R) locOf (print p) t hsav]
    exact hts
  · intro p' rest next hp'
    obtain ⟨pend, next', hload, hrel, _, hid, hnd⟩ := load_save C (some R) locOf (print p) (print p') t ts rest hts hk
      (ts ++ rest).length next (by simp)
    refine ⟨pend, next', hload, hnd, hid, ?_⟩
    intro R' hx'
    -- a weak reference of the loaded tree, resolved
    have hres : ∀ i, (∃ s d, dataAt t s = some d ∧ d.id = i) → ∀ w', WPend locOf (print p) (print p') (some i) w' →
        ∃ s d dp c, dataAt t s = some d ∧ d.id = i ∧ dataAt pend s = some dp ∧ c = dp.id ∧ resolveWeak (some R') w' = .ok (some c) := by
      rintro i ⟨s, d, hd, hdi⟩ w' hw
      cases w' with
      | none => exact hw.elim
      | some str =>
        obtain ⟨loc, r, h1, h2, h3⟩ := hw
        rw [← hdi, hloc s d hd, hl s d hd] at h1
        cases h1
        rw [(relLoc_print p s).1] at h2
        cases h2
        obtain ⟨dp, hdp, _⟩ := Rel.dataAt_fwd t pend hrel s d hd
        obtain ⟨c, hat, hcid⟩ := hx' s dp hdp
        refine ⟨s, d, dp, dp.id, hd, hdi, hdp, rfl, ?_⟩
        have hgood : ∀ n ∈ p' ++ s, GoodName n := by
          intro n hmem
          rcases List.mem_append.mp hmem with h | h
          · exact hp' n h
          · exact path_good t hn s d hd n h
        have hg := Locator.C03_get_by_path_partial R' c (p' ++ s) hgood hat
        rw [h3, ← print_append]
        unfold resolveWeak
        simp only [hg, hcid]
    have hall : All (fun d => ∀ w ∈ d.weak, ∃ w', resolveWeak (some R') w = .ok w' ∧ w'.isSome = w.isSome) pend := by
      apply all_of_dataAt _ pend (namesOk_rel t pend hrel hn)
      intro q dp hdp w hw
      obtain ⟨d, hd, hdp'⟩ := Rel.dataAt_bwd t pend hrel q dp hdp
      obtain ⟨v, hv, hvw⟩ : ∃ v ∈ d.weak, WPend locOf (print p) (print p') v w := by
        have := hdp'.weak
        obtain ⟨k, hk1, hk2⟩ := List.getElem_of_mem hw
        have hlen := this.length_eq
        refine ⟨d.weak[k]'(by omega), List.getElem_mem _, ?_⟩
        have := (List.forall₂_iff_get.mp this).2 k (by omega) hk1
        simp only [List.get_eq_getElem] at this
        rw [hk2] at this
        exact this
      cases v with
      | none => cases w with
        | none => exact ⟨none, rfl, rfl⟩
        | some _ => exact hvw.elim
      | some i =>
        obtain ⟨_, _, _, c, _, _, _, _, h⟩ := hres i (hc q d i hd hv) w hvw
        refine ⟨_, h, ?_⟩
        cases w with
        | none => exact hvw.elim
        | some _ => rfl
    obtain ⟨t', ht', hrel'⟩ := resolve_ok (some R') pend hall
    refine ⟨t', ht', ?_, ?_, ?_⟩
    · rw [shape_rel (D := DRes (some R')) ?_ pend t' hrel', shape_rel (D := DPend locOf (print p) (print p')) ?_ t pend hrel]
      · intro d d' h; exact ⟨h.key, h.payload, wpend_isSome _ _ _ _ _ h.weak⟩
      · intro d d' h; exact ⟨h.key, h.payload, dres_isSome _ _ _ h.weak⟩
    · intro q d' hd'
      obtain ⟨dp, hdp, h1⟩ := Rel.dataAt_bwd pend t' hrel' q d' hd'
      obtain ⟨d, hd, h2⟩ := Rel.dataAt_bwd t pend hrel q dp hdp
      obtain ⟨r, hr, hloc'⟩ := h2.loc
      rw [hl q d hd, (relLoc_print p q).1] at hr
      cases hr
      rw [h1.loc, hloc', print_append]
    · intro q d d' hd hd'
      obtain ⟨dp, hdp, h1⟩ := Rel.dataAt_bwd pend t' hrel' q d' hd'
      obtain ⟨d2, hd2, h2⟩ := Rel.dataAt_bwd t pend hrel q dp hdp
      rw [hd] at hd2
      cases hd2
      refine forall₂_comp _ _ _ h2.weak h1.weak ?_
      intro x hx y z hxy hyz
      cases x with
      | none =>
        cases y with
        | none => cases z with
          | none => trivial
          | some _ => have := hyz.2; cases this
        | some _ => exact hxy.elim
      | some i =>
        obtain ⟨s, ds, dps, c, h3, h4, h5, h6, h7⟩ := hres i (hc q d i hd hx) y hxy
        rw [h7] at hyz
        have hz : some c = z := Except.ok.inj hyz.1
        subst hz
        obtain ⟨ds', h8, h9⟩ := Rel.dataAt_fwd pend t' hrel' s dps h5
        exact ⟨s, ds, ds', h3, h4, h8, by rw [h9.id, h6]⟩

mutual
theorem all_dataAt {W : Type} (P : Data W → Prop) (t : Node W) (h : All P t) (q : List Str) (d : Data W) (hd : dataAt t q = some d) : P d := by
  match t, h with
  | .mk d0 ks, h =>
    cases q with
    | nil => cases hd; exact h.1
    | cons s q =>
      rw [dataAt_cons] at hd
      simp only [Node.kids] at hd
      cases hc : kid ks s with
      | none => rw [hc] at hd; cases hd
      | some c => rw [hc] at hd; exact allK_dataAt P ks h.2 s c hc q d hd
theorem allK_dataAt {W : Type} (P : Data W → Prop) (ks : Kids W) (h : AllK P ks) (s : Str) (c : Node W) (hc : kid ks s = some c)
    (q : List Str) (d : Data W) (hd : dataAt c q = some d) : P d := by
  match ks, h with
  | .nil, _ => cases hc
  | .null _ r, h => exact allK_dataAt P r h s c hc q d hd
  | .cons n c' r, h =>
    simp only [kid] at hc
    split at hc
    · have e := Option.some.inj hc
      rw [← e] at hd
      exact all_dataAt P c' h.1 q d hd
    · exact allK_dataAt P r h.2 s c hc q d hd
end

mutual
theorem save_checks (R : Option Comp) (locOf : Nat → Option Str) (root : Str) (t : Node (Option Nat)) (ts : List Tok)
    (h : saveNode R locOf root t = .ok ts) : All (fun d => checkLoc R d.id d.loc = .ok ()) t := by
  match t with
  | .mk d ks =>
    rw [saveNode] at h
    cases h1 : checkLoc R d.id d.loc with
    | error e => rw [h1] at h; cases h
    | ok u =>
      rw [h1] at h
      simp only at h
      cases h2 : relLoc root d.loc with
      | error e => rw [h2] at h; cases h
      | ok r =>
        rw [h2] at h
        simp only at h
        cases h3 : saveWeaks locOf root d.weak with
        | error e => rw [h3] at h; cases h
        | ok ws =>
          rw [h3] at h
          simp only at h
          cases h4 : saveKids R locOf root ks with
          | error e => rw [h4] at h; cases h
          | ok tk => exact ⟨h1, saveK_checks R locOf root ks tk h4⟩
theorem saveK_checks (R : Option Comp) (locOf : Nat → Option Str) (root : Str) (ks : Kids (Option Nat)) (ts : List Tok)
    (h : saveKids R locOf root ks = .ok ts) : AllK (fun d => checkLoc R d.id d.loc = .ok ()) ks := by
  match ks with
  | .nil => trivial
  | .null n r =>
    rw [saveKids] at h
    cases h1 : saveKids R locOf root r with
    | error e => rw [h1] at h; cases h
    | ok tk => exact saveK_checks R locOf root r tk h1
  | .cons n c r =>
    rw [saveKids] at h
    cases h0 : saveNode R locOf root c with
    | error e => rw [h0] at h; cases h
    | ok ta =>
      rw [h0] at h
      simp only at h
      cases h1 : saveKids R locOf root r with
      | error e => rw [h1] at h; cases h
      | ok tk => exact ⟨save_checks R locOf root c ta h0, saveK_checks R locOf root r tk h1⟩
end

/-- C13. Saving succeeds only if every owned component with a locator is found through its own locator:
    a class that owns a component with a locator but does not expose it by name makes the whole tree unsavable. -/
theorem C13_saved_implies_exposed (C : Classes) (R : Option Comp) (locOf : Nat → Option Str) (t : Node (Option Nat)) (ts : List Tok)
    (h : saveComp C R locOf t = .ok ts) (q : List Str) (d : Data (Option Nat)) (hd : dataAt t q = some d) (hne : d.loc ≠ []) :
    ∃ c, Locator.get R d.loc = .found c ∧ c.id = d.id := by
  unfold saveComp at h
  split at h
  · cases h
  · have := all_dataAt _ t (save_checks R locOf _ t ts h) q d hd
    unfold checkLoc at this
    rw [if_neg (by simpa using hne)] at this
    cases hg : Locator.get R d.loc with
    | null => rw [hg] at this; cases this
    | throws => rw [hg] at this; cases this
    | found c =>
      rw [hg] at this
      simp only at this
      split at this
      · next he => exact ⟨c, rfl, he⟩
      · cases this

mutual
/-- The tree as a hierarchy for locator lookup in which every class exposes all of its slots and answers null for other names. -/
def proj {W : Type} : Node W → Comp
  | .mk d ks => .mk d.id d.loc false (projK ks)
def projK {W : Type} : Kids W → List (Str × Comp)
  | .nil => []
  | .null _ r => projK r
  | .cons n c r => (n, proj c) :: projK r
end

theorem proj_children {W : Type} (t : Node W) (s : Str) : Locator.findChild (proj t).children s = (kid t.kids s).map proj := by
  match t with
  | .mk d ks =>
    show Locator.findChild (projK ks) s = (kid ks s).map proj
    exact go ks
where
  go : (ks : Kids W) → Locator.findChild (projK ks) s = (kid ks s).map proj
    | .nil => rfl
    | .null _ r => go r
    | .cons n c r => by
      simp only [projK, Locator.findChild, kid]
      by_cases h : n = s
      · simp [h]
      · simp [h, go r]

theorem proj_at {W : Type} (t : Node W) (q : List Str) (d : Data W) (h : dataAt t q = some d) :
    ∃ c, At (proj t) q c ∧ c.id = d.id := by
  induction q generalizing t with
  | nil => match t with | .mk d0 ks => cases h; exact ⟨_, .here _, rfl⟩
  | cons s q ih =>
    rw [dataAt_cons] at h
    cases hc : kid t.kids s with
    | none => rw [hc] at h; cases h
    | some n =>
      rw [hc] at h
      obtain ⟨c, hat, hid⟩ := ih n h
      exact ⟨c, .down (by rw [proj_children, hc]; rfl) hat, hid⟩

theorem at_append {a b c : Comp} {p q : List Str} (h1 : At a p b) (h2 : At b q c) : At a (p ++ q) c := by
  induction h1 with
  | here _ => exact h2
  | down h _ ih => exact .down h (ih h2)

/-- A hierarchy that contains the tree at `p` exposes it: the hypothesis of the round trip is met by the class-independent hierarchy. -/
theorem exposed_of_at {W : Type} (R : Comp) (p : List Str) (t : Node W) (h : At R p (proj t)) : Exposed R p t := by
  intro q d hd
  obtain ⟨c, hat, hid⟩ := proj_at t q d hd
  exact ⟨c, at_append h hat, hid⟩

mutual
def LocN {W : Type} (p : List Str) : Node W → Prop
  | .mk d ks => d.loc = print p ∧ LocK p ks
def LocK {W : Type} (p : List Str) : Kids W → Prop
  | .nil => True
  | .null _ r => LocK p r
  | .cons n c r => LocN (p ++ [n]) c ∧ LocK p r
end

theorem locK_kid {W : Type} (p : List Str) (ks : Kids W) (h : LocK p ks) (s : Str) (c : Node W) (hc : kid ks s = some c) : LocN (p ++ [s]) c := by
  match ks, h with
  | .nil, _ => cases hc
  | .null _ r, h => exact locK_kid p r h s c hc
  | .cons n c' r, h =>
    simp only [kid] at hc
    split at hc
    · next e => subst e; cases hc; exact h.1
    · exact locK_kid p r h.2 s c hc

theorem located_of_locN {W : Type} (p : List Str) (t : Node W) (h : LocN p t) : Located p t := by
  intro q d hd
  induction q generalizing t p with
  | nil => match t, h with | .mk d0 ks, h => cases hd; rw [List.append_nil]; exact h.1
  | cons s q ih =>
    match t, h with
    | .mk d0 ks, h =>
      rw [dataAt_cons] at hd
      simp only [Node.kids] at hd
      cases hc : kid ks s with
      | none => rw [hc] at hd; cases hd
      | some c =>
        rw [hc] at hd
        have := ih (p ++ [s]) c (locK_kid p ks h.2 s c hc) hd
        simpa using this

/-! ### Example: an asset group with two assets referring to each other and to the group, with a null slot -/

def exTree : Node (Option Nat) :=
  .mk ⟨10, "group".toList, "$.assets".toList, [], [none]⟩
    (.cons "a".toList (.mk ⟨11, "mesh".toList, "$.assets.a".toList, [3, 4], [some 12, none, some 11]⟩ .nil)
    (.null "z".toList
    (.cons "b".toList (.mk ⟨12, "mat".toList, "$.assets.b".toList, [5], [some 13, some 10]⟩
      (.cons "sub".toList (.mk ⟨13, "tex".toList, "$.assets.b.sub".toList, [], [some 11]⟩ .nil) .nil)) .nil)))

def exLocOf : Nat → Option Str := fun i =>
  if i = 10 then some "$.assets".toList else if i = 11 then some "$.assets.a".toList
  else if i = 12 then some "$.assets.b".toList else if i = 13 then some "$.assets.b.sub".toList else none

def exRoot : Comp := .mk 1 "$".toList false [("assets".toList, proj exTree)]
def exClasses : Classes := ⟨fun _ => true, fun _ => false⟩

theorem ex_names : NamesOk exTree := by
  simp only [exTree, NamesOk, NamesOkK, GoodName, kid]
  decide

theorem ex_located : Located ["assets".toList] exTree := by
  apply located_of_locN
  simp only [exTree, LocN, LocK]
  decide

theorem ex_locOf : ∀ q d, dataAt exTree q = some d → exLocOf d.id = some d.loc := by
  apply all_dataAt
  simp only [exTree, All, AllK]
  decide

theorem ex_closed : Closed exTree := by
  have h : All (fun d => ∀ w ∈ d.weak, w = none ∨ w = some 10 ∨ w = some 11 ∨ w = some 12 ∨ w = some 13) exTree := by
    simp only [exTree, All, AllK]
    decide
  intro q d i hd hi
  have := all_dataAt _ exTree h q d hd (some i) hi
  rcases this with h | h | h | h | h <;> cases h
  · exact ⟨[], _, rfl, rfl⟩
  · exact ⟨["a".toList], _, rfl, rfl⟩
  · exact ⟨["b".toList], _, rfl, rfl⟩
  · exact ⟨["b".toList, "sub".toList], _, rfl, rfl⟩

theorem ex_exposed : Exposed exRoot ["assets".toList] exTree :=
  exposed_of_at _ _ _ (.down (d := proj exTree) rfl (.here _))

theorem ex_known : KeysKnown exClasses exTree := by
  simp [exTree, KeysKnown, KeysKnownK, exClasses]

/-- Non-vacuity of C13_round_trip: forward, backward, cyclic, self and null references, and a null slot. -/
example : ∃ ts, saveComp exClasses (some exRoot) exLocOf exTree = .ok ts :=
  let ⟨ts, h, _⟩ := C13_round_trip exClasses exRoot exLocOf ["assets".toList] exTree
    (by intro n hn; simp only [List.mem_singleton] at hn; subst hn; exact ⟨by decide, by decide⟩) ex_names ex_located ex_exposed ex_closed ex_known ex_locOf
  ⟨ts, h⟩

theorem walk_below (c ren : Comp) (ns : List Str) (s : Str) (hns : ∀ n ∈ ns, GoodName n) (h : At c ns ren) (hs : GoodName s) :
    Locator.walk c (Locator.tailLoc (ns ++ [s])) = Locator.underlying ren s := by
  induction h with
  | here c =>
    have hne : Locator.tailLoc ([] ++ [s]) ≠ [] := by
      simpa [Locator.tailLoc] using hs.1
    rw [Locator.walk_cons _ _ hne]
    have hsplit : Locator.splitFirst (Locator.tailLoc ([] ++ [s])) = (s, []) := by
      simpa [Locator.tailLoc] using Locator.splitFirst_noDot s hs.2
    rw [hsplit]
    cases hu : Locator.underlying c s with
    | found d => simp [Locator.walk_nil]
    | null => rfl
    | throws => rfl
  | @down c d e n ns hf h' ih =>
    have hg := hns n (by simp)
    have ih' := ih (fun m hm => hns m (by simp [hm]))
    have hne : Locator.tailLoc (n :: ns ++ [s]) ≠ [] := by
      unfold Locator.tailLoc
      cases n with
      | nil => exact absurd rfl hg.1
      | cons _ _ => simp
    have hsplit : Locator.splitFirst (Locator.tailLoc (n :: ns ++ [s])) = (n, Locator.tailLoc (ns ++ [s])) := by
      cases ns with
      | nil => simpa [Locator.tailLoc] using Locator.splitFirst_dot n s hg.2
      | cons m ms => simpa [Locator.tailLoc] using Locator.splitFirst_dot n (m ++ (ms.flatMap (fun n => '.' :: n) ++ '.' :: s)) hg.2
    rw [Locator.walk_cons _ _ hne, hsplit]
    simp only [(Locator.underlying_found c d n).mpr hf]
    exact ih'

theorem get_below (R ren : Comp) (ns : List Str) (s : Str) (hns : ∀ n ∈ ns, GoodName n) (hren : At R ns ren) (hs : GoodName s) :
    Locator.get (some R) (print (ns ++ [s])) = Locator.underlying ren s := by
  rw [Locator.get_print]; exact walk_below R ren ns s hns hren hs

/-- C13, negation. renderer::pt, renderer::lt and renderer::volpt own a scheduler with the locator "<renderer>.scheduler"
    (src/renderer/renderer_pt.cpp:62-76, renderer_lt.cpp:45-47, renderer_volpt.cpp:46-52) but do not override `underlying`, so the lookup of that
    locator gives null: any tree that contains such a renderer, at any place, cannot be saved. -/
theorem C13_negation_unexposed_scheduler (C : Classes) (R : Comp) (locOf : Nat → Option Str) (t : Node (Option Nat)) (q : List Str)
    (d : Data (Option Nat)) (ns : List Str) (ren : Comp) (hd : dataAt t q = some d)
    (hloc : d.loc = print (ns ++ ["scheduler".toList])) (hns : ∀ n ∈ ns, GoodName n) (hren : At R ns ren) (hnone : ren.children = []) :
    ∀ ts, saveComp C (some R) locOf t ≠ .ok ts := by
  intro ts h
  obtain ⟨c, hg, _⟩ := C13_saved_implies_exposed C (some R) locOf t ts h q d hd (by rw [hloc]; simp [print])
  rw [hloc] at hg
  rw [get_below R ren ns "scheduler".toList hns hren ⟨by decide, by decide⟩] at hg
  unfold Locator.underlying at hg
  rw [hnone] at hg
  simp only [Locator.findChild] at hg
  split at hg <;> cases hg

/-- Non-vacuity: a renderer with a scheduler that it does not expose, in an otherwise consistent asset tree. -/
def exPT : Node (Option Nat) :=
  .mk ⟨10, "group".toList, "$.assets".toList, [], []⟩
    (.cons "r".toList (.mk ⟨11, "renderer::pt".toList, "$.assets.r".toList, [], []⟩
      (.cons "scheduler".toList (.mk ⟨12, "scheduler::spp::sample".toList, "$.assets.r.scheduler".toList, [16], []⟩ .nil) .nil)) .nil)
def exPTRoot : Comp := .mk 1 "$".toList false [("assets".toList, .mk 10 "$.assets".toList false [("r".toList, .mk 11 "$.assets.r".toList false [])])]

example : ∀ ts, saveComp exClasses (some exPTRoot) (fun _ => none) exPT ≠ .ok ts :=
  C13_negation_unexposed_scheduler exClasses exPTRoot (fun _ => none) exPT ["r".toList, "scheduler".toList] _ ["assets".toList, "r".toList]
    (.mk 11 "$.assets.r".toList false []) rfl rfl (by intro n hn; simp only [List.mem_cons, List.not_mem_nil, or_false] at hn; rcases hn with rfl | rfl <;> exact ⟨by decide, by decide⟩)
    (.down (d := .mk 10 "$.assets".toList false [("r".toList, .mk 11 "$.assets.r".toList false [])]) rfl
      (.down (d := .mk 11 "$.assets.r".toList false []) rfl (.here _))) rfl

/-- C13, negation. If the implementation of one component is not registered when loading, its saved contents are not skipped:
    the components that follow are lost without an error (here "b" disappears and data is left over). -/
theorem C13_negation_unknown_key :
    ∃ (t : Node (Option Nat)) (ts : List Tok), saveNode (some (proj t)) (fun _ => none) "$".toList t = .ok ts ∧
      (dataAt t ["b".toList]).isSome ∧
      ∃ t' rest next', loadComp ⟨fun k => k != "plug::x".toList, fun _ => false⟩ "$".toList ts 0 = .ok (some t', rest, next') ∧
        dataAt t' ["a".toList] = none ∧ dataAt t' ["b".toList] = none ∧ rest ≠ [] := by
  let t : Node (Option Nat) := .mk ⟨10, "group".toList, "$".toList, [], []⟩
    (.cons "a".toList (.mk ⟨11, "plug::x".toList, "$.a".toList, [], []⟩ .nil)
    (.cons "b".toList (.mk ⟨12, "mesh".toList, "$.b".toList, [7], []⟩ .nil) .nil))
  have hsav : All (Savable (some (proj t)) (fun _ => none) (print [])) t := by
    have hl : Located [] t := located_of_locN [] t (by simp only [t, LocN, LocK]; decide)
    have hn : NamesOk t := by simp only [t, NamesOk, NamesOkK, GoodName, kid]; decide
    have hx : Exposed (proj t) [] t := exposed_of_at _ _ _ (.here _)
    have hw : All (fun d => d.weak = []) t := by simp only [t, All, AllK]; decide
    apply all_of_dataAt _ t hn
    intro q d hd
    obtain ⟨c, hat, hid⟩ := hx q d hd
    refine ⟨?_, ⟨_, by rw [hl q d hd]; exact (relLoc_print [] q).1⟩, ?_⟩
    · unfold checkLoc
      rw [hl q d hd, if_neg (by simp [print]), Locator.C03_get_by_path_partial (proj t) c ([] ++ q) (path_good t hn q d hd) hat]
      simp [hid]
    · intro i hi
      rw [all_dataAt _ t hw q d hd] at hi
      cases hi
  have hs : saveNode (some (proj t)) (fun _ => none) "$".toList t = .ok
      [.num 1, .str "group".toList, .str [], .num 0, .num 0,
        .num 1, .str "a".toList, .num 1, .str "plug::x".toList, .str ".a".toList, .num 0, .num 0, .num 0,
        .num 1, .str "b".toList, .num 1, .str "mesh".toList, .str ".b".toList, .num 1, .num 7, .num 0, .num 0, .num 0] := by
    simp only [t, All, AllK] at hsav
    have c0 := hsav.1.check
    have c1 := hsav.2.1.1.check
    have c2 := hsav.2.2.1.1.check
    simp only [t, saveNode, saveKids]
    simp only at c0 c1 c2
    rw [c0, c1, c2]
    rfl
  refine ⟨t, _, hs, rfl, ?_⟩
  exact ⟨.mk ⟨0, "group".toList, "$".toList, [], []⟩ (.null "a".toList .nil), _, 1, rfl, rfl, rfl, by decide⟩

/-! ### C14 -/

/-- C14. A locator below the saved asset is stored relative to it, and loading under any new place gives the locator at the same place below it. -/
theorem C14_inside_relocates (p s : List Str) : ∃ r, relLoc (print p) (print (p ++ s)) = .ok r ∧ ∀ p', print p' ++ r = print (p' ++ s) :=
  ⟨_, (relLoc_print p s).1, fun p' => (print_append p' s).symm⟩

theorem good_prefix_cases (n m : Str) (hm : '.' ∉ m) (x y : Str) (hx : x = [] ∨ ∃ x', x = '.' :: x') (hy : y = [] ∨ ∃ y', y = '.' :: y')
    (hn : '.' ∉ n) (h : n ++ x <+: m ++ y) : (x = [] ∧ n <+: m) ∨ (n = m ∧ x <+: y) := by
  induction n generalizing m with
  | nil =>
    rcases hx with rfl | ⟨x', rfl⟩
    · exact .inl ⟨rfl, List.nil_prefix⟩
    · cases m with
      | nil => exact .inr ⟨rfl, h⟩
      | cons c m =>
        simp only [List.nil_append, List.cons_append, List.cons_prefix_cons] at h
        exact absurd (by rw [← h.1]; simp) hm
  | cons a n ih =>
    cases m with
    | nil =>
      rcases hy with rfl | ⟨y', rfl⟩
      · simp at h
      · simp only [List.nil_append, List.cons_append, List.cons_prefix_cons] at h
        exact absurd (by rw [h.1]; simp) hn
    | cons c m =>
      simp only [List.cons_append, List.cons_prefix_cons] at h
      rcases ih m (fun hm' => hm (by simp [hm'])) (fun hn' => hn (by simp [hn'])) h.2 with ⟨h1, h2⟩ | ⟨h1, h2⟩
      · exact .inl ⟨h1, by rw [h.1]; exact (List.prefix_cons_inj c).mpr h2⟩
      · exact .inr ⟨by rw [h.1, h1], h2⟩

theorem flat_shape (s : List Str) : s.flatMap (fun n => '.' :: n) = [] ∨ ∃ x, s.flatMap (fun n => '.' :: n) = '.' :: x := by
  cases s with
  | nil => exact .inl rfl
  | cons n s => exact .inr ⟨_, rfl⟩

theorem flat_prefix_iff (p s : List Str) (hp : ∀ n ∈ p, GoodName n) (hs : ∀ n ∈ s, GoodName n) :
    (p.flatMap (fun n => '.' :: n) <+: s.flatMap (fun n => '.' :: n)) ↔
      (p <+: s ∨ ∃ b n x rest, p = b ++ [n] ∧ s = b ++ (n ++ x) :: rest ∧ x ≠ []) := by
  induction p generalizing s with
  | nil => simp
  | cons n p ih =>
    cases s with
    | nil =>
      constructor
      · intro h; simp at h
      · rintro (h | ⟨b, n', x, rest, h1, h2, h3⟩)
        · simp at h
        · cases b <;> cases h2
    | cons m s =>
      simp only [List.flatMap_cons, List.cons_append, List.cons_prefix_cons, true_and]
      have hm := hs m (by simp)
      have hn := hp n (by simp)
      have ih' := ih s (fun k hk => hp k (by simp [hk])) (fun k hk => hs k (by simp [hk]))
      constructor
      · intro h
        rcases good_prefix_cases n m hm.2 _ _ (flat_shape p) (flat_shape s) hn.2 h with ⟨h1, h2⟩ | ⟨h1, h2⟩
        · have hp0 : p = [] := by
            cases p with
            | nil => rfl
            | cons a p => simp at h1
          subst hp0
          obtain ⟨x, rfl⟩ := h2
          by_cases hx : x = []
          · subst hx; left; simp
          · right; exact ⟨[], n, x, s, rfl, rfl, hx⟩
        · subst h1
          rcases ih'.mp h2 with h | ⟨b, k, x, rest, h1, h3, h4⟩
          · left; exact ⟨rfl, h⟩
          · right; exact ⟨n :: b, k, x, rest, by rw [h1]; rfl, by rw [h3]; rfl, h4⟩
      · rintro (⟨h1, h2⟩ | ⟨b, k, x, rest, h1, h2, h3⟩)
        · subst h1
          exact (List.prefix_append_right_inj n).mpr (ih'.mpr (.inl h2))
        · cases b with
          | nil =>
            cases h1
            cases h2
            simp only [List.flatMap_nil, List.append_nil, List.append_assoc]
            exact List.prefix_append _ _
          | cons a b =>
            simp only [List.cons_append, List.cons.injEq] at h1 h2
            obtain ⟨rfl, h1⟩ := h1
            obtain ⟨rfl, h2⟩ := h2
            exact (List.prefix_append_right_inj _).mpr (ih'.mpr (.inr ⟨b, k, x, rest, h1, h2, h3⟩))

/-- C14, exact characterisation. With usable names, a reference to the component at path `s` is accepted when saving the asset at path `p`
    exactly when the target is inside the asset or lies in (or is) a sibling whose name extends the asset's name; the latter is the defect. -/
theorem C14_accepted_iff (p s : List Str) (hp : ∀ n ∈ p, GoodName n) (hs : ∀ n ∈ s, GoodName n) :
    (∃ r, relLoc (print p) (print s) = .ok r) ↔
      (p <+: s ∨ ∃ b n x rest, p = b ++ [n] ∧ s = b ++ (n ++ x) :: rest ∧ x ≠ []) := by
  rw [← flat_prefix_iff p s hp hs]
  unfold relLoc
  rw [if_neg (by simp [print])]
  constructor
  · rintro ⟨r, h⟩
    split at h
    · next hpre =>
      rw [List.isPrefixOf_iff_prefix] at hpre
      simpa [print] using hpre
    · cases h
  · intro h
    rw [if_pos (by rw [List.isPrefixOf_iff_prefix]; simpa [print] using h)]
    exact ⟨_, rfl⟩

/-- C14 (partial). A reference to a component outside of the saved asset is refused, unless the target is in a sibling whose name extends
    the asset's name. Missing: that exception, see C14_negation_sibling. -/
theorem C14_outside_refused_partial (p s : List Str) (hp : ∀ n ∈ p, GoodName n) (hs : ∀ n ∈ s, GoodName n) (hout : ¬ p <+: s)
    (hsib : ¬ ∃ b n x rest, p = b ++ [n] ∧ s = b ++ (n ++ x) :: rest ∧ x ≠ []) (locOf : Nat → Option Str) (i : Nat)
    (hi : locOf i = some (print s)) : saveWeak locOf (print p) (some i) = .error .ioError := by
  have h := (C14_accepted_iff p s hp hs).not.mpr (by rintro (h | h); exacts [hout h, hsib h])
  simp only [saveWeak, hi]
  cases hr : relLoc (print p) (print s) with
  | ok r => exact absurd ⟨r, hr⟩ h
  | error e =>
    unfold relLoc at hr
    split at hr
    · cases hr
    · split at hr <;> cases hr
      rfl

/-- C14, negation. For every asset name `n` and every sibling name `n ++ x` extending it: a reference from the asset to (a component `rest` below) the
    sibling is accepted, and after loading under any new name `m` it denotes something else, outside of the new asset as well: `m ++ x`. -/
theorem C14_negation_sibling (b : List Str) (n x : Str) (rest : List Str) (locOf : Nat → Option Str) (i : Nat)
    (hi : locOf i = some (print (b ++ (n ++ x) :: rest))) :
    ∃ r, saveWeak locOf (print (b ++ [n])) (some i) = .ok [.num 1, .str r] ∧
      ∀ b' m, print (b' ++ [m]) ++ r = print (b' ++ (m ++ x) :: rest) := by
  have hpre : (print (b ++ [n])).isPrefixOf (print (b ++ (n ++ x) :: rest)) = true := by
    rw [List.isPrefixOf_iff_prefix]
    simp only [print, List.flatMap_append, List.flatMap_cons, List.flatMap_nil, List.append_nil]
    refine (List.prefix_cons_inj _).mpr ((List.prefix_append_right_inj _).mpr ?_)
    simp
  have hdrop : (print (b ++ (n ++ x) :: rest)).drop (print (b ++ [n])).length = x ++ rest.flatMap (fun n => '.' :: n) := by
    have : print (b ++ (n ++ x) :: rest) = print (b ++ [n]) ++ (x ++ rest.flatMap (fun n => '.' :: n)) := by
      simp [print, List.flatMap_append]
    rw [this, List.drop_left]
  refine ⟨x ++ rest.flatMap (fun n => '.' :: n), ?_, ?_⟩
  · simp only [saveWeak, hi, relLoc]
    rw [if_neg (by simp [print]), if_pos hpre]
    simp only [hdrop]
  · intro b' m
    simp [print, List.flatMap_append]

/-- Non-vacuity: asset "a" with a reference to its sibling "ab", saved and loaded as "x": the reference becomes "$.assets.xb". -/
example : saveWeak (fun _ => some "$.assets.ab".toList) "$.assets.a".toList (some 5) = .ok [.num 1, .str "b".toList] := by decide
example : saveWeak (fun _ => some "$.assets.cb".toList) "$.assets.a".toList (some 5) = .error .ioError := by decide

end LM.SaveLoad
