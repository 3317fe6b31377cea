import Verif.Spec.Locator
namespace LM.Locator
open Spec

theorem splitFirst_noDot (s : Str) (h : '.' ∉ s) : splitFirst s = (s, []) := by
  induction s with
  | nil => rfl
  | cons c cs ih =>
    have h1 : c ≠ '.' := fun e => h (by simp [e])
    have h2 : '.' ∉ cs := fun e => h (by simp [e])
    simp [splitFirst, h1, ih h2]

theorem splitFirst_dot (s r : Str) (h : '.' ∉ s) : splitFirst (s ++ '.' :: r) = (s, r) := by
  induction s with
  | nil => simp [splitFirst]
  | cons c cs ih =>
    have h1 : c ≠ '.' := fun e => h (by simp [e])
    have h2 : '.' ∉ cs := fun e => h (by simp [e])
    simp [splitFirst, h1, ih h2]

/-- splitFirst is a left inverse of concatenation up to a possible final dot. -/
theorem splitFirst_spec (s : Str) :
    '.' ∉ (splitFirst s).1 ∧ ((s = (splitFirst s).1 ∧ (splitFirst s).2 = []) ∨ s = (splitFirst s).1 ++ '.' :: (splitFirst s).2) := by
  induction s with
  | nil => simp [splitFirst]
  | cons c cs ih =>
    unfold splitFirst
    split
    · next h => subst h; simp
    · next h =>
      refine ⟨by simp [ih.1]; exact fun e => h e.symm, ?_⟩
      rcases ih.2 with ⟨h1, h2⟩ | h1
      · left; exact ⟨by simp only; rw [← h1], h2⟩
      · right; simp only [List.cons_append]; rw [← h1]

theorem walk_nil (c : Comp) : walk c [] = .found c := by
  rw [walk]; simp

theorem walk_cons (c : Comp) (s : Str) (h : s ≠ []) :
    walk c s = match underlying c (splitFirst s).1 with
      | .found d => walk d (splitFirst s).2
      | .null => .null
      | .throws => .throws := by
  rw [walk, dif_neg h]
  cases underlying c (splitFirst s).1 <;> rfl

theorem underlying_found (c d : Comp) (s : Str) : underlying c s = .found d ↔ findChild c.children s = some d := by
  unfold underlying
  cases findChild c.children s with
  | some e => simp
  | none => simp; split <;> simp

/-- the rest of a printed locator -/
def tailLoc : List Str → Str
  | [] => []
  | n :: ns => n ++ ns.flatMap (fun n => '.' :: n)

theorem walk_tail (c e : Comp) (ns : List Str) (hn : ∀ n ∈ ns, GoodName n) (h : At c ns e) :
    walk c (tailLoc ns) = .found e := by
  induction h with
  | here c => exact walk_nil c
  | @down c d e n ns hf h' ih =>
    have hg := hn n (by simp)
    have ih' := ih (fun m hm => hn m (by simp [hm]))
    have hne : tailLoc (n :: ns) ≠ [] := by
      unfold tailLoc
      cases n with
      | nil => exact absurd rfl hg.1
      | cons _ _ => simp
    have hsplit : splitFirst (tailLoc (n :: ns)) = (n, tailLoc ns) := by
      unfold tailLoc
      cases ns with
      | nil => simpa using splitFirst_noDot n hg.2
      | cons m ms => simpa using splitFirst_dot n (m ++ ms.flatMap (fun n => '.' :: n)) hg.2
    rw [walk_cons _ _ hne, hsplit]
    simp only [(underlying_found c d n).mpr hf]
    exact ih'

theorem get_print (root : Comp) (ns : List Str) : get (some root) (print ns) = walk root (tailLoc ns) := by
  unfold get print
  cases ns with
  | nil => simp [splitFirst, tailLoc]
  | cons n ns =>
    have : ('.' : Char) ∉ ['$'] := by decide
    have h := splitFirst_dot ['$'] (n ++ ns.flatMap (fun n => '.' :: n)) this
    simp only [List.flatMap_cons, List.cons_append, List.nil_append] at h ⊢
    rw [h]
    simp [tailLoc]

/-- C03 (partial). In every component tree, following the printed locator of a path of good (non-empty, dot-free) names finds
    exactly the component at that path. Missing for the full claim: names containing a dot, see the negations. -/
theorem C03_get_by_path_partial (root c : Comp) (ns : List Str) (hn : ∀ n ∈ ns, GoodName n) (h : At root ns c) :
    get (some root) (print ns) = .found c := by
  rw [get_print]; exact walk_tail root c ns hn h

/-- C03 (partial). Round trip: in a well-located hierarchy with good names, `get(c.loc())` is `c` itself. Missing: names containing a dot (C03_negation_dotted_null, C03_negation_dotted_throws). -/
theorem C03_get_own_loc_partial (root c : Comp) (ns : List Str) (hw : WellLocated root)
    (hn : ∀ n ∈ ns, GoodName n) (h : At root ns c) : get (some root) c.loc = .found c := by
  rw [hw ns c h]; exact C03_get_by_path_partial root c ns hn h

theorem tailLoc_cons (n m : Str) (ms : List Str) : tailLoc (n :: m :: ms) = n ++ '.' :: tailLoc (m :: ms) := by
  simp [tailLoc]

theorem walk_found (c e : Comp) (s : Str) (h : walk c s = .found e) :
    ∃ ns, At c ns e ∧ (∀ n ∈ ns, '.' ∉ n) ∧
      ((s = [] ∧ ns = []) ∨ (s ≠ [] ∧ ns ≠ [] ∧ (s = tailLoc ns ∨ s = tailLoc ns ++ ['.']))) := by
  generalize hlen : s.length = n
  induction n using Nat.strongRecOn generalizing s c with
  | ind n ih =>
    by_cases hs : s = []
    · subst hs
      rw [walk_nil] at h; cases h
      exact ⟨[], At.here _, by simp, Or.inl ⟨rfl, rfl⟩⟩
    · rw [walk_cons c s hs] at h
      cases hu : underlying c (splitFirst s).1 with
      | null => rw [hu] at h; cases h
      | throws => rw [hu] at h; cases h
      | found d =>
        rw [hu] at h
        have h : walk d (splitFirst s).2 = .found e := h
        have hlt := splitFirst_snd_length s hs
        obtain ⟨ns, hat, hnd, hor⟩ := ih (splitFirst s).2.length (hlen ▸ hlt) d (splitFirst s).2 h rfl
        have hsp := splitFirst_spec s
        refine ⟨(splitFirst s).1 :: ns, At.down ((underlying_found _ _ _).mp hu) hat, ?_, Or.inr ⟨hs, by simp, ?_⟩⟩
        · intro n hn
          rcases List.mem_cons.mp hn with rfl | hn
          · exact hsp.1
          · exact hnd n hn
        · rcases hor with ⟨h2, rfl⟩ | ⟨hne0, hne, hor⟩
          · rw [h2] at hsp
            rcases hsp.2 with ⟨h1, _⟩ | h1
            · left; simpa [tailLoc] using h1
            · right; simpa [tailLoc] using h1
          · cases ns with
            | nil => exact absurd rfl hne
            | cons m ms =>
              rw [tailLoc_cons]
              rcases hsp.2 with ⟨h1, h2⟩ | h1
              · exact absurd h2 hne0
              · rcases hor with h3 | h3
                · left; rw [← h3]; exact h1
                · right; rw [List.append_assoc, List.cons_append, ← h3]; exact h1

/-- C03. Soundness for every locator string: whatever `get` returns is a component of the tree reached by dot-free names, and the
    locator is the printed path of these names (the code also tolerates one trailing dot). -/
theorem C03_get_sound (root c : Comp) (loc : Str) (h : get (some root) loc = .found c) :
    ∃ ns, At root ns c ∧ (∀ n ∈ ns, '.' ∉ n) ∧ (loc = print ns ∨ loc = print ns ++ ['.']) := by
  unfold get at h
  simp only at h
  split at h
  · cases h
  · split at h
    · cases h
    · next h1 h2 =>
      have h2 : (splitFirst loc).1 = ['$'] := Classical.not_not.mp h2
      obtain ⟨ns, hat, hnd, hor⟩ := walk_found _ _ _ h
      refine ⟨ns, hat, hnd, ?_⟩
      have hsp := (splitFirst_spec loc).2
      rw [h2] at hsp
      rcases hor with ⟨h3, rfl⟩ | ⟨h3, h4, hor⟩
      · rw [h3] at hsp
        rcases hsp with ⟨h5, _⟩ | h5
        · left; exact h5
        · right; exact h5
      · cases ns with
        | nil => exact absurd rfl h4
        | cons n ns =>
          have hp : print (n :: ns) = ['$'] ++ '.' :: tailLoc (n :: ns) := by simp [print, tailLoc]
          rcases hsp with ⟨_, h5⟩ | h5
          · exact absurd h5 h3
          · rcases hor with h6 | h6
            · left; rw [hp, ← h6]; exact h5
            · right; rw [h5, h6, hp]; simp

/-- C03. Ill-formed locators (no root registered, empty, not starting at '$') give null. -/
theorem C03_get_malformed (root : Option Comp) (loc : Str) :
    get none loc = .null ∧ get root [] = .null ∧
    ((splitFirst loc).1 ≠ ['$'] → get root loc = .null) := by
  refine ⟨rfl, ?_, ?_⟩
  · cases root <;> simp [get]
  · intro h; cases root with
    | none => rfl
    | some r => simp only [get]; split
                · rfl
                · simp

/-- A non-trivial well-located tree. -/
def exTree : Comp :=
  .mk 0 "$".toList false [("assets".toList, .mk 1 "$.assets".toList false
    [("obj".toList, .mk 2 "$.assets.obj".toList true [("mesh_0".toList, .mk 3 "$.assets.obj.mesh_0".toList false [])]),
     ("film".toList, .mk 4 "$.assets.film".toList false [])])]

/-- Non-vacuity of C03_get_by_path_partial / C03_get_own_loc_partial. -/
example : At exTree ["assets".toList, "obj".toList, "mesh_0".toList] (.mk 3 "$.assets.obj.mesh_0".toList false []) ∧
    ∀ n ∈ ["assets".toList, "obj".toList, "mesh_0".toList], GoodName n := by
  refine ⟨At.down rfl (At.down rfl (At.down rfl (At.here _))), ?_⟩
  intro n hn
  simp only [List.mem_cons, List.mem_nil_iff, or_false] at hn
  unfold GoodName
  rcases hn with rfl | rfl | rfl <;> decide

theorem At_nil_inv {c d : Comp} (h : At c [] d) : d = c := by cases h; rfl

/-- the example tree is well located -/
theorem exTree_wellLocated : WellLocated exTree := by
  intro ns c h
  have inv : ∀ {c d : Comp} {n : Str} {ns : List Str}, At c (n :: ns) d → ∃ e, findChild c.children n = some e ∧ At e ns d := by
    intro c d n ns h; cases h with | down h h' => exact ⟨_, h, h'⟩
  have leaf : ∀ (i : Nat) (l : Str) (b : Bool) (ns : List Str) (d : Comp), At (.mk i l b []) ns d → ns = [] ∧ d = .mk i l b [] := by
    intro i l b ns d h
    cases h with
    | here => exact ⟨rfl, rfl⟩
    | down h _ => simp [Comp.children, findChild] at h
  have e1 : ∀ {n : Str} {e : Comp}, findChild exTree.children n = some e → n = "assets".toList ∧ e =
      .mk 1 "$.assets".toList false
        [("obj".toList, .mk 2 "$.assets.obj".toList true [("mesh_0".toList, .mk 3 "$.assets.obj.mesh_0".toList false [])]),
         ("film".toList, .mk 4 "$.assets.film".toList false [])] := by
    intro n e h
    unfold exTree Comp.children findChild at h
    by_cases hn : "assets".toList = n
    · rw [if_pos hn] at h; exact ⟨hn.symm, by injection h with h; exact h.symm⟩
    · rw [if_neg hn] at h; cases h
  cases ns with
  | nil => rw [At_nil_inv h]; decide
  | cons n ns =>
    obtain ⟨e, h1, ha⟩ := inv h
    obtain ⟨rfl, rfl⟩ := e1 h1
    cases ns with
    | nil => rw [At_nil_inv ha]; decide
    | cons n ns =>
      obtain ⟨e, h1, hb⟩ := inv ha
      unfold Comp.children findChild at h1
      by_cases hn : "obj".toList = n
      · rw [if_pos hn] at h1; injection h1 with h1; subst h1; subst hn
        cases ns with
        | nil => rw [At_nil_inv hb]; decide
        | cons n ns =>
          obtain ⟨e, h1, hc⟩ := inv hb
          unfold Comp.children findChild at h1
          by_cases hn : "mesh_0".toList = n
          · rw [if_pos hn] at h1; injection h1 with h1; subst h1; subst hn
            obtain ⟨rfl, rfl⟩ := leaf _ _ _ _ _ hc
            decide
          · rw [if_neg hn] at h1; cases h1
      · rw [if_neg hn] at h1
        unfold findChild at h1
        by_cases hn : "film".toList = n
        · rw [if_pos hn] at h1; injection h1 with h1; subst h1; subst hn
          obtain ⟨rfl, rfl⟩ := leaf _ _ _ _ _ hb
          decide
        · rw [if_neg hn] at h1; cases h1

example : get (some exTree) "$.assets.obj.mesh_0".toList = .found (.mk 3 "$.assets.obj.mesh_0".toList false []) :=
  C03_get_own_loc_partial exTree (.mk 3 "$.assets.obj.mesh_0".toList false []) ["assets".toList, "obj".toList, "mesh_0".toList]
    exTree_wellLocated (by
      intro n hn
      simp only [List.mem_cons, List.mem_nil_iff, or_false] at hn
      unfold GoodName
      rcases hn with rfl | rfl | rfl <;> decide)
    (At.down rfl (At.down rfl (At.down rfl (At.here _))))

/-- A tree as produced by `model::wavefrontobj` (strict: its `underlying` uses `.at`, model_wavefrontobj.cpp:70-72) for an OBJ
    material called "Material.001": the material's locator is make_loc(m.name) (model_wavefrontobj.cpp:121,168,...). -/
def dottedTree (strict : Bool) : Comp :=
  .mk 0 "$".toList false [("m".toList, .mk 1 "$.m".toList strict
    [("Material.001".toList, .mk 2 "$.m.Material.001".toList false [])])]

theorem splitFirst_eval (l a b : Str) (h : splitFirst l = (a, b)) : (splitFirst l).1 = a ∧ (splitFirst l).2 = b := by
  rw [h]; exact ⟨rfl, rfl⟩

/-- C03, negation (as the code is): a component whose name contains a dot cannot be found through its own locator,
    although the hierarchy is well located: lookup answers null, ... -/
theorem C03_negation_dotted_null :
    ∃ root c ns, At root ns c ∧ c.loc = print ns ∧ get (some root) c.loc = .null := by
  refine ⟨dottedTree false, .mk 2 "$.m.Material.001".toList false [], ["m".toList, "Material.001".toList],
    At.down rfl (At.down rfl (At.here _)), by decide, ?_⟩
  have e : get (some (dottedTree false)) "$.m.Material.001".toList = walk (dottedTree false) "m.Material.001".toList := by
    unfold get
    rw [(splitFirst_eval "$.m.Material.001".toList "$".toList "m.Material.001".toList (by decide)).1,
      (splitFirst_eval "$.m.Material.001".toList "$".toList "m.Material.001".toList (by decide)).2]
    rfl
  show get _ "$.m.Material.001".toList = _
  rw [e, walk_cons _ _ (by decide),
    (splitFirst_eval "m.Material.001".toList "m".toList "Material.001".toList (by decide)).1,
    (splitFirst_eval "m.Material.001".toList "m".toList "Material.001".toList (by decide)).2]
  have : underlying (dottedTree false) "m".toList = .found (.mk 1 "$.m".toList false
    [("Material.001".toList, .mk 2 "$.m.Material.001".toList false [])]) := by
    rw [underlying_found]; rfl
  rw [this]
  show walk _ "Material.001".toList = _
  rw [walk_cons _ _ (by decide),
    (splitFirst_eval "Material.001".toList "Material".toList "001".toList (by decide)).1]
  rfl

/-- C03, negation: ... and for materials inside `model::wavefrontobj` it even throws `std::out_of_range`. -/
theorem C03_negation_dotted_throws :
    ∃ root c ns, At root ns c ∧ c.loc = print ns ∧ get (some root) c.loc = .throws := by
  refine ⟨dottedTree true, .mk 2 "$.m.Material.001".toList false [], ["m".toList, "Material.001".toList],
    At.down rfl (At.down rfl (At.here _)), by decide, ?_⟩
  have e : get (some (dottedTree true)) "$.m.Material.001".toList = walk (dottedTree true) "m.Material.001".toList := by
    unfold get
    rw [(splitFirst_eval "$.m.Material.001".toList "$".toList "m.Material.001".toList (by decide)).1,
      (splitFirst_eval "$.m.Material.001".toList "$".toList "m.Material.001".toList (by decide)).2]
    rfl
  show get _ "$.m.Material.001".toList = _
  rw [e, walk_cons _ _ (by decide),
    (splitFirst_eval "m.Material.001".toList "m".toList "Material.001".toList (by decide)).1,
    (splitFirst_eval "m.Material.001".toList "m".toList "Material.001".toList (by decide)).2]
  have : underlying (dottedTree true) "m".toList = .found (.mk 1 "$.m".toList true
    [("Material.001".toList, .mk 2 "$.m.Material.001".toList false [])]) := by
    rw [underlying_found]; rfl
  rw [this]
  show walk _ "Material.001".toList = _
  rw [walk_cons _ _ (by decide),
    (splitFirst_eval "Material.001".toList "Material".toList "001".toList (by decide)).1]
  rfl

/-! ### C04: locator algebra -/

theorem splitLast_noDot (s : Str) (h : '.' ∉ s) : splitLast s = none := by
  induction s with
  | nil => rfl
  | cons c cs ih =>
    have h1 : c ≠ '.' := fun e => h (by simp [e])
    have h2 : '.' ∉ cs := fun e => h (by simp [e])
    simp [splitLast, h1, ih h2]

theorem splitLast_dot (b n : Str) (h : '.' ∉ n) : splitLast (b ++ '.' :: n) = some (b, n) := by
  induction b with
  | nil => simp [splitLast, splitLast_noDot n h]
  | cons c cs ih => simp [splitLast, ih]

/-- C04. Name and parent of a made locator are what it was made from (for names without a dot). -/
theorem C04_name_parent_of_make (base child loc : Str) (hn : '.' ∉ child) (h : makeLoc base child = some loc) :
    name loc = some child ∧ parentLoc loc = base := by
  unfold makeLoc at h
  split at h
  · cases h
  · cases h
    unfold name parentLoc
    rw [splitLast_dot base child hn]
    exact ⟨rfl, rfl⟩

/-- C04. make_loc is injective on dot-free names. -/
theorem C04_make_injective (b b' c c' loc : Str) (hc : '.' ∉ c) (hc' : '.' ∉ c')
    (h : makeLoc b c = some loc) (h' : makeLoc b' c' = some loc) : b = b' ∧ c = c' := by
  have h1 := C04_name_parent_of_make b c loc hc h
  have h2 := C04_name_parent_of_make b' c' loc hc' h'
  refine ⟨?_, ?_⟩
  · rw [← h1.2, ← h2.2]
  · have := h1.1.symm.trans h2.1; simpa using this

/-- C04. make_loc succeeds exactly on non-empty arguments. -/
theorem C04_make_defined (b c : Str) : makeLoc b c ≠ none ↔ b ≠ [] ∧ c ≠ [] := by
  unfold makeLoc
  cases b <;> cases c <;> simp

/-- C04. A locator without a dot has the empty parent (and no name). -/
theorem C04_root (loc : Str) (h : '.' ∉ loc) : parentLoc loc = [] ∧ name loc = none := by
  unfold parentLoc name; rw [splitLast_noDot loc h]; exact ⟨rfl, rfl⟩

example : makeLoc "$.assets".toList "film".toList = some "$.assets.film".toList ∧ '.' ∉ "film".toList := by decide

/-- C04, boundary: dotted names: name/parent do not return what the locator was made from. -/
theorem C04_boundary_dotted : makeLoc "$.m".toList "a.b".toList = some "$.m.a.b".toList ∧
    name "$.m.a.b".toList = some "b".toList ∧ parentLoc "$.m.a.b".toList = "$.m.a".toList := by decide

end LM.Locator
