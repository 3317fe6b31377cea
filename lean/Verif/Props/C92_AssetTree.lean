import Verif.Model.AssetTree
import Verif.Props.C64_Logger
/-
  C92: The printed tree of assets.
-/
namespace LM.AssetTree
open LM.Log

/-! ### Specification -/

mutual
/-- The components a component consists of, itself first: the level below the group of assets, the locator, the key. -/
def Comp.parts (level : ℕ) : Comp → List (ℕ × Text × Text)
  | .mk loc key _ fields => (level, loc, key) :: fields.parts (level + 1)
/-- All components owned by a component, each before the components it owns. -/
def Slots.parts (level : ℕ) : Slots → List (ℕ × Text × Text)
  | .nil => []
  | .null r => r.parts level
  | .weak _ r => r.parts level
  | .owned c r => c.parts level ++ r.parts level
end

mutual
/-- The weak references of a component and of its parts: the level, the locator of the target. -/
def Comp.refs (level : ℕ) : Comp → List (ℕ × Text)
  | .mk _ _ _ fields => fields.refs (level + 1)
/-- The weak references among the members and below. -/
def Slots.refs (level : ℕ) : Slots → List (ℕ × Text)
  | .nil => []
  | .null r => r.refs level
  | .weak loc r => (level, loc) :: r.refs level
  | .owned c r => c.refs level ++ r.refs level
end

mutual
/-- Locators: a component is located below its owner (component.h:196, comp::create), and no locator or key contains a line break. -/
def Comp.Located (parent : Text) : Comp → Prop
  | .mk loc key _ fields => (∃ name, loc = parent ++ '.' :: name) ∧ '\n' ∉ loc ∧ '\n' ∉ key ∧ fields.Located loc
/-- The same for the members. -/
def Slots.Located (parent : Text) : Slots → Prop
  | .nil => True
  | .null r => r.Located parent
  | .weak loc r => '\n' ∉ loc ∧ r.Located parent
  | .owned c r => c.Located parent ∧ r.Located parent
end

mutual
/-- All components report their members. -/
def Comp.Reports : Comp → Prop
  | .mk _ _ silent fields => silent = false ∧ fields.Reports
/-- The same for the members. -/
def Slots.Reports : Slots → Prop
  | .nil => True
  | .null r => r.Reports
  | .weak _ r => r.Reports
  | .owned c r => c.Reports ∧ r.Reports
end

/-- A line of the listing: of a component (level, what is shown of its locator, its key), or of a reference. -/
inductive Line
  | comp (level : ℕ) (id key : Text)
  | ref (level : ℕ) (loc : Text)

/-- The level of a line: its indentation. -/
def Line.level : Line → ℕ
  | .comp l _ _ => l
  | .ref l _ => l

/-- What is written in the line. -/
def Line.text : Line → Text
  | .comp _ id key => id ++ " [".toList ++ key ++ "]".toList
  | .ref _ loc => "-> ".toList ++ loc

/-- How a reader finds the full locators: the locator of a component is that of the line it is indented below (the last one with a smaller level), followed by what is shown. `above` are the locators of the lines the next line may be below. -/
def readLocs (above : List Text) : List Line → List (ℕ × Text × Text)
  | [] => []
  | .ref _ _ :: ls => readLocs above ls
  | .comp level id key :: ls =>
    let loc := (above.take level).getLast?.elim [] (· ++ id)
    (level, loc, key) :: readLocs (above.take level ++ [loc]) ls

/-- The references in the listing. -/
def readRefs (ls : List Line) : List (ℕ × Text) := ls.filterMap fun | .ref l loc => some (l, loc) | .comp _ _ _ => none

/-- The text of the lines, with headers and indentation: two dots for each level above the base, then a space. -/
def written (hdr : ℕ → Text) (base : Int) : ℕ → List Line → Text
  | _, [] => []
  | n, l :: ls => hdr n ++ dots (base + l.level) ++ l.text ++ ['\n'] ++ written hdr base (n + 1) ls

/-! ### The lines -/

mutual
def Comp.lines (w : Bool) (level : ℕ) (parent : Text) : Comp → List Line
  | .mk loc key silent fields => .comp level (loc.drop parent.length) key :: (if silent then [] else fields.lines w (level + 1) loc)
def Slots.lines (w : Bool) (level : ℕ) (parent : Text) : Slots → List Line
  | .nil => []
  | .null r => r.lines w level parent
  | .weak loc r => (if w then [.ref level loc] else []) ++ r.lines w level parent
  | .owned c r => c.lines w level parent ++ r.lines w level parent
end

theorem written_append (hdr : ℕ → Text) (base : Int) (n : ℕ) (a b : List Line) : written hdr base n (a ++ b) = written hdr base n a ++ written hdr base (n + a.length) b := by
  induction a generalizing n with
  | nil => rfl
  | cons l a ih => simp [written, ih, Nat.add_assoc, Nat.add_comm 1]

theorem play_append (hdr : ℕ → Text) (n : ℕ) (a b : List Cmd) : play hdr n (a ++ b) = play hdr n a ++ play hdr (n + (a.filter fun | .info _ => true | _ => false).length) b := by
  induction a generalizing n with
  | nil => rfl
  | cons c a ih => cases c <;> simp [play, ih, Nat.add_assoc, Nat.add_comm 1]

/-- The number of messages. -/
abbrev infos (cs : List Cmd) : ℕ := (cs.filter fun | .info _ => true | _ => false).length

mutual
theorem infos_visit (w : Bool) (p : Text) : ∀ (c : Comp) (level : ℕ), infos (visit w p c) = (c.lines w level p).length
  | .mk loc key silent fields, level => by
    cases silent
    · have := infos_visitAll w loc fields (level + 1)
      simp only [infos] at this
      simp [visit, Comp.lines, infos, this]
    · simp [visit, Comp.lines, infos]
theorem infos_visitAll (w : Bool) (p : Text) : ∀ (s : Slots) (level : ℕ), infos (visitAll w p s) = (s.lines w level p).length
  | .nil, _ => rfl
  | .null r, level => infos_visitAll w p r level
  | .weak loc r, level => by
    have := infos_visitAll w p r level
    simp only [infos] at this
    cases w <;> simp [visitAll, Slots.lines, infos, this]
  | .owned c r, level => by
    have h1 := infos_visit w p c level
    have h2 := infos_visitAll w p r level
    simp only [infos] at h1 h2
    simp [visitAll, Slots.lines, infos, h1, h2]
end

/-- The logger at a level of indentation. -/
structure At (s : St) (sev base : Int) : Prop where
  ctx : s.ctx = some ⟨sev, base, dots base⟩
  nonneg : 0 ≤ base

theorem log_at {dflt : Int} {s : St} {sev base : Int} (h : At s sev base) (hsev : sev ≤ infoLevel) (header msg : Text) (hm : msg ≠ []) (hn : '\n' ∉ msg) :
    (step dflt s (.log infoLevel infoLevel header msg)).out = s.out ++ (header ++ dots base ++ msg ++ ['\n']) ∧ At (step dflt s (.log infoLevel infoLevel header msg)) sev base := by
  have hg : getlines [] msg = [msg] := by
    have h1 := getlines_spec msg [] (by simp) (by simpa using hm)
    have h2 := lines_unique (getlines [] msg) [msg] h1.1 (by simpa using hn) (by
      rw [h1.2]
      simp only [List.nil_append, List.flatMap_cons, List.flatMap_nil, List.append_nil]
      rw [if_neg]
      intro hc
      exact hn (List.mem_of_getLast? hc))
    exact h2
  have e : step dflt s (.log infoLevel infoLevel header msg) = { s with out := s.out ++ (header ++ dots base ++ msg ++ ['\n']) } := by
    simp only [step, h.ctx, ctxLog]
    rw [if_neg (by omega), if_neg (by decide), if_neg hm, hg]
    simp [processLine]
  rw [e]
  exact ⟨rfl, h.ctx, h.nonneg⟩

theorem indent_at {dflt : Int} {s : St} {sev base : Int} (h : At s sev base) : (step dflt s (.updateIndentation 1)).out = s.out ∧ At (step dflt s (.updateIndentation 1)) sev (base + 1) := by
  refine ⟨rfl, ?_, by linarith [h.nonneg]⟩
  have := h.nonneg
  simp only [step, h.ctx, Option.map_some, ctxIndent, dots]
  rw [if_pos (by omega), if_pos (by omega)]

theorem unindent_at {dflt : Int} {s : St} {sev base : Int} (h : At s sev (base + 1)) (hb : 0 ≤ base) : (step dflt s (.updateIndentation (-1))).out = s.out ∧ At (step dflt s (.updateIndentation (-1))) sev base := by
  refine ⟨rfl, ?_, hb⟩
  simp only [step, h.ctx, Option.map_some, ctxIndent, dots]
  rw [show base + 1 + -1 = base by omega]
  by_cases h0 : base > 0
  · simp [h0]
  · have : base = 0 := by omega
    simp [this]

theorem text_ne {id key : Text} : id ++ " [".toList ++ key ++ "]".toList ≠ [] := by simp

theorem not_mem_drop {l : Text} {n : ℕ} (h : '\n' ∉ l) : '\n' ∉ l.drop n := fun hc => h (List.mem_of_mem_drop hc)

mutual
theorem visit_out (dflt sev base : Int) (hsev : sev ≤ infoLevel) (w : Bool) (hdr : ℕ → Text) (p : Text) : ∀ (c : Comp) (level n : ℕ) (s : St), c.Located p → 0 ≤ base → At s sev (base + level) →
    ((play hdr n (visit w p c)).foldl (step dflt) s).out = s.out ++ written hdr base n (c.lines w level p) ∧ At ((play hdr n (visit w p c)).foldl (step dflt) s) sev (base + level)
  | .mk loc key silent fields, level, n, s, hl, hb, hs => by
    obtain ⟨hloc, hnl, hnk, hf⟩ := hl
    obtain ⟨o1, a1⟩ := log_at (dflt := dflt) hs hsev (hdr n) (loc.drop p.length ++ " [".toList ++ key ++ "]".toList) text_ne (by
      simp only [List.mem_append, not_or]
      exact ⟨⟨⟨not_mem_drop hnl, by decide⟩, hnk⟩, by decide⟩)
    obtain ⟨o2, a2⟩ := indent_at (dflt := dflt) a1
    rw [show base + (level : Int) + 1 = base + ((level + 1 : ℕ) : Int) by push_cast; omega] at a2
    cases silent
    · obtain ⟨o3, a3⟩ := visitAll_out dflt sev base hsev w hdr loc fields (level + 1) (n + 1) _ hf hb a2
      rw [show base + ((level + 1 : ℕ) : Int) = base + (level : Int) + 1 by push_cast; omega] at a3
      obtain ⟨o4, a4⟩ := unindent_at (dflt := dflt) a3 (by omega)
      simp only [visit, play, List.foldl_cons, play_append, List.foldl_append, List.foldl_nil, Bool.false_eq_true, if_false]
      refine ⟨?_, a4⟩
      rw [o4, o3, o2, o1]
      simp [Comp.lines, written, Line.level, Line.text]
    · rw [show base + ((level + 1 : ℕ) : Int) = base + (level : Int) + 1 by push_cast; omega] at a2
      obtain ⟨o4, a4⟩ := unindent_at (dflt := dflt) a2 (by omega)
      simp only [visit, play, List.foldl_cons, if_true, List.nil_append, List.foldl_nil]
      refine ⟨?_, a4⟩
      rw [o4, o2, o1]
      simp [Comp.lines, written, Line.level, Line.text]
theorem visitAll_out (dflt sev base : Int) (hsev : sev ≤ infoLevel) (w : Bool) (hdr : ℕ → Text) (p : Text) : ∀ (sl : Slots) (level n : ℕ) (s : St), sl.Located p → 0 ≤ base → At s sev (base + level) →
    ((play hdr n (visitAll w p sl)).foldl (step dflt) s).out = s.out ++ written hdr base n (sl.lines w level p) ∧ At ((play hdr n (visitAll w p sl)).foldl (step dflt) s) sev (base + level)
  | .nil, level, n, s, _, _, hs => ⟨by simp [visitAll, play, Slots.lines, written], hs⟩
  | .null r, level, n, s, hl, hb, hs => visitAll_out dflt sev base hsev w hdr p r level n s hl hb hs
  | .weak loc r, level, n, s, hl, hb, hs => by
    cases w
    · simpa [visitAll, Slots.lines] using visitAll_out dflt sev base hsev false hdr p r level n s hl.2 hb hs
    · obtain ⟨o1, a1⟩ := log_at (dflt := dflt) hs hsev (hdr n) ("-> ".toList ++ loc) (by simp) (by
        simp only [List.mem_append, not_or]
        exact ⟨by decide, hl.1⟩)
      obtain ⟨o2, a2⟩ := visitAll_out dflt sev base hsev true hdr p r level (n + 1) _ hl.2 hb a1
      simp only [visitAll, if_true, List.singleton_append, play, List.foldl_cons]
      refine ⟨?_, a2⟩
      rw [o2, o1]
      simp [Slots.lines, written, Line.level, Line.text]
  | .owned c r, level, n, s, hl, hb, hs => by
    obtain ⟨o1, a1⟩ := visit_out dflt sev base hsev w hdr p c level n s hl.1 hb hs
    obtain ⟨o2, a2⟩ := visitAll_out dflt sev base hsev w hdr p r level (n + infos (visit w p c)) _ hl.2 hb a1
    simp only [visitAll, play_append, List.foldl_append]
    refine ⟨?_, a2⟩
    rw [o2, o1, infos_visit w p c level]
    simp [Slots.lines, written_append]
end

/-! ### Reading the listing -/

/-- Continue reading after some lines: the locators above up to a level are the same. -/
theorem read_ref (above : List Text) (l : ℕ) (loc : Text) (ls : List Line) : readLocs above (.ref l loc :: ls) = readLocs above ls := rfl

mutual
theorem read_visit (w : Bool) : ∀ (c : Comp) (p : Text) (base : List Text) (above : List Text), c.Located p → c.Reports → above.take base.length = base → base.getLast? = some p →
    ∃ above', above'.take base.length = base ∧ ∀ rest, readLocs above (c.lines w base.length p ++ rest) = c.parts base.length ++ readLocs above' rest
  | .mk loc key silent fields, p, base, above, hl, hr, ha, hb => by
    obtain ⟨⟨name, rfl⟩, _, _, hf⟩ := hl
    obtain ⟨rfl, hr⟩ := hr
    have hlen : (base ++ [p ++ '.' :: name]).length = base.length + 1 := by simp
    obtain ⟨ab, h1, h2⟩ := read_visitAll w fields (p ++ '.' :: name) (base ++ [p ++ '.' :: name]) (base ++ [p ++ '.' :: name]) hf hr (by simp) (by simp)
    refine ⟨ab, ?_, fun rest => ?_⟩
    · have := congrArg (List.take base.length) h1
      rw [List.take_take, hlen, Nat.min_eq_left (by omega)] at this
      simpa using this
    · rw [hlen] at h2
      simp only [Comp.lines, List.drop_left, Bool.false_eq_true, if_false, List.cons_append, readLocs, ha, hb, Option.elim, Comp.parts, h2]
theorem read_visitAll (w : Bool) : ∀ (s : Slots) (p : Text) (base : List Text) (above : List Text), s.Located p → s.Reports → above.take base.length = base → base.getLast? = some p →
    ∃ above', above'.take base.length = base ∧ ∀ rest, readLocs above (s.lines w base.length p ++ rest) = s.parts base.length ++ readLocs above' rest
  | .nil, p, base, above, _, _, ha, _ => ⟨above, ha, fun rest => rfl⟩
  | .null r, p, base, above, hl, hr, ha, hb => read_visitAll w r p base above hl hr ha hb
  | .weak loc r, p, base, above, hl, hr, ha, hb => by
    obtain ⟨ab, h1, h2⟩ := read_visitAll w r p base above hl.2 hr ha hb
    refine ⟨ab, h1, fun rest => ?_⟩
    cases w
    · simpa [Slots.lines, Slots.parts] using h2 rest
    · simpa [Slots.lines, Slots.parts, readLocs] using h2 rest
  | .owned c r, p, base, above, hl, hr, ha, hb => by
    obtain ⟨ab, h1, h2⟩ := read_visit w c p base above hl.1 hr.1 ha hb
    obtain ⟨ab', h3, h4⟩ := read_visitAll w r p base ab hl.2 hr.2 h1 hb
    refine ⟨ab', h3, fun rest => ?_⟩
    simp only [Slots.lines, Slots.parts, List.append_assoc]
    rw [h2, h4]
end

mutual
theorem refs_visit : ∀ (c : Comp) (level : ℕ) (p : Text), c.Reports → readRefs (c.lines true level p) = c.refs level ∧ readRefs (c.lines false level p) = []
  | .mk loc key silent fields, level, p, hr => by
    obtain ⟨rfl, hr⟩ := hr
    have := refs_visitAll fields (level + 1) loc hr
    simp only [readRefs] at this
    simpa [readRefs, Comp.lines, Comp.refs] using this
theorem refs_visitAll : ∀ (s : Slots) (level : ℕ) (p : Text), s.Reports → readRefs (s.lines true level p) = s.refs level ∧ readRefs (s.lines false level p) = []
  | .nil, _, _, _ => ⟨rfl, rfl⟩
  | .null r, level, p, hr => refs_visitAll r level p hr
  | .weak loc r, level, p, hr => by
    have := refs_visitAll r level p hr
    simp only [readRefs] at this
    simpa [readRefs, Slots.lines, Slots.refs] using this
  | .owned c r, level, p, hr => by
    have h1 := refs_visit c level p hr.1
    have h2 := refs_visitAll r level p hr.2
    simp only [readRefs] at h1 h2
    simp only [readRefs, Slots.lines, Slots.refs, List.filterMap_append, h1, h2]
    simp
end

/-! ### Theorems -/

/-- C92: for every tree of assets whose classes report their members, printing the tree writes one line for the group and one for each owned component, indented below its owner by one level, from which the reader
    gets back exactly the owned components with their levels, locators and keys, each once; with the option, one line for each weak reference at its place, without it none. The indentation of the logger is afterwards as before.
    Missing: classes that do not report their members (`C92_negation_silent`). -/
theorem C92_tree_partial (dflt sev base : Int) (hsev : sev ≤ infoLevel) (s : St) (hs : s.ctx = some ⟨sev, base, dots base⟩) (hb : 0 ≤ base) (weakRefs : Bool) (assets : Slots) (hl : assets.Located root) (hr : assets.Reports) (hdr : ℕ → Text) :
    ∃ lines, ((play hdr 0 (printTree weakRefs assets)).foldl (step dflt) s).out = s.out ++ (hdr 0 ++ dots base ++ root ++ ['\n']) ++ written hdr base 1 lines ∧
      readLocs [root] lines = assets.parts 1 ∧ readRefs lines = (if weakRefs then assets.refs 1 else []) ∧
      ((play hdr 0 (printTree weakRefs assets)).foldl (step dflt) s).ctx = s.ctx := by
  refine ⟨assets.lines weakRefs 1 root, ?_⟩
  obtain ⟨o1, a1⟩ := log_at (dflt := dflt) ⟨hs, hb⟩ hsev (hdr 0) root (by decide) (by decide)
  obtain ⟨o2, a2⟩ := indent_at (dflt := dflt) a1
  obtain ⟨o3, a3⟩ := visitAll_out dflt sev base hsev weakRefs hdr root assets 1 1 _ hl hb (by simpa using a2)
  obtain ⟨o4, a4⟩ := unindent_at (dflt := dflt) (by simpa using a3) hb
  obtain ⟨_, _, hread⟩ := read_visitAll weakRefs assets root [root] [root] hl hr rfl rfl
  have hread := hread []
  simp only [List.append_nil, readLocs, List.length_singleton] at hread
  have hrefs := refs_visitAll assets 1 root hr
  simp only [printTree, play, List.foldl_cons, play_append, List.foldl_append, List.foldl_nil]
  refine ⟨?_, hread, ?_, ?_⟩
  · rw [o4, o3, o2, o1]
  · cases weakRefs
    · exact hrefs.2
    · exact hrefs.1
  · rw [a4.ctx, hs]

/-- C92: with a severity above the information level nothing is printed, and the indentation is afterwards as before. -/
theorem C92_remark_silent (dflt sev : Int) (hsev : infoLevel < sev) (s : St) (c : Ctx) (hs : s.ctx = some c) (hc : c.severity = sev) (weakRefs : Bool) (assets : Slots) (hdr : ℕ → Text) :
    ((play hdr 0 (printTree weakRefs assets)).foldl (step dflt) s).out = s.out := by
  generalize printTree weakRefs assets = cs
  generalize 0 = n
  induction cs generalizing n s c with
  | nil => rfl
  | cons x cs ih =>
    cases x with
    | info m =>
      have e : step dflt s (.log infoLevel infoLevel (hdr n) m) = s := by
        simp only [step, hs, ctxLog]
        rw [if_pos (by omega)]
      simp only [play, List.foldl_cons, e]
      exact ih s c hs hc _
    | indent =>
      simp only [play, List.foldl_cons]
      refine (ih (step dflt s (.updateIndentation 1)) (ctxIndent c 1) (by simp [step, hs]) ?_ n).trans rfl
      unfold ctxIndent; dsimp only; split <;> exact hc
    | unindent =>
      simp only [play, List.foldl_cons]
      refine (ih (step dflt s (.updateIndentation (-1))) (ctxIndent c (-1)) (by simp [step, hs]) ?_ n).trans rfl
      unfold ctxIndent; dsimp only; split <;> exact hc

/-- The components owned by a component that does not report them are missing in the listing: only the line of their owner is printed. E.g. renderer::bdpt owns a scheduler, a model of a PBRT scene its meshes. -/
theorem C92_negation_silent (dflt sev base : Int) (hsev : sev ≤ infoLevel) (s : St) (hs : s.ctx = some ⟨sev, base, dots base⟩) (hb : 0 ≤ base) (weakRefs : Bool) (name key : Text) (fields : Slots) (hdr : ℕ → Text)
    (hl : (Slots.owned (.mk (root ++ '.' :: name) key true fields) .nil).Located root) (hf : fields.parts 2 ≠ []) :
    ((play hdr 0 (printTree weakRefs (.owned (.mk (root ++ '.' :: name) key true fields) .nil))).foldl (step dflt) s).out =
      s.out ++ (hdr 0 ++ dots base ++ root ++ ['\n']) ++ (hdr 1 ++ dots (base + 1) ++ ('.' :: name ++ " [".toList ++ key ++ "]".toList) ++ ['\n']) ∧
    (Slots.owned (.mk (root ++ '.' :: name) key true fields) .nil).parts 1 ≠ [(1, root ++ '.' :: name, key)] := by
  constructor
  · obtain ⟨o1, a1⟩ := log_at (dflt := dflt) ⟨hs, hb⟩ hsev (hdr 0) root (by decide) (by decide)
    obtain ⟨o2, a2⟩ := indent_at (dflt := dflt) a1
    obtain ⟨o3, a3⟩ := visitAll_out dflt sev base hsev weakRefs hdr root _ 1 1 _ hl hb (by simpa using a2)
    obtain ⟨o4, a4⟩ := unindent_at (dflt := dflt) (by simpa using a3) hb
    simp only [printTree, play, List.foldl_cons, play_append, List.foldl_append, List.foldl_nil]
    rw [o4, o3, o2, o1]
    simp [Slots.lines, Comp.lines, written, Line.level, Line.text]
  · simp only [Slots.parts, Comp.parts, List.append_nil]
    intro h
    exact hf (by simpa using h)

/-- A tree that meets the hypotheses: a mesh, and a model with a material that refers to a texture. -/
def exTree : Slots :=
  .owned (.mk "$.assets.ball".toList "mesh::raw".toList false .nil) (.owned (.mk "$.assets.obj".toList "model::wavefrontobj".toList false
    (.owned (.mk "$.assets.obj.red".toList "material::diffuse".toList false (.weak "$.assets.wood".toList (.null .nil))) .nil)) (.owned (.mk "$.assets.wood".toList "texture::bitmap".toList false .nil) .nil))

example : exTree.Located root ∧ exTree.Reports ∧
    (exTree.parts 1).map (fun x => (x.1, String.ofList x.2.1)) = [(1, "$.assets.ball"), (1, "$.assets.obj"), (2, "$.assets.obj.red"), (1, "$.assets.wood")] ∧
    String.ofList ((play (fun _ => []) 0 (printTree true exTree)).foldl (step 0) { ctx := some ⟨0, 0, []⟩ }).out =
      "$.assets\n.. .ball [mesh::raw]\n.. .obj [model::wavefrontobj]\n.... .red [material::diffuse]\n...... -> $.assets.wood\n.. .wood [texture::bitmap]\n" := by
  refine ⟨?_, ?_, ?_, ?_⟩
  · exact ⟨⟨⟨"ball".toList, by decide⟩, by decide, by decide, trivial⟩, ⟨⟨"obj".toList, by decide⟩, by decide, by decide, ⟨⟨"red".toList, by decide⟩, by decide, by decide, by decide, trivial⟩, trivial⟩,
      ⟨⟨"wood".toList, by decide⟩, by decide, by decide, trivial⟩, trivial⟩
  · exact ⟨⟨rfl, trivial⟩, ⟨rfl, ⟨rfl, trivial⟩, trivial⟩, ⟨rfl, trivial⟩, trivial⟩
  · decide
  · set_option maxRecDepth 8000 in decide

end LM.AssetTree
