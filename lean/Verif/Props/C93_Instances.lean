import Verif.Model.AccelLib
import Verif.Props.C89_Query
/-
  C93, first part: flattening the scene graph with one level of instances gives the same primitives, with the same transforms and in the same order, as the full traversal.
-/
namespace LM.Accel
open LM LM.Surface LM.Scene

section
variable {Mat : Type} [Monoid Mat]

/-- The primitives among the visited nodes, with their transforms. -/
def primsOf (nodes : List (Scene.Node Mat)) (out : List (Int × Mat)) : List (Mat × Int) :=
  out.filterMap (fun v => match at? nodes v.1 with
    | some (.prim idx _) => some (v.2, idx)
    | _ => none)

/-- A flattened scene that consists of primitives only. -/
def mkPrims (k : ℕ) (ps : List (Mat × Int)) : List (FNode Mat) := (ps.zipIdx k).map (fun q => .prim q.2 q.1.1 q.1.2)

/-- What a flattened scene stands for: a primitive is itself; an instance is the primitives of the flattened scene it refers to, moved by its transform. -/
inductive Expands (scenes : List (List (FNode Mat))) : List (FNode Mat) → List (Mat × Int) → Prop
  | nil : Expands scenes [] []
  | prim (k M j ns ps) : Expands scenes ns ps → Expands scenes (.prim k M j :: ns) ((M, j) :: ps)
  | inst (k M j c qs ns ps) : 1 ≤ c → scenes[c]? = some (mkPrims 0 qs) → Expands scenes ns ps →
      Expands scenes (.inst k M j c :: ns) (qs.map (fun q => (M * q.1, q.2)) ++ ps)

omit [Monoid Mat] in
theorem mkPrims_append (k : ℕ) (a b : List (Mat × Int)) : mkPrims k (a ++ b) = mkPrims k a ++ mkPrims (k + a.length) b := by
  simp [mkPrims, List.zipIdx_append]

omit [Monoid Mat] in
theorem mkPrims_length (k : ℕ) (a : List (Mat × Int)) : (mkPrims k a).length = a.length := by simp [mkPrims]

omit [Monoid Mat] in
theorem mkPrims_get (k : ℕ) (a : List (Mat × Int)) (i : ℕ) : (mkPrims k a)[i]? = a[i]?.map (fun q => .prim (k + i) q.1 q.2) := by
  simp [mkPrims, List.getElem?_zipIdx, Option.map_map, Function.comp_def]

omit [Monoid Mat] in
theorem primsOf_append (nodes : List (Scene.Node Mat)) (a b : List (Int × Mat)) : primsOf nodes (a ++ b) = primsOf nodes a ++ primsOf nodes b := by simp [primsOf]

theorem Expands.append {scenes : List (List (FNode Mat))} {a b : List (FNode Mat)} {ps qs : List (Mat × Int)} (h : Expands scenes a ps) (h' : Expands scenes b qs) : Expands scenes (a ++ b) (ps ++ qs) := by
  induction h with
  | nil => exact h'
  | prim k M j ns ps _ ih => exact .prim k M j _ _ ih
  | inst k M j c rs ns ps h1 h2 _ ih =>
    rw [List.append_assoc]
    exact .inst k M j c rs _ _ h1 h2 ih

/-- Scenes other than the root are kept. -/
def Grows (a b : List (List (FNode Mat))) : Prop := ∀ c, 1 ≤ c → ∀ l, a[c]? = some l → b[c]? = some l

theorem Expands.grow {a b : List (List (FNode Mat))} (hg : Grows a b) {ns : List (FNode Mat)} {ps : List (Mat × Int)} (h : Expands a ns ps) : Expands b ns ps := by
  induction h with
  | nil => exact .nil
  | prim k M j ns ps _ ih => exact .prim k M j _ _ ih
  | inst k M j c rs ns ps h1 h2 _ ih => exact .inst k M j c rs _ _ h1 (hg c h1 _ h2) ih

def comb (g : Mat) (tr : Option Mat) : Mat := match tr with
  | some t => g * t
  | none => g

theorem visit_group {nodes : List (Scene.Node Mat)} {i idx : Int} {ch b tr} (hat : at? nodes i = some (.group idx ch b tr)) (fuel : ℕ) (g : Mat) :
    visit nodes (fuel + 1) i g = match seqT (fun c => visit nodes fuel c (comb g tr)) ch with
      | .done out => .done ((i, g) :: out)
      | r => r := by
  simp only [visit, hat]
  cases tr <;> rfl

theorem visit_prim {nodes : List (Scene.Node Mat)} {i idx : Int} {p} (hat : at? nodes i = some (.prim idx p)) (fuel : ℕ) (g : Mat) :
    visit nodes (fuel + 1) i g = .done [(i, g)] := by
  simp only [visit, hat]

theorem visit_none {nodes : List (Scene.Node Mat)} {i : Int} (hat : at? nodes i = none) (fuel : ℕ) (g : Mat) :
    visit nodes (fuel + 1) i g = .throw := by
  simp only [visit, hat]

theorem ivisit_group {nodes : List (Scene.Node Mat)} {i idx : Int} {ch b tr} (hat : at? nodes i = some (.group idx ch b tr)) (fuel : ℕ) (g : Mat) (fs : ℕ) (ign : Bool) (st : FSt Mat) :
    ivisit nodes (fuel + 1) i g fs ign st = if !ign && b then
        match st.map idx with
        | some c => pushNode st fs (fun k => .inst k g idx c)
        | none =>
          match ivisit nodes fuel idx 1 st.scenes.length true ⟨st.scenes ++ [[]], fun k => if k = idx then some st.scenes.length else st.map k⟩ with
          | .done st' => pushNode st' fs (fun k => .inst k g idx st.scenes.length)
          | r => r
      else seqI (fun c st => ivisit nodes fuel c (comb g tr) fs ign st) ch st := by
  simp only [ivisit, hat]
  cases tr <;> rfl

theorem ivisit_prim {nodes : List (Scene.Node Mat)} {i idx : Int} {p} (hat : at? nodes i = some (.prim idx p)) (fuel : ℕ) (g : Mat) (fs : ℕ) (ign : Bool) (st : FSt Mat) :
    ivisit nodes (fuel + 1) i g fs ign st = pushNode st fs (fun k => .prim k g idx) := by
  simp only [ivisit, hat]

theorem ivisit_none {nodes : List (Scene.Node Mat)} {i : Int} (hat : at? nodes i = none) (fuel : ℕ) (g : Mat) (fs : ℕ) (ign : Bool) (st : FSt Mat) :
    ivisit nodes (fuel + 1) i g fs ign st = .throw := by
  simp only [ivisit, hat]

/-- Transforming the root transforms every visited node. -/
theorem visit_smul (nodes : List (Scene.Node Mat)) : ∀ fuel i (a g : Mat) out, visit nodes fuel i g = .done out → visit nodes fuel i (a * g) = .done (out.map (fun v => (v.1, a * v.2))) := by
  intro fuel
  induction fuel with
  | zero => intro i a g out h; cases h
  | succ fuel ih =>
    intro i a g out h
    cases hat : at? nodes i with
    | none => rw [visit_none hat] at h; cases h
    | some n =>
      cases n with
      | prim idx p => rw [visit_prim hat] at h ⊢; cases h; rfl
      | group idx ch b tr =>
        rw [visit_group hat] at h ⊢
        have key : ∀ (M : Mat) (cs : List Int) o, seqT (fun c => visit nodes fuel c M) cs = .done o → seqT (fun c => visit nodes fuel c (a * M)) cs = .done (o.map (fun v => (v.1, a * v.2))) := by
          intro M cs
          induction cs with
          | nil => intro o h; cases h; rfl
          | cons c cs ihc =>
            intro o h
            simp only [seqT] at h ⊢
            cases h1 : visit nodes fuel c M with
            | throw => rw [h1] at h; cases h
            | deep => rw [h1] at h; cases h
            | done o1 =>
              rw [h1] at h
              dsimp only at h
              rw [ih c a M o1 h1]
              cases h2 : seqT (fun c => visit nodes fuel c M) cs with
              | throw => rw [h2] at h; cases h
              | deep => rw [h2] at h; cases h
              | done o2 =>
                rw [h2] at h
                cases h
                rw [ihc o2 h2]
                simp
        have hc : comb (a * g) tr = a * comb g tr := by
          cases tr with
          | none => rfl
          | some t => exact mul_assoc _ _ _
        rw [hc]
        cases h1 : seqT (fun c => visit nodes fuel c (comb g tr)) ch with
        | throw => rw [h1] at h; cases h
        | deep => rw [h1] at h; cases h
        | done o => rw [h1] at h; cases h; rw [key (comb g tr) ch o h1]; rfl

/-- A traversal that returns from g also returns from the identity. -/
theorem visit_one (nodes : List (Scene.Node Mat)) : ∀ fuel i (g : Mat) out, visit nodes fuel i g = .done out → ∀ g', ∃ out', visit nodes fuel i g' = .done out' := by
  intro fuel
  induction fuel with
  | zero => intro i g out h; cases h
  | succ fuel ih =>
    intro i g out h g'
    cases hat : at? nodes i with
    | none => rw [visit_none hat] at h; cases h
    | some n =>
      cases n with
      | prim idx p => exact ⟨_, visit_prim hat fuel g'⟩
      | group idx ch b tr =>
        rw [visit_group hat] at h ⊢
        have key : ∀ (M M' : Mat) o, seqT (fun c => visit nodes fuel c M) ch = .done o → ∃ o', seqT (fun c => visit nodes fuel c M') ch = .done o' := by
          intro M M' o ho
          exact seqT_done _ _ (fun c hc => by
            obtain ⟨o1, h1⟩ := seqT_all ho c hc
            exact ih c M o1 h1 M')
        cases h1 : seqT (fun c => visit nodes fuel c (comb g tr)) ch with
        | throw => rw [h1] at h; cases h
        | deep => rw [h1] at h; cases h
        | done o =>
          obtain ⟨o', ho'⟩ := key _ (comb g' tr) o h1
          rw [ho']
          exact ⟨_, rfl⟩

omit [Monoid Mat] in
theorem primsOf_map (nodes : List (Scene.Node Mat)) (f : Mat → Mat) (out : List (Int × Mat)) : primsOf nodes (out.map (fun v => (v.1, f v.2))) = (primsOf nodes out).map (fun q => (f q.1, q.2)) := by
  induction out with
  | nil => rfl
  | cons v out ih =>
    have hc : ∀ (w : Int × Mat) o, primsOf nodes (w :: o) = primsOf nodes [w] ++ primsOf nodes o := fun w o => primsOf_append nodes [w] o
    rw [List.map_cons, hc, hc v out, List.map_append, ih]
    congr 1
    simp only [primsOf, List.filterMap_cons, List.filterMap_nil]
    rcases at? nodes v.1 with _ | n
    · rfl
    · cases n <;> rfl

/-- Visiting with instances ignored appends the primitives of the traversal to the current flattened scene and changes nothing else. -/
theorem ivisit_flat (nodes : List (Scene.Node Mat)) : ∀ fuel i (g : Mat) out, visit nodes fuel i g = .done out → ∀ (st : FSt Mat) fs l, st.scenes[fs]? = some l →
    ivisit nodes fuel i g fs true st = .done ⟨st.scenes.set fs (l ++ mkPrims l.length (primsOf nodes out)), st.map⟩ := by
  intro fuel
  induction fuel with
  | zero => intro i g out h; cases h
  | succ fuel ih =>
    intro i g out h st fs l hl
    cases hat : at? nodes i with
    | none => rw [visit_none hat] at h; cases h
    | some n =>
      cases n with
      | prim idx p =>
        rw [visit_prim hat] at h
        rw [ivisit_prim hat]
        cases h
        simp [pushNode, hl, primsOf, hat, mkPrims]
      | group idx ch b tr =>
        rw [visit_group hat] at h
        rw [ivisit_group hat]
        simp only [Bool.not_true, Bool.false_and, Bool.false_eq_true, if_false]
        generalize comb g tr = M at h ⊢
        have key : ∀ (cs : List Int) o, seqT (fun c => visit nodes fuel c M) cs = .done o → ∀ (st : FSt Mat) l, st.scenes[fs]? = some l →
            seqI (fun c st => ivisit nodes fuel c M fs true st) cs st = .done ⟨st.scenes.set fs (l ++ mkPrims l.length (primsOf nodes o)), st.map⟩ := by
          intro cs
          induction cs with
          | nil =>
            intro o h st l hl
            cases h
            have : st.scenes.set fs l = st.scenes := by
              apply List.ext_getElem?
              intro k
              rw [List.getElem?_set]
              split
              · subst_vars; split <;> simp_all
              · rfl
            simp [seqI, primsOf, mkPrims, this]
          | cons c cs ihc =>
            intro o h st l hl
            simp only [seqT] at h
            simp only [seqI]
            cases h1 : visit nodes fuel c M with
            | throw => rw [h1] at h; cases h
            | deep => rw [h1] at h; cases h
            | done o1 =>
              rw [h1] at h
              dsimp only at h
              cases h2 : seqT (fun c => visit nodes fuel c M) cs with
              | throw => rw [h2] at h; cases h
              | deep => rw [h2] at h; cases h
              | done o2 =>
                rw [h2] at h
                cases h
                rw [ih c M o1 h1 st fs l hl]
                dsimp only
                have hlt := (List.getElem?_eq_some_iff.mp hl).1
                rw [ihc o2 h2 ⟨st.scenes.set fs (l ++ mkPrims l.length (primsOf nodes o1)), st.map⟩ (l ++ mkPrims l.length (primsOf nodes o1)) (by simp [hlt])]
                simp [primsOf_append, mkPrims_append, mkPrims_length]
        cases h1 : seqT (fun c => visit nodes fuel c M) ch with
        | throw => rw [h1] at h; cases h
        | deep => rw [h1] at h; cases h
        | done o =>
          rw [h1] at h
          cases h
          rw [key ch o h1 st l hl]
          simp [primsOf, hat]

/-- The state while the root scene is being flattened: scenes other than the root consist of primitives, and the map knows, for instance groups, the scene made from their traversal. -/
structure FInv (nodes : List (Scene.Node Mat)) (st : FSt Mat) : Prop where
  flat : ∀ c, 1 ≤ c → ∀ l, st.scenes[c]? = some l → ∃ out, l = mkPrims 0 (primsOf nodes out)
  map : ∀ idx c, st.map idx = some c → 1 ≤ c ∧ ∃ fuel out, visit nodes fuel idx 1 = .done out ∧ st.scenes[c]? = some (mkPrims 0 (primsOf nodes out))

/-- The indices of the flattened nodes are their positions. -/
def Indexed (l : List (FNode Mat)) : Prop := ∀ (k : ℕ) f, l[k]? = some f → f.index = k

omit [Monoid Mat] in
theorem Indexed.push {l : List (FNode Mat)} (h : Indexed l) (mk : ℕ → FNode Mat) (hm : ∀ k, (mk k).index = k) : Indexed (l ++ [mk l.length]) := by
  intro k f hk
  rw [List.getElem?_append] at hk
  split at hk
  · exact h k f hk
  · rename_i hlt
    have : k - l.length = 0 := by
      by_contra h0
      rw [List.getElem?_eq_none (by simp; omega)] at hk
      cases hk
    rw [this] at hk
    cases hk
    rw [hm]; omega

/-- visit does not depend on the depth bound, once it returns. -/
theorem visit_mono (nodes : List (Scene.Node Mat)) : ∀ fuel i (g : Mat) out, visit nodes fuel i g = .done out → ∀ n, visit nodes (fuel + n) i g = .done out := by
  intro fuel
  induction fuel with
  | zero => intro i g out h; cases h
  | succ fuel ih =>
    intro i g out h n
    rw [show fuel + 1 + n = (fuel + n) + 1 by omega]
    cases hat : at? nodes i with
    | none => rw [visit_none hat] at h; cases h
    | some nd =>
      cases nd with
      | prim idx p => rw [visit_prim hat] at h ⊢; exact h
      | group idx ch b tr =>
        rw [visit_group hat] at h ⊢
        generalize comb g tr = M at h ⊢
        have key : ∀ (cs : List Int) o, seqT (fun c => visit nodes fuel c M) cs = .done o → seqT (fun c => visit nodes (fuel + n) c M) cs = .done o := by
          intro cs
          induction cs with
          | nil => intro o h; exact h
          | cons c cs ihc =>
            intro o h
            simp only [seqT] at h ⊢
            cases h1 : visit nodes fuel c M with
            | throw => rw [h1] at h; cases h
            | deep => rw [h1] at h; cases h
            | done o1 =>
              rw [h1] at h
              dsimp only at h
              rw [ih c M o1 h1 n]
              cases h2 : seqT (fun c => visit nodes fuel c M) cs with
              | throw => rw [h2] at h; cases h
              | deep => rw [h2] at h; cases h
              | done o2 => rw [h2] at h; cases h; rw [ihc o2 h2]
        cases h1 : seqT (fun c => visit nodes fuel c M) ch with
        | throw => rw [h1] at h; cases h
        | deep => rw [h1] at h; cases h
        | done o => rw [h1] at h; cases h; rw [key ch o h1]

theorem visit_det (nodes : List (Scene.Node Mat)) {f1 f2 i} {g : Mat} {o1 o2} (h1 : visit nodes f1 i g = .done o1) (h2 : visit nodes f2 i g = .done o2) : o1 = o2 := by
  have a := visit_mono nodes f1 i g o1 h1 f2
  have b := visit_mono nodes f2 i g o2 h2 f1
  rw [Nat.add_comm] at b
  rw [a] at b
  cases b
  rfl

omit [Monoid Mat] in
theorem push_root {st : FSt Mat} {l : List (FNode Mat)} (hl : st.scenes[0]? = some l) (mk : ℕ → FNode Mat) :
    pushNode st 0 mk = .done ⟨st.scenes.set 0 (l ++ [mk l.length]), st.map⟩ ∧ (st.scenes.set 0 (l ++ [mk l.length]))[0]? = some (l ++ [mk l.length]) ∧ Grows st.scenes (st.scenes.set 0 (l ++ [mk l.length])) ∧
      ∀ c, 1 ≤ c → (st.scenes.set 0 (l ++ [mk l.length]))[c]? = st.scenes[c]? := by
  have hlt := (List.getElem?_eq_some_iff.mp hl).1
  have hs : ∀ c, 1 ≤ c → (st.scenes.set 0 (l ++ [mk l.length]))[c]? = st.scenes[c]? := by
    intro c hc
    rw [List.getElem?_set_ne (by omega)]
  refine ⟨by simp [pushNode, hl], by simp [hlt], fun c hc l' h => by rw [hs c hc]; exact h, hs⟩

theorem FInv.push {nodes : List (Scene.Node Mat)} {st : FSt Mat} (h : FInv nodes st) {l : List (FNode Mat)} (hl : st.scenes[0]? = some l) (mk : ℕ → FNode Mat) :
    FInv nodes ⟨st.scenes.set 0 (l ++ [mk l.length]), st.map⟩ := by
  obtain ⟨-, -, -, hs⟩ := push_root hl mk
  refine ⟨fun c hc l' hl' => h.flat c hc l' (by rw [← hs c hc]; exact hl'), fun idx c hm => ?_⟩
  obtain ⟨hc, fuel, out, hv, hsc⟩ := h.map idx c hm
  exact ⟨hc, fuel, out, hv, by rw [hs c hc]; exact hsc⟩

theorem ivisit_root (nodes : List (Scene.Node Mat)) (hpos : ∀ i n, at? nodes i = some n → n.index = i) : ∀ fuel i (g : Mat) out, visit nodes fuel i g = .done out →
    ∀ (st : FSt Mat) l, FInv nodes st → st.scenes[0]? = some l → Indexed l →
      ∃ st' ns, ivisit nodes (fuel + 1) i g 0 false st = .done st' ∧ FInv nodes st' ∧ Grows st.scenes st'.scenes ∧ st'.scenes[0]? = some (l ++ ns) ∧ Indexed (l ++ ns) ∧ Expands st'.scenes ns (primsOf nodes out) := by
  intro fuel
  induction fuel with
  | zero => intro i g out h; cases h
  | succ fuel ih =>
    intro i g out h st l hI hl hix
    have hfull := h
    cases hat : at? nodes i with
    | none => rw [visit_none hat] at h; cases h
    | some n =>
      cases n with
      | prim idx p =>
        rw [visit_prim hat] at h
        rw [ivisit_prim hat]
        cases h
        obtain ⟨e1, e2, e3, e4⟩ := push_root hl (fun k => FNode.prim k g idx)
        refine ⟨_, [.prim l.length g idx], e1, hI.push hl (fun k => FNode.prim k g idx), e3, e2, hix.push (fun k => .prim k g idx) (fun k => rfl), ?_⟩
        simp only [primsOf, hat, List.filterMap_cons, List.filterMap_nil]
        exact .prim _ _ _ _ _ .nil
      | group idx ch instanced tr =>
        obtain rfl : idx = i := hpos i _ hat
        rw [visit_group hat] at h
        rw [ivisit_group hat]
        cases instanced with
        | true =>
          simp only [Bool.not_false, Bool.and_self, if_true]
          -- the instance group, seen from the identity
          obtain ⟨out1, ho1⟩ := visit_one nodes (fuel + 1) idx g out hfull 1
          have hout : primsOf nodes out = (primsOf nodes out1).map (fun q => (g * q.1, q.2)) := by
            have := visit_smul nodes (fuel + 1) idx g 1 out1 ho1
            rw [mul_one, hfull] at this
            cases this
            exact primsOf_map nodes (fun x => g * x) out1
          have fin : ∀ (st1 : FSt Mat) (c : ℕ), 1 ≤ c → FInv nodes st1 → Grows st.scenes st1.scenes → st1.scenes[0]? = some l → st1.scenes[c]? = some (mkPrims 0 (primsOf nodes out1)) →
              ∃ st' ns, pushNode st1 0 (fun k => .inst k g idx c) = .done st' ∧ FInv nodes st' ∧ Grows st.scenes st'.scenes ∧ st'.scenes[0]? = some (l ++ ns) ∧ Indexed (l ++ ns) ∧
                Expands st'.scenes ns (primsOf nodes out) := by
            intro st1 c hc hI1 hg1 hl1 hs1
            obtain ⟨e1, e2, e3, e4⟩ := push_root hl1 (fun k => FNode.inst k g idx c)
            refine ⟨_, [.inst l.length g idx c], e1, hI1.push hl1 (fun k => FNode.inst k g idx c), fun c' hc' l' h' => e3 c' hc' l' (hg1 c' hc' l' h'), e2, hix.push (fun k => .inst k g idx c) (fun k => rfl), ?_⟩
            rw [hout]
            have := Expands.inst (scenes := st1.scenes.set 0 (l ++ [FNode.inst l.length g idx c])) l.length g idx c _ _ _ hc (by rw [e4 c hc]; exact hs1) .nil
            simpa using this
          cases hm : st.map idx with
          | some c =>
            dsimp only
            obtain ⟨hc, f', o', hv', hs'⟩ := hI.map idx c hm
            obtain rfl := visit_det nodes hv' ho1
            exact fin st c hc hI (fun _ _ _ h => h) hl hs'
          | none =>
            dsimp only
            have hlt := (List.getElem?_eq_some_iff.mp hl).1
            rw [ivisit_flat nodes (fuel + 1) idx 1 out1 ho1 ⟨st.scenes ++ [[]], fun k => if k = idx then some st.scenes.length else st.map k⟩ st.scenes.length [] (by simp)]
            dsimp only
            have hset : (st.scenes ++ [[]]).set st.scenes.length ([] ++ mkPrims ([] : List (FNode Mat)).length (primsOf nodes out1)) = st.scenes ++ [mkPrims 0 (primsOf nodes out1)] := by simp
            rw [hset]
            have hold : ∀ (c : ℕ) l', st.scenes[c]? = some l' → (st.scenes ++ [mkPrims 0 (primsOf nodes out1)])[c]? = some l' := by
              intro c l' h'
              rw [List.getElem?_append_left (List.getElem?_eq_some_iff.mp h').1]; exact h'
            apply fin _ _ hlt
            · constructor
              · intro c hc l' hl'
                dsimp only at hl'
                rw [List.getElem?_append] at hl'
                split at hl'
                · exact hI.flat c hc l' hl'
                · rename_i hcl
                  have : c - st.scenes.length = 0 := by
                    by_contra h0
                    rw [List.getElem?_eq_none (by simp; omega)] at hl'
                    cases hl'
                  rw [this] at hl'
                  cases hl'
                  exact ⟨_, rfl⟩
              · intro k c hk
                dsimp only at hk ⊢
                split at hk
                · rename_i hki
                  cases hk
                  subst hki
                  exact ⟨hlt, fuel + 1, out1, ho1, by simp⟩
                · obtain ⟨hc, f', o', hv', hs'⟩ := hI.map k c hk
                  exact ⟨hc, f', o', hv', hold c _ hs'⟩
            · exact fun c _ l' h' => hold c l' h'
            · exact hold 0 l hl
            · simp
        | false =>
          simp only [Bool.not_false, Bool.and_false, Bool.false_eq_true, if_false]
          generalize comb g tr = M at h ⊢
          have key : ∀ (cs : List Int) o, seqT (fun c => visit nodes fuel c M) cs = .done o → ∀ (st : FSt Mat) l, FInv nodes st → st.scenes[0]? = some l → Indexed l →
              ∃ st' ns, seqI (fun c st => ivisit nodes (fuel + 1) c M 0 false st) cs st = .done st' ∧ FInv nodes st' ∧ Grows st.scenes st'.scenes ∧ st'.scenes[0]? = some (l ++ ns) ∧ Indexed (l ++ ns) ∧
                Expands st'.scenes ns (primsOf nodes o) := by
            intro cs
            induction cs with
            | nil =>
              intro o h st l hI hl hix
              cases h
              exact ⟨st, [], rfl, hI, fun _ _ _ h => h, by simpa using hl, by simpa using hix, .nil⟩
            | cons c cs ihc =>
              intro o h st l hI hl hix
              simp only [seqT] at h
              cases h1 : visit nodes fuel c M with
              | throw => rw [h1] at h; cases h
              | deep => rw [h1] at h; cases h
              | done o1 =>
                rw [h1] at h
                dsimp only at h
                cases h2 : seqT (fun c => visit nodes fuel c M) cs with
                | throw => rw [h2] at h; cases h
                | deep => rw [h2] at h; cases h
                | done o2 =>
                  rw [h2] at h
                  cases h
                  obtain ⟨st1, n1, a1, a2, a3, a4, a5, a6⟩ := ih c M o1 h1 st l hI hl hix
                  obtain ⟨st2, n2, b1, b2, b3, b4, b5, b6⟩ := ihc o2 h2 st1 (l ++ n1) a2 a4 a5
                  refine ⟨st2, n1 ++ n2, ?_, b2, fun c hc l' h' => b3 c hc l' (a3 c hc l' h'), by rw [← List.append_assoc]; exact b4, by rw [← List.append_assoc]; exact b5, ?_⟩
                  · simp only [seqI]
                    rw [a1]
                    exact b1
                  · rw [primsOf_append]
                    exact (a6.grow b3).append b6
          cases h1 : seqT (fun c => visit nodes fuel c M) ch with
          | throw => rw [h1] at h; cases h
          | deep => rw [h1] at h; cases h
          | done o =>
            rw [h1] at h
            cases h
            obtain ⟨st', ns, b1, b2, b3, b4, b5, b6⟩ := key ch o h1 st l hI hl hix
            refine ⟨st', ns, b1, b2, b3, b4, b5, ?_⟩
            have : primsOf nodes ((idx, g) :: o) = primsOf nodes o := by simp [primsOf, hat]
            rw [this]
            exact b6

/-- The flattening does not depend on the depth bound, once it returns. -/
theorem ivisit_mono (nodes : List (Scene.Node Mat)) : ∀ fuel i (g : Mat) fs ign st st', ivisit nodes fuel i g fs ign st = .done st' → ∀ n, ivisit nodes (fuel + n) i g fs ign st = .done st' := by
  intro fuel
  induction fuel with
  | zero => intro i g fs ign st st' h; cases h
  | succ fuel ih =>
    intro i g fs ign st st' h n
    rw [show fuel + 1 + n = (fuel + n) + 1 by omega]
    cases hat : at? nodes i with
    | none => rw [ivisit_none hat] at h; cases h
    | some nd =>
      cases nd with
      | prim idx p => rw [ivisit_prim hat] at h ⊢; exact h
      | group idx ch b tr =>
        rw [ivisit_group hat] at h ⊢
        generalize comb g tr = M at h ⊢
        split
        · rename_i hc
          rw [if_pos hc] at h
          cases hm : st.map idx with
          | some c => rw [hm] at h; exact h
          | none =>
            rw [hm] at h
            dsimp only at h ⊢
            cases h1 : ivisit nodes fuel idx 1 st.scenes.length true ⟨st.scenes ++ [[]], fun k => if k = idx then some st.scenes.length else st.map k⟩ with
            | throw => rw [h1] at h; cases h
            | deep => rw [h1] at h; cases h
            | done s1 =>
              rw [h1] at h
              rw [ih _ _ _ _ _ _ h1 n]
              exact h
        · rename_i hc
          rw [if_neg hc] at h
          have key : ∀ (cs : List Int) s s', seqI (fun c st => ivisit nodes fuel c M fs ign st) cs s = .done s' → seqI (fun c st => ivisit nodes (fuel + n) c M fs ign st) cs s = .done s' := by
            intro cs
            induction cs with
            | nil => intro s s' h; exact h
            | cons c cs ihc =>
              intro s s' h
              simp only [seqI] at h ⊢
              cases h1 : ivisit nodes fuel c M fs ign s with
              | throw => rw [h1] at h; cases h
              | deep => rw [h1] at h; cases h
              | done s1 =>
                rw [h1] at h
                rw [ih _ _ _ _ _ _ h1 n]
                exact ihc s1 s' h
          exact key ch st st' h

/-- C93. Whenever the traversal of the scene returns, so does flattening it with one level of instances; the root scene, with the instances replaced by what they refer to, lists the primitives of the traversal
    in the same order and with the same transforms; the other scenes contain no instances; and the index of every flattened node is its position. -/
theorem C93_flatten_instances (nodes : List (Scene.Node Mat)) (hpos : ∀ i n, at? nodes i = some n → n.index = i) (fuel : ℕ) (out : List (Int × Mat)) (h : traverse nodes fuel = .done out) :
    ∃ st, iflatten nodes (fuel + 1) = .done st ∧ (∀ fuel' st', iflatten nodes fuel' = .done st' → st' = st) ∧
      ∃ root, st.scenes[0]? = some root ∧ Indexed root ∧ Expands st.scenes root (primsOf nodes out) ∧ ∀ c, 1 ≤ c → ∀ l, st.scenes[c]? = some l → ∃ out', l = mkPrims 0 (primsOf nodes out') := by
  obtain ⟨st', ns, h1, h2, h3, h4, h5, h6⟩ := ivisit_root nodes hpos fuel 0 1 out h ⟨[[]], fun _ => none⟩ [] ⟨fun c hc l hl => (by
      rw [List.getElem?_eq_none (by simpa using hc)] at hl; cases hl), fun idx c hm => (by cases hm)⟩ rfl (fun k f hk => by simp at hk)
  refine ⟨st', h1, fun fuel' st'' h' => ?_, ns, by simpa using h4, by simpa using h5, h6, h2.flat⟩
  have a := ivisit_mono nodes fuel' 0 1 0 false _ st'' h' (fuel + 1)
  have b := ivisit_mono nodes (fuel + 1) 0 1 0 false _ st' h1 fuel'
  rw [Nat.add_comm] at b
  rw [a] at b
  cases b
  rfl

end
end LM.Accel
