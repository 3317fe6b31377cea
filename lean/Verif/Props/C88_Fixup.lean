import Verif.Props.C51_Weight
/-
  C88: recomputing the cache at the connection of two subpaths is defined if the densities of the full path are.
-/
namespace LM.Path
open LM LM.Surface LM.Material LM.Light LM.Volume

theorem dens_dir {W : World} {vs : List Vert} {i : ℕ} {x : ℝ} {a b : Vert} (h : dens W vs (i + 1) = some x) (ha : vs[i]? = some a) (hb : vs[i + 1]? = some b) : ∃ d, direction (some a) (some b) = some d := by
  simp only [dens, ha, hb, Option.bind_eq_bind, Option.bind_some] at h
  obtain ⟨wi, -, h⟩ := bind_some h
  obtain ⟨wo, ho, -⟩ := bind_some h
  exact ⟨wo, ho⟩

theorem dens_of_prod {W : World} {vs : List Vert} {k i : ℕ} {q : ℝ} (h : prodDens W vs k = some q) (hi : i < k) : ∃ x, dens W vs i = some x := by
  obtain ⟨p, hp⟩ := prodDens_mono (j := i + 1) (k - (i + 1)) (by rw [show i + 1 + (k - (i + 1)) = k by omega]; exact h)
  obtain ⟨-, d, -, hd, -⟩ := prodDens_le hp
  exact ⟨d, hd⟩

/-- The vertices of the full path of two subpaths. -/
theorem full_join {W : World} {L E : List CV} {s t : ℕ} (hs1 : 1 ≤ s) (hs : s ≤ L.length) (ht1 : 1 ≤ t) (ht : t ≤ E.length) (HL : Subpath W L .light) (HE : Subpath W E .camera) :
    (fullPath L E s t).map CV.vert = (L.map CV.vert).take s ++ ((E.map CV.vert).take t).reverse := by
  have J := joined_full hs ht (by omega) HL HE
  have hl : ((L.map CV.vert).take s).length = s := by simp; omega
  have hl' : ((E.map CV.vert).take t).length = t := by simp; omega
  apply List.ext_getElem?
  intro i
  rcases Nat.lt_or_ge i s with hi | hi
  · obtain ⟨c, v, h1, h2, -, h3⟩ := J.a i hi
    rw [h2, h3 (by omega), List.getElem?_append_left (by omega), List.getElem?_take_of_lt hi, List.getElem?_map, h1]
    rfl
  · rcases Nat.lt_or_ge i (s + t) with hi' | hi'
    · obtain ⟨c, v, h1, h2, -, h3⟩ := J.b (s + t - 1 - i) (by omega)
      rw [show s + t - 1 - (s + t - 1 - i) = i by omega] at h2
      rw [h2, h3 (by omega), List.getElem?_append_right (by omega), List.getElem?_reverse (by omega), hl, hl', List.getElem?_take_of_lt (by omega), show t - 1 - (i - s) = s + t - 1 - i by omega, List.getElem?_map, h1]
      rfl
    · rw [List.getElem?_eq_none (by rw [J.len]; exact hi'), List.getElem?_eq_none (by rw [List.length_append, List.length_reverse]; omega)]

/-- The vertices of an eye subpath that ends on a light. -/
theorem full_hit {W : World} {L E : List CV} {t : ℕ} (ht1 : 2 ≤ t) (ht : t ≤ E.length) (HL : Subpath W L .light) (HE : Subpath W E .camera) {v : CV} (hv : E[t - 1]? = some v) :
    (fullPath L E 0 t).map CV.vert = (v.asType .light).vert :: ((E.map CV.vert).take (t - 1)).reverse := by
  have J := joined_full (s := 0) (Nat.zero_le _) ht (by omega) HL HE
  have hl' : ((E.map CV.vert).take (t - 1)).length = t - 1 := by simp; omega
  apply List.ext_getElem?
  intro i
  cases i with
  | zero =>
    have := fullPath_E L E 0 t (Nat.zero_le _) ht (t - 1) (by omega) _ hv
    rw [show 0 + t - 1 - (t - 1) = 0 by omega] at this
    rw [List.getElem?_map, this]
    simp only [retype, if_neg (show ¬ 0 = 0 + t - 1 by omega), if_true]
    rfl
  | succ i =>
    rcases Nat.lt_or_ge (i + 1) t with hi' | hi'
    · obtain ⟨c, v, h1, h2, -, h3⟩ := J.b (t - 1 - (i + 1)) (by omega)
      rw [show 0 + t - 1 - (t - 1 - (i + 1)) = i + 1 by omega] at h2
      rw [h2, h3 (by omega), List.getElem?_cons_succ, List.getElem?_reverse (by omega), hl', List.getElem?_take_of_lt (by omega), show t - 1 - 1 - i = t - 1 - (i + 1) by omega, List.getElem?_map, h1]
      rfl
    · rw [List.getElem?_eq_none (by rw [J.len]; omega), List.getElem?_eq_none (by rw [List.length_cons, List.length_reverse]; omega)]

theorem fixup_some {W : World} {L E : List CV} {s t : ℕ} (hs : s ≤ L.length) (ht : t ≤ E.length) (h2 : 2 ≤ s + t) (ht1 : 1 ≤ t) (HL : Subpath W L .light) (HE : Subpath W E .camera) {vs : List Vert} (hvs : vs = (fullPath L E s t).map CV.vert)
    (hok : isSamplable W vs s = some true)
    (h1 : ∃ x, dens W vs s = some x) (h2' : 2 ≤ t → ∃ x, dens W vs (s + 1) = some x) (h3 : 1 ≤ s → ∃ x, dens W vs.reverse t = some x) (h4 : 2 ≤ s → ∃ x, dens W vs.reverse (t + 1) = some x) :
    ∃ P, fixup W (fullPath L E s t) s t = some P := by
  subst hvs
  have hlen := fullPath_len L E s t hs ht
  have J := joined_full hs ht h2 HL HE
  have JR := J.reverse
  have hconn : 0 < s → _ := fun a => samplable_conn (s := s) (t := t) J.len a ht1 hok
  have hvget : ∀ k, ((fullPath L E s t).map CV.vert)[k]? = ((fullPath L E s t)[k]?).map CV.vert := fun k => by rw [List.getElem?_map]
  have hrget : ∀ k, k < s + t → ((fullPath L E s t).map CV.vert).reverse[k]? = ((fullPath L E s t)[s + t - 1 - k]?).map CV.vert := fun k hk => by
    rw [List.getElem?_reverse (by rw [J.len]; exact hk), J.len, hvget]
  have getL : ∀ m, s = m + 1 → ∃ c, L[m]? = some c ∧ (fullPath L E s t)[m]? = some (retype (s + t) m c) := fun m hm => by
    have hc : L[m]? = some L[m] := List.getElem?_eq_getElem (by omega)
    exact ⟨_, hc, fullPath_L L E s t hs ht m (by omega) _ hc⟩
  obtain ⟨cE, hcE, hpE⟩ : ∃ c, E[t - 1]? = some c ∧ (fullPath L E s t)[s]? = some (retype (s + t) s c).flip := by
    have hc : E[t - 1]? = some E[t - 1] := List.getElem?_eq_getElem (by omega)
    have := fullPath_E L E s t hs ht (t - 1) (by omega) _ hc
    rw [show s + t - 1 - (t - 1) = s by omega] at this
    exact ⟨_, hc, this⟩
  have getEp : 2 ≤ t → ∃ v, (fullPath L E s t)[s + 1]? = some v := fun h => ⟨_, List.getElem?_eq_getElem (by omega)⟩
  have getLp : 2 ≤ s → ∃ v, (fullPath L E s t)[s - 2]? = some v := fun h => ⟨_, List.getElem?_eq_getElem (by omega)⟩
  have hd : 0 < s → ∀ a b, ((fullPath L E s t).map CV.vert)[s - 1]? = some a → ((fullPath L E s t).map CV.vert)[s]? = some b → (∃ d, direction (some a) (some b) = some d) ∧ ∃ d, direction (some b) (some a) = some d := fun h0 a b ha hb => by
    obtain ⟨x, hx⟩ := h1
    obtain ⟨y, hy⟩ := h3 h0
    constructor
    · obtain ⟨k, rfl⟩ : ∃ k, s = k + 1 := ⟨s - 1, by omega⟩
      exact dens_dir hx ha hb
    · obtain ⟨k, rfl⟩ : ∃ k, t = k + 1 := ⟨t - 1, by omega⟩
      refine dens_dir hy ?_ ?_
      · rw [hrget k (by omega), show s + (k + 1) - 1 - k = s by omega, ← hvget, hb]
      · rw [hrget (k + 1) (by omega), show s + (k + 1) - 1 - (k + 1) = s - 1 by omega, ← hvget, ha]
  obtain ⟨dL, hdL⟩ : ∃ d, direction ((if s = 0 then none else (fullPath L E s t)[s - 1]?).map CV.vert) (((fullPath L E s t)[s]?).map CV.vert) = some d := by
    by_cases h0 : s = 0
    · rw [if_pos h0]; exact ⟨0, rfl⟩
    · obtain ⟨c, -, hp⟩ := getL (s - 1) (by omega)
      rw [if_neg h0, hp, hpE]
      exact (hd (by omega) _ _ (by rw [hvget, hp]; rfl) (by rw [hvget, hpE]; rfl)).1
  obtain ⟨dE, hdE⟩ : ∃ d, direction (((fullPath L E s t)[s]?).map CV.vert) ((if s = 0 then none else (fullPath L E s t)[s - 1]?).map CV.vert) = some d := by
    by_cases h0 : s = 0
    · rw [if_pos h0, hpE]; exact ⟨0, rfl⟩
    · obtain ⟨c, -, hp⟩ := getL (s - 1) (by omega)
      rw [if_neg h0, hp, hpE]
      exact (hd (by omega) _ _ (by rw [hvget, hp]; rfl) (by rw [hvget, hpE]; rfl)).2
  set vL := (if s = 0 then none else (fullPath L E s t)[s - 1]?).map (fun v : CV => { v with wFwd := dL }) with hvL
  set vE := ((fullPath L E s t)[s]?).map (fun v : CV => { v with wRev := dE }) with hvE
  set vLp := if s < 2 then none else (fullPath L E s t)[s - 2]? with hvLp
  set vEp := if t < 2 then none else (fullPath L E s t)[s + 1]? with hvEp
  have vE_eq : vE = some { (retype (s + t) s cE).flip with wRev := dE } := by rw [hvE, hpE]; rfl
  have vL_eq : ∀ m, s = m + 1 → ∃ c, L[m]? = some c ∧ (fullPath L E s t)[m]? = some (retype (s + t) m c) ∧ vL = some { retype (s + t) m c with wFwd := dL } := fun m hm => by
    obtain ⟨c, hc, hp⟩ := getL m hm
    refine ⟨c, hc, hp, ?_⟩
    rw [hvL, if_neg (by omega), show s - 1 = m by omega, hp]
    rfl
  obtain ⟨fE, hfE⟩ : ∃ x, newFwd W vL vE = some x := by
    obtain ⟨x, hx⟩ := h1
    refine ⟨x, ?_⟩
    rw [← hx]
    symm
    refine dens_eq J h2 HL.toCached ht1 _ _ _ vE_eq ?_ ?_ ?_ ?_
    · rw [hvget, hpE]; rfl
    · intro h0; rw [hvL, if_pos h0]; rfl
    · intro m hm
      obtain ⟨c, hc, hp, e⟩ := vL_eq m hm
      refine ⟨_, c, e, hc, by rw [hvget, hp]; rfl, (retype_rest _ m c).2.1, ?_⟩
      rw [if_neg (by omega), show s - 1 = m by omega, hp, hpE] at hdL
      exact hdL
    · intro h1; exact (hconn (by omega)).1 h1
  obtain ⟨rL, hrL⟩ : ∃ x, newRev W vL vE = some x := by
    by_cases h0 : s = 0
    · refine ⟨0, ?_⟩
      rw [hvL, if_pos h0]; rfl
    · obtain ⟨x, hx⟩ := h3 (by omega)
      refine ⟨x, ?_⟩
      obtain ⟨c, hc, hp, e⟩ := vL_eq (s - 1) (by omega)
      rw [← hx, newRev_flip]
      symm
      refine dens_eq JR (by omega) HE.toCached (by omega) _ _ (CV.flip { retype (s + t) (s - 1) c with wFwd := dL }) ?_ ?_ ?_ ?_ ?_
      · rw [e]; rfl
      · rw [hrget t (by omega), show s + t - 1 - t = s - 1 by omega, hp]; rfl
      · omega
      · intro m hm
        obtain rfl : m = t - 1 := by omega
        refine ⟨CV.flip { (retype (s + t) s cE).flip with wRev := dE }, cE, by rw [vE_eq]; rfl, hcE, ?_, (retype_rest _ _ cE).2.1, ?_⟩
        · rw [hrget (t - 1) (by omega), show s + t - 1 - (t - 1) = s by omega, hpE]; rfl
        · rw [if_neg h0, hpE, hp] at hdE
          exact hdE
      · intro h1 u hu
        rw [hrget 0 (by omega), show s + t - 1 - 0 = s by omega] at hu
        exact (hconn (by omega)).2 h1 u (by rw [hvget]; exact hu)
  obtain ⟨fEp, hfEp⟩ : ∃ x, newFwdPrev W vEp vE vL = some x := by
    by_cases h0 : t < 2
    · refine ⟨0, ?_⟩
      rw [hvEp, if_pos h0]; rfl
    · obtain ⟨x, hx⟩ := h2' (by omega)
      obtain ⟨v, hv⟩ := getEp (by omega)
      refine ⟨x, ?_⟩
      rw [← hx]
      symm
      refine dens_succ J h2 HE.toCached (by omega) _ _ _ _ v cE vE_eq ?_ ?_ ?_ hcE ?_ ?_ ?_
      · rw [hvget, hpE]; rfl
      · rw [hvEp, if_neg h0, hv]
      · rw [hvget, hv]; rfl
      · exact (retype_rest _ s cE).2.1
      · rw [hpE] at hdE
        show _ = some dE
        rw [← hdE]
        by_cases h0 : s = 0
        · rw [if_pos h0, if_pos h0]; rfl
        · rw [if_neg h0, if_neg h0, hvget]; rfl
      · by_cases h0 : s = 0
        · simp [hvL, h0]
        · obtain ⟨c, hc, hp, e⟩ := vL_eq (s - 1) (by omega)
          simp [e, h0]
  obtain ⟨rLp, hrLp⟩ : ∃ x, newRevPrev W vLp vL vE = some x := by
    by_cases h0 : s < 2
    · refine ⟨0, ?_⟩
      rw [hvLp, if_pos h0]; rfl
    · obtain ⟨x, hx⟩ := h4 (by omega)
      obtain ⟨v, hv⟩ := getLp (by omega)
      obtain ⟨c, hc, hp, e⟩ := vL_eq (s - 1) (by omega)
      refine ⟨x, ?_⟩
      rw [← hx, newRevPrev_flip]
      symm
      refine dens_succ JR (by omega) HL.toCached (by omega) _ _ _ (CV.flip { retype (s + t) (s - 1) c with wFwd := dL }) v.flip c ?_ ?_ ?_ ?_ hc ?_ ?_ ?_
      · rw [e]; rfl
      · rw [hrget t (by omega), show s + t - 1 - t = s - 1 by omega, hp]; rfl
      · rw [hvLp, if_neg h0, hv]; rfl
      · rw [hrget (t + 1) (by omega), show s + t - 1 - (t + 1) = s - 2 by omega, hv]; rfl
      · exact (retype_rest _ _ c).2.1
      · rw [if_neg (show ¬ s = 0 by omega), hp] at hdL
        show _ = some dL
        rw [← hdL, if_neg (show ¬ t = 0 by omega), hrget (t - 1) (by omega), show s + t - 1 - (t - 1) = s by omega]; rfl
      · simp only [vE_eq]
        constructor
        · intro c; simp at c
        · omega
  have i1 : idx (fullPath L E s t).length ((s : Int) - 1) .LE = if s = 0 then none else some (s - 1) := by
    have := idxL (fullPath L E s t).length s (by omega) 1 (by omega)
    simpa using this
  have i2 : idx (fullPath L E s t).length ((t : Int) - 1) .EL = some s := by
    have := idxE (fullPath L E s t).length s t hlen 1 (by omega)
    rw [if_neg (by omega)] at this
    simpa using this
  have i3 : idx (fullPath L E s t).length ((s : Int) - 2) .LE = if s < 2 then none else some (s - 2) := by
    have := idxL (fullPath L E s t).length s (by omega) 2 (by omega)
    simpa using this
  have i4 : idx (fullPath L E s t).length ((t : Int) - 2) .EL = if t < 2 then none else some (s + 1) := by
    have := idxE (fullPath L E s t).length s t hlen 2 (by omega)
    simpa using this
  have c1 : cvAt (fullPath L E s t) (if s = 0 then none else some (s - 1)) = if s = 0 then none else (fullPath L E s t)[s - 1]? := by split_ifs <;> rfl
  have c2 : cvAt (fullPath L E s t) (some s) = (fullPath L E s t)[s]? := rfl
  have c3 : cvAt (fullPath L E s t) (if s < 2 then none else some (s - 2)) = vLp := by rw [hvLp]; split_ifs <;> rfl
  have c4 : cvAt (fullPath L E s t) (if t < 2 then none else some (s + 1)) = vEp := by rw [hvEp]; split_ifs <;> rfl
  unfold fixup
  simp only [i1, i2, i3, i4, c1, c2, c3, c4, hdL, hdE, Option.bind_eq_bind, Option.bind_some, ← hvL, ← hvE, hrL, hfE, hrLp, hfEp, Option.pure_def]
  exact ⟨_, rfl⟩

end LM.Path
