import Verif.Model.BdptOptRender
/-
  C88: which subpaths renderer::bdptopt connects.
-/
namespace LM.Render
open LM LM.Surface LM.Material LM.Light LM.Volume LM.Path

/-- C88: in any scene, a strategy that connects two vertices adds something to the film only if neither of them is at infinity, neither scatters in a single direction only, they see each other, and the ends of the
    subpaths it connects to can be connected to. A strategy with fewer than two vertices violates an assertion. -/
theorem C88_connects (W : World) (Q : Query) (L E : List CV) (s t : ℕ) :
    (s + t < 2 → optSplat W Q L E (s, t) = none) ∧
    ∀ out, optSplat W Q L E (s, t) = some out → out ≠ [] → 1 ≤ s → 1 ≤ t →
      ∃ vL vE, L[s - 1]? = some vL ∧ E[t - 1]? = some vE ∧ vL.sp.geom.infinite = false ∧ vE.sp.geom.infinite = false ∧ Q.visible vL.sp vE.sp = true ∧
        isSpecularComponent W vL.sp vL.comp = some false ∧ isSpecularComponent W vE.sp vE.comp = some false ∧
        (s = 1 → isConnectableEndpoint W vL.sp = some true) ∧ (t = 1 → isConnectableEndpoint W vE.sp = some true) := by
  constructor
  · intro h
    simp only [optSplat, optSamplable, if_pos h]
    rfl
  · intro out h hne hs ht
    simp only [optSplat] at h
    obtain ⟨ok, hok, h⟩ := Option.bind_eq_some_iff.mp h
    cases ok with
    | false => simp at h; exact absurd h hne
    | true =>
      simp only [Bool.not_true, Bool.false_eq_true, if_false] at h
      obtain ⟨C, hC, h⟩ := Option.bind_eq_some_iff.mp h
      have hC0 : C ≠ 0 := by
        intro hc
        rw [if_pos hc] at h
        exact hne (Option.some.inj h).symm
      simp only [optSamplable] at hok
      rw [if_neg (by omega), if_neg (by omega), if_neg (by omega)] at hok
      obtain ⟨vL, hL, hok⟩ := Option.bind_eq_some_iff.mp hok
      obtain ⟨vE, hE, hok⟩ := Option.bind_eq_some_iff.mp hok
      have key : vL.sp.geom.infinite = false ∧ vE.sp.geom.infinite = false ∧ isSpecularComponent W vL.sp vL.comp = some false ∧ isSpecularComponent W vE.sp vE.comp = some false ∧
          (s = 1 → isConnectableEndpoint W vL.sp = some true) ∧ (t = 1 → isConnectableEndpoint W vE.sp = some true) := by
        generalize vL.sp.geom.infinite = iL at hok ⊢
        generalize vE.sp.geom.infinite = iE at hok ⊢
        generalize isSpecularComponent W vL.sp vL.comp = sL at hok ⊢
        generalize isSpecularComponent W vE.sp vE.comp = sE at hok ⊢
        generalize isConnectableEndpoint W vL.sp = cL at hok ⊢
        generalize isConnectableEndpoint W vE.sp = cE at hok ⊢
        have hb : ∀ o : Option Bool, o = none ∨ o = some false ∨ o = some true := fun o => by rcases o with _ | _ | _ <;> simp
        by_cases h1 : s = 1 <;> by_cases h2 : t = 1 <;> simp only [h1, h2, if_true, if_false] at hok ⊢ <;>
          rcases hb sL with rfl | rfl | rfl <;> rcases hb sE with rfl | rfl | rfl <;> cases iL <;> cases iE <;>
          rcases hb cL with rfl | rfl | rfl <;> rcases hb cE with rfl | rfl | rfl <;> simp at hok ⊢
      obtain ⟨i1, i2, hsL, hsE, c1, c2⟩ := key
      refine ⟨vL, vE, hL, hE, i1, i2, ?_, hsL, hsE, c1, c2⟩
      by_contra hv
      simp only [optContrb] at hC
      rw [if_neg (by omega), if_neg (by omega)] at hC
      rw [hL, hE] at hC
      simp only [Option.bind_eq_bind, Option.bind_some] at hC
      rw [if_pos (by simpa using hv)] at hC
      exact hC0 (Option.some.inj hC).symm

end LM.Render
