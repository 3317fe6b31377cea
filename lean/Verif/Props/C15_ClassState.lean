import Verif.Model.ClassState
namespace LM.ClassState

theorem load_spec {V : Type} (ms : List String) (s : St V) (t : St V) (rest : List V) :
    ∃ r, load ms (ms.map s ++ rest) t = some (r, rest) ∧ ∀ x, r x = if x ∈ ms then s x else t x := by
  induction ms generalizing t with
  | nil => exact ⟨t, rfl, fun x => by simp⟩
  | cons m ms ih =>
    obtain ⟨r, h1, h2⟩ := ih (fun x => if x = m then s m else t x)
    refine ⟨r, h1, fun x => ?_⟩
    rw [h2]
    by_cases hx : x ∈ ms
    · simp [hx]
    · by_cases hm : x = m
      · simp [hm]
      · simp [hx, hm]

/-- C15. For every class: after saving any state and loading it into a new instance with arbitrary initial members, every saved member has the saved
    value, every other member has its initial value, and exactly the saved data is consumed. -/
theorem C15_restored {V : Type} (c : Cls) (s init : St V) (rest : List V) :
    ∃ r, load c.saved (save c s ++ rest) init = some (r, rest) ∧ ∀ m, r m = if m ∈ c.saved then s m else init m :=
  load_spec c.saved s init rest

/-- What the property asks of a class: every member survives, for every state and whatever the new instance's members were. -/
def Complete (c : Cls) : Prop :=
  ∀ (s init r : St Nat) (rest : List Nat), load c.saved (save c s ++ rest) init = some (r, rest) → ∀ m ∈ c.members, r m = s m

theorem complete_iff (c : Cls) : Complete c ↔ ∀ m ∈ c.members, m ∈ c.saved := by
  constructor
  · intro h m hm
    by_cases hs : m ∈ c.saved
    · exact hs
    · obtain ⟨r, h1, h2⟩ := C15_restored c (fun _ => 1) (fun _ => (0 : Nat)) []
      have := h (fun _ => 1) (fun _ => 0) r [] h1 m hm
      rw [h2, if_neg hs] at this
      exact absurd this (by decide)
  · intro h s init r rest hl m hm
    obtain ⟨r', h1, h2⟩ := C15_restored c s init rest
    rw [h1] at hl
    cases hl
    rw [h2, if_pos (h m hm)]

/-- C15, negation. Exactly these classes lose members over save and load (with the lost members); all others are complete. -/
theorem C15_negation_incomplete_classes (c : Cls) (hc : c ∈ classes) :
    ¬ Complete c ↔ c.name ∈ ["scene::default", "renderer::pt", "renderer::raycast", "renderer::volpt", "renderer::pt_naive_path", "renderer::pt_nee_path",
      "renderer::lt_nee_path", "renderer::bdpt", "renderer::bdptopt", "volume::constant", "texture::constant", "light::env", "medium::homogeneous"] := by
  rw [complete_iff]
  revert c
  decide

/-- C15, negation: the lost members. -/
theorem C15_negation_lost_members :
    (classes.map (fun c => (c.name, c.members.filter (fun m => !decide (m ∈ c.saved))))).filter (fun e => !e.2.isEmpty) =
      [("scene::default", ["medium_"]), ("renderer::pt", ["seed_", "primary_ray_sampling_mode_"]), ("renderer::raycast", ["color_"]),
       ("renderer::volpt", ["seed_"]),
       ("renderer::pt_naive_path", ["scene_", "film_", "min_verts_", "max_verts_", "seed_", "sched_"]),
       ("renderer::pt_nee_path", ["scene_", "film_", "min_verts_", "max_verts_", "seed_", "sched_"]),
       ("renderer::lt_nee_path", ["scene_", "film_", "min_verts_", "max_verts_", "seed_", "sched_"]),
       ("renderer::bdpt", ["scene_", "film_", "min_verts_", "max_verts_", "seed_", "sched_"]),
       ("renderer::bdptopt", ["scene_", "film_", "min_verts_", "max_verts_", "seed_", "sched_"]),
       ("volume::constant", ["color_", "scalar_"]), ("texture::constant", ["alpha_"]), ("light::env", ["scale_"]),
       ("medium::homogeneous", ["albedo_"])] := by decide

/-- C15 (partial). Every other class is restored completely. Missing: the classes of the negation above. -/
theorem C15_complete_classes_partial (c : Cls) (hc : c ∈ classes)
    (hn : c.name ∉ ["scene::default", "renderer::pt", "renderer::raycast", "renderer::volpt", "renderer::pt_naive_path", "renderer::pt_nee_path",
      "renderer::lt_nee_path", "renderer::bdpt", "renderer::bdptopt", "volume::constant", "texture::constant", "light::env", "medium::homogeneous"]) :
    Complete c := by
  by_cases h : Complete c
  · exact h
  · exact absurd ((C15_negation_incomplete_classes c hc).mp h) hn

example : ∃ c ∈ classes, c.name = "film::bitmap" ∧ Complete c :=
  ⟨⟨"film::bitmap", ["w_", "h_", "quality_", "data_"], ["w_", "h_", "quality_", "data_"]⟩, by decide, rfl,
    C15_complete_classes_partial _ (by decide) (by decide)⟩

end LM.ClassState
