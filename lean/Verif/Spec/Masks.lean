import Verif.Spec.Skins
/-
  What materials of OBJ models look like whose masks have values between 0 and 1.
-/
namespace LM.Transport
open MeasureTheory LM LM.Surface LM.Material LM.Light LM.Path LM.Render LM.Solid

/-- The material of an OBJ model with the mask `alpha`, but where `1 - alpha` of the light should pass through the surface, all light passes. -/
noncomputable def leaky (d gl : Mat) (alpha : Geom → ℝ) : Mat := { objMixture d gl alpha with
  eval := fun g wi wo comp dir evalDelta => if comp = 0 then objEval d gl alpha g wi wo 0 dir evalDelta else some (if evalDelta then V3.all 0 else V3.all 1) }

/-- What the material of a surface looks like. -/
noncomputable def Skin.shown : Skin → Mat
  | .obj Kd Ks ax ay alpha => leaky (Material.diffuse Kd) (Material.glossy Ks ax ay) alpha
  | s => s.mat

/-- As `Skin.Sound`, but masks have any values from 0 to 1. -/
def Skin.Masked (vertex : V3 ℝ → SI) : Skin → Prop
  | .obj Kd Ks ax ay alpha => ((Coat.diffuse Kd).Sound vertex ∧ (Coat.glossy Ks ax ay).Sound vertex) ∧ (∀ p, 0 ≤ alpha (vertex p).geom ∧ alpha (vertex p).geom ≤ 1) ∧ Measurable fun p => alpha (vertex p).geom
  | s => s.Sound vertex

/-- The components: as `Skin.comps`; with a mask, the surface, unless the mask is 0, and the transparent component, unless the mask is 1. -/
noncomputable def Skin.parts (g : Geom) (wi : V3 ℝ) : Skin → Finset ℕ
  | .obj _ _ _ _ alpha => (Finset.range 2).filter fun c => (if c = 0 then alpha g else 1 - alpha g) ≠ 0
  | s => s.comps g wi

/-- The components of a vertex. -/
noncomputable def partsOf (skin : Int → Skin) (s : SI) (wi : V3 ℝ) : Finset ℕ :=
  match s.kind with
  | .surface => (skin s.primitive).parts s.geom wi
  | _ => {0}

/-- The scene with other materials. -/
def repaint (W : World) (m : ℕ → Mat) : World := { W with material := m }

/-- The primitives have these materials, and with the materials `m` in place of those of the scene, the materials they look like. -/
structure Masked (W : World) (m : ℕ → Mat) (ps : List Part) (sgn : V3 ℝ → Bool) (junk : V3 ℝ) (skin : Int → Skin) : Prop where
  material : ∀ a ∈ ps, W.materialAt a.prim = some (skin a.prim).mat
  shown : ∀ a ∈ ps, (repaint W m).materialAt a.prim = some (skin a.prim).shown
  only : ∀ k, m k = W.material k ∨ ∃ s : Skin, W.material k = s.mat ∧ m k = s.shown
  sound : ∀ j, (skin j).Masked (vertexAt ps sgn junk j)

end LM.Transport
