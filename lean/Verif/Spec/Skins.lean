import Verif.Spec.Parts
/-
  Scenes described by their triangles, with the materials that reflect or transmit into one direction as well.
-/
namespace LM.Transport
open MeasureTheory LM LM.Surface LM.Material LM.Light LM.Path LM.Render LM.Solid

/-- Diffuse or glossy, a mirror (material::mirror), or transparent (material::mask). -/
inductive Layer
  | coat (k : Coat)
  | mirror
  | mask

noncomputable def Layer.mat : Layer → Mat
  | .coat k => k.mat
  | .mirror => Material.mirror
  | .mask => Material.mask

def Layer.Sound (vertex : V3 ℝ → SI) : Layer → Prop
  | .coat k => k.Sound vertex
  | _ => True

/-- It scatters into one direction. -/
def Layer.single : Layer → Bool
  | .coat _ => false
  | _ => true

/-- The material of a surface: one of these, a mixture of them (material::constant_weight_mixture_rr or material::constant_weight_mixture_marginalized), glass with the index of refraction Ni (material::glass), or the material of an OBJ model
    (material::mixture_wavefrontobj), with its mask `alpha`, which is 1 without mask texture. -/
inductive Skin
  | plain (l : Layer)
  | mix (ls : List (Layer × ℝ))
  | marg (ls : List (Layer × ℝ))
  | glass (Ni : ℝ)
  | obj (Kd : Geom → V3 ℝ) (Ks : V3 ℝ) (ax ay : ℝ) (alpha : Geom → ℝ)

noncomputable def Skin.mat : Skin → Mat
  | .plain l => l.mat
  | .mix ls => mixtureRR (ls.map fun e => (e.1.mat, e.2))
  | .marg ls => mixtureMarg (ls.map fun e => (e.1.mat, e.2))
  | .glass Ni => Material.glass Ni
  | .obj Kd Ks ax ay alpha => objMixture (Material.diffuse Kd) (Material.glossy Ks ax ay) alpha

/-- Mixtures are not empty, and have positive weights; indices of refraction are positive; the parts of the material of an OBJ model are as for diffuse and glossy materials, and its
    mask cuts holes: it is 0 in them and 1 elsewhere (masks with other values do not work, `C45_negation_obj_mask`). -/
def Skin.Sound (vertex : V3 ℝ → SI) : Skin → Prop
  | .plain l => l.Sound vertex
  | .mix ls => ls ≠ [] ∧ ∀ e ∈ ls, 0 < e.2 ∧ e.1.Sound vertex
  | .marg ls => ls ≠ [] ∧ ∀ e ∈ ls, 0 < e.2 ∧ e.1.Sound vertex
  | .glass Ni => 0 < Ni
  | .obj Kd Ks ax ay alpha => ((Coat.diffuse Kd).Sound vertex ∧ (Coat.glossy Ks ax ay).Sound vertex) ∧ (∀ p, alpha (vertex p).geom = 0 ∨ alpha (vertex p).geom = 1) ∧ Measurable fun p => alpha (vertex p).geom

/-- The components that can be selected: the entries of a mixture; if it is marginalized, those that scatter into one direction, from 1 on, and, as component 0, the others together, if there are others; reflection and refraction of glass, as far as the Fresnel term gives them a part; of the material of an OBJ model the
    reflecting component 0, and the transparent one in holes. -/
noncomputable def Skin.comps (g : Geom) (wi : V3 ℝ) : Skin → Finset ℕ
  | .plain _ => {0}
  | .mix ls => Finset.range ls.length
  | .marg ls => (Finset.range (1 + ls.countP fun e => e.1.single)).filter fun c => c = 0 → ∃ e ∈ ls, e.1.single = false
  | .glass Ni => (Finset.range 2).filter fun c => (if c = 0 then glassFr Ni g wi else 1 - glassFr Ni g wi) ≠ 0
  | .obj _ _ _ _ alpha => if alpha g = 1 then {0} else {1}

/-- The components of a vertex: those of the material of a surface; a camera has one. -/
noncomputable def compsOf (skin : Int → Skin) (s : SI) (wi : V3 ℝ) : Finset ℕ :=
  match s.kind with
  | .surface => (skin s.primitive).comps s.geom wi
  | _ => {0}

/-- The primitives have these materials. -/
structure Dress (W : World) (ps : List Part) (sgn : V3 ℝ → Bool) (junk : V3 ℝ) (skin : Int → Skin) : Prop where
  material : ∀ a ∈ ps, W.materialAt a.prim = some (skin a.prim).mat
  sound : ∀ j, (skin j).Sound (vertexAt ps sgn junk j)

end LM.Transport
