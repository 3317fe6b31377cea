import Verif.Model.Volume
/-
  The tracking loops of medium::heterogeneous with IEEE arithmetic, without traps: medium_heterogeneous.cpp:43-105. They differ from those of Model/Volume if the maximum of the density is zero, where 1 / 0 is infinite.
-/
namespace LM.Volume
open LM LM.Bound

/-- IEEE difference (medium_heterogeneous.cpp:56, 95). -/
noncomputable def esub : EFK ℝ → EFK ℝ → EFK ℝ
  | .nan, _ => .nan
  | _, .nan => .nan
  | .fin a, .fin b => .fin (a - b)
  | .fin _, .pinf => .ninf
  | .fin _, .ninf => .pinf
  | .pinf, .pinf => .nan
  | .pinf, _ => .pinf
  | .ninf, .ninf => .nan
  | .ninf, _ => .ninf

/-- IEEE comparison x >= y (medium_heterogeneous.cpp:57, 96). -/
noncomputable def ege : EFK ℝ → EFK ℝ → Bool
  | .nan, _ => false
  | _, .nan => false
  | x, y => !elt x y

/-- t -= glm::log(1_f - rng.u()) * inv_max_density, medium_heterogeneous.cpp:56, 95. -/
noncomputable def ieeeStep (inv t : EFK ℝ) (u : ℝ) : EFK ℝ := esub t (emul (.fin (Real.log (1 - u))) inv)

/-- eval_scalar(ray.o + ray.d * t), medium_heterogeneous.cpp:63-64, 99-100; `junk` is its answer for a point whose coordinates are not numbers, none: not a number. -/
noncomputable def ieeeDensity (density : Vol) (r : RayK ℝ) (junk : Option ℝ) : EFK ℝ → Option (EFK ℝ)
  | .fin t => (density.evalScalar (r.o + t • r.d)).map .fin
  | _ => some (junk.elim .nan .fin)

/-- The result of a scattering collision, medium_heterogeneous.cpp:69-77; `odd`: at a point whose coordinates are not numbers. -/
noncomputable def ieeeScatter (albedo : Vol) (r : RayK ℝ) (odd : DistRes) : EFK ℝ → Track DistRes
  | .fin t => match albedo.evalColor (r.o + t • r.d) with
    | none => .undef
    | some c => .done (.ok (r.o + t • r.d) c true)
  | _ => .done odd

/-- The loop of sample_distance, medium_heterogeneous.cpp:52-79. -/
noncomputable def ieeeDelta (density albedo : Vol) (r : RayK ℝ) (junk : Option ℝ) (odd : DistRes) (inv : EFK ℝ) (tmax : ℝ) : EFK ℝ → List ℝ → Track DistRes
  | _, [] => .more
  | t, u1 :: us =>
    let t := ieeeStep inv t u1
    if ege t (.fin tmax) then .done .none
    else match ieeeDensity density r junk t with
      | none => .undef
      | some d => match us with
        | [] => .more
        | u2 :: us =>
          if elt (.fin u2) (emul d inv) then ieeeScatter albedo r odd t
          else ieeeDelta density albedo r junk odd inv tmax t us

/-- The loop of eval_transmittance, medium_heterogeneous.cpp:91-102; the estimate is a number times 1 - density * inv_max_density in each round. -/
noncomputable def ieeeRatio (density : Vol) (r : RayK ℝ) (junk : Option ℝ) (inv : EFK ℝ) (tmax : ℝ) : EFK ℝ → EFK ℝ → List ℝ → Track (EFK ℝ)
  | _, _, [] => .more
  | t, tr, u1 :: us =>
    let t := ieeeStep inv t u1
    if ege t (.fin tmax) then .done tr
    else match ieeeDensity density r junk t with
      | none => .undef
      | some d => ieeeRatio density r junk inv tmax t (match tr with
          | .fin x => emul (.fin x) (esub (.fin 1) (emul d inv))
          | _ => .nan) us

/-- inv_max_density = 1 / max_scalar(), medium_heterogeneous.cpp:53, 93: infinite for a (positive) zero. -/
noncomputable def ieeeInv (density : Vol) : Option (EFK ℝ) := density.maxScalar.map fun m => recip m false

/-- sample_distance, medium_heterogeneous.cpp:43-82. -/
noncomputable def ieeeDistance (density albedo : Vol) (r : RayK ℝ) (junk : Option ℝ) (odd : DistRes) (tmin tmax : ℝ) (us : List ℝ) : Track DistRes :=
  match isectRange density.bound r (.fin tmin) (.fin tmax) with
  | none => .done .none
  | some (.fin a, .fin c) => match ieeeInv density with
    | none => .undef
    | some inv => ieeeDelta density albedo r junk odd inv c (.fin a) us
  | some _ => .undef

/-- eval_transmittance, medium_heterogeneous.cpp:84-105. An estimate that is not a number is `undef`. -/
noncomputable def ieeeTransmittance (density : Vol) (r : RayK ℝ) (junk : Option ℝ) (tmin tmax : ℝ) (us : List ℝ) : Track (V3 ℝ) :=
  match isectRange density.bound r (.fin tmin) (.fin tmax) with
  | none => .done (V3.all 1)
  | some (.fin a, .fin c) => match ieeeInv density with
    | none => .undef
    | some inv => match ieeeRatio density r junk inv c (.fin a) (.fin 1) us with
      | .more => .more
      | .undef => .undef
      | .done (.fin t) => .done (V3.all t)
      | .done _ => .undef
  | some _ => .undef

end LM.Volume
