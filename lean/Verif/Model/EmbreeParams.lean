import Mathlib.Data.Nat.Bitwise
/-
  Options of the Embree acceleration structures, plugin/accel_embree/embree_params.h:67-132, and their use in accel_embree.cpp:41-53, 86-87 (the same in accel_embree_instanced.cpp:44-56, 179-180).
-/
namespace LM.EmbreeParams

/-- A property of a JSON object, read as a value of type α: missing, a value, or a value of another type. -/
inductive Opt (α : Type) where
  | missing
  | val (a : α)
  | wrong

/-- json::value with a default, json.h: none if the exception of the JSON library is thrown. -/
def Opt.value {α : Type} (o : Opt α) (default : α) : Option α :=
  match o with
  | .missing => some default
  | .val a => some a
  | .wrong => none

/-- The properties that are read. F: single precision numbers. -/
structure Params (F : Type) where
  dynamic : Opt Bool
  compact : Opt Bool
  robust : Opt Bool
  filter : Opt Bool
  quality : Opt ℤ
  maxDepth : Opt ℕ
  maxBranchingFactor : Opt ℕ
  sahBlockSize : Opt ℕ
  minLeafSize : Opt ℕ
  maxLeafSize : Opt ℕ
  travcost : Opt F
  intcost : Opt F

/-- RTCBuildArguments, the members that are set. -/
structure BuildArguments (F : Type) where
  buildQuality : ℤ
  maxDepth : ℕ
  maxBranchingFactor : ℕ
  sahBlockSize : ℕ
  minLeafSize : ℕ
  maxLeafSize : ℕ
  traversalCost : F
  intersectionCost : F

/-- from_json for RTCSceneFlags, embree_params.h:81-101. junk: what the variable contains before (the JSON library passes a fresh variable, which older versions do not initialise). RTC_SCENE_FLAG_DYNAMIC, COMPACT, ROBUST, CONTEXT_FILTER_FUNCTION are the bits 0 to 3. -/
def flagsFromJson {F : Type} (junk : ℕ) (p : Params F) : Option ℕ := do
  let d ← p.dynamic.value false
  let c ← p.compact.value false
  let r ← p.robust.value false
  let f ← p.filter.value false
  let sf := junk
  let sf := if d then 1 else sf
  let sf := if c then sf ||| 2 else sf
  let sf := if r then sf ||| 4 else sf
  let sf := if f then sf ||| 8 else sf
  pure (if d || c || r then sf else 0)

/-- to_json for RTCSceneFlags, embree_params.h:70-80. -/
def flagsToJson (sf : ℕ) : Bool × Bool × Bool × Bool := (sf.testBit 0, sf.testBit 1, sf.testBit 2, sf.testBit 3)

/-- from_json for RTCBuildArguments, embree_params.h:105-115. -/
def argumentsFromJson {F : Type} [One F] (p : Params F) : Option (BuildArguments F) := do
  let q ← p.quality.value 1
  let d ← p.maxDepth.value 18
  let b ← p.maxBranchingFactor.value 2
  let s ← p.sahBlockSize.value 1
  let mi ← p.minLeafSize.value 1
  let ma ← p.maxLeafSize.value 32
  let t ← p.travcost.value 1
  let i ← p.intcost.value 1
  pure ⟨q, d, b, s, mi, ma, t, i⟩

/-- to_json for RTCBuildArguments, embree_params.h:116-130, as the properties of an object. -/
def argumentsToJson {F : Type} (a : BuildArguments F) : Params F :=
  ⟨.missing, .missing, .missing, .missing, .val a.buildQuality, .val a.maxDepth, .val a.maxBranchingFactor, .val a.sahBlockSize, .val a.minLeafSize, .val a.maxLeafSize, .val a.traversalCost, .val a.intersectionCost⟩

/-- construct, accel_embree.cpp:41-44; none: an exception. -/
def construct {F : Type} [One F] (junk : ℕ) (p : Params F) : Option (BuildArguments F × ℕ) := do
  let a ← argumentsFromJson p
  let sf ← flagsFromJson junk p
  pure (a, sf)

/-- What build hands to the library for the scene: the flags and the build quality, accel_embree.cpp:86-87. -/
def handed {F : Type} (s : BuildArguments F × ℕ) : ℕ × ℤ := (s.2, s.1.buildQuality)

end LM.EmbreeParams
