import Verif.Model.AssetGroup
/-
  Abstract asset group: a list of distinct names in order of first registration, each with its current asset.
-/
namespace LM.AssetGroup.Spec

abbrev Abs := List (Str × Option Asset)

/-- Replace the value of a name, or append the name at the end. -/
def put (m : Abs) (n : Str) (v : Option Asset) : Abs :=
  if n ∈ m.map Prod.fst then m.map (fun e => if e.1 = n then (e.1, v) else e) else m ++ [(n, v)]

def lookup (m : Abs) (n : Str) : Option Asset := ((m.find? (fun e => e.1 = n)).map Prod.snd).join

/-- Abstract meaning of the API calls. -/
def next (groupLoc : Str) (m : Abs) : Op → Abs × Out
  | .loadAsset n r =>
    if validName n then
      match r with
      | .createFails => (m, .ptr none)
      | .constructs id => (put m n (some ⟨id, groupLoc ++ '.' :: n, true⟩), .ptr (some id))
      | .throws id => (put m n (some ⟨id, groupLoc ++ '.' :: n, false⟩), .exception)
    else (m, .ptr none)
  | .loadSerialized n r =>
    if n ∈ m.map Prod.fst then (m, .exception)
    else match r with
      | .throws => (m ++ [(n, none)], .exception)
      | .ok id => (m ++ [(n, some ⟨id, groupLoc ++ '.' :: n, true⟩)], .ptr (some id))

def runAbs (groupLoc : Str) (m : Abs) : List Op → Abs × List Out
  | [] => (m, [])
  | o :: os => ((runAbs groupLoc (next groupLoc m o).1 os).1, (next groupLoc m o).2 :: (runAbs groupLoc (next groupLoc m o).1 os).2)

end LM.AssetGroup.Spec
