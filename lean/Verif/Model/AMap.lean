/-
  Association map used to model `std::unordered_map<K,V>`.
  Only key lookup, `operator[]=`, `erase` and iteration as a set of entries are used by the model;
  iteration order (unspecified in C++) is never observed.
-/
namespace LM

/-- Strings are modelled as lists of characters (std::string, common.h:15-25). -/
abbrev Str := List Char

/-- Model of `std::unordered_map`: association list, invariant "keys are distinct" is proved separately (e.g. component.cpp:24-73, assetgroup.cpp:14-15). -/
abbrev AMap (K V : Type) := List (K × V)

namespace AMap
variable {K V : Type} [DecidableEq K]

/-- `map.find(k)` (e.g. assetgroup.cpp:28-34). -/
def find? : AMap K V → K → Option V
  | [], _ => none
  | (k', v) :: m, k => if k' = k then some v else find? m k

/-- `map.erase(k)` (e.g. component.cpp:219-249). -/
def erase (m : AMap K V) (k : K) : AMap K V := m.filter (fun e => !decide (e.1 = k))

/-- `map[k] = v` (e.g. assetgroup.cpp:85). -/
def insert (m : AMap K V) (k : K) (v : V) : AMap K V := (k, v) :: erase m k

/-- Keys of the map (specification helper). -/
def keys (m : AMap K V) : List K := m.map Prod.fst

@[simp] theorem find?_nil (k : K) : find? ([] : AMap K V) k = none := rfl

theorem find?_erase_self (m : AMap K V) (k : K) : (m.erase k).find? k = none := by
  induction m with
  | nil => rfl
  | cons e m ih =>
    obtain ⟨k', v⟩ := e
    unfold erase at *
    by_cases h : k' = k
    · simp [h, ih]
    · simp [h, find?, ih]

theorem find?_erase_ne (m : AMap K V) {k k' : K} (h : k' ≠ k) : (m.erase k).find? k' = m.find? k' := by
  induction m with
  | nil => rfl
  | cons e m ih =>
    obtain ⟨k₀, v⟩ := e
    unfold erase at *
    by_cases h0 : k₀ = k
    · have : k₀ ≠ k' := fun e => h (by rw [← e, h0])
      subst h0
      simp [ih, find?, this]
    · simp [h0, find?, ih]

theorem find?_erase (m : AMap K V) (k k' : K) :
    (m.erase k).find? k' = if k' = k then none else m.find? k' := by
  by_cases h : k' = k
  · simp [h, find?_erase_self]
  · simp [h, find?_erase_ne]

theorem find?_insert (m : AMap K V) (k k' : K) (v : V) :
    (m.insert k v).find? k' = if k' = k then some v else m.find? k' := by
  by_cases h : k' = k
  · simp [h, insert, find?]
  · have h' : k ≠ k' := fun e => h e.symm
    simp [h, h', insert, find?, find?_erase_ne]

theorem mem_keys_iff (m : AMap K V) (k : K) : k ∈ m.keys ↔ ∃ v, m.find? k = some v := by
  induction m with
  | nil => simp [keys]
  | cons e m ih =>
    obtain ⟨k', v⟩ := e
    unfold keys at *
    by_cases h : k' = k
    · simp [find?, h]
    · have : k ≠ k' := fun e => h e.symm
      simp only [List.map_cons, List.mem_cons, find?, h, if_false, this, false_or, ih]

theorem mem_of_find? {m : AMap K V} {k : K} {v : V} (h : m.find? k = some v) : (k, v) ∈ m := by
  induction m with
  | nil => simp at h
  | cons e m ih =>
    obtain ⟨k', v'⟩ := e
    unfold find? at h
    split at h
    · next hk => cases h; subst hk; simp
    · exact List.mem_cons_of_mem _ (ih h)

theorem keys_erase_nodup {m : AMap K V} (k : K) (h : m.keys.Nodup) : (m.erase k).keys.Nodup := by
  unfold keys erase at *
  exact h.sublist (List.Sublist.map _ (List.filter_sublist))

theorem not_mem_keys_erase (m : AMap K V) (k : K) : k ∉ (m.erase k).keys := by
  rw [mem_keys_iff, find?_erase_self]
  simp

theorem keys_insert_nodup {m : AMap K V} (k : K) (v : V) (h : m.keys.Nodup) : (m.insert k v).keys.Nodup := by
  show (k :: (m.erase k).keys).Nodup
  exact List.nodup_cons.mpr ⟨not_mem_keys_erase m k, keys_erase_nodup k h⟩

theorem find?_of_mem {m : AMap K V} (hn : m.keys.Nodup) {k : K} {v : V} (h : (k, v) ∈ m) :
    m.find? k = some v := by
  induction m with
  | nil => simp at h
  | cons e m ih =>
    obtain ⟨k', v'⟩ := e
    unfold keys at hn
    simp only [List.map_cons, List.nodup_cons] at hn
    rcases List.mem_cons.mp h with h | h
    · cases h; simp [find?]
    · have hk : k ∈ m.map Prod.fst := List.mem_map.mpr ⟨(k, v), h, rfl⟩
      have : k' ≠ k := fun e => hn.1 (e ▸ hk)
      simp [find?, this, ih hn.2 h]

end AMap
end LM
