import Mathlib.Data.List.Basic

/-!
# Finite maps

`std::unordered_map` as a list of key-value pairs with different keys.  The order of the list
stands for the iteration order; where the code iterates over a map, the theorems allow every
permutation.
-/

namespace Capi

variable {K V : Type} [DecidableEq K]

/-- `find`/`at`. -/
def Assoc.get (l : List (K × V)) (k : K) : Option V :=
  match l with
  | [] => none
  | p :: r => if p.1 = k then some p.2 else Assoc.get r k

/-- `m[k] = v`. -/
def Assoc.set (l : List (K × V)) (k : K) (v : V) : List (K × V) :=
  match l with
  | [] => [(k, v)]
  | p :: r => if p.1 = k then (k, v) :: r else p :: Assoc.set r k v

theorem Assoc.get_set (l : List (K × V)) (k k' : K) (v : V) :
    Assoc.get (Assoc.set l k v) k' = if k = k' then some v else Assoc.get l k' := by
  induction l with
  | nil => simp [Assoc.set, Assoc.get]
  | cons p r ih =>
    simp only [Assoc.set]
    split_ifs with h1 h2
    · simp [Assoc.get, h2]
    · have : p.1 ≠ k' := fun h => h2 (h1 ▸ h)
      simp [Assoc.get, h2, this]
    · rename_i h2
      have : p.1 ≠ k' := fun h => h1 (h.trans h2.symm)
      simp only [Assoc.get, this, if_false]; rw [ih, if_pos h2]
    · rename_i h2
      simp only [Assoc.get, ih, h2, if_false]

theorem Assoc.mem_set (l : List (K × V)) (k : K) (v : V) (q : K × V)
    (h : q ∈ Assoc.set l k v) : q = (k, v) ∨ q ∈ l := by
  induction l with
  | nil => left; simpa [Assoc.set] using h
  | cons p r ih =>
    simp only [Assoc.set] at h
    split_ifs at h with h1
    · rcases List.mem_cons.1 h with h | h
      · exact Or.inl h
      · exact Or.inr (by simp [h])
    · rcases List.mem_cons.1 h with h | h
      · exact Or.inr (by simp [h])
      · rcases ih h with h | h
        · exact Or.inl h
        · exact Or.inr (by simp [h])

theorem Assoc.keys_set (l : List (K × V)) (k : K) (v : V) (h : (l.map Prod.fst).Nodup) :
    ((Assoc.set l k v).map Prod.fst).Nodup := by
  induction l with
  | nil => simp [Assoc.set]
  | cons p r ih =>
    rw [List.map_cons, List.nodup_cons] at h
    simp only [Assoc.set]
    split_ifs with h1
    · rw [List.map_cons, List.nodup_cons]
      exact ⟨by simpa [h1] using h.1, h.2⟩
    · rw [List.map_cons, List.nodup_cons]
      refine ⟨fun hm => ?_, ih h.2⟩
      obtain ⟨q, hq, he⟩ := List.mem_map.1 hm
      rcases Assoc.mem_set r k v q hq with rfl | hq
      · exact h1 he.symm
      · exact h.1 (List.mem_map.2 ⟨q, hq, he⟩)

theorem Assoc.get_eq_some (l : List (K × V)) (k : K) (v : V) (h : (l.map Prod.fst).Nodup) :
    Assoc.get l k = some v ↔ (k, v) ∈ l := by
  induction l with
  | nil => simp [Assoc.get]
  | cons p r ih =>
    rw [List.map_cons, List.nodup_cons] at h
    simp only [Assoc.get]
    split_ifs with h1
    · constructor
      · intro e
        obtain rfl := Option.some.inj e
        rw [← h1]; simp
      · intro e
        rcases List.mem_cons.1 e with e | e
        · rw [← e]
        · exact absurd (List.mem_map.2 ⟨_, e, h1.symm⟩) h.1
    · rw [ih h.2]
      constructor
      · intro e; simp [e]
      · intro e
        rcases List.mem_cons.1 e with e | e
        · exact absurd (by rw [← e]) h1
        · exact e

theorem Assoc.get_eq_none (l : List (K × V)) (k : K) :
    Assoc.get l k = none ↔ k ∉ l.map Prod.fst := by
  induction l with
  | nil => simp [Assoc.get]
  | cons p r ih =>
    simp only [Assoc.get, List.map_cons, List.mem_cons, not_or]
    split_ifs with h1
    · simp [h1]
    · rw [ih]; exact ⟨fun h => ⟨fun h' => h1 h'.symm, h⟩, fun h => h.2⟩

end Capi
