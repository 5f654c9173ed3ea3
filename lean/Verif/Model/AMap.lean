/-
Finite maps, standing for `std::collections::HashMap`.

Simplification: a map is a list of entries with distinct keys.  Rust iterates over a `HashMap` in an
unspecified order; where the modelled code iterates, the model takes the order as a parameter.
-/
namespace Acorn

/-- A finite map (models `HashMap<κ, ν>`). -/
structure AMap (κ ν : Type) where
  entries : List (κ × ν)
  nodup : (entries.map Prod.fst).Nodup

namespace AMap
variable {κ ν : Type} [DecidableEq κ]

/-- `HashMap::new`. -/
def empty : AMap κ ν := ⟨[], List.nodup_nil⟩

/-- `HashMap::get`. -/
def get? (m : AMap κ ν) (k : κ) : Option ν := (m.entries.find? fun e => e.1 == k).map Prod.snd

/-- `HashMap::contains_key`. -/
def contains (m : AMap κ ν) (k : κ) : Bool := (m.get? k).isSome

/-- `HashMap::keys`, in some order. -/
def keys (m : AMap κ ν) : List κ := m.entries.map Prod.fst

/-- `HashMap::remove`. -/
def erase (m : AMap κ ν) (k : κ) : AMap κ ν :=
  ⟨m.entries.filter fun e => e.1 != k, by
    have := m.nodup
    rw [List.nodup_iff_pairwise_ne, List.pairwise_map] at this ⊢
    exact this.filter _⟩

/-- `HashMap::insert`. -/
def insert (m : AMap κ ν) (k : κ) (v : ν) : AMap κ ν :=
  ⟨(k, v) :: (m.erase k).entries, by
    simp only [List.map_cons, List.nodup_cons]
    refine ⟨?_, (m.erase k).nodup⟩
    simp [erase]⟩

/-! ### Laws -/

@[simp] theorem get?_empty (k : κ) : (empty : AMap κ ν).get? k = none := rfl

theorem get?_eq_some {m : AMap κ ν} {k : κ} {v : ν} : m.get? k = some v ↔ (k, v) ∈ m.entries := by
  obtain ⟨es, hn⟩ := m
  simp only [get?]
  induction es with
  | nil => simp
  | cons e es ih =>
    simp only [List.map_cons, List.nodup_cons] at hn
    rw [List.find?_cons]
    split
    · rename_i h
      simp only [beq_iff_eq] at h
      subst h
      simp only [Option.map_some, Option.some.injEq, List.mem_cons]
      constructor
      · rintro rfl; exact Or.inl rfl
      · rintro (h | h)
        · rw [← h]
        · exact absurd (List.mem_map_of_mem (f := Prod.fst) h) hn.1
    · rename_i h
      rw [ih hn.2]
      simp only [List.mem_cons]
      refine ⟨Or.inr, fun h' => h'.elim (fun h' => ?_) id⟩
      subst h'
      simp at h

theorem mem_keys {m : AMap κ ν} {k : κ} : k ∈ m.keys ↔ ∃ v, m.get? k = some v := by
  simp only [keys, List.mem_map, Prod.exists, exists_and_right, exists_eq_right, get?_eq_some]

theorem keys_nodup (m : AMap κ ν) : m.keys.Nodup := m.nodup

theorem contains_iff {m : AMap κ ν} {k : κ} : m.contains k = true ↔ ∃ v, m.get? k = some v := by
  rw [contains, Option.isSome_iff_exists]

theorem ext_get? {o o' : Option ν} (h : ∀ v, o = some v ↔ o' = some v) : o = o' := by
  cases o with
  | none =>
    cases o' with
    | none => rfl
    | some v => exact ((h v).2 rfl)
  | some v => exact ((h v).1 rfl).symm

theorem get?_erase (m : AMap κ ν) (k k' : κ) :
    (m.erase k).get? k' = if k' = k then none else m.get? k' := by
  apply ext_get?
  intro v
  rw [get?_eq_some]
  simp only [erase, List.mem_filter, bne_iff_ne, ne_eq]
  split
  · rename_i h; simp [h]
  · rename_i h
    rw [get?_eq_some]; simp [h]

theorem get?_insert (m : AMap κ ν) (k k' : κ) (v : ν) :
    (m.insert k v).get? k' = if k' = k then some v else m.get? k' := by
  apply ext_get?
  intro w
  rw [get?_eq_some]
  simp only [insert, List.mem_cons, Prod.mk.injEq]
  rw [← get?_eq_some, get?_erase]
  split
  · rename_i h; subst h; simp [eq_comm]
  · rename_i h; simp [h]

theorem contains_insert (m : AMap κ ν) (k k' : κ) (v : ν) :
    (m.insert k v).contains k' = (decide (k' = k) || m.contains k') := by
  simp only [contains, get?_insert]
  split <;> simp [*]

end AMap
end Acorn
