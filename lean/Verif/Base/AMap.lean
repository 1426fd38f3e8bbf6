/-!
# Finite maps

Go maps as association lists with at most one pair per key. The order of the list stands for nothing; where
Go ranges over a map, the models take the order as a parameter or use the result as a set.
-/

namespace Verif

abbrev AMap (κ ν : Type) := List (κ × ν)

namespace AMap

variable {κ ν : Type} [DecidableEq κ]

/-- `v, ok := m[k]` -/
def get (m : AMap κ ν) (k : κ) : Option ν :=
  match m with
  | [] => none
  | p :: m => if p.1 = k then some p.2 else get m k

/-- `delete(m, k)` -/
def del (m : AMap κ ν) (k : κ) : AMap κ ν := m.filter (·.1 ≠ k)

/-- `m[k] = v` -/
def set (m : AMap κ ν) (k : κ) (v : ν) : AMap κ ν := (k, v) :: del m k

/-- The keys. -/
def keys (m : AMap κ ν) : List κ := m.map (·.1)

@[simp] theorem get_nil (k : κ) : get ([] : AMap κ ν) k = none := rfl

theorem get_del (m : AMap κ ν) (k k' : κ) : get (del m k) k' = if k' = k then none else get m k' := by
  induction m with
  | nil => simp [del]
  | cons p m ih =>
    simp only [del] at ih ⊢
    by_cases hp : p.1 = k
    · rw [List.filter_cons, if_neg (by simpa using hp), ih]
      by_cases hk : k' = k
      · simp [hk]
      · rw [if_neg hk, if_neg hk]
        simp only [get]
        have hne : ¬ p.1 = k' := fun e => hk (e.symm.trans hp)
        rw [if_neg hne]
    · rw [List.filter_cons, if_pos (by simpa using hp)]
      simp only [get]
      by_cases hk : p.1 = k'
      · have hk' : ¬ k' = k := fun e => hp (hk.trans e)
        rw [if_pos hk, if_pos hk, if_neg hk']
      · rw [if_neg hk, if_neg hk, ih]

theorem get_set (m : AMap κ ν) (k k' : κ) (v : ν) : get (set m k v) k' = if k' = k then some v else get m k' := by
  simp only [set, get, get_del]
  by_cases h : k' = k
  · simp [h]
  · rw [if_neg (Ne.symm h), if_neg h, if_neg h]

theorem get_set_self (m : AMap κ ν) (k : κ) (v : ν) : get (set m k v) k = some v := by rw [get_set, if_pos rfl]

theorem get_set_ne (m : AMap κ ν) {k k' : κ} (v : ν) (h : k' ≠ k) : get (set m k v) k' = get m k' := by rw [get_set, if_neg h]

theorem get_del_self (m : AMap κ ν) (k : κ) : get (del m k) k = none := by rw [get_del, if_pos rfl]

theorem get_del_ne (m : AMap κ ν) {k k' : κ} (h : k' ≠ k) : get (del m k) k' = get m k' := by rw [get_del, if_neg h]

theorem mem_keys (m : AMap κ ν) (k : κ) : k ∈ keys m ↔ (get m k).isSome := by
  induction m with
  | nil => simp [keys]
  | cons p m ih =>
    simp only [keys, List.map_cons, List.mem_cons, get] at ih ⊢
    by_cases hp : p.1 = k
    · simp [hp]
    · rw [if_neg hp, ← ih]
      constructor
      · rintro (h | h)
        · exact absurd h.symm hp
        · exact h
      · exact Or.inr

theorem mem_of_get (m : AMap κ ν) {k : κ} {v : ν} (h : get m k = some v) : (k, v) ∈ m := by
  induction m with
  | nil => simp at h
  | cons p m ih =>
    simp only [get] at h
    by_cases hp : p.1 = k
    · rw [if_pos hp, Option.some.injEq] at h
      rw [← hp, ← h]; exact List.mem_cons_self
    · rw [if_neg hp] at h
      exact List.mem_cons_of_mem _ (ih h)

/-- The list form of a map: no key twice. -/
def Nodup (m : AMap κ ν) : Prop := (keys m).Nodup

theorem Nodup.del {m : AMap κ ν} (h : Nodup m) (k : κ) : Nodup (del m k) :=
  List.Pairwise.sublist (List.Sublist.map Prod.fst (List.filter_sublist (l := m) (p := fun p : κ × ν => decide (p.1 ≠ k)))) h

theorem Nodup.set {m : AMap κ ν} (h : Nodup m) (k : κ) (v : ν) : Nodup (set m k v) := by
  have hk : k ∉ keys (AMap.del m k) := by rw [mem_keys, get_del_self]; simp
  exact List.nodup_cons.mpr ⟨hk, h.del k⟩

theorem Nodup.get_of_mem {m : AMap κ ν} (h : Nodup m) {k : κ} {v : ν} (hm : (k, v) ∈ m) : get m k = some v := by
  induction m with
  | nil => simp at hm
  | cons p m ih =>
    simp only [Nodup, keys, List.map_cons, List.nodup_cons] at h
    simp only [get]
    rcases List.mem_cons.mp hm with rfl | hm
    · simp
    · have : p.1 ≠ k := by rintro rfl; exact h.1 (List.mem_map.mpr ⟨_, hm, rfl⟩)
      rw [if_neg this]
      exact ih h.2 hm

omit [DecidableEq κ] in
theorem Nodup.nil : Nodup ([] : AMap κ ν) := List.nodup_nil

end AMap

end Verif
