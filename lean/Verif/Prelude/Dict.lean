import Mathlib.Data.List.Nodup
import Mathlib.Data.List.Basic

/-!
# Python dictionaries

A Python `dict` is modelled as an insertion-ordered association list.  Only the operations the code
uses are provided: lookup, assignment (in place for an existing key, appended otherwise), deletion.
-/

namespace Verif

/-- An insertion-ordered dictionary. -/
abbrev Dict (κ α : Type*) := List (κ × α)

namespace Dict

variable {κ α β : Type*} [DecidableEq κ]

/-- `d.get(k)` -/
def get? : Dict κ α → κ → Option α
  | [], _ => none
  | (k', v) :: d, k => if k' = k then some v else get? d k

/-- `list(d.keys())` -/
def keys (d : Dict κ α) : List κ := d.map Prod.fst

/-- `list(d.values())` -/
def values (d : Dict κ α) : List α := d.map Prod.snd

/-- `k in d` -/
def has (d : Dict κ α) (k : κ) : Bool := (get? d k).isSome

/-- `d[k] = v`: in place if the key exists, appended otherwise. -/
def set : Dict κ α → κ → α → Dict κ α
  | [], k, v => [(k, v)]
  | (k', v') :: d, k, v => if k' = k then (k', v) :: d else (k', v') :: set d k v

/-- `del d[k]` (no effect when the key is absent; callers check first). -/
def del : Dict κ α → κ → Dict κ α
  | [], _ => []
  | (k', v') :: d, k => if k' = k then del d k else (k', v') :: del d k

@[simp] theorem get?_nil (k : κ) : get? ([] : Dict κ α) k = none := rfl

@[simp] theorem get?_cons (k' : κ) (v : α) (d : Dict κ α) (k : κ) :
    get? ((k', v) :: d) k = if k' = k then some v else get? d k := rfl

theorem get?_set (d : Dict κ α) (k : κ) (v : α) (j : κ) :
    get? (set d k v) j = if k = j then some v else get? d j := by
  induction d with
  | nil => simp [set]
  | cons p d ih =>
    obtain ⟨k', v'⟩ := p
    by_cases h : k' = k
    · subst h; by_cases hj : k' = j <;> simp [set, hj]
    · by_cases hj : k' = j
      · subst hj; simp [set, h]; intro h2; exact absurd h2.symm h
      · simp [set, h, hj, ih]

@[simp] theorem get?_set_self (d : Dict κ α) (k : κ) (v : α) : get? (set d k v) k = some v := by
  simp [get?_set]

theorem get?_set_ne (d : Dict κ α) {k j : κ} (v : α) (h : k ≠ j) :
    get? (set d k v) j = get? d j := by
  simp [get?_set, h]

theorem get?_del (d : Dict κ α) (k j : κ) :
    get? (del d k) j = if k = j then none else get? d j := by
  induction d with
  | nil => simp [del]
  | cons p d ih =>
    obtain ⟨k', v'⟩ := p
    by_cases h : k' = k
    · subst h
      simp only [del, if_true, ih, get?_cons]
      by_cases hj : k' = j <;> simp [hj]
    · by_cases hj : k' = j
      · subst hj; simp [del, h]; intro h2; exact absurd h2.symm h
      · simp [del, h, hj, ih]

theorem mem_keys_iff (d : Dict κ α) (k : κ) : k ∈ keys d ↔ (get? d k).isSome := by
  induction d with
  | nil => simp [keys]
  | cons p d ih =>
    obtain ⟨k', v'⟩ := p
    by_cases hj : k' = k
    · subst hj; simp [keys]
    · have : ¬ k = k' := fun h => hj h.symm
      simp only [keys, List.map_cons, List.mem_cons, this, false_or, get?_cons, hj, if_false]
      exact ih

theorem mem_keys_of_get? {d : Dict κ α} {k : κ} {v : α} (h : get? d k = some v) : k ∈ keys d := by
  rw [mem_keys_iff, h]; rfl

theorem get?_eq_none_iff (d : Dict κ α) (k : κ) : get? d k = none ↔ k ∉ keys d := by
  rw [mem_keys_iff]; cases get? d k <;> simp

theorem has_iff (d : Dict κ α) (k : κ) : has d k = true ↔ k ∈ keys d := by
  rw [mem_keys_iff]; rfl

theorem mem_of_get? {d : Dict κ α} {k : κ} {v : α} (h : get? d k = some v) : (k, v) ∈ d := by
  induction d with
  | nil => simp at h
  | cons p d ih =>
    obtain ⟨k', v'⟩ := p
    by_cases hj : k' = k
    · subst hj; simp at h; subst h; simp
    · simp [hj] at h; exact List.mem_cons_of_mem _ (ih h)

theorem get?_of_mem {d : Dict κ α} (hn : (keys d).Nodup) {k : κ} {v : α} (h : (k, v) ∈ d) :
    get? d k = some v := by
  induction d with
  | nil => simp at h
  | cons p d ih =>
    obtain ⟨k', v'⟩ := p
    simp only [keys, List.map_cons, List.nodup_cons] at hn
    rcases List.mem_cons.1 h with h | h
    · cases h; simp
    · have : k' ≠ k := by
        rintro rfl
        exact hn.1 (List.mem_map.2 ⟨_, h, rfl⟩)
      simp [this, ih hn.2 h]

theorem keys_set_of_mem {d : Dict κ α} {k : κ} (v : α) (h : k ∈ keys d) :
    keys (set d k v) = keys d := by
  induction d with
  | nil => simp [keys] at h
  | cons p d ih =>
    obtain ⟨k', v'⟩ := p
    by_cases hj : k' = k
    · subst hj; simp [set, keys]
    · have h' : k ∈ keys d := by
        simp only [keys, List.map_cons, List.mem_cons] at h
        rcases h with h | h
        · exact absurd h.symm hj
        · exact h
      have := ih h'
      simp only [keys] at this
      simp [set, hj, keys, this]

theorem keys_set_of_not_mem {d : Dict κ α} {k : κ} (v : α) (h : k ∉ keys d) :
    keys (set d k v) = keys d ++ [k] := by
  induction d with
  | nil => simp [keys, set]
  | cons p d ih =>
    obtain ⟨k', v'⟩ := p
    simp only [keys, List.map_cons, List.mem_cons, not_or] at h
    have hj : ¬ k' = k := fun e => h.1 e.symm
    have := ih h.2
    simp only [keys] at this
    simp [set, hj, keys, this]

theorem mem_keys_set {d : Dict κ α} {k j : κ} {v : α} :
    j ∈ keys (set d k v) ↔ j = k ∨ j ∈ keys d := by
  rw [mem_keys_iff, mem_keys_iff, get?_set]
  by_cases h : k = j
  · subst h; simp
  · have : ¬ j = k := fun e => h e.symm
    simp [h, this]

theorem mem_keys_del {d : Dict κ α} {k j : κ} :
    j ∈ keys (del d k) ↔ j ≠ k ∧ j ∈ keys d := by
  rw [mem_keys_iff, mem_keys_iff, get?_del]
  by_cases h : k = j
  · subst h; simp
  · have : ¬ j = k := fun e => h e.symm
    simp [h, this]

theorem nodup_keys_set {d : Dict κ α} (hn : (keys d).Nodup) (k : κ) (v : α) :
    (keys (set d k v)).Nodup := by
  by_cases h : k ∈ keys d
  · rw [keys_set_of_mem v h]; exact hn
  · rw [keys_set_of_not_mem v h]
    refine List.nodup_append.2 ⟨hn, by simp, ?_⟩
    intro a ha b hb
    simp only [List.mem_singleton] at hb
    subst hb
    rintro rfl
    exact h ha

theorem del_sublist (d : Dict κ α) (k : κ) : List.Sublist (del d k) d := by
  induction d with
  | nil => simp [del]
  | cons p d ih =>
    obtain ⟨k', v'⟩ := p
    by_cases hj : k' = k
    · simp only [del, hj, if_true]; exact ih.cons _
    · simp only [del, hj, if_false]; exact ih.cons_cons _

theorem nodup_keys_del {d : Dict κ α} (hn : (keys d).Nodup) (k : κ) :
    (keys (del d k)).Nodup :=
  ((del_sublist d k).map Prod.fst).nodup hn

end Dict

end Verif
