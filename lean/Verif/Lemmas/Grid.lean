import Verif.Spec.Sweep
import Mathlib.Tactic

/-!
# Row-major enumeration of index tuples
-/

namespace Verif

open Verif.Spec

theorem length_indexTuples (Ns : List ℕ) : (indexTuples Ns).length = Ns.prod := by
  induction Ns with
  | nil => rfl
  | cons n Ns ih => simp [indexTuples, List.length_flatMap, ih, List.map_const', List.sum_replicate]

theorem InGrid.length {Ns t : List ℕ} (h : InGrid Ns t) : t.length = Ns.length := h.length_eq

theorem rowMajor_lt {Ns t : List ℕ} (h : InGrid Ns t) : rowMajor Ns t < Ns.prod := by
  unfold InGrid at h
  induction h with
  | nil => simp [rowMajor]
  | @cons i n t Ns hi _ ih =>
    simp only [rowMajor, List.prod_cons]
    calc i * Ns.prod + rowMajor Ns t < i * Ns.prod + Ns.prod := by omega
      _ = (i + 1) * Ns.prod := by ring
      _ ≤ n * Ns.prod := Nat.mul_le_mul_right _ hi

theorem getElem?_flatMap_blocks {α : Type} (f : ℕ → List α) (m : ℕ) (hf : ∀ i, (f i).length = m)
    (n i r : ℕ) (hi : i < n) (hr : r < m) :
    ((List.range n).flatMap f)[i * m + r]? = (f i)[r]? := by
  induction n with
  | zero => omega
  | succ n ih =>
    rw [List.range_succ, List.flatMap_append]
    have hl : ((List.range n).flatMap f).length = n * m := by
      simp [List.length_flatMap, hf, List.map_const', List.sum_replicate]
    by_cases h : i < n
    · rw [List.getElem?_append_left, ih h]
      rw [hl]
      calc i * m + r < i * m + m := by omega
        _ = (i + 1) * m := by ring
        _ ≤ n * m := Nat.mul_le_mul_right _ h
    · have : i = n := by omega
      subst this
      rw [List.getElem?_append_right (by rw [hl]; omega), hl]
      simp

theorem indexTuples_get {Ns t : List ℕ} (h : InGrid Ns t) :
    (indexTuples Ns)[rowMajor Ns t]? = some t := by
  unfold InGrid at h
  induction h with
  | nil => rfl
  | @cons i n t Ns hi ht ih =>
    simp only [rowMajor, indexTuples]
    rw [getElem?_flatMap_blocks (fun i => (indexTuples Ns).map (i :: ·)) Ns.prod
      (fun i => by simp [length_indexTuples]) n i _ hi (rowMajor_lt ht)]
    simp [ih]

theorem mem_indexTuples {Ns t : List ℕ} : t ∈ indexTuples Ns ↔ InGrid Ns t := by
  induction Ns generalizing t with
  | nil => simp [indexTuples, InGrid, List.forall₂_nil_right_iff]
  | cons n Ns ih =>
    simp only [indexTuples, List.mem_flatMap, List.mem_range, List.mem_map, ih, InGrid]
    constructor
    · rintro ⟨i, hi, u, hu, rfl⟩; exact List.Forall₂.cons hi hu
    · intro h
      cases h with
      | cons hi hu => exact ⟨_, hi, _, hu, rfl⟩

theorem rowMajor_inj {Ns t u : List ℕ} (ht : InGrid Ns t) (hu : InGrid Ns u)
    (h : rowMajor Ns t = rowMajor Ns u) : t = u := by
  have := indexTuples_get ht
  rw [h, indexTuples_get hu] at this
  exact (Option.some.inj this).symm

theorem rowMajor_surj {Ns : List ℕ} {k : ℕ} (h : k < Ns.prod) :
    ∃ t, InGrid Ns t ∧ rowMajor Ns t = k := by
  induction Ns generalizing k with
  | nil =>
    refine ⟨[], List.Forall₂.nil, ?_⟩
    simp [rowMajor] at h ⊢; omega
  | cons n Ns ih =>
    simp only [List.prod_cons] at h
    have hp : 0 < Ns.prod := by
      rcases Nat.eq_zero_or_pos Ns.prod with h0 | h0
      · rw [h0] at h; simp at h
      · exact h0
    obtain ⟨t, ht, e⟩ := ih (Nat.mod_lt k hp)
    refine ⟨(k / Ns.prod) :: t, List.Forall₂.cons ?_ ht, ?_⟩
    · exact Nat.div_lt_of_lt_mul (by rw [Nat.mul_comm]; exact h)
    · simp only [rowMajor, e]; exact Nat.div_add_mod' k Ns.prod

theorem rowMajor_lt_of_lex {Ns t u : List ℕ} (ht : InGrid Ns t) (hu : InGrid Ns u) (h : t < u) :
    rowMajor Ns t < rowMajor Ns u := by
  unfold InGrid at ht
  induction ht generalizing u with
  | nil => cases hu; exact absurd h (lt_irrefl _)
  | @cons i n t Ns hi ht ih =>
    cases hu with
    | @cons j _ u _ hj hu =>
      simp only [rowMajor]
      rcases List.cons_lt_cons_iff.1 h with h | ⟨rfl, h'⟩
      · have := rowMajor_lt ht
        calc i * Ns.prod + rowMajor Ns t < i * Ns.prod + Ns.prod := by omega
          _ = (i + 1) * Ns.prod := by ring
          _ ≤ j * Ns.prod := Nat.mul_le_mul_right _ h
          _ ≤ _ := by omega
      · have := ih hu h'; omega

theorem flatIndex_eq {Ns t : List ℕ} (h : t.length = Ns.length) :
    SW.flatIndex (Ns.map (fun (x : ℕ) => (x : ℤ))) (t.map (fun (x : ℕ) => (x : ℤ))) = (rowMajor Ns t : ℤ) := by
  induction t generalizing Ns with
  | nil => cases Ns <;> simp_all [SW.flatIndex, rowMajor]
  | cons i t ih =>
    cases Ns with
    | nil => simp at h
    | cons n Ns =>
      simp only [List.length_cons, Nat.add_right_cancel_iff] at h
      simp only [List.map_cons, SW.flatIndex, List.drop_succ_cons, List.drop_zero, ih h, rowMajor,
        Nat.cast_add, Nat.cast_mul]
      rw [show (Ns.map (fun (x : ℕ) => (x : ℤ))).prod = ((Ns.prod : ℕ) : ℤ) by
        rw [Nat.cast_list_prod]]
      ring

theorem meshRows_ranges (Ns : List ℕ) : meshRows (Ns.map List.range) = indexTuples Ns := by
  induction Ns with
  | nil => rfl
  | cons n Ns ih => simp [meshRows, indexTuples, ih]

end Verif
