import Verif.Props.Util
import Mathlib.Tactic

/-!
# Properties C52, C56, C57 and C58: bit strings, sanitising, lowest levels, dressed energies
-/

set_option linter.unusedVariables false

namespace Verif.Props

open Verif Verif.Util

/-! ### C52 -/

/-- A string of the characters 0 and 1. -/
def Bits (b : List Char) : Prop := ∀ c ∈ b, c = '0' ∨ c = '1'

/-- The Hamming distance of two strings. -/
def hamming (b c : List Char) : ℕ := (b.zip c).countP fun p => decide (p.1 ≠ p.2)

/-- The other bit. -/
def other (c : Char) : Char := if c = '0' then '1' else '0'

theorem flipChar_bit {c : Char} (h : c = '0' ∨ c = '1') : flipChar c = some (other c) := by
  rcases h with rfl | rfl <;> rfl

/-- The strings with one bit flipped, by recursion. -/
def flips : List Char → List (List Char)
  | [] => []
  | x :: t => (other x :: t) :: (flips t).map (x :: ·)

theorem mapM_some_map {α β : Type} (l : List α) (f : α → Option β) (g : α → β) (h : ∀ x ∈ l, f x = some (g x)) :
    l.mapM f = some (l.map g) := by
  induction l with
  | nil => rfl
  | cons a l ih =>
    rw [List.mapM_cons, h a (by simp), ih (fun x hx => h x (by simp [hx]))]
    rfl

theorem flips_eq : ∀ b : List Char, (List.range b.length).map (fun i => b.set i (other (b[i]?.getD 'x'))) = flips b := by
  intro b
  induction b with
  | nil => rfl
  | cons x t ih =>
    rw [List.length_cons, List.range_succ_eq_map, List.map_cons, List.map_map]
    unfold flips
    rw [← ih, List.map_map]
    rfl

theorem getNeighbours_eq (b : List Char) (hb : Bits b) : getNeighbours b 1 = some (flips b) := by
  unfold getNeighbours
  rw [if_pos rfl, mapM_some_map (g := fun i => b.set i (other (b[i]?.getD 'x'))), flips_eq]
  intro i hi
  have hi' : i < b.length := List.mem_range.1 hi
  rw [List.getElem?_eq_getElem hi', Option.bind_some, flipChar_bit (hb _ (List.getElem_mem hi'))]
  rfl

theorem hamming_cons (x y : Char) (t u : List Char) :
    hamming (x :: t) (y :: u) = hamming t u + if x = y then 0 else 1 := by
  unfold hamming
  rw [List.zip_cons_cons, List.countP_cons]
  by_cases h : x = y <;> simp [h]

theorem hamming_zero : ∀ {b c : List Char}, b.length = c.length → (hamming b c = 0 ↔ b = c) := by
  intro b
  induction b with
  | nil => intro c h; cases c <;> simp_all [hamming]
  | cons x t ih =>
    intro c h
    cases c with
    | nil => simp at h
    | cons y u =>
      have := ih (c := u) (by simpa using h)
      rw [hamming_cons, List.cons.injEq, ← this]
      by_cases hxy : x = y <;> simp [hxy]

theorem other_ne {c : Char} (h : c = '0' ∨ c = '1') : other c ≠ c := by
  rcases h with rfl | rfl <;> decide

theorem mem_flips : ∀ {b : List Char}, Bits b → ∀ c : List Char,
    (c ∈ flips b ↔ c.length = b.length ∧ Bits c ∧ hamming b c = 1) := by
  intro b
  induction b with
  | nil =>
    intro _ c
    simp only [flips, List.not_mem_nil, false_iff]
    rintro ⟨_, _, h⟩
    simp [hamming] at h
  | cons x t ih =>
    intro hb c
    have hx := hb x (by simp)
    have ht : Bits t := fun y hy => hb y (by simp [hy])
    have iht := ih ht
    unfold flips
    rw [List.mem_cons, List.mem_map]
    constructor
    · rintro (rfl | ⟨d, hd, rfl⟩)
      · refine ⟨by simp, ?_, ?_⟩
        · intro y hy
          rcases List.mem_cons.1 hy with rfl | hy
          · rcases hx with rfl | rfl <;> decide
          · exact ht y hy
        · rw [hamming_cons, (hamming_zero rfl).2 rfl, if_neg (other_ne hx).symm]
      · obtain ⟨h1, h2, h3⟩ := (iht d).1 hd
        refine ⟨by simp [h1], ?_, ?_⟩
        · intro y hy
          rcases List.mem_cons.1 hy with rfl | hy
          · exact hx
          · exact h2 y hy
        · rw [hamming_cons, h3, if_pos rfl]
    · rintro ⟨h1, h2, h3⟩
      cases c with
      | nil => simp at h1
      | cons y u =>
        rw [hamming_cons] at h3
        have hu : u.length = t.length := by simpa using h1
        by_cases hxy : x = y
        · subst hxy
          right
          refine ⟨u, (iht u).2 ⟨hu, fun z hz => h2 z (by simp [hz]), ?_⟩, rfl⟩
          simpa using h3
        · left
          rw [if_neg hxy] at h3
          have : hamming t u = 0 := by omega
          rw [← (hamming_zero hu.symm).1 this]
          have hy := h2 y (by simp)
          rcases hx with rfl | rfl <;> rcases hy with rfl | rfl <;> first | exact absurd rfl hxy | rfl

/-- C52 (neighbours): for every string of bits, `getNeighbours` returns, without repetition, exactly the bit strings
of the same length at Hamming distance one. -/
theorem C52_neighbours (b : List Char) (hb : Bits b) :
    ∃ L, getNeighbours b 1 = some L ∧ L.Nodup ∧ L.length = b.length ∧
      ∀ c, c ∈ L ↔ c.length = b.length ∧ Bits c ∧ hamming b c = 1 := by
  refine ⟨flips b, getNeighbours_eq b hb, ?_, ?_, mem_flips hb⟩
  · clear * - hb
    induction b with
    | nil => exact List.nodup_nil
    | cons x t ih =>
      unfold flips
      refine List.nodup_cons.2 ⟨?_, (ih fun y hy => hb y (by simp [hy])).map (by intro a b h; simpa using h)⟩
      intro h
      obtain ⟨d, _, hd⟩ := List.mem_map.1 h
      injection hd with h1 _
      exact other_ne (hb x (by simp)) h1.symm
  · clear * -
    induction b with
    | nil => rfl
    | cons x t ih => simp [flips, ih]

/-- C52: any other Hamming weight gives the empty list, although such neighbours exist. -/
theorem C52_false_other_weights (b : List Char) (HW : ℤ) (h : HW ≠ 1) : getNeighbours b HW = some [] := by
  unfold getNeighbours; rw [if_neg h]

/-- The weight-two neighbour of `00` that is not returned. -/
example : hamming ['0', '0'] ['1', '1'] = 2 ∧ Bits ['1', '1'] ∧ getNeighbours ['0', '0'] 2 = some [] :=
  ⟨by decide, by unfold Bits; decide, C52_false_other_weights _ 2 (by decide)⟩

/-- The neighbours of `010`. -/
example : Bits ['0', '1', '0'] ∧
    getNeighbours ['0', '1', '0'] 1 = some [['1', '1', '0'], ['0', '0', '0'], ['0', '1', '1']] := by
  refine ⟨by unfold Bits; decide, by decide⟩

/-- The position of the one in the state of a bit string: bit 1 is the first basis vector, bit 0 the second. -/
def stateIndex : List Char → ℕ
  | [] => 0
  | c :: t => (if c = '1' then 0 else 2 ^ t.length) + stateIndex t

theorem stateIndex_lt : ∀ b : List Char, stateIndex b < 2 ^ b.length := by
  intro b
  induction b with
  | nil => simp [stateIndex]
  | cons c t ih =>
    unfold stateIndex
    rw [List.length_cons, pow_succ]
    split_ifs <;> omega

theorem set_append_replicate (n k m i : ℕ) (h : i < n) :
    ((List.replicate n (0 : ℤ)).set i 1) ++ List.replicate m 0 = (List.replicate (n + m) 0).set i 1 := by
  rw [← List.replicate_append_replicate, List.set_append_left _ _ (by simpa using h)]

theorem foldr_kron_eq : ∀ b : List Char, Bits b →
    (b.map bitKet).foldr kron [1] = (List.replicate (2 ^ b.length) 0).set (stateIndex b) 1 := by
  intro b
  induction b with
  | nil => intro _; rfl
  | cons c t ih =>
    intro hb
    have ht := ih fun y hy => hb y (by simp [hy])
    have hlt := stateIndex_lt t
    rw [List.map_cons, List.foldr_cons, ht]
    have hz : ∀ l : List ℤ, (l.map fun x => 0 * x) = List.replicate l.length 0 := by
      intro l; simp
    have ho : ∀ l : List ℤ, (l.map fun x => 1 * x) = l := by
      intro l; simp
    have hpow : 2 ^ (c :: t).length = 2 ^ t.length + 2 ^ t.length := by
      rw [List.length_cons, pow_succ]; omega
    rcases hb c (by simp) with rfl | rfl
    · unfold bitKet kron
      rw [stateIndex, if_pos rfl, if_neg (by decide)]
      simp only [List.flatMap_cons, List.flatMap_nil, List.append_nil, hz, ho, List.length_set, List.length_replicate]
      rw [hpow, ← List.replicate_append_replicate, List.set_append_right _ _ (by simp)]
      simp
    · unfold bitKet kron
      rw [stateIndex, if_neg (by decide), if_pos rfl]
      simp only [List.flatMap_cons, List.flatMap_nil, List.append_nil, hz, ho, List.length_set, List.length_replicate]
      rw [hpow, set_append_replicate _ 0 _ _ hlt, Nat.zero_add]

theorem stateIndex_inj : ∀ {b c : List Char}, Bits b → Bits c → b.length = c.length → stateIndex b = stateIndex c →
    b = c := by
  intro b
  induction b with
  | nil => intro c _ _ h _; cases c <;> simp_all
  | cons x t ih =>
    intro c hb hc hl h
    cases c with
    | nil => simp at hl
    | cons y u =>
      have hl' : t.length = u.length := by simpa using hl
      unfold stateIndex at h
      have h1 := stateIndex_lt t
      have h2 := stateIndex_lt u
      rw [← hl'] at h h2
      have hxy : x = y := by
        rcases hb x (by simp) with rfl | rfl <;> rcases hc y (by simp) with rfl | rfl <;> simp at h ⊢ <;> omega
      subst hxy
      rw [ih (fun z hz => hb z (by simp [hz])) (fun z hz => hc z (by simp [hz])) hl' (by omega)]

/-- C52 (states): the state of a non-empty bit string of `n` bits is the basis vector of the `2^n`-dimensional
space whose position spells the complemented bits in binary (most significant first), and distinct strings of the same
length give distinct (hence orthogonal) basis vectors. -/
theorem C52_states (b : List Char) (hb : Bits b) (hne : b ≠ []) :
    stateFromBitstring b = .ok ((List.replicate (2 ^ b.length) 0).set (stateIndex b) 1) ∧
    stateIndex b < 2 ^ b.length ∧
    ∀ c, Bits c → c.length = b.length → stateIndex c = stateIndex b → c = b := by
  refine ⟨?_, stateIndex_lt b, fun c hc hl h => stateIndex_inj hc hb hl h⟩
  unfold stateFromBitstring
  rw [if_neg hne, foldr_kron_eq b hb]

/-- The inner product of two real state vectors. -/
def inner' (u v : List ℤ) : ℤ := ((u.zip v).map fun p => p.1 * p.2).sum

theorem inner_basis : ∀ (n i j : ℕ), i < n → j < n →
    inner' ((List.replicate n 0).set i 1) ((List.replicate n 0).set j 1) = if i = j then 1 else 0 := by
  have h0l : ∀ (n : ℕ) (l : List ℤ), inner' (List.replicate n 0) l = 0 := by
    intro n
    induction n with
    | zero => intro l; simp [inner']
    | succ n ih =>
      intro l
      cases l with
      | nil => simp [inner']
      | cons a l => have := ih l; simp only [inner', List.replicate_succ, List.zip_cons_cons, List.map_cons, List.sum_cons] at this ⊢; omega
  have h0r : ∀ (n : ℕ) (l : List ℤ), inner' l (List.replicate n 0) = 0 := by
    intro n
    induction n with
    | zero => intro l; simp [inner']
    | succ n ih =>
      intro l
      cases l with
      | nil => simp [inner']
      | cons a l => have := ih l; simp only [inner', List.replicate_succ, List.zip_cons_cons, List.map_cons, List.sum_cons] at this ⊢; omega
  intro n
  induction n with
  | zero => intro i j h; omega
  | succ n ih =>
    intro i j hi hj
    rcases i with _ | i <;> rcases j with _ | j
    · have := h0l n (List.replicate n 0)
      simp only [inner', List.replicate_succ, List.set_cons_zero, List.zip_cons_cons, List.map_cons, List.sum_cons] at this ⊢
      simp [this]
    · have := h0l n ((List.replicate n 0).set j 1)
      simp only [inner', List.replicate_succ, List.set_cons_zero, List.set_cons_succ, List.zip_cons_cons, List.map_cons,
        List.sum_cons] at this ⊢
      simp [this]
    · have := h0r n ((List.replicate n 0).set i 1)
      simp only [inner', List.replicate_succ, List.set_cons_zero, List.set_cons_succ, List.zip_cons_cons, List.map_cons,
        List.sum_cons] at this ⊢
      simp [this]
    · have := ih i j (by omega) (by omega)
      simp only [inner', List.replicate_succ, List.set_cons_zero, List.set_cons_succ, List.zip_cons_cons, List.map_cons,
        List.sum_cons] at this ⊢
      simp [this]

/-- C52 (orthonormality): the inner product of the states of two bit strings of the same length is one or zero
according to whether the strings are equal. -/
theorem C52_orthonormal (b c : List Char) (hb : Bits b) (hc : Bits c) (hne : b ≠ []) (hl : c.length = b.length) :
    ∃ u v, stateFromBitstring b = .ok u ∧ stateFromBitstring c = .ok v ∧ u.length = 2 ^ b.length ∧
      v.length = 2 ^ b.length ∧ inner' u v = if b = c then 1 else 0 := by
  have hne' : c ≠ [] := by rintro rfl; cases b <;> simp_all
  refine ⟨_, _, (C52_states b hb hne).1, (C52_states c hc hne').1, by simp, by simp [hl], ?_⟩
  have hlc := stateIndex_lt c
  rw [hl] at hlc ⊢
  rw [inner_basis _ _ _ (stateIndex_lt b) hlc]
  by_cases h : b = c
  · rw [if_pos h, if_pos (by rw [h])]
  · rw [if_neg h, if_neg (fun h' => h (stateIndex_inj hb hc hl.symm h'))]

/-- The state of `01`, two qubits. -/
example : Bits ['0', '1'] ∧ stateFromBitstring ['0', '1'] = .ok [0, 0, 1, 0] := ⟨by unfold Bits; decide, by rfl⟩

/-! ### C56 -/

/-- C56 (arrays): every entry of a sanitised array has each of its two parts either unchanged or replaced by zero,
the latter exactly when it is smaller than the tolerance. -/
theorem C56_array_partial {n m : ℕ} (tol : ℝ) (A : Matrix (Fin n) (Fin m) ℂ) (i : Fin n) (j : Fin m) :
    ((sanArray tol A i j).re = if |(A i j).re| < tol then 0 else (A i j).re) ∧
    ((sanArray tol A i j).im = if |(A i j).im| < tol then 0 else (A i j).im) ∧
    (0 < tol → ‖sanArray tol A i j - A i j‖ < 2 * tol) := by
  refine ⟨?_, ?_, ?_⟩
  · simp only [sanArray, sanEntry]
  · simp only [sanArray, sanEntry]
  · intro ht
    refine lt_of_le_of_lt (Complex.norm_le_abs_re_add_abs_im _) ?_
    simp only [sanArray, sanEntry, Complex.sub_re, Complex.sub_im]
    split_ifs with h1 h2 h2
    · simp only [zero_sub, abs_neg]; linarith
    · simp only [zero_sub, abs_neg, sub_self, abs_zero]; linarith
    · simp only [zero_sub, abs_neg, sub_self, abs_zero]; linarith
    · simp only [sub_self, abs_zero]; linarith

/-- C56 (floats): on a real number `sanFloat` changes the value by at most the tolerance. -/
theorem C56_float_real_partial (tol x : ℝ) (ht : 0 ≤ tol) :
    sanFloat tol (x : ℂ) = (if |x| > tol then x else 0) ∧ |sanFloat tol (x : ℂ) - x| ≤ tol := by
  have h : sanFloat tol (x : ℂ) = (if |x| > tol then x else 0) := by
    unfold sanFloat
    simp only [Complex.ofReal_re, Complex.ofReal_im, abs_zero]
    rw [if_neg (c := (0 : ℝ) > tol) (by linarith), add_zero]
  refine ⟨h, ?_⟩
  rw [h]
  split_ifs with h1
  · simpa using ht
  · simp only [zero_sub, abs_neg]; linarith

/-- C56 is false of `sanFloat` on complex numbers: a purely imaginary number becomes a real one, and the two parts are
added together. -/
theorem C56_false_mixes_parts : sanFloat 1e-10 ⟨0, 5⟩ = 5 ∧ sanFloat 1e-10 ⟨3, 5⟩ = 8 := by
  constructor <;> unfold sanFloat <;> norm_num

/-! ### C57 -/

/-- C57 (proved part): whenever the backend's selection is a rearrangement of the `k` smallest eigenvalues (`SA`,
and the dense solver's index subset), the values returned are the `k` lowest eigenvalues in ascending order: every
value returned is at most every value left out. -/
theorem C57_lowest_partial (k : ℕ) (spectrum E : List ℝ) (hE : E.Perm (select defaultWhichSystem k spectrum)) :
    ∃ rest, (sortValues E ++ rest).Perm spectrum ∧ (sortValues E ++ rest).Pairwise (· ≤ ·) ∧
      (sortValues E).length = min k spectrum.length := by
  have hsel : select defaultWhichSystem k spectrum = (sortValues spectrum).take k := rfl
  obtain ⟨hs, hp⟩ := C48_sorted_values spectrum
  have htake : sortValues E = (sortValues spectrum).take k := by
    rw [hsel] at hE
    exact ((C48_sorted_values E).2.trans hE).eq_of_pairwise (fun a b _ _ h1 h2 => le_antisymm h1 h2)
      (C48_sorted_values E).1 (hs.sublist (List.take_sublist _ _))
  refine ⟨(sortValues spectrum).drop k, ?_, ?_, ?_⟩
  · rw [htake, List.take_append_drop]; exact hp
  · rw [htake, List.take_append_drop]; exact hs
  · rw [htake, List.length_take, hp.length_eq]

/-- C57 is false of `diagSparseH` with its own default options: for the spectrum 1, 2, 3 the one eigenvalue returned is
the highest. -/
theorem C57_false_default_sparse :
    sortValues (select defaultWhichUtil 1 [1, 2, 3]) = [3] ∧ (1 : ℝ) ∈ [(1 : ℝ), 2, 3] := by
  have h : select defaultWhichUtil 1 [1, 2, 3] = [3] := by
    unfold select defaultWhichUtil
    rw [if_neg (by simp)]
    have h2 : ([1, 2, 3] : List ℝ).mergeSort (fun a b => decide (|b| ≤ |a|)) = [3, 2, 1] := by
      refine List.Perm.eq_of_pairwise (le := fun a b : ℝ => |b| ≤ |a|) ?_ ?_ ?_ ?_
      · intro a b ha hb h1 h2
        have ha' : a ∈ ([1, 2, 3] : List ℝ) := (List.mergeSort_perm _ _).mem_iff.1 ha
        simp only [List.mem_cons, List.not_mem_nil, or_false] at ha' hb
        have e := le_antisymm h1 h2
        rcases ha' with rfl | rfl | rfl <;> rcases hb with rfl | rfl | rfl <;> first | rfl | (exfalso; norm_num at e)
      · have := List.pairwise_mergeSort (le := fun a b : ℝ => decide (|b| ≤ |a|)) (by
          intro a b c h1 h2; simp only [decide_eq_true_eq] at *; exact h2.trans h1) (by
          intro a b; simp only [Bool.or_eq_true, decide_eq_true_eq]; exact le_total _ _) ([1, 2, 3] : List ℝ)
        exact this.imp (by intro a b h; simpa using h)
      · norm_num
      · exact (List.mergeSort_perm _ _).trans (List.reverse_perm [3, 2, 1])
    rw [h2]
    rfl
  refine ⟨?_, by simp⟩
  rw [h]
  exact List.mergeSort_singleton _

/-- A selection in another order than ascending. -/
example : ([2, 1] : List ℝ).Perm (select defaultWhichSystem 2 [1, 2, 3]) := by
  have : select defaultWhichSystem 2 [1, 2, 3] = [1, 2] := by
    change (([1, 2, 3] : List ℝ).mergeSort _).take 2 = _
    rw [List.mergeSort_of_pairwise (by norm_num)]
    rfl
  rw [this]
  exact List.Perm.swap _ _ _

/-! ### C58 -/

/-- A rectangular array. -/
def Rect {K : Type} (A : Arr2 K) (levels cols : ℕ) : Prop := A.length = levels ∧ ∀ r ∈ A, r.length = cols

theorem rect_get {K : Type} {A : Arr2 K} {levels cols : ℕ} (h : Rect A levels cols) {q n : ℕ} (hq : q < levels) (hn : n < cols) :
    ∃ x, A.get q n = some x := by
  have hq' : q < A.length := by rw [h.1]; exact hq
  have hr := h.2 _ (List.getElem_mem hq')
  refine ⟨(A[q])[n]'(by rw [hr]; exact hn), ?_⟩
  unfold Arr2.get
  rw [List.getElem?_eq_getElem hq', Option.bind_some, List.getElem?_eq_getElem]

theorem rect_cols {K : Type} {A : Arr2 K} {levels cols : ℕ} (h : Rect A levels cols) (hl : 0 < levels) : A.cols = cols := by
  obtain ⟨h1, h2⟩ := h
  cases A with
  | nil => simp at h1; omega
  | cons r t => simp [Arr2.cols, h2 r (by simp)]

theorem grid_mapM {K : Type} (a b : ℕ) (f : ℕ → ℕ → Option K) (h : ∀ q < a, ∀ n < b, ∃ x, f q n = some x) :
    ∃ R, ((List.range a).mapM fun q => (List.range b).mapM fun n => f q n) = some R ∧ Rect R a b ∧
      ∀ q < a, ∀ n < b, Arr2.get R q n = f q n := by
  by_cases hab : a = 0 ∨ b = 0
  · rcases hab with rfl | rfl
    · exact ⟨[], rfl, ⟨rfl, by simp⟩, fun q hq => absurd hq (by omega)⟩
    · refine ⟨(List.range a).map fun _ => [], ?_, ⟨by simp, by simp⟩, fun q _ n hn => absurd hn (by omega)⟩
      exact mapM_some_map _ _ _ fun q _ => rfl
  push Not at hab
  obtain ⟨x0, -⟩ := h 0 (by omega) 0 (by omega)
  let g : ℕ → ℕ → K := fun q n => (f q n).getD x0
  have hg : ∀ q < a, ∀ n < b, f q n = some (g q n) := by
    intro q hq n hn
    obtain ⟨x, hx⟩ := h q hq n hn
    simp [g, hx]
  refine ⟨(List.range a).map fun q => (List.range b).map fun n => g q n, ?_, ⟨by simp, by simp⟩, ?_⟩
  · apply mapM_some_map
    intro q hq
    exact mapM_some_map _ _ _ fun n hn => hg q (List.mem_range.1 hq) n (List.mem_range.1 hn)
  · intro q hq n hn
    rw [hg q hq n hn]
    simp [Arr2.get, hq, hn]

/-- C58: for every rectangular array of dressed energies with more columns than levels, the AC-Stark and resonator
shifts read no entry outside the array and are the documented energy differences: `ret[q,n]` is the gap between
state `q+1` with the same number `n` of photons and the ground state (in the strip numbering of
`getResonatorResponse`), respectively between `n+1` and `n` photons at state `q`. -/
theorem C58_shifts {K : Type} [Sub K] (A : Arr2 K) (levels cols : ℕ) (h : Rect A levels cols) (hl : 0 < levels) :
    (∃ R, getACStarkShift A = some R ∧ Rect R (levels - 1) (cols - levels) ∧
      ∀ q < levels - 1, ∀ n < cols - levels, ∃ x y, A.get (q + 1) (n + (q + 1)) = some x ∧ A.get 0 n = some y ∧
        Arr2.get R q n = some (x - y)) ∧
    (∃ R, getResonatorShift A = some R ∧ Rect R (levels - 1) (cols - levels) ∧
      ∀ q < levels - 1, ∀ n < cols - levels, ∃ x y, A.get q (n + 1 + q) = some x ∧ A.get q (n + q) = some y ∧
        Arr2.get R q n = some (x - y)) := by
  have hc := rect_cols h hl
  constructor
  · have key : ∀ q < levels - 1, ∀ n < cols - levels, ∃ x y, A.get (q + 1) (n + (q + 1)) = some x ∧ A.get 0 n = some y := by
      intro q hq n hn
      obtain ⟨x, hx⟩ := rect_get h (q := q + 1) (n := n + (q + 1)) (by omega) (by omega)
      obtain ⟨y, hy⟩ := rect_get h (q := 0) (n := n) hl (by omega)
      exact ⟨x, y, hx, hy⟩
    obtain ⟨R, h1, h2, h3⟩ := grid_mapM (levels - 1) (cols - levels)
      (fun q n => (A.get (q + 1) (n + q + 1)).bind fun a => (A.get 0 n).map fun b => a - b) (by
        intro q hq n hn
        obtain ⟨x, y, hx, hy⟩ := key q hq n hn
        exact ⟨x - y, by rw [Nat.add_assoc, hx, hy]; rfl⟩)
    refine ⟨R, ?_, h2, ?_⟩
    · unfold getACStarkShift; rw [hc, h.1]; exact h1
    · intro q hq n hn
      obtain ⟨x, y, hx, hy⟩ := key q hq n hn
      refine ⟨x, y, hx, hy, ?_⟩
      rw [h3 q hq n hn, Nat.add_assoc, hx, hy]; rfl
  · have key : ∀ q < levels - 1, ∀ n < cols - levels, ∃ x y, A.get q (n + 1 + q) = some x ∧ A.get q (n + q) = some y := by
      intro q hq n hn
      obtain ⟨x, hx⟩ := rect_get h (q := q) (n := n + 1 + q) (by omega) (by omega)
      obtain ⟨y, hy⟩ := rect_get h (q := q) (n := n + q) (by omega) (by omega)
      exact ⟨x, y, hx, hy⟩
    obtain ⟨R, h1, h2, h3⟩ := grid_mapM (levels - 1) (cols - levels)
      (fun q n => (A.get q (n + q + 1)).bind fun a => (A.get q (n + q)).map fun b => a - b) (by
        intro q hq n hn
        obtain ⟨x, y, hx, hy⟩ := key q hq n hn
        exact ⟨x - y, by rw [Nat.add_right_comm, hx, hy]; rfl⟩)
    refine ⟨R, ?_, h2, ?_⟩
    · unfold getResonatorShift; rw [hc, h.1]; exact h1
    · intro q hq n hn
      obtain ⟨x, y, hx, hy⟩ := key q hq n hn
      refine ⟨x, y, hx, hy, ?_⟩
      rw [h3 q hq n hn, Nat.add_right_comm, hx, hy]; rfl

/-- C58 is false of `getCircuitLambShift`: documented as gaps from the ground state, it returns the energies
themselves, so the first "gap" need not be zero. -/
theorem C58_false_lamb_shift :
    Rect [[(5 : ℤ), 6, 7], [8, 9, 11]] 2 3 ∧ getCircuitLambShift [[(5 : ℤ), 6, 7], [8, 9, 11]] = some [5, 9] := by
  refine ⟨⟨rfl, by simp⟩, by decide⟩

/-- A two-level array with four strips. -/
example : Rect [[(0 : ℤ), 10, 20, 30], [3, 14, 25, 36]] 2 4 ∧
    getACStarkShift [[(0 : ℤ), 10, 20, 30], [3, 14, 25, 36]] = some [[14, 15]] ∧
    getResonatorShift [[(0 : ℤ), 10, 20, 30], [3, 14, 25, 36]] = some [[10, 10]] := by
  refine ⟨⟨rfl, by simp⟩, by decide, by decide⟩

end Verif.Props
