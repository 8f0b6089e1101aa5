import Verif.Model.Symbolic
import Verif.Spec.Symbolic
import Mathlib.Algebra.Star.Basic
import Mathlib.Algebra.Order.Ring.Abs
import Mathlib.Analysis.SpecialFunctions.Trigonometric.Basic
import Mathlib.Tactic.LinearCombination
import Mathlib.Tactic.Linarith

/-!
# Properties of transforms, mode labels and cosine terms: C33, C34, C35, C60, C61
-/

namespace Verif.Props

open Verif Verif.Circuit Verif.Spec Verif.Sym Matrix

variable {K : Type}

/-! ### C33 -/

theorem dot_congr [Field K] {n : ℕ} (A R : Matrix (Fin n) (Fin n) K) (x : Fin n → K) :
    x ⬝ᵥ (R * A * Rᵀ).mulVec x = (Rᵀ.mulVec x) ⬝ᵥ A.mulVec (Rᵀ.mulVec x) := by
  rw [Matrix.mul_assoc, ← mulVec_mulVec, ← mulVec_mulVec, dotProduct_mulVec, ← mulVec_transpose]

/-- **C33** The charging energy: with charges and biases transformed by the inverse transpose of the flux transform `R`, the energy
computed with the transformed matrix is the original one. -/
theorem C33_charging [Field K] {n : ℕ} (R C A A' : Matrix (Fin n) (Fin n) K) (hR : R.det ≠ 0)
    (hA : inverseCapacitance ⟨false, R⟩ C = some A) (hA' : inverseCapacitance ⟨true, R⟩ C = some A') (q bias : Fin n → K) :
    quadEnergy A' ((R⁻¹)ᵀ.mulVec q) ((R⁻¹)ᵀ.mulVec bias) = quadEnergy A q bias := by
  unfold inverseCapacitance at hA hA'
  by_cases h0 : C.det = 0
  · rw [if_pos h0] at hA; cases hA
  rw [if_neg h0] at hA hA'
  simp only [if_true, Option.some.injEq] at hA'
  simp only [Bool.false_eq_true, if_false, Option.some.injEq] at hA
  subst hA hA'
  unfold quadEnergy
  rw [← mulVec_add, dot_congr, mulVec_mulVec]
  have : Rᵀ * (R⁻¹)ᵀ = 1 := by
    rw [← transpose_mul, nonsing_inv_mul _ (isUnit_iff_ne_zero.2 hR), transpose_one]
  rw [this, one_mulVec]

/-- **C33** The flux energy: with fluxes and biases transformed by `R`, the energy computed with the transformed matrix is the
original one. -/
theorem C33_flux [Field K] {n : ℕ} (R L : Matrix (Fin n) (Fin n) K) (hR : R.det ≠ 0) (φ bias : Fin n → K) :
    quadEnergy (transformInductance ⟨true, R⟩ L) (R.mulVec φ) (R.mulVec bias) = quadEnergy (transformInductance ⟨false, R⟩ L) φ bias := by
  unfold transformInductance quadEnergy
  simp only [if_true, Bool.false_eq_true, if_false]
  rw [← mulVec_add]
  have h := dot_congr L (R⁻¹)ᵀ (R.mulVec (φ + bias))
  rw [transpose_transpose] at h
  rw [h, mulVec_mulVec, nonsing_inv_mul _ (isUnit_iff_ne_zero.2 hR), one_mulVec]

/-- **C33** The canonical pairing of charges and fluxes is unchanged, and the capacitance matrix is invertible before exactly when the
transformed inverse exists. -/
theorem C33_pairing [Field K] {n : ℕ} (R : Matrix (Fin n) (Fin n) K) (hR : R.det ≠ 0) (q φ : Fin n → K) :
    ((R⁻¹)ᵀ.mulVec q) ⬝ᵥ (R.mulVec φ) = q ⬝ᵥ φ := by
  rw [dotProduct_mulVec, ← mulVec_transpose, mulVec_mulVec, ← transpose_mul, nonsing_inv_mul _ (isUnit_iff_ne_zero.2 hR),
    transpose_one, one_mulVec]

/-- **C33** Both matrices stay symmetric. -/
theorem C33_symmetric [Field K] {n : ℕ} (t : Transform K n) (C L A : Matrix (Fin n) (Fin n) K) (hC : Cᵀ = C) (hL : Lᵀ = L)
    (hA : inverseCapacitance t C = some A) : Aᵀ = A ∧ (transformInductance t L)ᵀ = transformInductance t L := by
  constructor
  · unfold inverseCapacitance at hA
    split_ifs at hA with h0 h1
    · rw [← Option.some.inj hA, transpose_mul, transpose_mul, transpose_transpose, transpose_nonsing_inv, hC, Matrix.mul_assoc]
    · rw [← Option.some.inj hA, transpose_nonsing_inv, hC]
  · unfold transformInductance
    split_ifs with h1
    · rw [transpose_mul, transpose_mul, transpose_transpose, hL, Matrix.mul_assoc]
    · exact hL

-- a capacitance matrix and a transform that meet the hypotheses
example : (!![2, -1; -1, 3] : Matrix (Fin 2) (Fin 2) ℚ).det ≠ 0 ∧ (!![1, 1; 1, -1] : Matrix (Fin 2) (Fin 2) ℚ).det ≠ 0 := by
  constructor <;> (rw [det_fin_two]; norm_num)

/-! ### C60 -/

/-- **C60 (partial)** The bias vectors are not transformed: with the biases as they are, the energies keep their values for biases
that the transform leaves alone.  Missing: all other biases (`C60_false`). -/
theorem C60_partial [Field K] {n : ℕ} (R C A A' L : Matrix (Fin n) (Fin n) K) (hR : R.det ≠ 0)
    (hA : inverseCapacitance ⟨false, R⟩ C = some A) (hA' : inverseCapacitance ⟨true, R⟩ C = some A') (q φ qb pb : Fin n → K)
    (hq : Rᵀ.mulVec qb = qb) (hp : R.mulVec pb = pb) :
    quadEnergy A' ((R⁻¹)ᵀ.mulVec q) qb = quadEnergy A q qb ∧
    quadEnergy (transformInductance ⟨true, R⟩ L) (R.mulVec φ) pb = quadEnergy (transformInductance ⟨false, R⟩ L) φ pb := by
  constructor
  · have h1 : (R⁻¹)ᵀ.mulVec qb = qb := by
      have h2 := congrArg (R⁻¹)ᵀ.mulVec hq
      rw [mulVec_mulVec, ← transpose_mul, mul_nonsing_inv _ (isUnit_iff_ne_zero.2 hR), transpose_one, one_mulVec] at h2
      exact h2.symm
    have h3 := C33_charging R C A A' hR hA hA' q qb
    rwa [h1] at h3
  · have h3 := C33_flux R L hR φ pb
    rwa [hp] at h3

/-- **C60 is false**: a node with unit capacitance, charge offset 1 and flux doubled by the transform has at zero charge the energy 2
instead of 1/2; with unit inductance and flux offset 1 it has at zero flux the energy 1/8 instead of 1/2. -/
theorem C60_false :
    ∃ (R C L A A' : Matrix (Fin 1) (Fin 1) ℚ) (b : Fin 1 → ℚ), R.det ≠ 0 ∧ inverseCapacitance ⟨false, R⟩ C = some A ∧
      inverseCapacitance ⟨true, R⟩ C = some A' ∧ quadEnergy A 0 b = 1 / 2 ∧ quadEnergy A' ((R⁻¹)ᵀ.mulVec 0) b = 2 ∧
      quadEnergy (transformInductance ⟨false, R⟩ L) 0 b = 1 / 2 ∧ quadEnergy (transformInductance ⟨true, R⟩ L) (R.mulVec 0) b = 1 / 8 := by
  have hinv : (!![2] : Matrix (Fin 1) (Fin 1) ℚ)⁻¹ = !![1/2] := by
    apply inv_eq_right_inv
    ext i j; rw [Subsingleton.elim i 0, Subsingleton.elim j 0]; simp [mul_apply]
  refine ⟨!![2], 1, 1, 1, !![4], fun _ => 1, by simp, ?_, ?_, ?_, ?_, ?_, ?_⟩
  · unfold inverseCapacitance; simp
  · unfold inverseCapacitance
    rw [if_neg (by simp), if_pos rfl, inv_one]
    congr 1
    ext i j; rw [Subsingleton.elim i 0, Subsingleton.elim j 0]; simp [mul_apply]; norm_num
  · simp [quadEnergy, dotProduct]
  · simp [quadEnergy, dotProduct, mulVec]; norm_num
  · simp [transformInductance, quadEnergy, dotProduct]
  · unfold transformInductance
    rw [if_pos rfl]
    simp only [hinv]
    simp [quadEnergy, dotProduct, mulVec, mul_apply]; norm_num

/-! ### C34 -/

/-- The nonzero pattern of a matrix. -/
def pattern [Zero K] [DecidableEq K] {n : ℕ} (M : Matrix (Fin n) (Fin n) K) (i j : ℕ) : Bool :=
  if h : i < n ∧ j < n then decide (M ⟨i, h.1⟩ ⟨j, h.2⟩ ≠ 0) else false

theorem markRow_spec (nz : ℕ → ℕ → Bool) (index : ℕ) : ∀ (is : List ℕ) (l : Modes) (s : List ℕ),
    (∀ k, (markRow nz index is l s).1 k = if k ∈ is ∧ nz index k = true then some .charge else l k) ∧
    (∀ k, k ∈ (markRow nz index is l s).2.1 ↔ k ∈ s ∨ (k ∈ is ∧ nz index k = true)) ∧
    ((markRow nz index is l s).2.2 = true ↔ ∃ k ∈ is, nz index k = true) := by
  intro is
  induction is with
  | nil => intro l s; simp [markRow]
  | cons i is ih =>
    intro l s
    unfold markRow
    by_cases h : nz index i = true
    · rw [if_pos h]
      obtain ⟨h1, h2, h3⟩ := ih (l.put i .charge) (i :: s)
      refine ⟨?_, ?_, ?_⟩
      · intro k
        simp only
        rw [h1 k]
        by_cases hk : k = i
        · subst hk; simp [h, Modes.put]
        · simp [hk, Modes.put]
      · intro k
        simp only
        rw [h2 k]
        simp only [List.mem_cons]
        constructor
        · rintro ((rfl | h') | ⟨h', h''⟩)
          · exact Or.inr ⟨Or.inl rfl, h⟩
          · exact Or.inl h'
          · exact Or.inr ⟨Or.inr h', h''⟩
        · rintro (h' | ⟨rfl | h', h''⟩)
          · exact Or.inl (Or.inr h')
          · exact Or.inl (Or.inl rfl)
          · exact Or.inr ⟨h', h''⟩
      · exact ⟨fun _ => ⟨i, by simp, h⟩, fun _ => rfl⟩
    · rw [if_neg h]
      obtain ⟨h1, h2, h3⟩ := ih l s
      refine ⟨?_, ?_, ?_⟩
      · intro k
        rw [h1 k]
        by_cases hk : k = i
        · subst hk; simp [h]
        · simp [hk]
      · intro k
        rw [h2 k]
        by_cases hk : k = i
        · subst hk; simp [h]
        · simp [hk]
      · rw [h3]; simp [h]

/-- The state of the loop when it looks at `index`: everything before is done, and what is marked beyond is labelled charge. -/
structure LoopInv (nz : ℕ → ℕ → Bool) (n index : ℕ) (l : Modes) (s : List ℕ) : Prop where
  le : index ≤ n
  done : ∀ i < index, i ∈ s ∧ l i = some (if nz i i = true ∧ ∀ j < n, i < j → nz i j = false then .oscillator else .charge)
  lt : ∀ i ∈ s, i < n
  ahead : ∀ i, index ≤ i → i < n → (i ∈ s ↔ ∃ j < index, nz j j = true ∧ nz j i = true) ∧ (i ∈ s → l i = some .charge)

theorem loop_spec (nz : ℕ → ℕ → Bool) (n : ℕ) : ∀ (fuel index : ℕ) (l : Modes) (s : List ℕ), LoopInv nz n index l s → n < fuel + index →
    ∃ stop l' s', index ≤ stop ∧ LoopInv nz n stop l' s' ∧ (∀ i < n, i ∈ s') ∧ classifyLoop nz n fuel index l s = some l' ∧
      ∀ m, index ≤ m → m < stop → ∃ k, m ≤ k ∧ k < n ∧ ∀ j < m, ¬ (nz j j = true ∧ nz j k = true) := by
  intro fuel
  induction fuel with
  | zero => intro index l s hi hf; have := hi.le; omega
  | succ fuel ih =>
    intro index l s hi hf
    unfold classifyLoop
    by_cases hall : ∀ i < n, i ∈ s
    · rw [if_pos hall]; exact ⟨index, l, s, le_refl _, hi, hall, rfl, fun m h1 h2 => by omega⟩
    rw [if_neg hall]
    have hlt : index < n := by
      rcases Nat.lt_or_ge index n with h | h
      · exact h
      · exact absurd (fun i hin => (hi.done i (by omega)).1) hall
    have hopen : ∃ k, index ≤ k ∧ k < n ∧ ∀ j < index, ¬ (nz j j = true ∧ nz j k = true) := by
      push Not at hall
      obtain ⟨k, hk, hks⟩ := hall
      have hik : index ≤ k := by
        rcases Nat.lt_or_ge k index with h | h
        · exact absurd (hi.done k h).1 hks
        · exact h
      exact ⟨k, hik, hk, fun j hj hjj => hks ((hi.ahead k hik hk).1.2 ⟨j, hj, hjj⟩)⟩
    by_cases hz : nz index index = false
    · rw [if_pos hz]
      suffices hinv : LoopInv nz n (index + 1) (l.put index .charge) (index :: s) by
        obtain ⟨stop, l', s', h1, h2, h3, h4, h5⟩ := ih _ _ _ hinv (by omega)
        refine ⟨stop, l', s', by omega, h2, h3, h4, ?_⟩
        intro m hm hm'
        by_cases hmi : m = index
        · subst hmi; exact hopen
        · exact h5 m (by omega) hm'
      refine ⟨by omega, ?_, ?_, ?_⟩
      · intro i hin
        by_cases hii : i = index
        · subst hii; simp [Modes.put, hz]
        · have := hi.done i (by omega)
          refine ⟨List.mem_cons_of_mem _ this.1, ?_⟩
          simp only [Modes.put, if_neg hii]
          exact this.2
      · intro i hin
        rcases List.mem_cons.1 hin with rfl | hin
        · exact hlt
        · exact hi.lt i hin
      · intro i h1 h2
        have hne : i ≠ index := by omega
        have := hi.ahead i (by omega) h2
        constructor
        · rw [List.mem_cons]
          constructor
          · rintro (h | h)
            · exact absurd h hne
            · obtain ⟨j, hj, hjj⟩ := this.1.1 h
              exact ⟨j, by omega, hjj⟩
          · rintro ⟨j, hj, hjj, hji⟩
            right
            apply this.1.2
            refine ⟨j, ?_, hjj, hji⟩
            rcases Nat.lt_or_ge j index with h | h
            · exact h
            · have : j = index := by omega
              subst this; rw [hz] at hjj; cases hjj
        · intro hm
          rcases List.mem_cons.1 hm with h | h
          · exact absurd h hne
          · simp only [Modes.put, if_neg hne]; exact this.2 h
    · rw [if_neg hz]
      have hz : nz index index = true := by simpa using hz
      obtain ⟨m1, m2, m3⟩ := markRow_spec nz index (List.range' (index + 1) (n - (index + 1))) l s
      have hmem : ∀ k, k ∈ List.range' (index + 1) (n - (index + 1)) ↔ index < k ∧ k < n := by
        intro k; rw [List.mem_range'_1]; omega
      simp only [hmem] at m1 m2 m3
      simp only
      generalize markRow nz index (List.range' (index + 1) (n - (index + 1))) l s = r at m1 m2 m3
      suffices hinv : LoopInv nz n (index + 1) (r.1.put index (if r.2.2 then .charge else .oscillator)) (index :: r.2.1) by
        obtain ⟨stop, l', s', h1, h2, h3, h4, h5⟩ := ih _ _ _ hinv (by omega)
        refine ⟨stop, l', s', by omega, h2, h3, h4, ?_⟩
        intro m hm hm'
        by_cases hmi : m = index
        · subst hmi; exact hopen
        · exact h5 m (by omega) hm'
      refine ⟨by omega, ?_, ?_, ?_⟩
      · intro i hin
        by_cases hii : i = index
        · subst hii
          refine ⟨by simp, ?_⟩
          simp only [Modes.put, if_true]
          congr 1
          by_cases hc : r.2.2 = true
          · rw [if_pos hc]
            obtain ⟨k, hk, hk'⟩ := m3.1 hc
            rw [if_neg]
            rintro ⟨_, h⟩
            rw [h k hk.2 hk.1] at hk'; cases hk'
          · rw [if_neg hc, if_pos]
            refine ⟨hz, ?_⟩
            intro j h2 h1
            cases hj : nz i j with
            | false => rfl
            | true => exact absurd (m3.2 ⟨j, ⟨h1, h2⟩, hj⟩) hc
        · have hd := hi.done i (by omega)
          refine ⟨List.mem_cons_of_mem _ ((m2 i).2 (Or.inl hd.1)), ?_⟩
          simp only [Modes.put, if_neg hii]
          rw [m1 i, if_neg (by omega)]
          exact hd.2
      · intro i hin
        rcases List.mem_cons.1 hin with rfl | hin
        · exact hlt
        · rcases (m2 i).1 hin with h | h
          · exact hi.lt i h
          · exact h.1.2
      · intro i h1 h2
        have hne : i ≠ index := by omega
        have ha := hi.ahead i (by omega) h2
        constructor
        · rw [List.mem_cons, m2 i]
          constructor
          · rintro (h | h | h)
            · exact absurd h hne
            · obtain ⟨j, hj, hjj⟩ := ha.1.1 h
              exact ⟨j, by omega, hjj⟩
            · exact ⟨index, by omega, hz, h.2⟩
          · rintro ⟨j, hj, hjj, hji⟩
            right
            by_cases hj' : j = index
            · subst hj'; exact Or.inr ⟨⟨by omega, h2⟩, hji⟩
            · exact Or.inl (ha.1.2 ⟨j, by omega, hjj, hji⟩)
        · intro hm
          simp only [Modes.put, if_neg hne]
          rw [m1 i]
          split_ifs with hc
          · rfl
          · rcases List.mem_cons.1 hm with h | h
            · exact absurd h hne
            · rcases (m2 i).1 h with h | h
              · exact ha.2 h
              · exact absurd h hc

theorem classify_spec (nz : ℕ → ℕ → Bool) (n : ℕ) : ∃ stop l s, LoopInv nz n stop l s ∧ (∀ i < n, i ∈ s) ∧ classify nz n = some l ∧
    ∀ m < stop, ∃ k, m ≤ k ∧ k < n ∧ ∀ j < m, ¬ (nz j j = true ∧ nz j k = true) := by
  obtain ⟨stop, l, s, _, h2, h3, h4, h5⟩ := loop_spec nz n (n + 1) 0 (fun _ => none) [] ⟨Nat.zero_le _, by simp, by simp, by simp⟩ (by omega)
  exact ⟨stop, l, s, h2, h3, h4, fun m hm => h5 m (Nat.zero_le _) hm⟩

/-- **C34** The labelling always ends, with a label for every coordinate. -/
theorem C34_total (nz : ℕ → ℕ → Bool) (n : ℕ) : ∃ l, classify nz n = some l ∧ ∀ i < n, (l i).isSome := by
  obtain ⟨stop, l, s, hi, hall, hc, hopen⟩ := classify_spec nz n
  refine ⟨l, hc, ?_⟩
  intro i hin
  rcases Nat.lt_or_ge i stop with h | h
  · rw [(hi.done i h).2]; rfl
  · rw [(hi.ahead i h hin).2 (hall i hin)]; rfl

/-- **C34 (partial)** What the labelling computes in general: a coordinate gets the label "oscillator" exactly when its diagonal entry is
nonzero, it is coupled to no later coordinate, and it or a later coordinate is coupled to none of the earlier coordinates that have a
nonzero diagonal entry. -/
theorem C34_labels_partial [Field K] [DecidableEq K] {n : ℕ} (L : Matrix (Fin n) (Fin n) K) :
    ∃ l, classify (pattern L) n = some l ∧ ∀ i : Fin n,
      (l i = some .oscillator ↔ L i i ≠ 0 ∧ (∀ j, i < j → L i j = 0) ∧ ∃ k, i ≤ k ∧ ∀ j < i, L j j = 0 ∨ L j k = 0) ∧
      (l i ≠ some .oscillator → l i = some .charge) := by
  have hp : ∀ i j : Fin n, pattern L i j = true ↔ L i j ≠ 0 := by
    intro i j
    unfold pattern
    rw [dif_pos ⟨i.2, j.2⟩]
    simp
  obtain ⟨stop, l, s, hi, hall, hc, hopen⟩ := classify_spec (pattern L) n
  refine ⟨l, hc, ?_⟩
  intro i
  rcases Nat.lt_or_ge i.1 stop with h | h
  · rw [(hi.done i h).2]
    have hlater : (∀ j < n, i.1 < j → pattern L i j = false) ↔ ∀ j, i < j → L i j = 0 := by
      constructor
      · intro h j hj
        have := h j j.2 hj
        by_contra hne
        rw [(hp i j).2 hne] at this; cases this
      · intro h j hj hij
        have := h ⟨j, hj⟩ hij
        cases hq : pattern L i j with
        | false => rfl
        | true => exact absurd this ((hp i ⟨j, hj⟩).1 hq)
    have hk : ∃ k, i ≤ k ∧ ∀ j < i, L j j = 0 ∨ L j k = 0 := by
      obtain ⟨k, h1, h2, h3⟩ := hopen i h
      refine ⟨⟨k, h2⟩, h1, ?_⟩
      intro j hj
      by_contra hne
      push Not at hne
      exact h3 j hj ⟨(hp j j).2 hne.1, (hp j ⟨k, h2⟩).2 hne.2⟩
    by_cases hosc : L i i ≠ 0 ∧ ∀ j, i < j → L i j = 0
    · rw [if_pos ⟨(hp i i).2 hosc.1, hlater.2 hosc.2⟩]
      simp only [ne_eq, not_true_eq_false, false_implies, and_true, true_iff]
      exact ⟨hosc.1, hosc.2, hk⟩
    · rw [if_neg fun hh => hosc ⟨(hp i i).1 hh.1, hlater.1 hh.2⟩]
      refine ⟨⟨fun hh => (by cases hh), fun hh => absurd ⟨hh.1, hh.2.1⟩ hosc⟩, fun _ => rfl⟩
  · rw [(hi.ahead i h i.2).2 (hall i i.2)]
    refine ⟨⟨fun hh => (by cases hh), ?_⟩, fun _ => rfl⟩
    rintro ⟨_, _, k, hk, hkj⟩
    obtain ⟨j, hj, hjj, hji⟩ := (hi.ahead k (le_trans h hk) k.2).1.1 (hall k k.2)
    have hjn : j < n := by omega
    by_cases hji' : j < i.1
    · rcases hkj ⟨j, hjn⟩ hji' with h0 | h0
      · exact absurd h0 ((hp ⟨j, hjn⟩ ⟨j, hjn⟩).1 hjj)
      · exact absurd h0 ((hp ⟨j, hjn⟩ k).1 hji)
    · omega

/-- **C34 (partial)** For a coordinate that the symmetric inverse inductance matrix does not couple to another one, the label is
"oscillator" exactly when its row has a nonzero entry; and every oscillator mode has a nonzero diagonal entry.  Missing: coupled
coordinates (`C34_false`). -/
theorem C34_uncoupled_partial [Field K] [DecidableEq K] {n : ℕ} (L : Matrix (Fin n) (Fin n) K) (hs : Lᵀ = L) :
    ∃ l, classify (pattern L) n = some l ∧
      (∀ i : Fin n, (∀ j, j ≠ i → L i j = 0) → (l i = some .oscillator ↔ ∃ j, L i j ≠ 0)) ∧
      ∀ i : Fin n, l i = some .oscillator → L i i ≠ 0 := by
  have hp : ∀ i j : Fin n, pattern L i j = true ↔ L i j ≠ 0 := by
    intro i j
    unfold pattern
    rw [dif_pos ⟨i.2, j.2⟩]
    simp
  have hsym : ∀ i j, L i j = L j i := fun i j => congrFun (congrFun hs j) i
  obtain ⟨stop, l, s, hi, hall, hc, hopen⟩ := classify_spec (pattern L) n
  refine ⟨l, hc, ?_, ?_⟩
  · intro i hun
    have hrow : (∃ j, L i j ≠ 0) ↔ L i i ≠ 0 := by
      constructor
      · rintro ⟨j, hj⟩
        by_cases h : j = i
        · subst h; exact hj
        · exact absurd (hun j h) hj
      · intro h; exact ⟨i, h⟩
    rw [hrow]
    rcases Nat.lt_or_ge i.1 stop with h | h
    · rw [(hi.done i h).2]
      have hoff : ∀ j < n, i.1 < j → pattern L i j = false := by
        intro j h2 h1
        have : ¬ pattern L i j = true := by
          rw [hp i ⟨j, h2⟩]; exact not_not.2 (hun _ (fun he => by rw [Fin.ext_iff] at he; simp at he; omega))
        simpa using this
      by_cases hd : L i i = 0
      · rw [if_neg]
        · simp [hd]
        · rintro ⟨h1, _⟩; exact (hp i i).1 h1 hd
      · rw [if_pos ⟨(hp i i).2 hd, hoff⟩]; simp [hd]
    · obtain ⟨j, hj, hjj, hji⟩ := (hi.ahead i h i.2).1.1 (hall i i.2)
      have hjn : j < n := by omega
      have := (hp ⟨j, hjn⟩ i).1 hji
      rw [hsym] at this
      exact absurd (hun _ (fun he => by rw [Fin.ext_iff] at he; simp at he; omega)) this
  · intro i hl
    rcases Nat.lt_or_ge i.1 stop with h | h
    · rw [(hi.done i h).2] at hl
      split_ifs at hl with h1
      · exact (hp i i).1 h1.1
      · cases hl
    · rw [(hi.ahead i h i.2).2 (hall i i.2)] at hl; cases hl

/-- **C34 (partial)** After a transform: for a symmetric matrix without negative energies the label is "oscillator" exactly when the row
of the transformed matrix has a nonzero entry. -/
theorem C34_transformed_partial [Field K] [LinearOrder K] [IsStrictOrderedRing K] {n : ℕ} (L : Matrix (Fin n) (Fin n) K) (hs : Lᵀ = L)
    (hpos : ∀ x, 0 ≤ x ⬝ᵥ L.mulVec x) (R : Matrix (Fin n) (Fin n) K) (i : Fin n) :
    let M := transformInductance ⟨true, R⟩ L
    classifyTransformed (pattern M) n i = some .oscillator ↔ ∃ j, M i j ≠ 0 := by
  intro M
  have hMs : ∀ a b, M a b = M b a := by
    have : Mᵀ = M := by
      simp only [M, transformInductance, if_true]
      rw [transpose_mul, transpose_mul, transpose_transpose, hs, Matrix.mul_assoc]
    exact fun a b => congrFun (congrFun this b) a
  have hMp : ∀ x, 0 ≤ x ⬝ᵥ M.mulVec x := by
    intro x
    have h := dot_congr L (R⁻¹)ᵀ x
    rw [transpose_transpose] at h
    simp only [M, transformInductance, if_true]
    rw [h]; exact hpos _
  have hdiag : M i i = 0 → ∀ j, M i j = 0 := by
    intro h0 j
    by_contra hne
    -- the form at `t • e_i + e_j`
    have form : ∀ t : K, 0 ≤ 2 * t * M i j + M j j := by
      intro t
      by_cases hij : i = j
      · subst hij; rw [h0]; simp
      have h := hMp (Pi.single i t + Pi.single j 1)
      rw [mulVec_add, dotProduct_add, add_dotProduct, add_dotProduct] at h
      simp only [mulVec_single, single_dotProduct, Pi.smul_apply, op_smul_eq_smul, smul_eq_mul, one_mul, mul_one, Matrix.col_apply] at h
      rw [h0, hMs j i] at h
      linarith
    have h1 := form (-(M j j + 1) / (2 * M i j))
    have h2 : 2 * (-(M j j + 1) / (2 * M i j)) * M i j = -(M j j + 1) := by field_simp
    rw [h2] at h1
    linarith
  unfold classifyTransformed
  rw [if_pos i.2]
  have hp : pattern M i i = true ↔ M i i ≠ 0 := by
    unfold pattern; rw [dif_pos ⟨i.2, i.2⟩]; simp
  constructor
  · intro h
    refine ⟨i, ?_⟩
    intro h0
    rw [if_neg] at h
    · cases h
    · rw [hp]; exact not_not.2 h0
  · rintro ⟨j, hj⟩
    rw [if_pos]
    rw [hp]
    intro h0; exact hj (hdiag h0 j)

/-- **C34 is false**: two coupled coordinates are both labelled "charge", although their rows are nonzero; and with a third,
uncoupled coordinate the label of the second one is overwritten, so that of two coupled coordinates one gets each label. -/
theorem C34_false :
    (∃ l, classify (pattern (!![2, -1; -1, 3] : Matrix (Fin 2) (Fin 2) ℚ)) 2 = some l ∧ l 0 = some .charge ∧ l 1 = some .charge) ∧
    (∃ l, classify (pattern (!![2, -1, 0; -1, 3, 0; 0, 0, 1] : Matrix (Fin 3) (Fin 3) ℚ)) 3 = some l ∧
      l 0 = some .charge ∧ l 1 = some .oscillator ∧ l 2 = some .oscillator) := by
  have h1 := C34_total (pattern (!![2, -1; -1, 3] : Matrix (Fin 2) (Fin 2) ℚ)) 2
  have h2 := C34_total (pattern (!![2, -1, 0; -1, 3, 0; 0, 0, 1] : Matrix (Fin 3) (Fin 3) ℚ)) 3
  obtain ⟨l, hl, _⟩ := h1
  obtain ⟨l', hl', _⟩ := h2
  have e1 : ((classify (pattern (!![2, -1; -1, 3] : Matrix (Fin 2) (Fin 2) ℚ)) 2).map fun l => (l 0, l 1)) = some (some .charge, some .charge) := by
    decide +kernel
  have e2 : ((classify (pattern (!![2, -1, 0; -1, 3, 0; 0, 0, 1] : Matrix (Fin 3) (Fin 3) ℚ)) 3).map fun l => (l 0, l 1, l 2)) =
      some (some .charge, some .oscillator, some .oscillator) := by
    decide +kernel
  rw [hl] at e1
  rw [hl'] at e2
  simp at e1 e2
  exact ⟨⟨l, hl, e1⟩, ⟨l', hl', e2⟩⟩

end Verif.Props
