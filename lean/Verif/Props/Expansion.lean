import Verif.Model.Operators
import Mathlib.Data.Fintype.BigOperators
import Mathlib.Data.Fintype.Pi

/-!
# Properties of the expansion to the Hilbert space of all the nodes: C39
-/

namespace Verif.Props

open Verif.Num Matrix

/-- All the nodes use a charge or an oscillator basis. -/
def Standard {n : ℕ} (cfg : Fin n → NodeCfg) : Prop := ∀ i, (cfg i).basis = .charge ∨ (cfg i).basis = .oscillator

/-- What an operator of node `i` should do on the whole space: act on coordinate `i` and leave the others alone. -/
def actsOn {n : ℕ} (cfg : Fin n → NodeCfg) (i : Fin n) (A : Op (cfg i).dim) : BigOp cfg :=
  fun x y => if ∀ j, j ≠ i → x j = y j then A (x i) (y i) else 0

theorem eyeList_standard {n : ℕ} {cfg : Fin n → NodeCfg} (h : Standard cfg) (i : Fin n) : eyeList cfg i = some 1 := by
  unfold eyeList
  rcases h i with h | h <;> rw [h]

/-- An expansion that exists acts on its own node only. -/
theorem expandOp_some {n : ℕ} {cfg : Fin n → NodeCfg} {i : Fin n} {A : Op (cfg i).dim} {A' : BigOp cfg} (h : expandOp cfg i A = some A') :
    A' = actsOn cfg i A := by
  unfold expandOp tensor at h
  split_ifs at h with hall
  rw [← Option.some.inj h]
  have heye : ∀ j, j ≠ i → eyeList cfg j = some 1 := by
    intro j hj
    have := hall j
    rw [Function.update_of_ne hj] at this
    unfold eyeList at this ⊢
    cases hb : (cfg j).basis <;> simp_all
  ext x y
  unfold actsOn
  rw [← Finset.mul_prod_erase Finset.univ _ (Finset.mem_univ i), Function.update_self, Option.getD_some]
  by_cases hxy : ∀ j, j ≠ i → x j = y j
  · rw [if_pos hxy, Finset.prod_eq_one, mul_one]
    intro j hj
    have hji := Finset.ne_of_mem_erase hj
    rw [Function.update_of_ne hji, heye j hji, Option.getD_some, hxy j hji, Matrix.one_apply_eq]
  · rw [if_neg hxy]
    push Not at hxy
    obtain ⟨j, hji, hne⟩ := hxy
    rw [Finset.prod_eq_zero (Finset.mem_erase.2 ⟨hji, Finset.mem_univ j⟩), mul_zero]
    rw [Function.update_of_ne hji, heye j hji, Option.getD_some, Matrix.one_apply_ne hne]

/-- **C39** (partial: charge and oscillator bases) The expansion of an operator exists and acts on its own node only. -/
theorem C39_expansion_partial {n : ℕ} (cfg : Fin n → NodeCfg) (h : Standard cfg) (i : Fin n) (A : Op (cfg i).dim) :
    expandOp cfg i A = some (actsOn cfg i A) := by
  have hex : ∃ A', expandOp cfg i A = some A' := by
    unfold expandOp tensor
    rw [if_pos]
    · exact ⟨_, rfl⟩
    · intro j
      by_cases hji : j = i
      · subst hji; simp
      · rw [Function.update_of_ne hji, eyeList_standard h]; rfl
  obtain ⟨A', hA'⟩ := hex
  rw [hA', expandOp_some hA']

/-- Operators of different nodes act independently. -/
theorem actsOn_mul {n : ℕ} (cfg : Fin n → NodeCfg) (i j : Fin n) (hij : i ≠ j) (A : Op (cfg i).dim) (B : Op (cfg j).dim) :
    actsOn cfg i A * actsOn cfg j B = fun x y => if ∀ k, k ≠ i → k ≠ j → x k = y k then A (x i) (y i) * B (x j) (y j) else 0 := by
  ext x y
  rw [Matrix.mul_apply, Finset.sum_eq_single (Function.update x i (y i))]
  · unfold actsOn
    rw [if_pos (fun k hk => (Function.update_of_ne hk _ _).symm), Function.update_self, Function.update_of_ne hij.symm]
    by_cases hxy : ∀ k, k ≠ i → k ≠ j → x k = y k
    · rw [if_pos, if_pos hxy]
      intro k hk
      by_cases hki : k = i
      · subst hki; rw [Function.update_self]
      · rw [Function.update_of_ne hki]; exact hxy k hki hk
    · rw [if_neg, if_neg hxy, mul_zero]
      intro hall
      apply hxy
      intro k hki hkj
      have := hall k hkj
      rwa [Function.update_of_ne hki] at this
  · intro z _ hz
    unfold actsOn
    by_cases h1 : ∀ k, k ≠ i → x k = z k
    · by_cases h2 : ∀ k, k ≠ j → z k = y k
      · exfalso
        apply hz
        ext k
        by_cases hki : k = i
        · subst hki; rw [Function.update_self, h2 k hij]
        · rw [Function.update_of_ne hki, h1 k hki]
      · rw [if_neg h2, mul_zero]
    · rw [if_neg h1, zero_mul]
  · simp

/-- **C39** Operators of different nodes commute. -/
theorem C39_commute {n : ℕ} (cfg : Fin n → NodeCfg) (i j : Fin n) (hij : i ≠ j) (A : Op (cfg i).dim) (B : Op (cfg j).dim)
    (A' B' : BigOp cfg) (hA : expandOp cfg i A = some A') (hB : expandOp cfg j B = some B') : A' * B' = B' * A' := by
  rw [expandOp_some hA, expandOp_some hB, actsOn_mul cfg i j hij, actsOn_mul cfg j i hij.symm]
  ext x y
  have : (∀ k, k ≠ i → k ≠ j → x k = y k) ↔ ∀ k, k ≠ j → k ≠ i → x k = y k :=
    ⟨fun h k a b => h k b a, fun h k a b => h k b a⟩
  show (if _ then _ else _) = if _ then _ else _
  rw [mul_comm]
  split_ifs with h1 h2 h2
  · rfl
  · exact absurd (this.1 h1) h2
  · exact absurd (this.2 h2) h1
  · rfl

/-- **C39** (partial: charge and oscillator bases) The expansion respects products, sums, multiples, adjoints and the identity. -/
theorem C39_algebra_partial {n : ℕ} (cfg : Fin n → NodeCfg) (h : Standard cfg) (i : Fin n) (A B : Op (cfg i).dim) (c : ℂ) :
    ∃ A' B', expandOp cfg i A = some A' ∧ expandOp cfg i B = some B' ∧ expandOp cfg i (A * B) = some (A' * B') ∧
      expandOp cfg i (A + B) = some (A' + B') ∧ expandOp cfg i (c • A) = some (c • A') ∧ expandOp cfg i Aᴴ = some A'ᴴ ∧
      expandOp cfg i 1 = some 1 := by
  refine ⟨actsOn cfg i A, actsOn cfg i B, C39_expansion_partial cfg h i A, C39_expansion_partial cfg h i B, ?_, ?_, ?_, ?_, ?_⟩ <;>
    rw [C39_expansion_partial cfg h] <;> congr 1 <;> ext x y
  · rw [Matrix.mul_apply]
    unfold actsOn
    by_cases hxy : ∀ j, j ≠ i → x j = y j
    · rw [if_pos hxy, Matrix.mul_apply]
      symm
      let f : Fin (cfg i).dim → ((i : Fin n) → Fin (cfg i).dim) := fun a => Function.update x i a
      have hinj : Function.Injective f := by
        intro a b hab
        have := congrFun hab i
        simpa [f] using this
      rw [← Finset.sum_subset (Finset.subset_univ (Finset.univ.image f))]
      · rw [Finset.sum_image fun a _ b _ hab => hinj hab]
        apply Finset.sum_congr rfl
        intro a _
        rw [if_pos (fun k hk => (Function.update_of_ne hk _ _).symm), if_pos]
        · simp [f]
        · intro k hk
          show Function.update x i a k = y k
          rw [Function.update_of_ne hk, hxy k hk]
      · intro z _ hz
        rw [if_neg, zero_mul]
        intro hall
        apply hz
        refine Finset.mem_image.2 ⟨z i, Finset.mem_univ _, ?_⟩
        ext k
        by_cases hk : k = i
        · subst hk; simp [f]
        · simp [f, Function.update_of_ne hk, hall k hk]
    · rw [if_neg hxy]
      symm
      apply Finset.sum_eq_zero
      intro z _
      by_cases h1 : ∀ k, k ≠ i → x k = z k
      · rw [if_neg (fun h2 : ∀ k, k ≠ i → z k = y k => hxy fun k hk => (h1 k hk).trans (h2 k hk)), mul_zero]
      · rw [if_neg h1, zero_mul]
  · simp only [actsOn, Matrix.add_apply]
    split_ifs <;> simp
  · simp only [actsOn, Matrix.smul_apply]
    split_ifs <;> simp
  · simp only [actsOn, conjTranspose_apply]
    have : (∀ j, j ≠ i → x j = y j) ↔ ∀ j, j ≠ i → y j = x j := ⟨fun h j hj => (h j hj).symm, fun h j hj => (h j hj).symm⟩
    simp only [this]
    split_ifs <;> simp
  · unfold actsOn
    by_cases hxy : x = y
    · subst hxy; simp
    · rw [Matrix.one_apply_ne hxy]
      split_ifs with hall
      · rw [Matrix.one_apply_ne]
        intro hi
        apply hxy
        ext j
        by_cases hj : j = i
        · subst hj; rw [hi]
        · rw [hall j hj]
      · rfl

theorem size_fold (data : List NodeCfg) (h : ∀ c ∈ data, c.basis = .charge ∨ c.basis = .oscillator) : ∀ a, data.foldl (fun ret c => match c.basis with
    | .charge => ret * (2 * c.trunc + 1)
    | .oscillator => ret * c.trunc
    | _ => ret) a = a * (data.map NodeCfg.dim).prod := by
  induction data with
  | nil => simp
  | cons c data ih =>
    intro a
    rw [List.foldl_cons, ih fun x hx => h x (List.mem_cons_of_mem _ hx), List.map_cons, List.prod_cons, ← Nat.mul_assoc]
    congr 1
    unfold NodeCfg.dim
    rcases h c (by simp) with hb | hb <;> simp [hb]

/-- **C39** (partial: charge and oscillator bases) The reported size is the number of basis states of the whole space, for every
order in which the nodes were configured. -/
theorem C39_size_partial {n : ℕ} (cfg : Fin n → NodeCfg) (h : Standard cfg) (data : List NodeCfg) (hp : data.Perm (List.ofFn cfg)) :
    getHilbertSpaceSize data = Fintype.card ((i : Fin n) → Fin (cfg i).dim) := by
  have hs : getHilbertSpaceSize data = (data.map NodeCfg.dim).prod := by
    refine Eq.trans ?_ ((size_fold data ?_ 1).trans (Nat.one_mul _))
    · unfold getHilbertSpaceSize
      congr 1
    intro c hc
    obtain ⟨i, rfl⟩ := List.mem_ofFn.1 ((hp.mem_iff).1 hc)
    exact h i
  rw [hs, (hp.map NodeCfg.dim).prod_eq, Fintype.card_pi, List.map_ofFn, List.prod_ofFn]
  simp

/-- **C39** is false for the flux basis: a node with three flux states is reported as a space of size one. -/
theorem C39_size_false : getHilbertSpaceSize [⟨1, .flux⟩] = 1 ∧ (NodeCfg.mk 1 .flux).dim = 3 := ⟨rfl, rfl⟩

/-- **C39** is false for the flux basis: no operator of another node can be expanded. -/
theorem C39_flux_false {n : ℕ} (cfg : Fin n → NodeCfg) (i j : Fin n) (hij : i ≠ j)
    (hj : (cfg j).basis = .flux ∨ (cfg j).basis = .discretizedFlux) (A : Op (cfg i).dim) : expandOp cfg i A = none := by
  unfold expandOp tensor
  rw [if_neg]
  intro hall
  have := hall j
  rw [Function.update_of_ne hij.symm] at this
  unfold eyeList at this
  rcases hj with hj | hj <;> rw [hj] at this <;> cases this

/-- A transmon with an oscillator. -/
example : Standard ![⟨5, .charge⟩, ⟨7, .oscillator⟩] ∧ getHilbertSpaceSize [⟨7, .oscillator⟩, ⟨5, .charge⟩] = 77 ∧
    ([⟨7, .oscillator⟩, ⟨5, .charge⟩] : List NodeCfg).Perm (List.ofFn ![⟨5, .charge⟩, ⟨7, .oscillator⟩]) := by
  refine ⟨?_, rfl, ?_⟩
  · intro i; fin_cases i <;> simp
  · simpa using List.Perm.swap _ _ _

end Verif.Props
