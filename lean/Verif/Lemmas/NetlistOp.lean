import Verif.Props.Assembly
import Verif.Spec.NetlistOp

/-!
# Lemmas for C97: sums over the branches of a netlist, products of displacements, quadratic forms of operators
-/

namespace Verif.Props

open Verif Verif.Circuit Verif.Sym Verif.Num Verif.Spec Complex Matrix

/-! ### Products of displacement operators -/

section disp

variable {A : Type} [Ring A]

theorem dispProduct_eq (D Dd : ℕ → A) (flip : Bool) : ∀ (ts : List (ℝ × ℕ)) (acc : A), dispProduct D Dd flip ts acc =
    acc * (ts.map fun p => if flip then (if p.1 < 0 then D p.2 else Dd p.2) else (if 0 < p.1 then D p.2 else Dd p.2)).prod := by
  intro ts
  induction ts with
  | nil => intro acc; simp [dispProduct]
  | cons p ts ih => intro acc; rw [dispProduct, ih, List.map_cons, List.prod_cons, mul_assoc]

theorem prod_filter {α : Type} (l : List α) (P : α → Prop) [DecidablePred P] (f : α → A) :
    ((l.filter fun a => decide (P a)).map f).prod = (l.map fun a => if P a then f a else 1).prod := by
  induction l with
  | nil => rfl
  | cons a l ih =>
    by_cases h : P a
    · rw [List.filter_cons_of_pos (by simpa using h), List.map_cons, List.prod_cons, List.map_cons, List.prod_cons, ih, if_pos h]
    · rw [List.filter_cons_of_neg (by simpa using h), List.map_cons, List.prod_cons, ih, if_neg h, one_mul]

theorem prod_split {α : Type} (l : List α) (u v : α → A) (h : ∀ i j, v i * u j = u j * v i) :
    (l.map fun i => u i * v i).prod = (l.map u).prod * (l.map v).prod := by
  induction l with
  | nil => simp
  | cons a l ih =>
    have hc : ∀ l : List α, v a * (l.map u).prod = (l.map u).prod * v a := by
      intro l
      induction l with
      | nil => simp
      | cons b l ihl => rw [List.map_cons, List.prod_cons, ← mul_assoc, h, mul_assoc, ihl, mul_assoc]
    simp only [List.map_cons, List.prod_cons]
    rw [ih, mul_assoc, ← mul_assoc (v a), hc, mul_assoc, mul_assoc]

theorem prod_range_single (n a : ℕ) (x : A) : ((List.range n).map fun j => if a = j then x else 1).prod = if a < n then x else 1 := by
  induction n with
  | zero => simp
  | succ n ih =>
    rw [List.range_succ, List.map_append, List.prod_append, ih]
    simp only [List.map_cons, List.map_nil, List.prod_cons, List.prod_nil, mul_one]
    rcases lt_trichotomy a n with h | h | h
    · rw [if_pos h, if_neg h.ne, if_pos (by omega), mul_one]
    · subst h; simp
    · rw [if_neg (by omega), if_neg (by omega), if_neg (by omega), mul_one]

/-- The product of the displacements of a branch without a transform. -/
theorem disp_branch {h : List Call} {g : CG} (hs : Settled h g) {e : Edge} (he : e ∈ edges g) (hne : e.1 ≠ e.2.1) (D Dd : Fin (nodes g).length → A)
    (hc : ∀ i j, i ≠ j → D i * Dd j = Dd j * D i) (flip : Bool) (acc : A) :
    dispProduct (fun j => if h : j < (nodes g).length then D ⟨j, h⟩ else 0) (fun j => if h : j < (nodes g).length then Dd ⟨j, h⟩ else 0) flip
      (branchTerms g (fun i j => if i = j then (1 : ℝ) else 0) e) acc =
    acc * if flip then atNumber (nodes g) Dd 1 e.1 * atNumber (nodes g) D 1 e.2.1 else atNumber (nodes g) D 1 e.1 * atNumber (nodes g) Dd 1 e.2.1 := by
  have hw : g.graph.WF := by obtain ⟨o, f⟩ := Circuit.settled_facts hs; exact f.inv.toWF
  obtain ⟨w1, w2⟩ := wc_ends hs he
  -- the first factor of a pair of operators, and the second
  have gen : ∀ X Y : Fin (nodes g).length → A, (∀ i j, i ≠ j → X i * Y j = Y j * X i) →
      ((branchTerms g (fun i j => if i = j then (1 : ℝ) else 0) e).map fun p =>
        if 0 < p.1 then (if h : p.2 < (nodes g).length then X ⟨p.2, h⟩ else 0) else (if h : p.2 < (nodes g).length then Y ⟨p.2, h⟩ else 0)).prod =
      atNumber (nodes g) X 1 e.1 * atNumber (nodes g) Y 1 e.2.1 := by
    intro X Y hXY
    have hidx : ∀ v ∈ g.graph.nodes, (v = 0 ↔ ¬ (nodes g).idxOf v < (nodes g).length) := by
      intro v hv
      rw [List.idxOf_lt_length_iff, mem_nodes hw]
      tauto
    have hinj : (nodes g).idxOf e.1 < (nodes g).length → (nodes g).idxOf e.1 ≠ (nodes g).idxOf e.2.1 := by
      intro h1 h2
      exact hne ((List.idxOf_inj (List.idxOf_lt_length_iff.1 h1)).1 h2)
    unfold branchTerms
    rw [List.filter_map, List.map_map]
    have e1 := prod_filter (List.range (nodes g).length) (fun j : ℕ => ((if e.1 = 0 then (0 : ℝ) else if (nodes g).idxOf e.1 = j then 1 else 0) -
      (if e.2.1 = 0 then 0 else if (nodes g).idxOf e.2.1 = j then 1 else 0)) ≠ 0)
      (fun j => if 0 < ((if e.1 = 0 then (0 : ℝ) else if (nodes g).idxOf e.1 = j then 1 else 0) -
        (if e.2.1 = 0 then 0 else if (nodes g).idxOf e.2.1 = j then 1 else 0)) then
          (if h : j < (nodes g).length then X ⟨j, h⟩ else 0) else (if h : j < (nodes g).length then Y ⟨j, h⟩ else 0))
    refine e1.trans ?_
    have e2 : ∀ j ∈ List.range (nodes g).length, (if ((if e.1 = 0 then (0 : ℝ) else if (nodes g).idxOf e.1 = j then 1 else 0) -
        (if e.2.1 = 0 then 0 else if (nodes g).idxOf e.2.1 = j then 1 else 0)) ≠ 0 then
        if 0 < ((if e.1 = 0 then (0 : ℝ) else if (nodes g).idxOf e.1 = j then 1 else 0) -
        (if e.2.1 = 0 then 0 else if (nodes g).idxOf e.2.1 = j then 1 else 0)) then
          (if h : j < (nodes g).length then X ⟨j, h⟩ else 0) else (if h : j < (nodes g).length then Y ⟨j, h⟩ else 0) else 1) =
        (if (nodes g).idxOf e.1 = j then atNumber (nodes g) X 1 e.1 else 1) * (if (nodes g).idxOf e.2.1 = j then atNumber (nodes g) Y 1 e.2.1 else 1) := by
      intro j hj
      have hj := List.mem_range.1 hj
      by_cases z1 : (nodes g).idxOf e.1 = j
      · have n1 : e.1 ≠ 0 := fun h0 => (hidx _ w1).1 h0 (z1 ▸ hj)
        have n2 : (nodes g).idxOf e.2.1 ≠ j := fun h2 => hinj (z1 ▸ hj) (z1.trans h2.symm)
        have c2 : (if e.2.1 = 0 then (0 : ℝ) else if (nodes g).idxOf e.2.1 = j then 1 else 0) = 0 := by simp [n2]
        rw [c2, if_neg n1, if_pos z1, if_pos z1, if_neg n2]
        subst z1
        simp [hj, atNumber]
      · have c1 : (if e.1 = 0 then (0 : ℝ) else if (nodes g).idxOf e.1 = j then 1 else 0) = 0 := by simp [z1]
        rw [c1, if_neg z1]
        by_cases z2 : (nodes g).idxOf e.2.1 = j
        · have n1 : e.2.1 ≠ 0 := fun h0 => (hidx _ w2).1 h0 (z2 ▸ hj)
          rw [if_neg n1, if_pos z2, if_pos z2]
          subst z2
          have : ¬ (0 : ℝ) < 0 - 1 := by norm_num
          simp [hj, atNumber, this]
        · have c2 : (if e.2.1 = 0 then (0 : ℝ) else if (nodes g).idxOf e.2.1 = j then 1 else 0) = 0 := by simp [z2]
          rw [c2, if_neg z2]
          simp
    rw [List.map_congr_left e2, prod_split, prod_range_single, prod_range_single]
    · congr 1
      · split_ifs with h1
        · rfl
        · simp [atNumber, h1]
      · split_ifs with h1
        · rfl
        · simp [atNumber, h1]
    · intro i j
      split_ifs with h1 h2 h2
      · unfold atNumber
        split_ifs with k1 k2 k2
        · refine (hXY _ _ ?_).symm
          intro hh
          exact hinj k2 (Fin.mk.inj_iff.1 hh)
        all_goals simp
      all_goals simp
  rw [dispProduct_eq]
  congr 1
  cases flip with
  | false => simpa using gen D Dd hc
  | true =>
    have := gen Dd D (fun i j hij => (hc j i hij.symm).symm)
    simp only [if_true]
    rw [← this]
    congr 1
    apply List.map_congr_left
    intro p hp
    have h0 : p.1 ≠ 0 := by
      unfold branchTerms at hp
      simpa using (List.mem_filter.1 hp).2
    rcases lt_or_gt_of_ne h0 with h | h
    · rw [if_pos h, if_neg (not_lt.2 h.le)]
    · rw [if_neg (not_lt.2 h.le), if_pos h]

end disp

/-! ### Quadratic forms -/

theorem polarise {n : ℕ} (M N : Matrix (Fin n) (Fin n) ℝ) (hM : M.transpose = M) (hN : N.transpose = N)
    (h : ∀ x, x ⬝ᵥ M.mulVec x = x ⬝ᵥ N.mulVec x) : M = N := by
  have hz : ∀ x, x ⬝ᵥ (M - N).mulVec x = 0 := fun x => by rw [Matrix.sub_mulVec, dotProduct_sub, h, sub_self]
  have hs : ∀ i j, (M - N) i j = (M - N) j i := fun i j => by
    simp only [Matrix.sub_apply]
    rw [← congrFun (congrFun hM i) j, ← congrFun (congrFun hN i) j]; rfl
  have hd : ∀ i, (M - N) i i = 0 := fun i => by simpa using hz (Pi.single i 1)
  have : M - N = 0 := by
    ext i j
    have hij := hz (Pi.single i 1 + Pi.single j 1)
    simp only [Matrix.mulVec_add, dotProduct_add, add_dotProduct, Matrix.mulVec_single_one, Matrix.col_def, single_one_dotProduct] at hij
    simp only [Matrix.transpose_apply, hd, hs j i] at hij
    rw [Matrix.zero_apply]
    linarith
  exact sub_eq_zero.1 this

/-- The coefficients of the flux of a branch. -/
noncomputable def coef (nodes : List ℕ) (b : ℕ × ℕ × String) (i : Fin nodes.length) : ℝ :=
  (if nodes.get i = b.1 then 1 else 0) - if nodes.get i = b.2.1 then 1 else 0

theorem sum_at {A : Type} [Ring A] {nodes : List ℕ} (hn : nodes.Nodup) (f : Fin nodes.length → A) (n : ℕ) :
    (∑ i, if nodes.get i = n then f i else 0) = atNumber nodes f 0 n := by
  unfold atNumber
  split_ifs with h
  · rw [Finset.sum_eq_single ⟨nodes.idxOf n, h⟩]
    · rw [if_pos (by simp)]
    · intro i _ hi
      rw [if_neg]
      rintro rfl
      apply hi
      apply Fin.ext
      simp [hn.idxOf_getElem]
    · simp
  · apply Finset.sum_eq_zero
    intro i _
    rw [if_neg]
    rintro rfl
    exact h (List.idxOf_lt_length_iff.2 (List.get_mem nodes i))

theorem coef_sum {A : Type} [Ring A] (r : ℝ →+* A) {nodes : List ℕ} (hn : nodes.Nodup) (b : ℕ × ℕ × String) (x : Fin nodes.length → A) :
    ∑ i, r (coef nodes b i) * x i = atNumber nodes x 0 b.1 - atNumber nodes x 0 b.2.1 := by
  rw [← sum_at hn, ← sum_at hn, ← Finset.sum_sub_distrib]
  apply Finset.sum_congr rfl
  intro i _
  unfold coef
  rw [map_sub, sub_mul]
  congr 1 <;> split_ifs <;> simp

/-- The matrix of the inductors of a netlist. -/
noncomputable def inductorMatrix (nodes : List ℕ) (val : String → ℝ) (bs : List (ℕ × ℕ × String)) : Matrix (Fin nodes.length) (Fin nodes.length) ℝ :=
  fun i j => ((branchesOf 'L' bs).map fun b => 1 / val b.2.2 * (coef nodes b i * coef nodes b j)).sum

theorem sum_list_comm {ι α A : Type} [AddCommMonoid A] (s : Finset ι) (l : List α) (f : α → ι → A) :
    ∑ i ∈ s, (l.map fun a => f a i).sum = (l.map fun a => ∑ i ∈ s, f a i).sum := by
  induction l with
  | nil => simp
  | cons a l ih => simp only [List.map_cons, List.sum_cons, Finset.sum_add_distrib, ih]

/-- The quadratic form of operators of the inductors. -/
theorem quadOp_inductors {A : Type} [Ring A] (r : ℝ →+* A) (hr : ∀ x a, r x * a = a * r x) {nodes : List ℕ} (hn : nodes.Nodup) (val : String → ℝ)
    (bs : List (ℕ × ℕ × String)) (x : Fin nodes.length → A) :
    quadOp r (inductorMatrix nodes val bs) x =
      ((branchesOf 'L' bs).map fun b => r (1 / val b.2.2) * (atNumber nodes x 0 b.1 - atNumber nodes x 0 b.2.1) ^ 2).sum := by
  unfold quadOp inductorMatrix
  have h1 : ∀ i j, r (((branchesOf 'L' bs).map fun b => 1 / val b.2.2 * (coef nodes b i * coef nodes b j)).sum) * x j =
      ((branchesOf 'L' bs).map fun b => r (1 / val b.2.2) * (r (coef nodes b i) * (r (coef nodes b j) * x j))).sum := by
    intro i j
    rw [map_list_sum, List.map_map, ← List.sum_map_mul_right]
    congr 1
    apply List.map_congr_left
    intro b _
    simp only [Function.comp, map_mul, mul_assoc]
  simp only [h1, sum_list_comm]
  have h2 : ∀ i, x i * ((branchesOf 'L' bs).map fun b => ∑ j, r (1 / val b.2.2) * (r (coef nodes b i) * (r (coef nodes b j) * x j))).sum =
      ((branchesOf 'L' bs).map fun b => r (1 / val b.2.2) * ((r (coef nodes b i) * x i) * (atNumber nodes x 0 b.1 - atNumber nodes x 0 b.2.1))).sum := by
    intro i
    rw [← List.sum_map_mul_left]
    congr 1
    apply List.map_congr_left
    intro b _
    rw [← Finset.mul_sum, ← Finset.mul_sum, coef_sum r hn, ← mul_assoc, ← hr, mul_assoc, ← mul_assoc (x i), ← hr]
  simp only [h2, sum_list_comm]
  congr 1
  apply List.map_congr_left
  intro b _
  rw [← Finset.mul_sum, ← Finset.sum_mul, coef_sum r hn, pow_two]

theorem inductor_matrix_eq {h : List Call} {g : CG} (hs : Settled h g) (hc : g.coupled = []) (val : String → ℝ)
    (hval : ∀ b ∈ branchesOf 'L' (branches h), val b.2.2 ≠ 0)
    (pinv : Matrix (Fin (edges g).length) (Fin (edges g).length) ℝ → Matrix (Fin (edges g).length) (Fin (edges g).length) ℝ)
    (hp : ∀ M, branchInductance val g = .ok M → IsPinv (M.block _ _) (pinv (M.block _ _))) (L : Matrix (Fin (nodes g).length) (Fin (nodes g).length) ℝ)
    (hL : inverseInductance val g pinv = .ok L) : L = inductorMatrix (nodes g) val (branches h) := by
  have hnd := (C29_rows h g hs).1
  apply polarise _ _ (C30_symmetric val g pinv hp L hL)
  · ext i j
    rw [Matrix.transpose_apply]
    unfold inductorMatrix
    congr 1
    apply List.map_congr_left
    intro b _
    ring
  intro x
  obtain ⟨v, h0, rfl⟩ := atNodes_surj hs x
  rw [C30_uncoupled h g hs hc val hval pinv hp L hL v h0]
  have := quadOp_inductors (RingHom.id ℝ) (fun x a => mul_comm _ _) hnd val (branches h) (atNodes g v)
  have h1 : atNodes g v ⬝ᵥ (inductorMatrix (nodes g) val (branches h)).mulVec (atNodes g v) =
      quadOp (RingHom.id ℝ) (inductorMatrix (nodes g) val (branches h)) (atNodes g v) := rfl
  rw [h1, this]
  unfold inductorForm
  congr 1
  apply List.map_congr_left
  intro b hb
  have hat : ∀ n, n ∈ nodesOf (branches h) → atNumber (nodes g) (atNodes g v) 0 n = v n := by
    intro n hn
    unfold atNumber
    split_ifs with hi
    · simp [atNodes]
    · rw [List.idxOf_lt_length_iff, (C29_rows h g hs).2] at hi
      have : n = 0 := by by_contra h; exact hi ⟨hn, h⟩
      rw [this, h0]
  have hb' := (List.mem_filter.1 hb).1
  rw [hat _ (List.mem_toFinset.2 (List.mem_flatMap.2 ⟨b, hb', by simp⟩)), hat _ (List.mem_toFinset.2 (List.mem_flatMap.2 ⟨b, hb', by simp⟩))]
  simp only [RingHom.id_apply]
  ring

/-! ### Sums over the branches -/

theorem biasSign_branch {h : List Call} {g : CG} (hs : Settled h g) (hends : ∀ b ∈ branches h, b.1 ≠ b.2.1) {b : ℕ × ℕ × String}
    (hb : b ∈ branches h) {e : Edge} (he : e ∈ edges g) (hc : g.cmap.get? e = some b.2.2) :
    (e.1 = b.1 ∧ e.2.1 = b.2.1 ∧ biasSign h g b.2.2 = 1 ∧ direction g b.1 b.2.1 b.2.2 = 1) ∨
      (e.1 = b.2.1 ∧ e.2.1 = b.1 ∧ biasSign h g b.2.2 = -1 ∧ direction g b.1 b.2.1 b.2.2 = -1) := by
  have hne := hends b hb
  obtain ⟨hnames, -, -⟩ := C21_names hs
  obtain ⟨b', hb'', hbr, hc'⟩ := wc_branch hs he
  obtain rfl : b' = b := List.inj_on_of_nodup_map hnames (List.mem_filter.1 hb'').1 hb (Option.some.inj (hc'.symm.trans hc))
  have h1 := direction_edge he hc
  rcases hbr with ⟨h3, h4⟩ | ⟨h3, h4⟩
  · left
    rw [h3, h4] at h1
    refine ⟨h3, h4, ?_, h1⟩
    unfold biasSign
    rw [if_pos ⟨b', hb, rfl, h1⟩]
  · right
    rw [h3, h4, direction_rev hs hne] at h1
    have h5 : direction g b'.1 b'.2.1 b'.2.2 = -1 := by linarith
    refine ⟨h3, h4, ?_, h5⟩
    unfold biasSign
    rw [if_neg]
    rintro ⟨d, hd1, hd2, hd3⟩
    obtain rfl : d = b' := List.inj_on_of_nodup_map hnames hd1 hb hd2
    rw [h5] at hd3
    norm_num at hd3

/-- A sum over the branches of the oriented circuit with a given first letter is the sum over the components of the netlist; a quantity that
depends on the direction takes the sign. -/
theorem sum_netlist {A : Type} [AddCommMonoid A] {h : List Call} {g : CG} (hs : Settled h g) (hends : ∀ b ∈ branches h, b.1 ≠ b.2.1) (p : Char)
    (hp : p ≠ 'C') (G : ℕ → ℕ → String → ℝ → A) (hG : ∀ a b c s, a ≠ b → G a b c s = G b a c (-s)) (X : Fin (edges g).length → A)
    (hX : ∀ k c, g.cmap.get? ((edges g).get k) = some c →
      X k = if startsWith c p = true then G ((edges g).get k).1 ((edges g).get k).2.1 c 1 else 0) :
    ∑ k, X k = ((branchesOf p (branches h)).map fun b => G b.1 b.2.1 b.2.2 (biasSign h g b.2.2)).sum := by
  let F : ℕ × ℕ × String → A := fun b =>
    if b.1 = b.2.1 then 0 else if startsWith b.2.2 p = true then G b.1 b.2.1 b.2.2 (direction g b.1 b.2.1 b.2.2) else 0
  have key := sum_wc hs F (by
    intro a b c
    simp only [F]
    by_cases hab : a = b
    · subst hab; rfl
    · rw [if_neg hab, if_neg (Ne.symm hab), direction_rev hs hab, hG a b c _ hab]) (by intro a c; simp [F])
  have e1 : ∑ k, X k = (g.wc.map fun e => match g.cmap.get? e with | some c => F (e.1, e.2.1, c) | none => 0).sum := by
    rw [← Fin.sum_univ_fun_getElem]
    apply Finset.sum_congr rfl
    intro k _
    have hk : (edges g).get k ∈ edges g := List.get_mem _ _
    obtain ⟨b, hb, hbr, hc⟩ := wc_branch hs hk
    have hne := hends b (List.mem_filter.1 hb).1
    have hne' : ((edges g).get k).1 ≠ ((edges g).get k).2.1 := by
      rcases hbr with ⟨h1, h2⟩ | ⟨h1, h2⟩ <;> rw [h1, h2]
      · exact hne
      · exact hne.symm
    rw [hX k _ hc]
    have hd := direction_edge hk hc
    have hgen : ∀ e : Edge, g.cmap.get? e = some b.2.2 → e.1 ≠ e.2.1 → direction g e.1 e.2.1 b.2.2 = 1 →
        (if startsWith b.2.2 p = true then G e.1 e.2.1 b.2.2 1 else 0) =
          match g.cmap.get? e with | some c => F (e.1, e.2.1, c) | none => 0 := by
      intro e h1 h2 h3
      simp only [h1, F]
      rw [if_neg h2, h3]
    exact hgen _ hc hne' hd
  rw [e1]
  refine key.trans ?_
  have hsub : branchesOf p (branches h) = (conductors (branches h)).filter fun b => startsWith b.2.2 p := by
    unfold branchesOf conductors
    rw [List.filter_filter]
    apply List.filter_congr
    intro b _
    cases hC : startsWith b.2.2 'C' with
    | false => simp
    | true =>
      cases hP : startsWith b.2.2 p with
      | false => rfl
      | true => exact absurd (startsWith_unique hP hC) hp
  rw [hsub]
  have gen : ∀ l : List (ℕ × ℕ × String), (∀ b ∈ l, b ∈ conductors (branches h)) →
      (l.map F).sum = ((l.filter fun b => startsWith b.2.2 p).map fun b => G b.1 b.2.1 b.2.2 (biasSign h g b.2.2)).sum := by
    intro l
    induction l with
    | nil => intro _; rfl
    | cons b l ih =>
      intro hl
      have hb := hl b (by simp)
      have ih := ih fun b hb => hl b (List.mem_cons_of_mem _ hb)
      have hne := hends b (List.mem_filter.1 hb).1
      rw [List.map_cons, List.sum_cons, ih]
      cases hP : startsWith b.2.2 p with
      | false =>
        rw [List.filter_cons_of_neg (by simp [hP])]
        simp [F, hne, hP]
      | true =>
        rw [List.filter_cons_of_pos (by simp [hP]), List.map_cons, List.sum_cons]
        congr 1
        obtain ⟨e, he, hc⟩ := conductor_in_wc_ne hs hb hne
        have hd : direction g b.1 b.2.1 b.2.2 = biasSign h g b.2.2 := by
          rcases biasSign_branch hs hends (List.mem_filter.1 hb).1 he hc with ⟨-, -, k1, k2⟩ | ⟨-, -, k1, k2⟩ <;> rw [k1, k2]
        simp only [F]
        rw [if_neg hne, if_pos hP, hd]
  exact gen _ fun b hb => hb

/-! ### The numbers of a netlist -/

theorem circuit_frame {h : List Call} (hn : CircuitNetlist h) :
    (run {} h).coupled = [] ∧ ∀ n r, (run {} h).resonators.get? n ≠ some (some r) := by
  apply netlist_frame
  intro x hx
  rcases hn.calls x hx with h | ⟨c, s, m, h, -⟩ | h
  · exact Or.inl h
  · exact Or.inr (Or.inl ⟨c, s, m, h⟩)
  · exact Or.inr (Or.inr h)

theorem circuit_capacitance {h : List Call} {g : CG} (hs : Settled h g) (ha : AllOk h) (hn : CircuitNetlist h) (val : String → ℝ) :
    ∃ M, capacitance val (resonatorCap val) g = .ok M ∧ (M.block (nodes g).length (nodes g).length).transpose = M.block _ _ ∧
      ∀ v : ℕ → ℝ, v 0 = 0 → atNodes g v ⬝ᵥ (M.block (nodes g).length (nodes g).length).mulVec (atNodes g v) = electrostaticForm val h v := by
  obtain ⟨M, hM⟩ := C29_defined h g hs ha hn.ground val
  refine ⟨M, hM, C29_symmetric val g M hM, fun v hv => ?_⟩
  obtain ⟨rfl, hok⟩ := settled_run hs
  rw [C29_quadratic_form_partial h _ hs val M hM (fun b hb => hn.ends b (List.mem_filter.1 hb).1) v hv]
  unfold electrostaticForm
  congr 1
  apply Finset.sum_congr rfl
  intro n _
  have hl : resonatorLoad val (run {} h) n = 0 := by
    have := (circuit_frame hn).2 n
    unfold resonatorLoad
    cases hr : (run {} h).resonators.get? n with
    | none => rfl
    | some r => cases r with
      | none => rfl
      | some r => exact absurd hr (this r)
  rw [hl, add_zero, gateCap_stored hok ha]

/-- No inductor of a netlist takes its bias through a mutual inductance. -/
theorem circuit_inductance {h : List Call} {g : CG} (hs : Settled h g) (ha : AllOk h) (hn : CircuitNetlist h) {b : Biases}
    (hb : createFluxBiases g = .ok b) (val : String → ℝ) : ∃ M, branchInductance val g = .ok M := by
  rw [C30_defined h g hs val]
  obtain ⟨rfl, hok⟩ := settled_run hs
  refine ⟨?_, by rw [(circuit_frame hn).1]; simp⟩
  rintro e he ⟨c, hc, hL⟩ x hx
  have hbf := biasesFrom hok ha
  obtain ⟨hnd, -, -⟩ := C24_history h hok
  obtain ⟨h1, -⟩ := addBiases_get _ _ _ hnd hb
  have hwc : ∀ q ∈ (run {} h).fluxBias, q.1 ∈ (run {} h).wc := by
    intro q hq
    have := (h1 q hq).1
    rw [Dict.has_iff] at this
    simpa [Dict.keys, Function.comp_def, edges] using this
  have hmem : (e, x) ∈ (run {} h).fluxBias := Dict.mem_of_get? hx
  obtain ⟨c', m, p, k1, k2, k3⟩ := hbf.flux _ hmem
  have hcc : c = c' := by rw [← k3]; exact (names_of_carries hok k2).2.1 _ hc
  subst hcc
  obtain ⟨s', e', p', e1, e2, e3, e4⟩ := hbf.flux' _ _ _ k1
  have hee : e' = e := by
    obtain ⟨b', -, -, hc'⟩ := wc_branch hs (hwc _ e2)
    have := (names_of_carries hok e3).2.1 _ hc'
    exact wc_name_inj hs (hwc _ e2) he (hc'.trans (by rw [this, e4])) hc
  subst hee
  have hm : m = none := by
    rcases hn.calls _ k1 with ⟨o, a, b, c, hh⟩ | ⟨c, s, m', hh, hl⟩ | ⟨n, s, c, hh⟩
    · cases hh
    · cases hh; exact hl hL
    · cases hh
  have := (Dict.get?_of_mem hnd e2).symm.trans hx
  rw [← Option.some.inj this, hm]

theorem circuit_assemble {h : List Call} {g : CG} (hs : Settled h g) (ha : AllOk h) (hn : CircuitNetlist h) {b : Biases}
    (hb : createFluxBiases g = .ok b) (val phi q : String → ℝ) (t : Transform ℝ (nodes g).length)
    (pinv : Matrix (Fin (edges g).length) (Fin (edges g).length) ℝ → Matrix (Fin (edges g).length) (Fin (edges g).length) ℝ) (u : Prefs)
    {C : Mat ℝ} (hC : capacitance val (resonatorCap val) g = .ok C) :
    (∃ s, assemble g b val phi q t pinv u = .ok s) ↔ (C.block (nodes g).length (nodes g).length).det ≠ 0 := by
  obtain ⟨M, hM⟩ := circuit_inductance hs ha hn hb val
  unfold assemble
  simp only [hC, hM]
  unfold inverseCapacitance
  by_cases hd : (C.block (nodes g).length (nodes g).length).det = 0
  · simp [hd]
  · simp [hd]

end Verif.Props
