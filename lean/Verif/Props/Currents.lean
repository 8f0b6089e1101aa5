import Verif.Props.CircuitResponse
import Verif.Spec.Currents
import Mathlib.Analysis.Calculus.Deriv.Add
import Mathlib.Analysis.Calculus.Deriv.Mul
import Mathlib.Analysis.SpecialFunctions.ExpDeriv

/-!
# C99: the current through a component, from the calls that describe the circuit
-/

namespace Verif.Props

open Verif Verif.Circuit Verif.Sym Verif.Num Verif.Spec Complex Matrix

/-- The sum over the terms of a branch is the difference between its ends. -/
theorem terms_sum {A : Type} [Ring A] [Algebra ℂ A] {h : List Call} {g : CG} (hs : Settled h g) {e : Edge} (he : e ∈ edges g) (P : Fin (nodes g).length → A) :
    ((branchTerms g (fun i j => if i = j then (1 : ℝ) else 0) e).map fun p => num A p.1 * if h : p.2 < (nodes g).length then P ⟨p.2, h⟩ else 0).sum =
      atNumber (nodes g) P 0 e.1 - atNumber (nodes g) P 0 e.2.1 := by
  obtain ⟨hnd, hmem⟩ := C29_rows h g hs
  unfold branchTerms
  rw [sum_filter_of_zero _ _ _ (by
    intro p hp
    have : p.1 = 0 := by simpa using hp
    rw [this]; simp), List.map_map, ← coef_sum (num A) hnd (e.1, e.2.1, "") P]
  have h0 : 0 ∉ nodes g := fun hh => ((hmem 0).1 hh).2 rfl
  have hr : ∀ f : ℕ → A, ((List.range (nodes g).length).map f).sum = ∑ i : Fin (nodes g).length, f i := fun f => by
    rw [← Finset.sum_range f]; rfl
  rw [hr]
  refine Finset.sum_congr rfl fun i _ => ?_
  dsimp only [Function.comp]
  rw [dif_pos i.2]
  congr 2
  have hco : ∀ n, (if n = 0 then (0 : ℝ) else if (nodes g).idxOf n = (i : ℕ) then 1 else 0) = if (nodes g).get i = n then 1 else 0 := by
    intro n
    have hi : (nodes g).idxOf ((nodes g).get i) = i := by
      have := List.get_idxOf hnd i
      exact this
    by_cases hn : (nodes g).get i = n
    · rw [if_pos hn, ← hn, hi, if_pos rfl, if_neg]
      intro hz
      exact h0 (hz ▸ List.get_mem _ _)
    · rw [if_neg hn]
      split_ifs with h1 h2
      · rfl
      · exfalso
        apply hn
        have hlt : (nodes g).idxOf n < (nodes g).length := by rw [h2]; exact i.2
        have h3 := List.getElem_idxOf hlt
        rw [← h3]
        simp only [h2]
        rfl
      · rfl
  unfold coef
  rw [hco, hco]

/-- The diagonal of the pseudo-inverse of a diagonal matrix. -/
theorem pinv_diag {n : ℕ} {M B : Matrix (Fin n) (Fin n) ℝ} (h : IsPinv M B) (hM : ∀ i j, i ≠ j → M i j = 0) (i : Fin n) (hi : M i i ≠ 0) : B i i = 1 / M i i := by
  have h1 := congrFun (congrFun h.aba i) i
  rw [Matrix.mul_apply, Finset.sum_eq_single i (fun k _ hk => by rw [hM k i hk, mul_zero]) (by simp), Matrix.mul_apply,
    Finset.sum_eq_single i (fun k _ hk => by rw [hM i k hk.symm, zero_mul]) (by simp)] at h1
  field_simp
  have h2 : M i i * (B i i * M i i) = M i i * 1 := by linarith
  exact mul_left_cancel₀ hi h2

/-- The current operator of every branch, with the diagonal entry of the pseudo-inverse of the branch inductances. -/
theorem current_general {h : List Call} {g : CG} (hs : Settled h g) (ha : AllOk h) (hends : ∀ b ∈ branches h, b.1 ≠ b.2.1) {b : Biases}
    (hb : createFluxBiases g = .ok b) (val phi q : String → ℝ)
    (pinv : Matrix (Fin (edges g).length) (Fin (edges g).length) ℝ → Matrix (Fin (edges g).length) (Fin (edges g).length) ℝ)
    (u : Prefs) (cfg : Fin (nodes g).length → NodeCfg) (o : ∀ i, NodeOps (cfg i).dim)
    (N : Fin (nodes g).length → BigNode cfg) (hN : ∀ i, expandNode cfg i (o i) = some (N i)) (s : Sys PUnit (nodes g).length (edges g).length)
    (h1 : assemble g b val phi q ⟨false, 1⟩ pinv u = .ok s) (k : Fin (edges g).length) (c : String) (hc : g.cmap.get? ((edges g).get k) = some c) :
    ∃ M, branchInductance val g = .ok M ∧ currentOperator (s.withNodes N) k =
      match (if startsWith c 'L' = true then some (((u.IopL * pinv (M.block _ _) k k : ℝ) : ℂ) •
          (atNumber (nodes g) (fun i => (N i).P) 0 ((edges g).get k).1 - atNumber (nodes g) (fun i => (N i).P) 0 ((edges g).get k).2.1))
        else branchCurrent (nodes g) u.IopL u.IopJ val (fluxOn phi h) (nodeOperators N) ((edges g).get k).1 ((edges g).get k).2.1 c) with
      | some X => .ok X
      | none => .error .userError := by
  have he := List.get_mem (edges g) k
  obtain ⟨br, hbr, hbe, hc'⟩ := wc_branch hs he
  obtain rfl : br.2.2 = c := Option.some.inj (hc'.symm.trans hc)
  have hbr' := (List.mem_filter.1 hbr).1
  have hne : ((edges g).get k).1 ≠ ((edges g).get k).2.1 := by
    have := hends br hbr'
    rcases hbe with ⟨h1, h2⟩ | ⟨h1, h2⟩ <;> rw [h1, h2]
    · exact this
    · exact this.symm
  unfold assemble at h1
  cases hC : capacitance val (resonatorCap val) g with
  | error e => rw [hC] at h1; cases h1
  | ok C =>
  simp only [hC] at h1
  cases hCi : inverseCapacitance ⟨false, 1⟩ (C.block (nodes g).length (nodes g).length) with
  | none => rw [hCi] at h1; cases h1
  | some Ci =>
  rw [hCi] at h1
  simp only at h1
  cases hM : branchInductance val g with
  | error e => rw [hM] at h1; cases h1
  | ok M =>
  rw [hM] at h1
  have hseq := (Except.ok.inj h1).symm
  have hu : (s.withNodes N).u = u := by rw [hseq]; rfl
  have ht : (s.withNodes N).terms k = branchTerms g (fun i j => if i = j then 1 else 0) ((edges g).get k) := by
    rw [hseq]
    exact identity_terms hs 1 rfl he
  have hkind : (s.withNodes N).kind k = kindOf g ((edges g).get k) := by rw [hseq]; rfl
  have hnem : ((s.withNodes N).terms k).isEmpty = false := by
    rw [ht, List.isEmpty_eq_false_iff]
    exact terms_nonempty hs k hne
  have hedge : ∀ p, (isEdgeOf g p ((edges g).get k) = .ok true) ↔ startsWith br.2.2 p = true := by
    intro p
    unfold isEdgeOf
    rw [hc]
    rw [startsWith_iff]
    simp
  have hcomm : ∀ i j, i ≠ j → (N i).D * (N j).Ddag = (N j).Ddag * (N i).D := by
    intro i j hij
    obtain ⟨-, -, d1, -, -, -⟩ := expandNode_some (hN i)
    obtain ⟨-, -, -, e2, -, -⟩ := expandNode_some (hN j)
    exact C39_commute cfg i j hij _ _ _ _ d1 e2
  refine ⟨M, rfl, ?_⟩
  unfold currentOperator branchCurrent
  rw [hkind, hu]
  unfold kindOf
  by_cases hL : startsWith br.2.2 'L' = true
  · rw [if_pos ((hedge 'L').2 hL), if_pos hL]
    dsimp only
    rw [hnem, ht]
    simp only [Bool.false_eq_true, if_false]
    congr 1
    have hB : (s.withNodes N).LinvB k k = pinv (M.block _ _) k k := by rw [hseq]; rfl
    rw [hB]
    have hsum := terms_sum (A := BigOp cfg) hs he (fun i => (N i).P)
    have hfl : ∀ p : ℝ × ℕ, (s.withNodes N).flux p.2 = if h : p.2 < (nodes g).length then (N ⟨p.2, h⟩).P else 0 := fun p => rfl
    simp only [hfl]
    rw [hsum, num_smul, smul_mul_assoc, ← num_comm, num_smul, smul_smul]
    congr 1
    push_cast
    ring
  · rw [if_neg (fun hh => hL ((hedge 'L').1 hh)), if_neg hL, if_neg hL]
    by_cases hI : startsWith br.2.2 'I' = true
    · rw [if_pos ((hedge 'I').2 hI), if_pos hI]
      dsimp only
      rw [hnem, ht]
      simp only [Bool.false_eq_true, if_false]
      congr 1
      have hJ : (s.withNodes N).J k = val br.2.2 := by
        rw [hseq]
        show josephsonVector val g k = _
        unfold josephsonVector
        have hc' : g.cmap.get? ((edges g)[(k : ℕ)]'k.2) = some br.2.2 := hc
        rw [List.getElem?_eq_getElem k.2]
        simp only [hc', (startsWith_iff _ _).1 hI, if_true]
      have hPb : (s.withNodes N).Pb k = fluxOn phi h br.2.2 := by
        rw [hseq]
        show fluxBiasVector phi g b k = _
        unfold fluxBiasVector
        rw [List.getElem?_eq_getElem k.2]
        simp only
        have hh : isEdgeOf g 'I' ((edges g)[(k : ℕ)]'k.2) = .ok true := (hedge 'I').2 hI
        rw [if_pos hh, biasVal_eq hs ha hb phi (List.getElem_mem k.2) hc]
      rw [hJ, hPb]
      have d1 := disp_branch (A := BigOp cfg) hs he hne (fun i => (N i).D) (fun i => (N i).Ddag) hcomm false (expTau _ (fluxOn phi h br.2.2))
      have d2 := disp_branch (A := BigOp cfg) hs he hne (fun i => (N i).D) (fun i => (N i).Ddag) hcomm true (expTau _ (-(fluxOn phi h br.2.2)))
      have e1 : dispProduct (s.withNodes N).D (s.withNodes N).Ddag false (branchTerms g (fun i j => if i = j then (1 : ℝ) else 0) ((edges g).get k)) (expTau _ (fluxOn phi h br.2.2)) = _ := d1
      have e2 : dispProduct (s.withNodes N).D (s.withNodes N).Ddag true (branchTerms g (fun i j => if i = j then (1 : ℝ) else 0) ((edges g).get k)) (expTau _ (-(fluxOn phi h br.2.2))) = _ := d2
      rw [e1, e2, expTau_smul, expTau_smul]
      simp only [Bool.false_eq_true, if_false, if_true]
      have hnum : algebraMap ℂ (BigOp cfg) (1 / 2 * I) * num (BigOp cfg) u.IopJ * num (BigOp cfg) (val br.2.2) = algebraMap ℂ (BigOp cfg) (I * (u.IopJ * val br.2.2 / 2 : ℝ)) := by
        unfold num
        simp only [RingHom.comp_apply, ← map_mul]
        congr 1
        push_cast
        simp only [Complex.ofRealHom_eq_coe]
        ring
      rw [hnum, ← Algebra.smul_def]
      push_cast
      simp only [mul_neg, neg_mul]
      rfl
    · rw [if_neg (fun hh => hI ((hedge 'I').1 hh)), if_neg hI]

/-- **C99** The current operator of every branch of every circuit, from the calls that describe the circuit: for every netlist of capacitors, inductors, junctions and phase slips, without a
transform, all values, all biases and all operators of the nodes, the current of an inductor is the difference of the fluxes of its nodes divided by its inductance, the one of a junction is (minus) its
critical current times the sine of the phase difference with its flux bias, in the direction in which the oriented circuit graph lists the branch; any other branch is refused. -/
theorem C99_current (h : List Call) (g : CG) (hs : Settled h g) (ha : AllOk h) (hn : CircuitNetlist h) (b : Biases) (hb : createFluxBiases g = .ok b)
    (val phi q : String → ℝ) (hval : ∀ br ∈ branchesOf 'L' (branches h), val br.2.2 ≠ 0)
    (pinv : Matrix (Fin (edges g).length) (Fin (edges g).length) ℝ → Matrix (Fin (edges g).length) (Fin (edges g).length) ℝ)
    (hp : ∀ M, IsPinv M (pinv M)) (u : Prefs) (cfg : Fin (nodes g).length → NodeCfg) (o : ∀ i, NodeOps (cfg i).dim)
    (N : Fin (nodes g).length → BigNode cfg) (hN : ∀ i, expandNode cfg i (o i) = some (N i)) (s : Sys PUnit (nodes g).length (edges g).length)
    (h1 : assemble g b val phi q ⟨false, 1⟩ pinv u = .ok s) (k : Fin (edges g).length) (c : String) (hc : g.cmap.get? ((edges g).get k) = some c) :
    currentOperator (s.withNodes N) k =
      match branchCurrent (nodes g) u.IopL u.IopJ val (fluxOn phi h) (nodeOperators N) ((edges g).get k).1 ((edges g).get k).2.1 c with
      | some X => .ok X
      | none => .error .userError := by
  obtain ⟨M, hM, hX⟩ := current_general hs ha hn.ends hb val phi q pinv u cfg o N hN s h1 k c hc
  rw [hX]
  by_cases hL : startsWith c 'L' = true
  · rw [if_pos hL]
    unfold branchCurrent
    rw [if_pos hL]
    have hcoup : g.coupled = [] := by obtain ⟨rfl, -⟩ := settled_run hs; exact (circuit_frame hn).1
    obtain ⟨br, hbr, -, hc'⟩ := wc_branch hs (List.get_mem (edges g) k)
    obtain rfl : br.2.2 = c := Option.some.inj (hc'.symm.trans hc)
    have hMk := C30_branch_matrix h g hs val M hM
    have hd : (M.block (edges g).length (edges g).length) k k = val br.2.2 := ((hMk k k).2.2.1 (by rw [hcoup]; simp)).2 _ rfl hc hL
    have hB : pinv (M.block _ _) k k = 1 / val br.2.2 := by
      rw [← hd]
      refine pinv_diag (hp _) (fun i j hij => ((hMk i j).2.2.1 (by rw [hcoup]; simp)).1 hij) k ?_
      exact hd.trans_ne (hval br (List.mem_filter.2 ⟨(List.mem_filter.1 hbr).1, hL⟩))
    rw [hB, mul_one_div]
    rfl
  · rw [if_neg hL]
    rfl

/-- The derivative of a sum over branches by the flux of one component. -/
theorem sum_deriv (l : List (ℕ × ℕ × String)) (c : String) (F : String → ℝ) (G : ℕ × ℕ × String → ℝ → ℂ) (G' : ℕ × ℕ × String → ℂ)
    (hG : ∀ b ∈ l, b.2.2 = c → HasDerivAt (G b) (G' b) (F c)) :
    HasDerivAt (fun x => (l.map fun b => G b (Function.update F c x b.2.2)).sum) ((l.filter fun b => decide (b.2.2 = c)).map G').sum (F c) := by
  induction l with
  | nil => simpa using hasDerivAt_const (F c) (0 : ℂ)
  | cons b l ih =>
    have ih := ih fun d hd => hG d (List.mem_cons_of_mem _ hd)
    simp only [List.map_cons, List.sum_cons]
    by_cases hb : b.2.2 = c
    · rw [List.filter_cons_of_pos (by simpa using hb), List.map_cons, List.sum_cons]
      refine HasDerivAt.fun_add ?_ ih
      have := hG b (by simp) hb
      simpa [hb] using this
    · rw [List.filter_cons_of_neg (by simpa using hb)]
      have h0 : (fun x : ℝ => G b (Function.update F c x b.2.2)) = fun _ => G b (F b.2.2) := by
        funext x
        rw [Function.update_of_ne hb]
      have := (hasDerivAt_const (F c) (G b (F b.2.2))).fun_add ih
      rw [zero_add] at this
      have h1 : (fun x : ℝ => G b (Function.update F c x b.2.2) + (l.map fun b => G b (Function.update F c x b.2.2)).sum) =
          fun x => G b (F b.2.2) + (l.map fun b => G b (Function.update F c x b.2.2)).sum := by
        funext x
        rw [congrFun h0 x]
      rw [h1]
      exact this

theorem list_sum_apply {ι α : Type} (l : List α) (f : α → Matrix ι ι ℂ) (i j : ι) : (l.map f).sum i j = (l.map fun a => f a i j).sum := by
  induction l with
  | nil => rfl
  | cons a l ih => simp only [List.map_cons, List.sum_cons, Matrix.add_apply, ih]

theorem filter_one {l : List (ℕ × ℕ × String)} (hl : (l.map fun b => b.2.2).Nodup) {br : ℕ × ℕ × String} (hbr : br ∈ l) :
    (l.filter fun b => decide (b.2.2 = br.2.2)) = [br] := by
  have h1 : (l.filter fun b => decide (b.2.2 = br.2.2)) = l.filter fun b => decide (b = br) := by
    refine List.filter_congr fun b hb => ?_
    have : b.2.2 = br.2.2 ↔ b = br := ⟨fun h => List.inj_on_of_nodup_map hl hb hbr h, fun h => by rw [h]⟩
    simp only [this]
  rw [h1]
  have := List.Nodup.of_map _ hl
  have h2 : (fun b : ℕ × ℕ × String => decide (b = br)) = fun b => b == br := by funext b; rw [Bool.eq_iff_iff]; simp
  rw [h2, List.filter_beq, List.count_eq_one_of_mem this hbr]
  rfl

/-- The derivative of the operator of the netlist by the flux bias of one component. -/
theorem netlist_deriv {ι : Type} [Fintype ι] [DecidableEq ι] {h : List Call} {g : CG} (hs : Settled h g) (Ec El Ej Ep : ℝ)
    (C : Matrix (Fin (nodes g).length) (Fin (nodes g).length) ℝ) (val : String → ℝ) (ng : ℕ → ℝ) (F : String → ℝ)
    (o : NodeOperators (Matrix ι ι ℂ) (nodes g).length) {br : ℕ × ℕ × String} (hbr : br ∈ branches h) (i j : ι) :
    (startsWith br.2.2 'L' = true → HasDerivAt (fun x => netlistOperator (nodes g) h Ec El Ej Ep C val ng (Function.update F br.2.2 x) o i j)
      ((((El / val br.2.2 : ℝ) : ℂ) • (atNumber (nodes g) o.P 0 br.1 - atNumber (nodes g) o.P 0 br.2.1 + ((F br.2.2 : ℝ) : ℂ) • 1)) i j) (F br.2.2)) ∧
    (startsWith br.2.2 'I' = true → HasDerivAt (fun x => netlistOperator (nodes g) h Ec El Ej Ep C val ng (Function.update F br.2.2 x) o i j)
      (((-(2 * Real.pi * I * (Ej * val br.2.2 / 2 : ℝ))) •
        (exp (2 * Real.pi * F br.2.2 * I) • (atNumber (nodes g) o.D 1 br.1 * atNumber (nodes g) o.Ddag 1 br.2.1) -
          exp (-(2 * Real.pi * F br.2.2 * I)) • (atNumber (nodes g) o.Ddag 1 br.1 * atNumber (nodes g) o.D 1 br.2.1))) i j) (F br.2.2)) := by
  obtain ⟨hnames, -, -⟩ := C21_names hs
  have hnd : ∀ p, ((branchesOf p (branches h)).map fun b => b.2.2).Nodup := fun p => (List.Sublist.map _ List.filter_sublist).nodup hnames
  have hnone : ∀ p, startsWith br.2.2 p ≠ true → ((branchesOf p (branches h)).filter fun b => decide (b.2.2 = br.2.2)) = [] := by
    intro p hp
    rw [List.filter_eq_nil_iff]
    intro b hb hbn
    have hb' : b.2.2 = br.2.2 := by simpa using hbn
    exact hp (hb' ▸ (List.mem_filter.1 hb).2)
  have hone : ∀ p, startsWith br.2.2 p = true → ((branchesOf p (branches h)).filter fun b => decide (b.2.2 = br.2.2)) = [br] := fun p hp =>
    filter_one (hnd p) (List.mem_filter.2 ⟨hbr, hp⟩)
  have dL : ∀ b ∈ branchesOf 'L' (branches h), b.2.2 = br.2.2 → HasDerivAt (fun y : ℝ => ((((El / (2 * val b.2.2) : ℝ) : ℂ) •
      (atNumber (nodes g) o.P 0 b.1 - atNumber (nodes g) o.P 0 b.2.1 + ((y : ℝ) : ℂ) • 1) ^ 2 : Matrix ι ι ℂ) i j))
      ((((El / val b.2.2 : ℝ) : ℂ) • (atNumber (nodes g) o.P 0 b.1 - atNumber (nodes g) o.P 0 b.2.1 + ((F br.2.2 : ℝ) : ℂ) • 1) : Matrix ι ι ℂ) i j) (F br.2.2) := by
    intro b _ _
    set Y := atNumber (nodes g) o.P 0 b.1 - atNumber (nodes g) o.P 0 b.2.1 with hY
    have h1 : ∀ y : ℝ, ((((El / (2 * val b.2.2) : ℝ) : ℂ) • (Y + ((y : ℝ) : ℂ) • 1) ^ 2 : Matrix ι ι ℂ) i j) =
        ((El / (2 * val b.2.2) : ℝ) : ℂ) * ((Y * Y) i j + 2 * (y : ℂ) * Y i j + (y : ℂ) * (y : ℂ) * (1 : Matrix ι ι ℂ) i j) := by
      intro y
      have : (Y + ((y : ℝ) : ℂ) • (1 : Matrix ι ι ℂ)) ^ 2 = Y * Y + (2 * (y : ℂ)) • Y + ((y : ℂ) * y) • 1 := by
        rw [pow_two, mul_add, add_mul, add_mul, smul_one_mul, smul_one_mul, mul_smul_comm, mul_one, smul_smul, two_mul, add_smul]
        abel
      rw [this]
      simp only [Matrix.smul_apply, Matrix.add_apply, smul_eq_mul]
    simp only [h1]
    have hy : HasDerivAt (fun y : ℝ => (y : ℂ)) 1 (F br.2.2) := Complex.ofRealCLM.hasDerivAt
    have h2 := (((hy.const_mul 2).mul_const (Y i j)).const_add ((Y * Y) i j) |>.add ((hy.mul hy).mul_const ((1 : Matrix ι ι ℂ) i j))).const_mul ((El / (2 * val b.2.2) : ℝ) : ℂ)
    refine h2.congr_deriv ?_
    simp only [Matrix.smul_apply, Matrix.add_apply, smul_eq_mul]
    push_cast
    by_cases hv : (val b.2.2 : ℂ) = 0
    · rw [hv]; simp
    · field_simp
      ring
  have dI : ∀ b ∈ branchesOf 'I' (branches h), b.2.2 = br.2.2 → HasDerivAt (fun y : ℝ => ((((Ej * val b.2.2 / 2 : ℝ) : ℂ) •
      (exp (2 * Real.pi * y * I) • (atNumber (nodes g) o.D 1 b.1 * atNumber (nodes g) o.Ddag 1 b.2.1) +
      exp (-(2 * Real.pi * y * I)) • (atNumber (nodes g) o.Ddag 1 b.1 * atNumber (nodes g) o.D 1 b.2.1)) : Matrix ι ι ℂ) i j))
      (((2 * Real.pi * I * (Ej * val b.2.2 / 2 : ℝ)) •
        (exp (2 * Real.pi * F br.2.2 * I) • (atNumber (nodes g) o.D 1 b.1 * atNumber (nodes g) o.Ddag 1 b.2.1) -
          exp (-(2 * Real.pi * F br.2.2 * I)) • (atNumber (nodes g) o.Ddag 1 b.1 * atNumber (nodes g) o.D 1 b.2.1)) : Matrix ι ι ℂ) i j) (F br.2.2) := by
    intro b _ _
    simp only [Matrix.smul_apply, Matrix.add_apply, Matrix.sub_apply, smul_eq_mul]
    have hy : HasDerivAt (fun y : ℝ => (y : ℂ)) 1 (F br.2.2) := Complex.ofRealCLM.hasDerivAt
    have h3 : HasDerivAt (fun y : ℝ => 2 * (Real.pi : ℂ) * (y : ℂ) * I) (2 * (Real.pi : ℂ) * 1 * I) (F br.2.2) := (hy.const_mul (2 * (Real.pi : ℂ))).mul_const I
    have h4 := ((h3.cexp.mul_const ((atNumber (nodes g) o.D 1 b.1 * atNumber (nodes g) o.Ddag 1 b.2.1) i j)).add
      (h3.neg.cexp.mul_const ((atNumber (nodes g) o.Ddag 1 b.1 * atNumber (nodes g) o.D 1 b.2.1) i j))).const_mul ((Ej * val b.2.2 / 2 : ℝ) : ℂ)
    refine h4.congr_deriv ?_
    simp only [Pi.neg_apply]
    push_cast
    ring
  have sL := sum_deriv (branchesOf 'L' (branches h)) br.2.2 F _ _ dL
  have sI := sum_deriv (branchesOf 'I' (branches h)) br.2.2 F _ _ dI
  constructor
  · intro hL
    have hI : startsWith br.2.2 'I' ≠ true := fun hh => absurd (startsWith_unique hL hh) (by decide)
    rw [hone 'L' hL] at sL
    rw [hnone 'I' hI] at sI
    unfold netlistOperator
    simp only [Matrix.sub_apply, Matrix.add_apply, list_sum_apply]
    refine HasDerivAt.congr_deriv (((sL.const_add _).sub sI).sub_const _) ?_
    simp
  · intro hI
    have hL : startsWith br.2.2 'L' ≠ true := fun hh => absurd (startsWith_unique hI hh) (by decide)
    rw [hnone 'L' hL] at sL
    rw [hone 'I' hI] at sI
    unfold netlistOperator
    simp only [Matrix.sub_apply, Matrix.add_apply, list_sum_apply]
    refine HasDerivAt.congr_deriv (((sL.const_add _).sub sI).sub_const _) ?_
    simp [Matrix.smul_apply]

/-- C99: **for the operator of any circuit, the operator of the current through a junction is the derivative of the Hamiltonian by the flux bias of the junction**, up to the
constant `-2π Ej / IopJ` of the units, whichever way the branch was described; the one of an inductor is the derivative by its flux bias
up to the bias itself, which the program leaves out. -/
theorem C99_derivative {ι : Type} [Fintype ι] [DecidableEq ι] (h : List Call) (g : CG) (hs : Settled h g) (hn : CircuitNetlist h) (sgn : String → ℝ)
    (hsgn : ∀ c, sgn c = 1 ∨ sgn c = -1) (hdir : ∀ br ∈ branches h, ∀ e ∈ edges g, g.cmap.get? e = some br.2.2 → (sgn br.2.2 = 1 ↔ e.1 = br.1))
    (Ec El Ej Ep IopL IopJ : ℝ) (hIL : IopL ≠ 0) (hIJ : IopJ ≠ 0)
    (C : Matrix (Fin (nodes g).length) (Fin (nodes g).length) ℝ) (val phi : String → ℝ) (ng : ℕ → ℝ)
    (o : NodeOperators (Matrix ι ι ℂ) (nodes g).length) (hcomm : ∀ i j, i ≠ j → o.D i * o.Ddag j = o.Ddag j * o.D i)
    (e : Edge) (he : e ∈ edges g) (c : String) (hc : g.cmap.get? e = some c) (X : Matrix ι ι ℂ)
    (hX : branchCurrent (nodes g) IopL IopJ val phi o e.1 e.2.1 c = some X) (i j : ι) :
    (startsWith c 'I' = true → HasDerivAt (fun x => netlistOperator (nodes g) h Ec El Ej Ep C val ng (fun c' => sgn c' * Function.update phi c x c') o i j)
      (-((2 * Real.pi * Ej / IopJ : ℝ) : ℂ) * X i j) (phi c)) ∧
    (startsWith c 'L' = true → HasDerivAt (fun x => netlistOperator (nodes g) h Ec El Ej Ep C val ng (fun c' => sgn c' * Function.update phi c x c') o i j)
      (((El / IopL : ℝ) : ℂ) * X i j + ((El / val c * phi c : ℝ) : ℂ) * (1 : Matrix ι ι ℂ) i j) (phi c)) := by
  obtain ⟨br, hbr, hbe, hc'⟩ := wc_branch hs he
  obtain rfl : br.2.2 = c := Option.some.inj (hc'.symm.trans hc)
  have hbr' := (List.mem_filter.1 hbr).1
  have hne := hn.ends br hbr'
  have hd := hdir br hbr' e he hc
  obtain ⟨hnd, hmem⟩ := C29_rows h g hs
  have hF : ∀ x, (fun c' => sgn c' * Function.update phi br.2.2 x c') = Function.update (fun c' => sgn c' * phi c') br.2.2 (sgn br.2.2 * x) := by
    intro x
    funext c'
    by_cases hcc : c' = br.2.2
    · subst hcc; simp
    · rw [Function.update_of_ne hcc, Function.update_of_ne hcc]
  have hlin : HasDerivAt (fun x : ℝ => sgn br.2.2 * x) (sgn br.2.2) (phi br.2.2) := by
    simpa using (hasDerivAt_id (phi br.2.2)).const_mul (sgn br.2.2)
  obtain ⟨dL, dI⟩ := netlist_deriv hs Ec El Ej Ep C val ng (fun c' => sgn c' * phi c') o hbr' i j
  have key : ∀ a : ℂ, HasDerivAt (fun x => netlistOperator (nodes g) h Ec El Ej Ep C val ng (Function.update (fun c' => sgn c' * phi c') br.2.2 x) o i j) a (sgn br.2.2 * phi br.2.2) →
      HasDerivAt (fun x => netlistOperator (nodes g) h Ec El Ej Ep C val ng (fun c' => sgn c' * Function.update phi br.2.2 x c') o i j) (sgn br.2.2 • a) (phi br.2.2) := by
    intro a hda
    simp only [hF]
    exact HasDerivAt.scomp (phi br.2.2) hda hlin
  have hac : ∀ m n, m ≠ n → atNumber (nodes g) o.D 1 m * atNumber (nodes g) o.Ddag 1 n = atNumber (nodes g) o.Ddag 1 n * atNumber (nodes g) o.D 1 m :=
    fun m n hmn => atNumber_comm o.D o.Ddag hcomm hmn
  unfold branchCurrent at hX
  constructor
  · intro hI
    have hL : startsWith br.2.2 'L' ≠ true := fun hh => absurd (startsWith_unique hI hh) (by decide)
    rw [if_neg hL, if_pos hI] at hX
    obtain rfl := (Option.some.inj hX)
    refine (key _ (dI hI)).congr_deriv ?_
    rcases hsgn br.2.2 with h1 | h1
    · have he1 := hd.1 h1
      have he2 : e.2.1 = br.2.1 := by
        rcases hbe with ⟨h2, h3⟩ | ⟨h2, h3⟩
        · exact h3
        · exact absurd (he1.symm.trans h2) hne
      simp only [h1, one_mul, one_smul, he1, he2]
      simp only [Matrix.smul_apply, Matrix.sub_apply, smul_eq_mul]
      push_cast
      have : (IopJ : ℂ) ≠ 0 := by exact_mod_cast hIJ
      field_simp
    · have he1 : e.1 = br.2.1 ∧ e.2.1 = br.1 := by
        rcases hbe with ⟨h2, h3⟩ | ⟨h2, h3⟩
        · exact absurd (hd.2 h2) (by rw [h1]; norm_num)
        · exact ⟨h2, h3⟩
      simp only [h1, he1.1, he1.2]
      rw [hac _ _ hne, ← hac _ _ hne.symm]
      simp only [Matrix.smul_apply, Matrix.sub_apply, smul_eq_mul]
      push_cast
      simp only [neg_mul, one_mul, mul_neg, neg_neg, neg_smul, one_smul]
      have : (IopJ : ℂ) ≠ 0 := by exact_mod_cast hIJ
      field_simp
      ring
  · intro hL
    rw [if_pos hL] at hX
    obtain rfl := (Option.some.inj hX)
    refine (key _ (dL hL)).congr_deriv ?_
    have : (IopL : ℂ) ≠ 0 := by exact_mod_cast hIL
    rcases hsgn br.2.2 with h1 | h1
    · have he1 := hd.1 h1
      have he2 : e.2.1 = br.2.1 := by
        rcases hbe with ⟨h2, h3⟩ | ⟨h2, h3⟩
        · exact h3
        · exact absurd (he1.symm.trans h2) hne
      simp only [h1, one_mul, one_smul, he1, he2]
      simp only [Matrix.smul_apply, Matrix.sub_apply, Matrix.add_apply, smul_eq_mul]
      push_cast
      field_simp
    · have he1 : e.1 = br.2.1 ∧ e.2.1 = br.1 := by
        rcases hbe with ⟨h2, h3⟩ | ⟨h2, h3⟩
        · exact absurd (hd.2 h2) (by rw [h1]; norm_num)
        · exact ⟨h2, h3⟩
      simp only [h1, he1.1, he1.2]
      simp only [Matrix.smul_apply, Matrix.sub_apply, Matrix.add_apply, smul_eq_mul]
      push_cast
      simp only [neg_mul, one_mul, mul_neg, neg_neg, neg_smul, one_smul]
      field_simp
      ring

/-- An inductor and a capacitor in parallel. -/
def tank : List Call := [.addBranch Orc.id 0 1 "C1", .addBranch Orc.id 0 1 "L1"]

theorem tank_settled : Settled tank (run {} tank) :=
  ⟨[.addBranch Orc.id 0 1 "C1"], Orc.id, 0, 1, "L1", [], rfl, by simp [tank, Call.OK, orcId_ok], by decide +kernel, by simp, rfl⟩

theorem tank_ok : AllOk tank := by
  apply allOk_of_prefixes
  decide +kernel

theorem tank_branches : branches tank = [(0, 1, "C1"), (0, 1, "L1")] := by decide +kernel

theorem tank_netlist : CircuitNetlist tank := by
  refine ⟨by simp [tank], ?_, ?_⟩
  · rw [tank_branches]; decide +kernel
  · rw [tank_branches]; decide +kernel

theorem tank_nodes : nodes (run {} tank) = [1] := by decide +kernel

theorem tank_edges : edges (run {} tank) = [(0, 1, 1)] := by decide +kernel

/-- The coefficients of the branch of the inductor in the tank for any scaling of the coordinate. -/
theorem tank_terms (r : ℝ) (hr : r ≠ 0) (k : Fin (edges (run {} tank)).length) :
    branchTerms (run {} tank) (fun a j => if h : a < (nodes (run {} tank)).length ∧ j < (nodes (run {} tank)).length then (r • (1 : Matrix (Fin (nodes (run {} tank)).length) (Fin (nodes (run {} tank)).length) ℝ)) ⟨a, h.1⟩ ⟨j, h.2⟩ else 0)
      ((edges (run {} tank)).get k) = [(-r, 0)] := by
  have hl : (nodes (run {} tank)).length = 1 := by rw [tank_nodes]; rfl
  have hk : (edges (run {} tank)).get k = (0, 1, 1) := by
    have hm : ∀ e ∈ edges (run {} tank), e = (0, 1, 1) := by rw [tank_edges]; simp
    exact hm _ (List.get_mem _ k)
  rw [hk]
  unfold branchTerms
  have h1 : (nodes (run {} tank)).idxOf 1 = 0 := by rw [tank_nodes]; rfl
  have h2 : List.range (nodes (run {} tank)).length = [0] := by rw [hl]; rfl
  rw [h2]
  simp only [h1, List.map_cons, List.map_nil, hl]
  simp [hr]

/-- C99: **false with a coordinate transform**: an inductor with a capacitor, the flux of its node written as `Φ = Φ'/2` (so that the new coordinate is twice the flux).  The operator that the
program gives for the current through the inductor is a quarter of the one without the transform: the
inverse inductance of the branch is transformed as well as its flux. -/
theorem C99_transform_false : Settled tank (run {} tank) ∧ AllOk tank ∧ CircuitNetlist tank ∧
    ∀ (b : Biases) (_ : createFluxBiases (run {} tank) = .ok b) (val phi q : String → ℝ) (_ : 0 < val "C1") (_ : val "L1" ≠ 0)
      (pinv : Matrix (Fin (edges (run {} tank)).length) (Fin (edges (run {} tank)).length) ℝ →
        Matrix (Fin (edges (run {} tank)).length) (Fin (edges (run {} tank)).length) ℝ) (_ : ∀ M, IsPinv M (pinv M)) (u : Prefs),
    ∃ s s', assemble (run {} tank) b val phi q ⟨false, 1⟩ pinv u = .ok s ∧ assemble (run {} tank) b val phi q ⟨true, (2 : ℝ) • 1⟩ pinv u = .ok s' ∧
      ∀ (cfg : Fin (nodes (run {} tank)).length → NodeCfg) (N N' : Fin (nodes (run {} tank)).length → BigNode cfg)
        (_ : ∀ i, (N' i).P = (2 : ℂ) • (N i).P) (k : Fin (edges (run {} tank)).length),
      ∃ X, currentOperator (s.withNodes N) k = .ok X ∧ currentOperator (s'.withNodes N') k = .ok ((1 / 4 : ℂ) • X) := by
  refine ⟨tank_settled, tank_ok, tank_netlist, fun b hb val phi q hC hL pinv hp u => ?_⟩
  have hl : (nodes (run {} tank)).length = 1 := by rw [tank_nodes]; rfl
  have hle : (edges (run {} tank)).length = 1 := by rw [tank_edges]; rfl
  obtain ⟨C, hCo, hsym, hform⟩ := circuit_capacitance tank_settled tank_ok tank_netlist val
  have hg : ∀ n, Spec.gateCap val tank n = 0 := by
    intro n
    unfold Spec.gateCap tank
    simp
  have hnn : NonnegCaps val tank := by
    refine ⟨?_, fun n _ => (hg n).ge⟩
    intro br hbr
    have : branchesOf 'C' (branches tank) = [(0, 1, "C1")] := by rw [tank_branches]; decide +kernel
    rw [this] at hbr
    rw [List.mem_singleton.1 hbr]
    exact hC.le
  have hconn : ∀ n ∈ nodesOf (branches tank), Conn (capacitiveNet val tank) n 0 := by
    intro n hn
    rw [tank_branches] at hn
    have hn' : n = 0 ∨ n = 1 := by
      revert hn; revert n; decide +kernel
    have m1 : ((0, 1, 0) : ℕ × ℕ × ℕ) ∈ capacitiveNet val tank := by
      unfold capacitiveNet
      rw [tank_branches]
      refine List.mem_append_left _ ?_
      simp [branchesOf, wires, hC.ne', startsWith]
    rcases hn' with rfl | rfl
    · exact Conn.refl _ _
    · exact Conn.symm (Conn.edge m1)
  have hdet := (netlist_det tank_settled val hnn _ hsym hform).2 hconn
  obtain ⟨s, h1⟩ := (circuit_assemble tank_settled tank_ok tank_netlist hb val phi q ⟨false, 1⟩ pinv u hCo).2 hdet
  obtain ⟨s', h2⟩ := (circuit_assemble tank_settled tank_ok tank_netlist hb val phi q ⟨true, (2 : ℝ) • 1⟩ pinv u hCo).2 hdet
  refine ⟨s, s', h1, h2, fun cfg N N' hN k => ?_⟩
  unfold assemble at h1 h2
  simp only [hCo] at h1 h2
  obtain ⟨M, hM⟩ := circuit_inductance tank_settled tank_ok tank_netlist hb val
  unfold inverseCapacitance at h1 h2
  rw [if_neg hdet] at h1 h2
  simp only [hM] at h1 h2
  have hs1 := (Except.ok.inj h1).symm
  have hs2 := (Except.ok.inj h2).symm
  haveI : Subsingleton (Fin (edges (run {} tank)).length) := by rw [hle]; infer_instance
  haveI : Subsingleton (Fin (nodes (run {} tank)).length) := by rw [hl]; infer_instance
  have hi : ((2 : ℝ) • (1 : Matrix (Fin (nodes (run {} tank)).length) (Fin (nodes (run {} tank)).length) ℝ))⁻¹ = (1 / 2 : ℝ) • 1 := by
    apply Matrix.inv_eq_right_inv
    rw [smul_mul_smul_comm, mul_one]; norm_num
  have t1 : (s.withNodes N).terms k = [(-1, 0)] := by
    have := tank_terms 1 one_ne_zero k
    rw [one_smul] at this
    rw [hs1]
    show branchTerms (run {} tank) (fun a j => if h : a < (nodes (run {} tank)).length ∧ j < (nodes (run {} tank)).length then
      ((1 : Matrix (Fin (nodes (run {} tank)).length) (Fin (nodes (run {} tank)).length) ℝ)⁻¹) ⟨a, h.1⟩ ⟨j, h.2⟩ else 0) ((edges (run {} tank)).get k) = _
    rw [inv_one]
    exact this
  have t2 : (s'.withNodes N').terms k = [(-(1 / 2), 0)] := by
    have := tank_terms (1 / 2) (by norm_num) k
    rw [← hi] at this
    rw [← this, hs2]
    rfl
  have hk : (edges (run {} tank)).get k = (0, 1, 1) := by
    have hm : ∀ e ∈ edges (run {} tank), e = (0, 1, 1) := by rw [tank_edges]; simp
    exact hm _ (List.get_mem _ k)
  have hkind : kindOf (run {} tank) ((edges (run {} tank)).get k) = .inductive := by
    rw [hk]; decide +kernel
  have k1 : (s.withNodes N).kind k = .inductive := by rw [hs1]; exact hkind
  have k2 : (s'.withNodes N').kind k = .inductive := by rw [hs2]; exact hkind
  have hu1 : (s.withNodes N).u = u := by rw [hs1]; rfl
  have hu2 : (s'.withNodes N').u = u := by rw [hs2]; rfl
  have z : 0 < (nodes (run {} tank)).length := by omega
  have hL2 : (s'.withNodes N').LinvB k k = 1 / 4 * (s.withNodes N).LinvB k k := by
    have e1 : (s.withNodes N).LinvB = pinv (M.block _ _) := by rw [hs1]; rfl
    have e2 : (s'.withNodes N').LinvB = branchInverse (run {} tank) ⟨true, (2 : ℝ) • 1⟩ (pinv (M.block _ _)) := by rw [hs2]; rfl
    rw [e1, e2]
    unfold branchInverse
    rw [if_pos rfl, hi]
    have hin : ∀ (a : Fin (nodes (run {} tank)).length) (j : Fin (edges (run {} tank)).length),
        Mat.block (incidence (K := ℝ) (run {} tank)) (nodes (run {} tank)).length (edges (run {} tank)).length a j = -1 := by
      intro a j
      have ha : (a : ℕ) = 0 := by omega
      have hj : (j : ℕ) = 0 := by omega
      show incidence (run {} tank) a j = -1
      unfold incidence
      rw [ha, hj, tank_nodes, tank_edges]
      simp
    simp only [Matrix.mul_apply, Matrix.transpose_apply, Matrix.smul_apply, hin]
    simp only [Fintype.sum_subsingleton _ k, Fintype.sum_subsingleton _ (⟨0, z⟩ : Fin (nodes (run {} tank)).length)]
    simp [Subsingleton.elim _ (⟨0, z⟩ : Fin (nodes (run {} tank)).length)]
    ring
  have f1 : (s.withNodes N).flux 0 = if h : 0 < (nodes (run {} tank)).length then (N ⟨0, h⟩).P else 0 := rfl
  have f2 : (s'.withNodes N').flux 0 = if h : 0 < (nodes (run {} tank)).length then (N' ⟨0, h⟩).P else 0 := rfl
  rw [dif_pos z] at f1 f2
  rw [hN] at f2
  unfold currentOperator
  rw [k1, k2, t1, t2, hu1, hu2, hL2]
  refine ⟨_, rfl, ?_⟩
  simp only [List.isEmpty_cons, Bool.false_eq_true, if_false, List.map_cons, List.map_nil, List.sum_cons, List.sum_nil, add_zero, f1, f2]
  congr 1
  rw [← num_comm (1 / 4 * _), ← num_comm ((s.withNodes N).LinvB k k)]
  simp only [num_smul, smul_smul]
  congr 1
  push_cast
  ring

/-- C99: for every circuit without resonator or transform, the operator of the voltage of a node is `Vop` times the diagonal entry of the inverse of the capacitances of the netlist times the charge
of the node with its gate charge.  (The charges of the other nodes are left out, which is `C63_voltage_false`.) -/
theorem C99_voltage (h : List Call) (g : CG) (hs : Settled h g) (ha : AllOk h) (hn : CircuitNetlist h) (b : Biases)
    (val phi q : String → ℝ) (hval : ∀ br ∈ branchesOf 'L' (branches h), val br.2.2 ≠ 0)
    (pinv : Matrix (Fin (edges g).length) (Fin (edges g).length) ℝ → Matrix (Fin (edges g).length) (Fin (edges g).length) ℝ)
    (hp : ∀ M, IsPinv M (pinv M)) (u : Prefs) (cfg : Fin (nodes g).length → NodeCfg)
    (N : Fin (nodes g).length → BigNode cfg) (s : Sys PUnit (nodes g).length (edges g).length)
    (h1 : assemble g b val phi q ⟨false, 1⟩ pinv u = .ok s) :
    ∃ C : Matrix (Fin (nodes g).length) (Fin (nodes g).length) ℝ, Cᵀ = C ∧ C.det ≠ 0 ∧
      (∀ v : ℕ → ℝ, v 0 = 0 → atNodes g v ⬝ᵥ C.mulVec (atNodes g v) = electrostaticForm val h v) ∧
      ∀ i, voltageOperator (num (BigOp cfg)) (s.withNodes N) i =
        ((u.Vop * C⁻¹ i i : ℝ) : ℂ) • ((N i).Q + ((gateCharge q h ((nodes g).get i) : ℝ) : ℂ) • 1) := by
  obtain ⟨C, -, c1, c2, c3, c4, -, -, -, -, -, -, -, c5, -, -, c6⟩ := assembled hs ha hn hval hp h1
  refine ⟨C, c1, c2, c3, fun i => ?_⟩
  have hCi : (s.withNodes N).Cinv = C⁻¹ := by
    unfold inverseCapacitance at c4
    rw [if_neg c2] at c4
    simp only [Bool.false_eq_true, if_false] at c4
    exact (Option.some.inj c4).symm
  have hQb : (s.withNodes N).Qb i = gateCharge q h ((nodes g).get i) := by
    show s.Qb i = _
    rw [c5]
    obtain ⟨hrun, hok⟩ := settled_run hs
    rw [gateCharge_eq hok ha q, ← hrun]
    show chargeBiasVector q g i = _
    unfold chargeBiasVector
    rw [List.getElem?_eq_getElem i.2]
    rfl
  have hu : (s.withNodes N).u = u := c6
  unfold voltageOperator
  rw [hCi, hQb, hu]
  show num (BigOp cfg) u.Vop * ((N i).Q + num (BigOp cfg) (gateCharge q h ((nodes g).get i))) * num (BigOp cfg) (C⁻¹ i i) = _
  rw [← num_comm (C⁻¹ i i), num_smul, num_smul, smul_smul, num_one]
  congr 1
  push_cast
  ring

/-- The hypotheses of `C99_current`, `C99_derivative` and `C99_voltage` are met beside those of `C97_operator_partial`: the circuit of its example has a junction and an inductor
with currents and a phase slip without. -/
example : (∃ k : Fin (edges (run {} slipSquid)).length, (run {} slipSquid).cmap.get? ((edges (run {} slipSquid)).get k) = some "I1") ∧
    (∃ k : Fin (edges (run {} slipSquid)).length, (run {} slipSquid).cmap.get? ((edges (run {} slipSquid)).get k) = some "L1") ∧
    (∃ k : Fin (edges (run {} slipSquid)).length, (run {} slipSquid).cmap.get? ((edges (run {} slipSquid)).get k) = some "V1") ∧
    startsWith "I1" 'I' = true ∧ startsWith "L1" 'L' = true ∧
    (∃ b, createFluxBiases (run {} tank) = .ok b) ∧
    (∃ sgn : String → ℝ, (∀ c, sgn c = 1 ∨ sgn c = -1) ∧
      ∀ br ∈ branches slipSquid, ∀ e ∈ edges (run {} slipSquid), (run {} slipSquid).cmap.get? e = some br.2.2 → (sgn br.2.2 = 1 ↔ e.1 = br.1)) := by
  refine ⟨by decide +kernel, by decide +kernel, by decide +kernel, by decide +kernel, by decide +kernel, ?_, ?_⟩
  · cases hc : createFluxBiases (run {} tank) with
    | ok b => exact ⟨b, rfl⟩
    | error e =>
      have : (match createFluxBiases (run {} tank) with | .ok _ => true | .error _ => false) = true := by decide +kernel
      rw [hc] at this
      cases this
  · cases hc : createFluxBiases (run {} slipSquid) with
    | ok b =>
      obtain ⟨sgn, h1, h2, -⟩ := C97_operator_partial slipSquid _ slipSquid_settled slipSquid_ok slipSquid_netlist b hc
      exact ⟨sgn, h1, h2⟩
    | error e =>
      have : (match createFluxBiases (run {} slipSquid) with | .ok _ => true | .error _ => false) = true := by decide +kernel
      rw [hc] at this
      cases this

end Verif.Props
