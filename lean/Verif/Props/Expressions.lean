import Verif.Lemmas.ExpressionFlow
import Mathlib.Analysis.Matrix.Order
import Verif.Props.Configure

/-!
# C102: the symbolic attributes of a numerical system are the matrices of its circuit
-/

namespace Verif.Props

open Verif Verif.Spec Verif.PC Verif.Num Verif.Sym Verif.Circuit Verif.Derived

variable {E D : Type}

/-! ### Lists of entries -/

theorem rows_get {α : Type} (n m : ℕ) (M : Mat α) {i j : ℕ} (hi : i < n) (hj : j < m) : (rowsE n m M)[i * m + j]? = some (M i j) := by
  unfold rowsE
  induction n with
  | zero => omega
  | succ n ih =>
    rw [List.range_succ, List.flatMap_append]
    have hlen : ((List.range n).flatMap fun i => (List.range m).map fun j => M i j).length = n * m := by simp
    by_cases h : i < n
    · rw [List.getElem?_append_left, ih h]
      rw [hlen]
      calc i * m + j < i * m + m := by omega
        _ = (i + 1) * m := by ring
        _ ≤ n * m := Nat.mul_le_mul_right m h
    · obtain rfl : i = n := by omega
      rw [List.getElem?_append_right (by rw [hlen]; omega), hlen]
      simp [hj]

theorem entries_get {α : Type} (n : ℕ) (x : ℕ → α) {i : ℕ} (hi : i < n) : (entriesE n x)[i]? = some (x i) := by
  unfold entriesE
  simp [hi]

theorem rows_forall₂ {α β : Type} {P : α → β → Prop} {n m : ℕ} {M : Mat α} {X : Mat β} (h : ∀ i < n, ∀ j < m, P (M i j) (X i j)) :
    List.Forall₂ P (rowsE n m M) (rowsE n m X) := by
  have inner : ∀ i < n, ∀ k ≤ m, List.Forall₂ P ((List.range k).map fun j => M i j) ((List.range k).map fun j => X i j) := by
    intro i hi k
    induction k with
    | zero => intro _; exact .nil
    | succ k ih =>
      intro hk
      rw [List.range_succ, List.map_append, List.map_append]
      exact List.rel_append (ih (by omega)) (.cons (h i hi k (by omega)) .nil)
  have outer : ∀ k ≤ n, List.Forall₂ P (rowsE k m M) (rowsE k m X) := by
    intro k
    induction k with
    | zero => intro _; exact .nil
    | succ k ih =>
      intro hk
      unfold rowsE at ih ⊢
      rw [List.range_succ, List.flatMap_append, List.flatMap_append]
      refine List.rel_append (ih (by omega)) ?_
      simp only [List.flatMap_cons, List.flatMap_nil, List.append_nil]
      exact inner k (by omega) m le_rfl
  exact outer n le_rfl

theorem entries_forall₂ {α β : Type} {P : α → β → Prop} {n : ℕ} {x : ℕ → α} {y : ℕ → β} (h : ∀ i < n, P (x i) (y i)) :
    List.Forall₂ P (entriesE n x) (entriesE n y) := by
  unfold entriesE
  induction n with
  | zero => exact .nil
  | succ n ih =>
    rw [List.range_succ, List.map_append, List.map_append]
    exact List.rel_append (ih fun i hi => h i (by omega)) (.cons (h n (by omega)) .nil)

theorem rows_of {n m : ℕ} {M : Matrix (Fin n) (Fin m) ℝ} {X : Mat ℚ} (h : ∀ (i : Fin n) (j : Fin m), ((X i j : ℚ) : ℝ) = M i j) : RowsOf M (rowsE n m X) :=
  fun i j => ⟨X i j, rows_get n m X i.2 j.2, h i j⟩

theorem entries_of {n : ℕ} {f : Fin n → ℝ} {x : ℕ → ℚ} (h : ∀ i : Fin n, ((x i : ℚ) : ℝ) = f i) : EntriesOf f (entriesE n x) :=
  fun i => ⟨x i, entries_get n x i.2, h i⟩

/-! ### The symbols of the parameters that the matrices read -/

theorem reads_written {h : List Circuit.Call} (hs : Settled h (run {} h)) (ha : AllOk h) (hk : KeepsResonators h) {c : String} (hc : Reads (run {} h) c) :
    (Param.symbolOf c).getD "" = writtenAs c := by
  have hok : ∀ x ∈ h, x.OK := (settled_run hs).2
  obtain ⟨o, f⟩ := settled_facts hs
  have hmem : (c, none) ∈ parameterList Prefixes.default (run {} h) := by
    rcases hc with ⟨e, hc⟩ | hc | ⟨n, b, hb, hc⟩ | ⟨n, r, hr, hc⟩
    · refine (mem_parameterList _ _ _).2 (Or.inl ⟨rfl, ?_⟩)
      rcases (f.synced.cmap e c).1 hc with h | h
      · exact List.mem_map.2 ⟨_, h, rfl⟩
      · exact List.mem_map.2 ⟨_, h, rfl⟩
    · exact (mem_parameterList _ _ _).2 (Or.inr (Or.inl ⟨rfl, hc⟩))
    · exact (mem_parameterList _ _ _).2 (Or.inr (Or.inr (Or.inl ⟨b, List.mem_map.2 ⟨_, Dict.mem_of_get? hb, rfl⟩, rfl, hc⟩)))
    · exact (mem_parameterList _ _ _).2 (Or.inr (Or.inr (Or.inr (Or.inr (Or.inr (Or.inr
        ⟨r, (mem_resonatorsOf (resonators_nodup h hok) r).2 ⟨n, hr⟩, rfl, hc⟩))))))
  have hpre := entry_pre hok ha ((entry_iff hok ha hk _).1 hmem) rfl
  cases hsym : Param.symbolOf c with
  | some s => exact writtenAs_of_symbolOf hsym hpre
  | none =>
    unfold Param.symbolOf at hsym
    unfold writtenAs
    split at hsym
    · rename_i h0
      rw [h0]
      rfl
    · cases hsym

section Values

variable {eng : Engine E} {law : eng.Lawful D} {A : Arith E} {pc pc1 : PC E} {ρ : Verif.Sym → D}

/-- Naming the entries of a symmetric matrix keeps their values. -/
theorem has_standing (L : ArithLaws eng law A) (hρ : Valuation eng law pc ρ) (hup : UpToDate eng law pc) (hsm : pc.symMap = pc1.symMap)
    (hpz : pc.parz = pc1.parz) (hadm : ∀ k f, Admits pc1 k f → Admits pc k f) (hu : Unbounded pc1) {c : Char} {inv : Bool} {n : ℕ} {M M' : ℕ → ℕ → E}
    {X : ℕ → ℕ → ℚ} (hX : ∀ i < n, ∀ j < n, X i j = X j i) (hM : ∀ i < n, ∀ j < n, Has eng law pc ρ (M i j) (X i j))
    (hst : Standing eng A pc1 c inv n M M') : ∀ i < n, ∀ j < n, Has eng law pc ρ (M' i j) (X i j) := by
  have key : ∀ i j, i ≤ j → j < n → Has eng law pc ρ (M' i j) (X i j) ∧ Has eng law pc ρ (M' j i) (X j i) := by
    intro i j hij hj
    rcases hst i j hij hj with ⟨e1, e2⟩ | ⟨⟨k1, ns, k2, -⟩, hf, s, k3, e1, e2⟩
    · rw [e1, e2]
      exact ⟨hM i (by omega) j hj, hM j hj i (by omega)⟩
    · have hd : Has eng law pc ρ (A.sym s) (X i j) := by
        refine has_derived L hρ hup (k := dname c inv i j) (getSymbol_iff.2 (by rw [hsm]; exact k3)) ?_ hf (hM i (by omega) j hj)
          (hadm _ _ (hu _ ((Dict.has_iff _ _).1 k1) _))
        unfold getParametricExpression
        rw [hpz, k2]
        rfl
      rw [e1, e2, ← hX i (by omega) j hj]
      exact ⟨hd, hd⟩
  intro i hi j hj
  rcases le_total i j with hij | hij
  · exact (key i j hij hj).1
  · exact (key j i hij hi).2

end Values

theorem stands_computable {eng : Engine E} {law : eng.Lawful D} {A : Arith E} {pc pc1 : PC E} {ρ : Verif.Sym → D} (L : ArithLaws eng law A) (hpz : pc.parz = pc1.parz)
    (hadm : ∀ k f, Admits pc1 k f → Admits pc k f) (hu : Unbounded pc1) {c : Char} {inv : Bool} {n : ℕ} {M : ℕ → ℕ → E} {X : ℕ → ℕ → ℚ}
    (hM : ∀ i < n, ∀ j < n, Has eng law pc ρ (M i j) (X i j)) {k : String} (hk : StandsIn eng pc1 c inv n M k) :
    ∃ f, HasSource eng pc k ∧ Computable eng law pc k f := by
  obtain ⟨i, j, hij, hj, rfl, hf, k1, ns, k2, -⟩ := hk
  obtain ⟨h1, h2, -⟩ := derived_computable L (k := dname c inv i j) (by unfold getParametricExpression; rw [hpz, k2]; rfl) hf (hM i (by omega) j hj)
    (hadm _ _ (hu _ ((Dict.has_iff _ _).1 k1) _))
  exact ⟨_, h1, h2⟩

theorem inverse_cast {n : ℕ} (X : Matrix (Fin n) (Fin n) ℚ) (R : Matrix (Fin n) (Fin n) ℝ) (h : ∀ i j, ((X i j : ℚ) : ℝ) = R i j) (hd : R.det ≠ 0) (i j : Fin n) :
    ((X⁻¹ i j : ℚ) : ℝ) = R⁻¹ i j := by
  have hR : X.map (Rat.castHom ℝ) = R := by ext i j; exact h i j
  have hX : IsUnit X.det := by
    rw [isUnit_iff_ne_zero]
    intro h0
    apply hd
    rw [← hR, ← RingHom.mapMatrix_apply, ← RingHom.map_det, h0, map_zero]
  have hm : R * X⁻¹.map (Rat.castHom ℝ) = 1 := by
    rw [← hR, ← Matrix.map_mul, Matrix.mul_nonsing_inv X hX]
    simp
  rw [Matrix.inv_eq_right_inv hm]
  rfl

theorem positive_cast {n : ℕ} (X : Matrix (Fin n) (Fin n) ℚ) (R : Matrix (Fin n) (Fin n) ℝ) (h : ∀ i j, ((X i j : ℚ) : ℝ) = R i j) (hp : R.PosSemidef) (hd : R.det ≠ 0)
    (x : Fin n → ℚ) (hx : x ≠ 0) : 0 < x ⬝ᵥ X.mulVec x := by
  have hpd : R.PosDef := hp.posDef_iff_det_ne_zero.2 hd
  have h1 := hpd.dotProduct_mulVec_pos (x := fun i => (x i : ℝ)) (by
    intro h0
    apply hx
    funext i
    have := congrFun h0 i
    simpa using this)
  have h2 : (((x ⬝ᵥ X.mulVec x : ℚ)) : ℝ) = star (fun i => (x i : ℝ)) ⬝ᵥ R.mulVec fun i => (x i : ℝ) := by
    simp only [dotProduct, Matrix.mulVec, Rat.cast_sum, Rat.cast_mul, h, star_trivial]
  rw [← h2] at h1
  exact_mod_cast h1

/-- The pseudo-inverse of a diagonal matrix. -/
theorem pinv_diagonal {n : ℕ} (d : Fin n → ℝ) {B : Matrix (Fin n) (Fin n) ℝ} (h : IsPinv (Matrix.diagonal d) B) : B = Matrix.diagonal fun i => (d i)⁻¹ := by
  refine pinv_unique h ⟨?_, ?_, ?_, ?_⟩
  · rw [Matrix.diagonal_mul_diagonal, Matrix.diagonal_mul_diagonal]
    congr 1; funext i; by_cases h : d i = 0 <;> simp [h]
  · rw [Matrix.diagonal_mul_diagonal, Matrix.diagonal_mul_diagonal]
    congr 1; funext i; by_cases h : d i = 0 <;> simp [h]
  · rw [Matrix.diagonal_mul_diagonal, Matrix.diagonal_transpose]
  · rw [Matrix.diagonal_mul_diagonal, Matrix.diagonal_transpose]

theorem incidence_cast (g : CG) (i b : ℕ) : ((incidence (K := ℚ) g i b : ℚ) : ℝ) = incidence (K := ℝ) g i b := by
  unfold incidence
  split
  · split_ifs <;> simp
  · simp

/-- The collection and the attributes after `getSymbolicExpressions`, and after parameters `k` with `own k e` have been given the expression `e`. -/
structure Prepared (eng : Engine E) (A : Arith E) (own : String → E → Prop) (h : List Circuit.Call) (b : Biases) (pc : PC E) (exprs : Num.Attr → List E) :
    Prop where
  tidy : Tidy eng pc
  unbounded : Unbounded pc
  declared : ∀ x ∈ h, ∀ k, Declares x k → pc.getSymbol k = .ok (writtenAs k) ∧ (¬ Computed h k → ¬ Parametric pc k)
  flow : ∃ C C' N Ci L B Li, capacitanceExpr eng A (run {} h) = .ok C ∧ Standing eng A pc 'C' false (nodes (run {} h)).length C C' ∧
      A.inverse (nodes (run {} h)).length C' = .ok N ∧ Standing eng A pc 'C' true (nodes (run {} h)).length N Ci ∧
      branchInductanceExpr eng A (run {} h) = .ok L ∧ A.pinv (edges (run {} h)).length L = .ok B ∧
      Standing eng A pc 'L' true (nodes (run {} h)).length (toNodesExpr eng A (run {} h) B) Li ∧
      (∀ k ∈ pc.parz.keys, (∃ e, own k e) ∨ StandsIn eng pc 'C' false (nodes (run {} h)).length C k ∨ StandsIn eng pc 'C' true (nodes (run {} h)).length N k ∨
        StandsIn eng pc 'L' true (nodes (run {} h)).length (toNodesExpr eng A (run {} h) B) k) ∧
      exprs = attributes eng A (run {} h) b Ci Li B
  owned : ∀ k e, own k e → k ∈ pc.parz.keys → Stored eng pc k e

/-- After `getSymbolicExpressions`. -/
theorem prepared_start {eng : Engine E} (law : eng.Lawful D) {A : Arith E} {o : Orc} {ex : Resonator → Except Err (ResExprs E)} {again : Bool}
    {h : List Circuit.Call} {b : Biases} (hok : ∀ x ∈ h, x.OK) (ha : AllOk h) (hk : KeepsResonators h) (hlen : (nodes (run {} h)).length ≤ 111)
    (hres : ∀ x ∈ h, ∀ k, Declares x k → ¬ Reserved k) {pc0 pc1 : PC E} {exprs : Num.Attr → List E}
    (h0 : systemParameters eng A o ex again (run {} h) = .ok pc0) (h1 : symbolicExpressions eng A (run {} h) b pc0 = (pc1, .ok exprs))
    {own : String → E → Prop} (hro : ∀ k e, ResOwn (run {} h) ex k e → own k e) (hown : ∀ k e, own k e → ResOwn (run {} h) ex k e ∨
      (¬ Computed h k ∧ ∀ c inv, c = 'C' ∨ c = 'L' → ¬ ∃ i j, k = dname c inv i j)) :
    Prepared eng A own h b pc1 exprs ∧ (∀ k e, ResOwn (run {} h) ex k e → Stored eng pc1 k e) ∧ ∀ r ∈ resonatorsOf (run {} h), ∃ x, ex r = .ok x := by
  obtain ⟨ht, hu, hdecl, hpz, hst, hex, C, C', N, Ci, L, B, Li, c1, c2, c3, c4, l1, l2, l3, cov, e1⟩ := expressions_flow law hok ha hk hlen hres h0 h1
  refine ⟨⟨ht, hu, hdecl, ⟨C, C', N, Ci, L, B, Li, c1, c2, c3, c4, l1, l2, l3, fun k hk => (cov k hk).imp_left fun ⟨e, he⟩ => ⟨e, hro k e he⟩, e1⟩,
    fun k e ho hkey => ?_⟩, hst, hex⟩
  rcases hown k e ho with hr | ⟨hc, hno⟩
  · exact hst k e hr
  · obtain ⟨e', hr⟩ := hpz k hno hkey
    exact absurd (resOwn_computed hok ha hk hr) hc

/-- Without resonators. -/
theorem prepared_first {eng : Engine E} (law : eng.Lawful D) {A : Arith E} {o : Orc} {ex : Resonator → Except Err (ResExprs E)} {again : Bool}
    {h : List Circuit.Call} {b : Biases} (hok : ∀ x ∈ h, x.OK) (ha : AllOk h) (hn : NoResonators h) (hlen : (nodes (run {} h)).length ≤ 111)
    (hres : ∀ x ∈ h, ∀ k, Declares x k → ¬ Reserved k) {pc0 pc1 : PC E} {exprs : Num.Attr → List E}
    (h0 : systemParameters eng A o ex again (run {} h) = .ok pc0) (h1 : symbolicExpressions eng A (run {} h) b pc0 = (pc1, .ok exprs))
    {own : String → E → Prop} (hown : ∀ k e, own k e → ∀ c inv, c = 'C' ∨ c = 'L' → ¬ ∃ i j, k = dname c inv i j) : Prepared eng A own h b pc1 exprs :=
  (prepared_start law hok ha hn.keeps hlen hres h0 h1 (fun _ _ hr => absurd hr (hn.resOwn hok ha))
    fun k e ho => Or.inr ⟨hn.computed k, hown k e ho⟩).1

theorem computed_pre {h : List Circuit.Call} {k : String} (hc : Computed h k) : pre k ≠ some 'p' ∧ pre k ≠ some 'Q' := by
  obtain ⟨n, c, -, hk⟩ := hc
  unfold resonatorComputed at hk
  simp only [List.mem_cons, List.not_mem_nil, or_false] at hk
  unfold pre
  rcases hk with rfl | rfl | rfl | rfl | rfl <;> simp [toString]

theorem electrostatic_posSemidef {h : List Circuit.Call} (hs : Settled h (run {} h)) {val : String → ℝ} {C : Matrix (Fin (nodes (run {} h)).length) (Fin (nodes (run {} h)).length) ℝ}
    (hsymm : C.transpose = C) (hform : ∀ w : ℕ → ℝ, w 0 = 0 → atNodes (run {} h) w ⬝ᵥ C.mulVec (atNodes (run {} h) w) = electrostaticForm val h w)
    (hcaps : NonnegCaps val h) : C.PosSemidef := by
  refine Matrix.PosSemidef.of_dotProduct_mulVec_nonneg ?_ fun x => ?_
  · rw [Matrix.IsHermitian, Matrix.conjTranspose_eq_transpose_of_trivial, hsymm]
  · obtain ⟨w, w0, rfl⟩ := atNodes_surj hs x
    rw [star_trivial, hform w w0]
    exact electrostatic_nonneg hcaps w

/-- The attributes have the values of the matrices, if the pseudo-inverse of the inductance matrix has. -/
theorem prepared_expresses {eng : Engine E} (law : eng.Lawful D) {A : Arith E} (laws : ArithLaws eng law A) {own : String → E → Prop}
    {h : List Circuit.Call} (hs : Settled h (run {} h)) (ha : AllOk h) (hk : KeepsResonators h) (hbare : ∀ c, ReadsBare (run {} h) c → ¬ Computed h c)
    {b : Biases} (hb : createFluxBiases (run {} h) = .ok b)
    (pinv : Matrix (Fin (edges (run {} h)).length) (Fin (edges (run {} h)).length) ℝ → Matrix (Fin (edges (run {} h)).length) (Fin (edges (run {} h)).length) ℝ)
    (u : Prefs) {pc1 : PC E} {exprs : Num.Attr → List E} (hpre : Prepared eng A own h b pc1 exprs) {pc : PC E} {v : String → ℚ}
    {s : Sys PUnit (nodes (run {} h)).length (edges (run {} h)).length} (hsm : pc.symMap = pc1.symMap) (hpz : pc.parz = pc1.parz)
    (hadm : ∀ k f, Admits pc1 k f → Admits pc k f) (hup : UpToDate eng law pc) (hv : ValuesOf h pc v)
    (hsok : assemble (run {} h) b (fun c => (v c : ℝ)) (fun s => (v ("phi" ++ s) : ℝ)) (fun s => (v ("Q" ++ s) : ℝ)) ⟨false, 1⟩ pinv u = .ok s)
    {CR : Mat ℝ} (hCR : capacitance (fun c => (v c : ℝ)) (resonatorCap fun c => (v c : ℝ)) (run {} h) = .ok CR)
    (hsymm : (CR.block (nodes (run {} h)).length (nodes (run {} h)).length).transpose = CR.block _ _)
    (hps : (CR.block (nodes (run {} h)).length (nodes (run {} h)).length).PosSemidef) (hdet : (CR.block (nodes (run {} h)).length (nodes (run {} h)).length).det ≠ 0)
    (hload : ∀ ρ, Valuation eng law pc ρ → (∀ x ∈ h, ∀ k, Declares x k → ¬ Computed h k → Has eng law pc ρ (A.sym (writtenAs k)) (v k)) →
      ∀ n r, (run {} h).resonators.get? n = some (some r) → ∃ q : ℚ, Has eng law pc ρ (A.resonator eng r) q ∧ (q : ℝ) = resonatorCap (fun c => (v c : ℝ)) r)
    {LR : Mat ℝ} (hLR : branchInductance (fun c => (v c : ℝ)) (run {} h) = .ok LR)
    (hpinv : ∀ ρ L B, (∀ c, ReadsBare (run {} h) c → Has eng law pc ρ (A.component c) (v c)) → branchInductanceExpr eng A (run {} h) = .ok L →
      A.pinv (edges (run {} h)).length L = .ok B → ∃ Bq : Matrix (Fin (edges (run {} h)).length) (Fin (edges (run {} h)).length) ℚ,
        (∀ i j : Fin (edges (run {} h)).length, Has eng law pc ρ (B i j) (Bq i j)) ∧ Bq.transpose = Bq ∧ ∀ i j, ((Bq i j : ℚ) : ℝ) = pinv (LR.block _ _) i j) :
    Expresses eng law pc exprs s ∧ ∀ k, Parametric pc k → (∃ e, own k e) ∨ ∃ f, HasSource eng pc k ∧ Computable eng law pc k f := by
  have hok := (settled_run hs).2
  obtain ⟨ht, hu, hdecl, ⟨C, C', N, Ci, L, B, Li, c1, c2, c3, c4, l1, l2, l3, hcov, rfl⟩, -⟩ := hpre
  have hg1 := CleanReachable.good law ht.clean
  obtain ⟨ρ, hρ⟩ := valuation_exists law (pc := pc) (by rw [hsm]; exact hg1.symInj)
  have hpar : ∀ k, Parametric pc k ↔ Parametric pc1 k := fun k => by unfold Parametric getParametricParametersList; rw [hpz]
  have hsym : ∀ k, pc.getSymbol k = pc1.getSymbol k := fun k => by unfold getSymbol; rw [hsm]
  -- the symbols of what the circuit declares
  have hdec : ∀ x ∈ h, ∀ k, Declares x k → ¬ Computed h k → Has eng law pc ρ (A.sym (writtenAs k)) (v k) := by
    intro x hx k hd hnc
    obtain ⟨e1, e2⟩ := hdecl x hx k hd
    exact has_independent laws hρ (by rw [hsym]; exact e1) (hv x k hx hd) (by rw [hpar]; exact e2 hnc)
  have hcomp : ∀ c, ReadsBare (run {} h) c → Has eng law pc ρ (A.component c) (v c) := by
    intro c hc
    obtain ⟨x, hx, hd⟩ := reads_declared hs ha hk hc.reads
    unfold Arith.component
    rw [reads_written hs ha hk hc.reads]
    exact hdec x hx c hd (hbare c hc)
  have hphi : ∀ e t, b.flux.get? e = some (some t) → Has eng law pc ρ (A.sym (biasSymbol Prefixes.default.flux t)) (v ("phi" ++ t)) := by
    intro e t he
    obtain ⟨x, hx, hd⟩ := biases_declared hok ha hb he
    rw [show Prefixes.default.flux = "\\Phi" from rfl, writtenAs_flux]
    exact hdec x hx _ hd fun hc => (computed_pre hc).1 (by unfold pre; simp)
  have hq : ∀ n t, (run {} h).chargeBias.get? n = some t → Has eng law pc ρ (A.sym (biasSymbol Prefixes.default.charge t.suffix)) (v ("Q" ++ t.suffix)) := by
    intro n t hn
    obtain ⟨m, hm⟩ := (charge_run hok ha t).1 (List.mem_map.2 ⟨_, Dict.mem_of_get? hn, rfl⟩)
    rw [show Prefixes.default.charge = "Q" from rfl, writtenAs_charge]
    exact hdec _ hm _ (.charge _ _ _) fun hc => (computed_pre hc).2 (by unfold pre; simp)
  let R : E → ℝ → Prop := fun e x => ∃ q : ℚ, Has eng law pc ρ e q ∧ (q : ℝ) = x
  have hR0 : R (eng.lit (.fin 0)) 0 := ⟨0, has_lit 0, by simp⟩
  have hRv : ∀ c, ReadsBare (run {} h) c → R (A.component c) (v c : ℝ) := fun c hc => ⟨v c, hcomp c hc, rfl⟩
  -- the capacitance matrix
  have hCrel : MatRel R C CR := by
    unfold capacitanceExpr at c1
    exact @capacitance_rel E ℝ ⟨eng.lit (.fin 0)⟩ ⟨A.add⟩ ⟨A.sub⟩ _ _ _ R hR0
      (by rintro a b x y ⟨p, p1, rfl⟩ ⟨q, q1, rfl⟩; exact ⟨p + q, has_add laws p1 q1, by push_cast; rfl⟩)
      (by rintro a b x y ⟨p, p1, rfl⟩ ⟨q, q1, rfl⟩; exact ⟨p - q, has_sub laws p1 q1, by push_cast; rfl⟩)
      _ _ _ _ _ hRv (fun n r hr => hload ρ hρ hdec n r hr) _ _ c1 hCR
  choose X hX hXR using hCrel
  have hXs : ∀ i < (nodes (run {} h)).length, ∀ j < (nodes (run {} h)).length, X i j = X j i := by
    intro i hi j hj
    have := congrFun (congrFun hsymm ⟨i, hi⟩) ⟨j, hj⟩
    simp only [Matrix.transpose_apply, Mat.block] at this
    have e : ((X i j : ℚ) : ℝ) = X j i := by rw [hXR, hXR, this]
    exact_mod_cast e
  have hC' := has_standing laws hρ hup hsm hpz hadm hu hXs (fun i _ j _ => hX i j) c2
  let XM : Matrix (Fin (nodes (run {} h)).length) (Fin (nodes (run {} h)).length) ℚ := fun i j => X i j
  have hXMR : ∀ i j, ((XM i j : ℚ) : ℝ) = CR.block (nodes (run {} h)).length (nodes (run {} h)).length i j := fun i j => hXR i j
  have hXMs : XM.transpose = XM := by ext i j; exact hXs j j.2 i i.2
  let Y : ℕ → ℕ → ℚ := fun i j => if hij : i < (nodes (run {} h)).length ∧ j < (nodes (run {} h)).length then XM⁻¹ ⟨i, hij.1⟩ ⟨j, hij.2⟩ else 0
  have hN : ∀ i < (nodes (run {} h)).length, ∀ j < (nodes (run {} h)).length, Has eng law pc ρ (N i j) (Y i j) := by
    intro i hi j hj
    constructor
    · rw [show Y i j = XM⁻¹ ⟨i, hi⟩ ⟨j, hj⟩ from dif_pos ⟨hi, hj⟩]
      exact laws.inverse ρ _ C' N XM c3 (fun a c => (hC' a a.2 c c.2).1) hXMs (fun x hx => positive_cast XM _ hXMR hps hdet x hx) ⟨i, hi⟩ ⟨j, hj⟩
    · intro t ht
      obtain ⟨a, ha', c, hc', hm⟩ := laws.free_inverse _ _ _ c3 i hi j hj t ht
      exact (hC' a ha' c hc').2 t hm
  have hYs : ∀ i < (nodes (run {} h)).length, ∀ j < (nodes (run {} h)).length, Y i j = Y j i := by
    intro i hi j hj
    simp only [Y, dif_pos (And.intro hi hj), dif_pos (And.intro hj hi)]
    have : (XM⁻¹).transpose = XM⁻¹ := by rw [Matrix.transpose_nonsing_inv, hXMs]
    exact congrFun (congrFun this ⟨j, hj⟩) ⟨i, hi⟩
  have hCi := has_standing laws hρ hup hsm hpz hadm hu hYs hN c4
  -- the inductance matrix
  obtain ⟨Bq, hBq, hBs, hBR⟩ := hpinv ρ L B hcomp l1 l2
  let W : ℕ → ℕ → ℚ := fun i j => if hij : i < (edges (run {} h)).length ∧ j < (edges (run {} h)).length then Bq ⟨i, hij.1⟩ ⟨j, hij.2⟩ else 0
  have hB : ∀ i < (edges (run {} h)).length, ∀ j < (edges (run {} h)).length, Has eng law pc ρ (B i j) (W i j) := by
    intro i hi j hj
    rw [show W i j = Bq ⟨i, hi⟩ ⟨j, hj⟩ from dif_pos ⟨hi, hj⟩]
    exact hBq ⟨i, hi⟩ ⟨j, hj⟩
  have hWs : ∀ i j, W i j = W j i := by
    intro i j
    simp only [W]
    by_cases hij : i < (edges (run {} h)).length ∧ j < (edges (run {} h)).length
    · rw [dif_pos hij, dif_pos ⟨hij.2, hij.1⟩]
      exact congrFun (congrFun hBs ⟨j, hij.2⟩) ⟨i, hij.1⟩
    · rw [dif_neg hij, dif_neg fun x => hij ⟨x.2, x.1⟩]
  have hinc : ∀ i k, Has eng law pc ρ (incidenceExpr eng (run {} h) i k) (incidence (K := ℚ) (run {} h) i k) := fun i k => has_lit _
  let Z : ℕ → ℕ → ℚ := fun i j => ∑ k ∈ Finset.range (edges (run {} h)).length,
    (∑ a ∈ Finset.range (edges (run {} h)).length, incidence (K := ℚ) (run {} h) i a * W a k) * incidence (K := ℚ) (run {} h) j k
  have hZ : ∀ i j, Has eng law pc ρ (toNodesExpr eng A (run {} h) B i j) (Z i j) := by
    intro i j
    exact has_dot laws (fun k hk => has_dot laws (fun a _ => hinc i a) (fun a ha => hB a ha k hk)) (fun k _ => hinc j k)
  have hZs : ∀ i j, Z i j = Z j i := by
    intro i j
    simp only [Z, Finset.sum_mul]
    rw [Finset.sum_comm]
    refine Finset.sum_congr rfl fun a _ => Finset.sum_congr rfl fun k _ => ?_
    rw [hWs k a]
    ring
  have hLi := has_standing laws hρ hup hsm hpz hadm hu (fun i _ j _ => hZs i j) (fun i _ j _ => hZ i j) l3
  -- the vectors
  have hJ : ∀ i, R (@josephsonVector E ⟨eng.lit (.fin 0)⟩ A.component (run {} h) i) (josephsonVector (fun c => (v c : ℝ)) (run {} h) i) := fun i =>
    @josephson_rel E ℝ ⟨eng.lit (.fin 0)⟩ _ R hR0 _ _ _ hRv i
  have hPs : ∀ i, R (@Num.phaseSlipVector E ⟨eng.lit (.fin 0)⟩ A.component (run {} h) i) (Num.phaseSlipVector (fun c => (v c : ℝ)) (run {} h) i) := fun i =>
    @phaseSlip_rel E ℝ ⟨eng.lit (.fin 0)⟩ _ R hR0 _ _ _ hRv i
  have hQ : ∀ i, R (@chargeBiasVector E ⟨eng.lit (.fin 0)⟩ (fun s => A.sym (biasSymbol Prefixes.default.charge s)) (run {} h) i)
      (chargeBiasVector (fun s => (v ("Q" ++ s) : ℝ)) (run {} h) i) := fun i =>
    @chargeBias_rel E ℝ ⟨eng.lit (.fin 0)⟩ _ R hR0 _ _ _ (fun n t hn => ⟨_, hq n t hn, rfl⟩) i
  have hF : ∀ i, R (@fluxBiasVector E ⟨eng.lit (.fin 0)⟩ (fun s => A.sym (biasSymbol Prefixes.default.flux s)) (run {} h) b i)
      (fluxBiasVector (fun s => (v ("phi" ++ s) : ℝ)) (run {} h) b i) := fun i =>
    @fluxBias_rel E ℝ ⟨eng.lit (.fin 0)⟩ _ R hR0 _ _ _ _ (fun e t he => ⟨_, hphi e t he, rfl⟩) i
  have hFi : ∀ i, R (@fluxBiasVectorInd E ⟨eng.lit (.fin 0)⟩ (fun s => A.sym (biasSymbol Prefixes.default.flux s)) (run {} h) b i)
      (fluxBiasVectorInd (fun s => (v ("phi" ++ s) : ℝ)) (run {} h) b i) := fun i =>
    @fluxBiasInd_rel E ℝ ⟨eng.lit (.fin 0)⟩ _ R hR0 _ _ _ _ (fun e t he => ⟨_, hphi e t he, rfl⟩) i
  choose J J1 J2 using hJ
  choose P P1 P2 using hPs
  choose Q Q1 Q2 using hQ
  choose F F1 F2 using hF
  choose G G1 G2 using hFi
  -- the system of numbers
  unfold assemble at hsok
  simp only [hCR, hLR, Verif.Sym.inverseCapacitance, if_neg hdet] at hsok
  cases hsok
  refine ⟨?_, fun k hk => (hcov k ((hpar k).1 hk)).imp_right fun h => ?_⟩
  rotate_left
  · rcases h with h | h | h
    · exact stands_computable laws hpz hadm hu (fun i _ j _ => hX i j) h
    · exact stands_computable laws hpz hadm hu hN h
    · exact stands_computable laws hpz hadm hu (fun i _ j _ => hZ i j) h
  refine ⟨fun
    | .Cinv => rowsE (nodes (run {} h)).length (nodes (run {} h)).length Y
    | .Linv => rowsE (nodes (run {} h)).length (nodes (run {} h)).length Z
    | .LinvB => rowsE (edges (run {} h)).length (edges (run {} h)).length W
    | .J => entriesE (edges (run {} h)).length J
    | .Ps => entriesE (edges (run {} h)).length P
    | .Qb => entriesE (nodes (run {} h)).length Q
    | .Qbt => entriesE (edges (run {} h)).length fun k => ∑ i ∈ Finset.range (nodes (run {} h)).length, incidence (K := ℚ) (run {} h) i k * Q i
    | .Pbm => rowsE (edges (run {} h)).length (edges (run {} h)).length fun i j => if i = j then F i else 0
    | .Pbi => entriesE (nodes (run {} h)).length fun i => ∑ k ∈ Finset.range (edges (run {} h)).length, incidence (K := ℚ) (run {} h) i k * G k, ?_, ?_⟩
  · constructor
    · refine rows_of fun i j => ?_
      simp only [Y, dif_pos (And.intro i.2 j.2)]
      exact inverse_cast XM _ hXMR hdet i j
    · refine rows_of fun i j => ?_
      simp only [transformInductance, toNodes, Bool.false_eq_true, if_false]
      rw [Matrix.mul_apply]
      simp only [Z]
      push_cast
      rw [Finset.sum_range]
      refine Finset.sum_congr rfl fun k _ => ?_
      rw [Matrix.mul_apply, Matrix.transpose_apply, Finset.sum_range]
      unfold Mat.block
      rw [incidence_cast]
      congr 1
      refine Finset.sum_congr rfl fun a _ => ?_
      rw [incidence_cast, show W a k = Bq a k from dif_pos ⟨a.2, k.2⟩, hBR]
      rfl
    · refine rows_of fun i j => ?_
      simp only [branchInverse, Bool.false_eq_true, if_false]
      rw [show W i j = Bq i j from dif_pos ⟨i.2, j.2⟩, hBR]
    · exact entries_of fun i => J2 i
    · exact entries_of fun i => P2 i
    · exact entries_of fun i => Q2 i
    · refine entries_of fun k => ?_
      simp only [Matrix.mulVec, dotProduct]
      push_cast
      rw [Finset.sum_range]
      refine Finset.sum_congr rfl fun i _ => ?_
      rw [Matrix.transpose_apply]
      unfold Mat.block
      rw [incidence_cast, Q2]
    · refine entries_of fun i => ?_
      simp only [fluxBiasNodes, Matrix.mulVec, dotProduct]
      push_cast
      rw [Finset.sum_range]
      refine Finset.sum_congr rfl fun k _ => ?_
      unfold Mat.block
      rw [incidence_cast, G2]
    · refine rows_of fun i j => ?_
      rw [Matrix.diagonal_apply]
      by_cases hij : i = j
      · subst hij
        rw [if_pos rfl, if_pos rfl]
        exact F2 i
      · rw [if_neg (fun e => hij (Fin.ext e)), if_neg hij]
        simp
  · intro a
    cases a
    · exact rows_forall₂ fun i hi j hj => has_value (hCi i hi j hj)
    · exact rows_forall₂ fun i hi j hj => has_value (hLi i hi j hj)
    · exact entries_forall₂ fun i _ => has_value (J1 i)
    · exact entries_forall₂ fun i _ => has_value (P1 i)
    · exact entries_forall₂ fun i _ => has_value (Q1 i)
    · exact entries_forall₂ fun k _ => has_value (has_dot laws (fun i _ => hinc i k) fun i _ => Q1 i)
    · refine rows_forall₂ fun i _ j _ => ?_
      dsimp only
      split_ifs
      · exact has_value (F1 i)
      · exact has_value (has_lit (ρ := ρ) 0)
    · exact entries_forall₂ fun i _ => has_value (has_dot laws (fun k _ => hinc i k) fun k _ => G1 k)
    · exact rows_forall₂ fun i hi j hj => has_value (hB i hi j hj)

/-- The attributes have the values of the matrices. -/
theorem prepared_attributes {eng : Engine E} (law : eng.Lawful D) {A : Arith E} (laws : ArithLaws eng law A) {own : String → E → Prop}
    {h : List Circuit.Call} (hs : Settled h (run {} h)) (ha : AllOk h) (hn : CircuitNetlist h) {b : Biases} (hb : createFluxBiases (run {} h) = .ok b)
    (pinv : Matrix (Fin (edges (run {} h)).length) (Fin (edges (run {} h)).length) ℝ → Matrix (Fin (edges (run {} h)).length) (Fin (edges (run {} h)).length) ℝ)
    (hp : ∀ M, IsPinv M (pinv M)) (u : Prefs) {pc1 : PC E} {exprs : Num.Attr → List E} (hpre : Prepared eng A own h b pc1 exprs) :
    ∀ (pc : PC E) (v : String → ℚ) (s : Sys PUnit (nodes (run {} h)).length (edges (run {} h)).length), pc.symMap = pc1.symMap → pc.parz = pc1.parz →
      (∀ k f, Admits pc1 k f → Admits pc k f) → UpToDate eng law pc → ValuesOf h pc v → PhysicalValues h v →
      assemble (run {} h) b (fun c => (v c : ℝ)) (fun s => (v ("phi" ++ s) : ℝ)) (fun s => (v ("Q" ++ s) : ℝ)) ⟨false, 1⟩ pinv u = .ok s →
      Expresses eng law pc exprs s ∧ ∀ k, Parametric pc k → (∃ e, own k e) ∨ ∃ f, HasSource eng pc k ∧ Computable eng law pc k f := by
  intro pc v s hsm hpz hadm hup hv hphys hsok
  obtain ⟨hcoup, hnores⟩ := circuit_frame hn
  obtain ⟨CR, hCR, hsymm, hform⟩ := circuit_capacitance hs ha hn (fun c => (v c : ℝ))
  have hdet := (netlist_det hs _ hphys.caps _ hsymm hform).2 hphys.ground
  obtain ⟨LR, hLR⟩ := circuit_inductance hs ha hn hb (fun c => (v c : ℝ))
  refine prepared_expresses law laws hs ha (netlist_noRes hn).keeps (fun c _ => (netlist_noRes hn).computed c) hb pinv u hpre hsm hpz hadm hup hv hsok hCR hsymm
    (electrostatic_posSemidef hs hsymm hform hphys.caps) hdet (fun ρ _ _ n r hr => absurd hr (hnores n r)) hLR ?_
  intro ρ L B hcomp l1 l2
  have hLE := @branchInductance_entries E ⟨eng.lit (.fin 0)⟩ _ _ hcoup L l1
  let d : ℕ → ℚ := fun i => (((edges (run {} h))[i]?).bind (indVal v (run {} h))).getD 0
  have hd : ∀ i < (edges (run {} h)).length, Has eng law pc ρ (L i i) (d i) ∧ (d i ≠ 0 ∨ L i i = eng.lit (.fin 0)) := by
    intro i hi
    have e : L i i = (((edges (run {} h))[i]?).bind (indVal A.component (run {} h))).getD (eng.lit (.fin 0)) := by
      rw [hLE i i, if_pos rfl]; rfl
    rw [e]
    simp only [d, List.getElem?_eq_getElem hi, Option.bind_some]
    unfold indVal
    cases hc : (run {} h).cmap.get? (edges (run {} h))[i] with
    | none => exact ⟨has_lit 0, Or.inr rfl⟩
    | some c =>
      simp only
      split_ifs with hL
      · refine ⟨hcomp c (Or.inl ⟨_, hc⟩), Or.inl ?_⟩
        obtain ⟨br, hbr, -, hbc⟩ := wc_branch hs (e := (edges (run {} h))[i]) (List.getElem_mem hi)
        rw [hc] at hbc
        cases hbc
        exact hphys.inductors br (List.mem_filter.2 ⟨(List.mem_filter.1 hbr).1, by
          unfold startsWith; unfold pre at hL; simpa using hL⟩)
      · exact ⟨has_lit 0, Or.inr rfl⟩
  have hB : ∀ i < (edges (run {} h)).length, ∀ j < (edges (run {} h)).length, Has eng law pc ρ (B i j) (if i = j then (d i)⁻¹ else 0) := by
    intro i hi j hj
    constructor
    · exact laws.pinv ρ _ L B d l2 (fun a _ c _ hac => by rw [hLE a c, if_neg hac]; rfl) (fun a ha => (hd a ha).1.1) (fun a ha => (hd a ha).2) i hi j hj
    · intro t ht
      obtain ⟨a, ha', c, hc', hm⟩ := laws.free_pinv _ _ _ l2 i hi j hj t ht
      by_cases hac : a = c
      · subst hac
        exact (hd a ha').1.2 t hm
      · rw [hLE a c, if_neg hac] at hm
        exact (has_lit (eng := eng) (law := law) (pc := pc) (ρ := ρ) 0).2 t hm
  have hLRd : LR.block (edges (run {} h)).length (edges (run {} h)).length = Matrix.diagonal fun i : Fin (edges (run {} h)).length => ((d i : ℚ) : ℝ) := by
    ext i j
    unfold Mat.block
    rw [branchInductance_entries hcoup hLR, Matrix.diagonal_apply]
    by_cases hij : i = j
    · subst hij
      rw [if_pos rfl, if_pos rfl]
      simp only [d, List.getElem?_eq_getElem i.2, Option.bind_some]
      unfold indVal
      cases (run {} h).cmap.get? (edges (run {} h))[(i : ℕ)] with
      | none => simp
      | some c => simp only; split_ifs <;> simp
    · rw [if_neg (fun e => hij (Fin.ext e)), if_neg hij]
  have hpd : pinv (LR.block _ _) = Matrix.diagonal fun i : Fin (edges (run {} h)).length => (((d i : ℚ) : ℝ))⁻¹ := by
    have := hp (LR.block _ _)
    rw [hLRd] at this ⊢
    exact pinv_diagonal _ this
  refine ⟨Matrix.diagonal fun i => (d i)⁻¹, fun i j => ?_, Matrix.diagonal_transpose _, fun i j => ?_⟩
  · have := hB i i.2 j j.2
    rw [Matrix.diagonal_apply]
    by_cases hij : i = j
    · subst hij; simpa using this
    · rw [if_neg hij]
      rwa [if_neg fun e => hij (Fin.ext e)] at this
  · rw [hpd, Matrix.diagonal_apply, Matrix.diagonal_apply]
    split_ifs <;> simp

/-- The attributes are those of the circuit. -/
theorem prepared_symbolic {eng : Engine E} (law : eng.Lawful D) {A : Arith E} (laws : ArithLaws eng law A) {own : String → E → Prop}
    {h : List Circuit.Call} (hs : Settled h (run {} h)) (ha : AllOk h) (hn : CircuitNetlist h) {b : Biases} (hb : createFluxBiases (run {} h) = .ok b)
    (pinv : Matrix (Fin (edges (run {} h)).length) (Fin (edges (run {} h)).length) ℝ → Matrix (Fin (edges (run {} h)).length) (Fin (edges (run {} h)).length) ℝ)
    (hp : ∀ M, IsPinv M (pinv M)) (u : Prefs) {pc1 : PC E} {exprs : Num.Attr → List E} (hpre : Prepared eng A own h b pc1 exprs) :
    SymbolicOf eng law h (run {} h) b pinv u pc1 exprs :=
  fun pc v s h1 h2 h3 h4 h5 h6 h7 => (prepared_attributes law laws hs ha hn hb pinv hp u hpre pc v s h1 h2 h3 h4 h5 h6 h7).1

/-! ### Choosing the bases of the nodes -/

/-- A parameter gets its own expression. -/
theorem Prepared.define {eng : Engine E} {law : eng.Lawful D} {A : Arith E} {own : String → E → Prop} {h : List Circuit.Call} {b : Biases} {pc pc1 pc2 : PC E}
    {exprs : Num.Attr → List E} (hpre : Prepared eng A own h b pc exprs) {k : String} {e : E} (hown : own k e) (hfun : ∀ e', own k e' → e' = e)
    (hp : pre k ≠ some 'p') (hdecl : ∀ x ∈ h, ¬ Declares x k) (hdn : ∀ c inv i j, (c = 'C' ∨ c = 'L') → k ≠ dname c inv i j)
    (h1 : pc.addParameter k = (pc1, .ok ())) (h2 : pc1.addParameterisation eng k e = (pc2, .ok ())) : Prepared eng A own h b pc2 exprs := by
  have hadd := added_one _ _ _ _ h1
  obtain ⟨g1, k1, s1⟩ := add_grown hpre.tidy.syms h1
  have t1 : Tidy eng pc1 := hpre.tidy.add (writtenAs_plain hp) h1
  have hu1 : Unbounded pc1 := by
    intro m hm q
    by_cases h0 : pc.coll.get? m = none
    · have hmk : m = k := by
        rw [hadd.keys] at hm
        rcases hm with hm | hm
        · exact absurd hm ((Dict.get?_eq_none_iff _ _).1 h0)
        · simpa [Dict.keys] using hm
      subst hmk
      obtain ⟨p, a1, a2, -⟩ := hadd.new m none h0 (by simp)
      refine ⟨_, a2, admits_all (new_bounds a1) q⟩
    · obtain ⟨p, hp, hadm⟩ := hpre.unbounded m (by rw [Dict.mem_keys_iff, Option.isSome_iff_ne_none]; exact h0) q
      exact ⟨p, g1.coll _ _ hp, hadm⟩
  have hnone : ∀ m, m ∉ pc.parz.keys → m ∉ pc1.parz.keys := fun m hm => keys_parz g1 not_false hm
  have step1 : Prepared eng A own h b pc1 exprs := by
    obtain ⟨C, C', N, Ci, L, B, Li, c1, c2, c3, c4, l1, l2, l3, cov, e1⟩ := hpre.flow
    refine ⟨t1, hu1, fun x hx m hd => ?_, ⟨C, C', N, Ci, L, B, Li, c1, c2.grown g1 (fun _ _ => not_false), c3, c4.grown g1 (fun _ _ => not_false), l1, l2,
      l3.grown g1 (fun _ _ => not_false), fun m hm => ?_, e1⟩, fun m e' ho hm => ?_⟩
    rotate_left
    · have hm0 : m ∈ pc.parz.keys := by
        by_contra hc
        exact hnone m hc hm
      exact (cov m hm0).imp_right fun h => h.imp (fun h => h.grown g1 not_false) fun h => h.imp (fun h => h.grown g1 not_false) fun h => h.grown g1 not_false
    rotate_left
    · obtain ⟨d1, d2⟩ := hpre.declared x hx m hd
      exact ⟨getSymbol_iff.2 (g1.syms _ _ (getSymbol_iff.1 d1)), fun hc => hnone m (d2 hc)⟩
    · refine (hpre.owned m e' ho ?_).grown g1 not_false
      by_contra hc
      exact hnone m hc hm
  by_cases hin : k ∈ pc1.parz.keys
  · rw [parz_again (CleanReachable.good law t1.clean) (step1.owned k e hown hin)] at h2
    cases h2
    exact step1
  · obtain ⟨g2, st2, s2⟩ := parz_grown s1 h2
    have t2 : Tidy eng pc2 := t1.parz hin h2
    have hcoll : pc2.coll = pc1.coll := by
      obtain ⟨names, b1, -⟩ := parz_set h2
      exact b1
    obtain ⟨C, C', N, Ci, L, B, Li, c1, c2, c3, c4, l1, l2, l3, cov, e1⟩ := step1.flow
    refine ⟨t2, ?_, fun x hx m hd => ?_, ⟨C, C', N, Ci, L, B, Li, c1, c2.grown g2 (fun i j h => hdn _ _ i j (Or.inl rfl) h.symm), c3,
      c4.grown g2 (fun i j h => hdn _ _ i j (Or.inl rfl) h.symm), l1, l2, l3.grown g2 (fun i j h => hdn _ _ i j (Or.inr rfl) h.symm), fun m hm => ?_, e1⟩,
      fun m e' ho hm => ?_⟩
    rotate_left 2
    · by_cases hmk : m = k
      · exact Or.inl ⟨e, hmk ▸ hown⟩
      · have hm0 : m ∈ pc1.parz.keys := by
          by_contra hc
          exact keys_parz g2 hmk hc hm
        exact (cov m hm0).imp_right fun h => h.imp (fun h => h.grown g2 hmk) fun h => h.imp (fun h => h.grown g2 hmk) fun h => h.grown g2 hmk
    rotate_left
    · intro m hm q
      rw [hcoll] at hm
      obtain ⟨p, hp, hadm⟩ := hu1 m hm q
      exact ⟨p, by rw [hcoll]; exact hp, hadm⟩
    · obtain ⟨d1, d2⟩ := step1.declared x hx m hd
      exact ⟨getSymbol_iff.2 (g2.syms _ _ (getSymbol_iff.1 d1)), fun hc => keys_parz g2 (fun e => hdecl x hx (e ▸ hd)) (d2 hc)⟩
    · by_cases hmk : m = k
      · subst hmk
        rw [hfun e' ho]
        exact st2
      · refine (step1.owned m e' ho ?_).grown g2 hmk
        by_contra hc
        exact keys_parz g2 hmk hc hm

/-- Setting values keeps the expressions. -/
theorem Prepared.values {eng : Engine E} {law : eng.Lawful D} {A : Arith E} {own : String → E → Prop} {h : List Circuit.Call} {b : Biases} {pc pc' : PC E}
    {exprs : Num.Attr → List E} (hpre : Prepared eng A own h b pc exprs) (hcl : CleanReachable eng pc') (hsm : pc'.symMap = pc.symMap)
    (hpz : pc'.parz = pc.parz) (hadm : ∀ k f, Admits pc k f → Admits pc' k f) : Prepared eng A own h b pc' exprs := by
  have hg := CleanReachable.good law hcl
  have hkeys : ∀ k, k ∈ pc'.coll.keys ↔ k ∈ pc.coll.keys := fun k => by rw [← hg.sameKeys, hsm, hpre.tidy.syms.2]
  have hst : ∀ k e, Stored eng pc k e → Stored eng pc' k e := by
    rintro k e ⟨h1, ns, h2, h3⟩
    exact ⟨by rw [Dict.has_iff, hkeys, ← Dict.has_iff]; exact h1, ns, by rw [hpz]; exact h2, by rw [hsm]; exact h3⟩
  have hstand : ∀ c inv n M M', Standing eng A pc c inv n M M' → Standing eng A pc' c inv n M M' := by
    intro c inv n M M' hs i j hij hj
    rcases hs i j hij hj with h | ⟨h1, h2, s, h3, h4⟩
    · exact Or.inl h
    · exact Or.inr ⟨hst _ _ h1, h2, s, by rw [hsm]; exact h3, h4⟩
  have hstands : ∀ c inv n M k, StandsIn eng pc c inv n M k → StandsIn eng pc' c inv n M k := by
    rintro c inv n M k ⟨i, j, h1, h2, h3, h4, h5⟩
    exact ⟨i, j, h1, h2, h3, h4, hst _ _ h5⟩
  obtain ⟨C, C', N, Ci, L, B, Li, c1, c2, c3, c4, l1, l2, l3, cov, e1⟩ := hpre.flow
  refine ⟨⟨hcl, ⟨hg.symKeys, hg.sameKeys⟩, by rw [hsm]; exact hpre.tidy.own⟩, fun k hk q => hadm _ _ (hpre.unbounded k ((hkeys k).1 hk) q), fun x hx k hd => ?_,
    ⟨C, C', N, Ci, L, B, Li, c1, hstand _ _ _ _ _ c2, c3, hstand _ _ _ _ _ c4, l1, l2, hstand _ _ _ _ _ l3, fun k hk => ?_, e1⟩, fun k e ho hk => ?_⟩
  rotate_left
  · exact (cov k (by rw [← hpz]; exact hk)).imp_right fun h => h.imp (hstands _ _ _ _ _) fun h => h.imp (hstands _ _ _ _ _) (hstands _ _ _ _ _)
  rotate_left
  · obtain ⟨d1, d2⟩ := hpre.declared x hx k hd
    exact ⟨getSymbol_iff.2 (by rw [hsm]; exact getSymbol_iff.1 d1), fun hc => by have d2 := d2 hc; unfold Parametric getParametricParametersList at d2 ⊢; rw [hpz]; exact d2⟩
  · exact hst _ _ (hpre.owned k e ho (by rw [← hpz]; exact hk))

/-- The frequencies and impedances of the nodes. -/
def OscOwn (freq imp : ℕ → E) (k : String) (e : E) : Prop := ∃ n, (k = NS.fName n ∧ e = freq n) ∨ (k = NS.zName n ∧ e = imp n)

theorem fName_inj {a b : ℕ} (h : NS.fName a = NS.fName b) : a = b := by
  have := congrArg String.toList h
  unfold NS.fName at this
  simp only [String.toList_append, List.append_cancel_left_eq] at this
  exact Nat.repr_injective (String.toList_inj.1 this)

theorem zName_inj {a b : ℕ} (h : NS.zName a = NS.zName b) : a = b := by
  have := congrArg String.toList h
  unfold NS.zName at this
  simp only [String.toList_append, List.append_cancel_left_eq] at this
  exact Nat.repr_injective (String.toList_inj.1 this)

theorem oscillator_names (n m : ℕ) (c : String) (hc : pre c = some 'C') : ∀ k ∈ resonatorNames n c, k ≠ NS.fName m ∧ k ≠ NS.zName m := by
  obtain ⟨hne, hdig⟩ := digits_of n
  have key : ∀ (a : Char) (t : List Char) (k : String), k.toList = a :: ((toString n).toList ++ t) → k ≠ NS.fName m ∧ k ≠ NS.zName m := by
    intro a t k hk
    constructor <;>
    · rintro rfl
      cases hd : (toString n).toList with
      | nil => exact hne hd
      | cons d ds =>
        have h1 := hdig d (by rw [hd]; simp)
        rw [hd] at hk
        simp [NS.fName, NS.zName] at hk
        rw [← hk.2.1] at h1
        revert h1; decide
  intro k hk
  unfold resonatorNames at hk
  simp only [List.mem_cons, List.not_mem_nil, or_false] at hk
  rcases hk with rfl | hk
  · constructor <;> (rintro rfl; unfold pre at hc; simp [NS.fName, NS.zName] at hc)
  · rcases hk with rfl | rfl | rfl | rfl | rfl | rfl | rfl
    · exact key 'f' ['r'] _ (by simp [toString])
    · exact key 'Z' ['r'] _ (by simp [toString])
    · exact key 'C' ['r'] _ (by simp [toString])
    · exact key 'L' ['r'] _ (by simp [toString])
    · exact key 'g' ['r'] _ (by simp [toString])
    · exact key 'f' ['r', 'l'] _ (by simp [toString])
    · exact key 'Z' ['r', 'l'] _ (by simp [toString])

/-- No parameter of the circuit is called like the frequency or the impedance of a node. -/
theorem declared_not {h : List Circuit.Call} (hok : ∀ x ∈ h, x.OK) (ha : AllOk h) {x : Circuit.Call} (hx : x ∈ h) {k : String}
    (hd : Declares x k) (m : ℕ) : k ≠ NS.fName m ∧ k ≠ NS.zName m := by
  have hpre : pre k ≠ some 'f' ∧ pre k ≠ some 'Z' → k ≠ NS.fName m ∧ k ≠ NS.zName m := by
    rintro ⟨h1, h2⟩
    constructor <;> rintro rfl
    · exact h1 (by unfold pre NS.fName; simp)
    · exact h2 (by unfold pre NS.zName; simp)
  obtain ⟨l, l', he⟩ := List.append_of_mem hx
  have hl : ∀ y ∈ l, y.OK := fun y hy => hok y (by rw [he]; simp [hy])
  have hs := ha l x l' he
  cases hd with
  | branch o a b =>
    have := addBranch_okPrefix (show (addBranch o (run {} l) a b k).2 = .ok () from hs)
    unfold okPrefix at this
    apply hpre
    constructor <;> (intro e; rw [e] at this; revert this; decide)
  | «mutual» a b =>
    obtain ⟨-, -, h1, -⟩ := coupleBranches_ok (show (coupleBranches (run {} l) a b k).2 = .ok () from hs)
    apply hpre; rw [h1]; decide
  | gate n s =>
    obtain ⟨-, -, -, -, h1, -⟩ := addChargeBias_ok (show (addChargeBias (run {} l) n s (some k)).2 = .ok () from hs)
    apply hpre; rw [(h1 _ rfl).1]; decide
  | charge n s c => apply hpre; unfold pre; simp
  | coil c s =>
    obtain ⟨-, -, -, -, -, -, -, -, h1, -⟩ := addFluxBias_ok (graphInv_run l).toWF (traced_run hl) (show (addFluxBias (run {} l) c s (some k)).2 = .ok () from hs)
    apply hpre; rw [(h1 _ rfl).1]; decide
  | flux c s m => apply hpre; unfold pre; simp
  | resonator n c k hk =>
    refine oscillator_names n m c ?_ k hk
    obtain ⟨-, -, -, h1, -⟩ := coupleResonator_ok (show (coupleResonator (run {} l) n c).2 = .ok () from hs)
    exact h1

theorem Prepared.configure {R O : Type} {eng : Engine E} {law : eng.Lawful D} {A : Arith E} {freq imp : ℕ → E} {h : List Circuit.Call} {b : Biases}
    (hok : ∀ x ∈ h, x.OK) (ha : AllOk h) {own : String → E → Prop} (ho : ∀ k e, OscOwn freq imp k e → own k e)
    (hf : ∀ n e, own (NS.fName n) e → e = freq n) (hz : ∀ n e, own (NS.zName n) e → e = imp n) {st st' : NS E R O} {node trunc : ℕ} {basis : BasisName}
    (hpre : Prepared eng A own h b st.sw.pc st.exprs) (hc : st.configureOperator eng freq imp node trunc basis = (st', .ok ())) :
    Prepared eng A own h b st'.sw.pc st'.exprs ∧ st'.nodes = st.nodes := by
  by_cases hb : basis = .oscillator
  · subst hb
    obtain ⟨-, p₁, p₂, p₃, p₄, h1, h2, h3, h4, rfl⟩ := configure_cases eng st st' freq imp node trunc hc
    have preF : pre (NS.fName node) = some 'f' := by unfold pre NS.fName; simp
    have preZ : pre (NS.zName node) = some 'Z' := by unfold pre NS.zName; simp
    have ne : ∀ {k : String} {a : Char}, pre k = some a → a ≠ 'C' → a ≠ 'L' → ∀ c inv i j, (c = 'C' ∨ c = 'L') → k ≠ dname c inv i j := by
      rintro k a hk a1 a2 c inv i j hcl rfl
      unfold pre at hk
      rw [dname_toList] at hk
      rcases hcl with rfl | rfl <;> simp at hk
      · exact a1 hk.symm
      · exact a2 hk.symm
    have s1 := hpre.define (law := law) (k := NS.fName node) (e := freq node) (ho _ _ ⟨node, Or.inl ⟨rfl, rfl⟩⟩) (hf node)
      (by rw [preF]; decide) (fun x hx hd => (declared_not hok ha hx hd node).1 rfl) (ne preF (by decide) (by decide)) h1 h2
    have s2 := s1.define (law := law) (k := NS.zName node) (e := imp node) (ho _ _ ⟨node, Or.inr ⟨rfl, rfl⟩⟩) (hz node)
      (by rw [preZ]; decide) (fun x hx hd => (declared_not hok ha hx hd node).2 rfl) (ne preZ (by decide) (by decide)) h3 h4
    exact ⟨s2, rfl⟩
  · unfold NS.configureOperator at hc
    by_cases hnode : node ∈ st.nodes
    · rw [if_neg (not_not.2 hnode), if_neg hb] at hc
      cases hc
      exact ⟨hpre, rfl⟩
    · rw [if_pos hnode] at hc
      cases hc

/-- After any use. -/
theorem prepared_used_own {R O : Type} {eng : Engine E} {law : eng.Lawful D} {A : Arith E} {freq imp : ℕ → E} {gen : List (ℕ × BasisName) → ℕ → Option PF → Except Err O}
    {h : List Circuit.Call} {b : Biases} (hok : ∀ x ∈ h, x.OK) (ha : AllOk h) {own : String → E → Prop} (ho : ∀ k e, OscOwn freq imp k e → own k e)
    (hf : ∀ n e, own (NS.fName n) e → e = freq n) (hz : ∀ n e, own (NS.zName n) e → e = imp n) {st st' : NS E R O}
    (hpre : Prepared eng A own h b st.sw.pc st.exprs) (hu : Used eng gen freq imp st st') :
    Prepared eng A own h b st'.sw.pc st'.exprs ∧ st'.nodes = st.nodes := by
  induction hu with
  | start => exact ⟨hpre, rfl⟩
  | configure node trunc basis _ hc ih =>
    obtain ⟨a1, a2⟩ := Prepared.configure (law := law) hok ha ho hf hz ih.1 hc
    exact ⟨a1, a2.trans ih.2⟩
  | @set s s' ho fuel args _ hset ih =>
    obtain ⟨k1, k2, k3⟩ := set_clean ih.1.tidy.clean hset
    obtain ⟨f1, -, f3, f4, -⟩ := setCall_frame eng gen s (ho, fuel, .many args)
    have hset' : s.set eng gen (ho, fuel, .many args) = (s', .ok ()) := hset
    rw [hset'] at f1 f3 f4
    refine ⟨?_, f3.trans ih.2⟩
    rw [f1]
    exact ih.1.values (law := law) k2 f4 k3 fun k f => set_admits law ih.1.tidy.clean k1

theorem oscOwn_freq {freq imp : ℕ → E} (n : ℕ) (e : E) (h : OscOwn freq imp (NS.fName n) e) : e = freq n := by
  obtain ⟨m, ⟨e1, rfl⟩ | ⟨e1, -⟩⟩ := h
  · rw [fName_inj e1]
  · exact absurd e1 (names_differ _ _)

theorem oscOwn_imp {freq imp : ℕ → E} (n : ℕ) (e : E) (h : OscOwn freq imp (NS.zName n) e) : e = imp n := by
  obtain ⟨m, ⟨e1, -⟩ | ⟨e1, rfl⟩⟩ := h
  · exact absurd e1.symm (names_differ _ _)
  · rw [zName_inj e1]

theorem oscOwn_dname {freq imp : ℕ → E} {k : String} {e : E} (h : OscOwn freq imp k e) (c : Char) (inv : Bool) (hcl : c = 'C' ∨ c = 'L') :
    ¬ ∃ i j, k = dname c inv i j := by
  rintro ⟨i, j, e⟩
  obtain ⟨n, hk⟩ := h
  have hd := dname_toList c inv i j
  rw [← e] at hd
  rcases hk with ⟨rfl, -⟩ | ⟨rfl, -⟩ <;> rcases hcl with rfl | rfl <;> cases inv <;> simp [NS.fName, NS.zName] at hd

/-- Without resonators. -/
theorem prepared_used {R O : Type} {eng : Engine E} {law : eng.Lawful D} {A : Arith E} {freq imp : ℕ → E} {gen : List (ℕ × BasisName) → ℕ → Option PF → Except Err O}
    {h : List Circuit.Call} {b : Biases} (hok : ∀ x ∈ h, x.OK) (ha : AllOk h) {st st' : NS E R O}
    (hpre : Prepared eng A (OscOwn freq imp) h b st.sw.pc st.exprs) (hu : Used eng gen freq imp st st') :
    Prepared eng A (OscOwn freq imp) h b st'.sw.pc st'.exprs ∧ st'.nodes = st.nodes :=
  prepared_used_own (law := law) hok ha (fun _ _ h => h) oscOwn_freq oscOwn_imp hpre hu

/-- A new system. -/
theorem prepared_new {R O : Type} {eng : Engine E} (law : eng.Lawful D) {A : Arith E} {o : Orc} {ex : Resonator → Except Err (ResExprs E)} {again : Bool}
    {freq imp : ℕ → E} {h : List Circuit.Call} {b : Biases} (hok : ∀ x ∈ h, x.OK) (ha : AllOk h) (hn : NoResonators h)
    (hlen : (nodes (run {} h)).length ≤ 111) (hres : ∀ x ∈ h, ∀ k, Declares x k → ¬ Reserved k) {pc : PC E} {st₀ : NS E R O}
    (hpc : systemParameters eng A o ex again (run {} h) = .ok pc) (hst : numericalSystem eng A (run {} h) b pc = .ok st₀) :
    Prepared eng A (OscOwn freq imp) h b st₀.sw.pc st₀.exprs ∧ st₀.nodes = nodes (run {} h) := by
  unfold numericalSystem at hst
  split at hst
  · cases hst
  rename_i pc1 exprs heq
  cases hst
  refine ⟨prepared_first law hok ha hn hlen hres hpc heq ?_, rfl⟩
  exact fun k e ho c inv hcl => oscOwn_dname ho c inv hcl

/-- **C102 (partial)** The expressions of a circuit.  Take any netlist of capacitors, inductors, junctions and phase slips with flux and charge
biases, built by successful calls, in which no component has the name of a matrix element, let `SymbolicSystem` collect its parameters and
`getSymbolicExpressions` compute the symbolic attributes.  The collection is consistent, and at all values of the parameters for which the
circuit can be quantised the attributes are its matrices and vectors: also those entries for which the symbol of a derived parameter
(`C12`, `iC12`, `iL12`) is put in.
Missing: mutual inductances (`C103_symbolic_partial`), resonators (`C104_symbolic_partial`) and coordinate transforms; netlists with names of matrix elements, for which the claim is false
(`C36_false_user_name`). -/
theorem C102_symbolic_partial (eng : Engine E) (law : eng.Lawful D) (A : Arith E) (laws : ArithLaws eng law A) (o : Orc)
    (ex : Resonator → Except Err (ResExprs E)) (again : Bool) (h : List Circuit.Call) (g : CG) (hs : Settled h g) (ha : AllOk h) (hn : CircuitNetlist h)
    (hlen : (nodes g).length ≤ 111) (hres : ∀ x ∈ h, ∀ k, Declares x k → ¬ Reserved k) (b : Biases) (hb : createFluxBiases g = .ok b)
    (pinv : Matrix (Fin (edges g).length) (Fin (edges g).length) ℝ → Matrix (Fin (edges g).length) (Fin (edges g).length) ℝ)
    (hp : ∀ M, IsPinv M (pinv M)) (u : Prefs) (pc0 pc1 : PC E) (exprs : Num.Attr → List E)
    (h0 : systemParameters eng A o ex again g = .ok pc0) (h1 : symbolicExpressions eng A g b pc0 = (pc1, .ok exprs)) :
    CleanReachable eng pc1 ∧ SymbolicOf eng law h g b pinv u pc1 exprs := by
  obtain ⟨rfl, hok⟩ := settled_run hs
  have hpre := prepared_first law hok ha (netlist_noRes hn) hlen hres h0 h1 (own := fun _ _ => False) fun _ _ h => h.elim
  exact ⟨hpre.tidy.clean, prepared_symbolic law laws hs ha hn hb pinv hp u hpre⟩

/-- **C102 (partial)** From the calls that describe a circuit to its Hamiltonian, without anything in between to be supplied but the arithmetic of
sympy.  Take any netlist of capacitors, inductors, junctions and phase slips with flux and charge biases, built by successful calls, in which
no component has the name of a matrix element.  Make the symbolic and the numerical system of the circuit, and use it: choose bases
and set values, in any order.  Whenever `setParameterValues` succeeds and leaves values for which the circuit can be quantised, `getHamiltonian`
succeeds and returns the operator read off the netlist at those values, in the operators that `getOperatorList` gives for the present
impedances.
Missing: as for `C97_operator_partial` and `C102_symbolic_partial`. -/
theorem C102_hamiltonian_partial (h : List Circuit.Call) (g : CG) (hs : Settled h g) (ha : AllOk h) (hn : CircuitNetlist h)
    (hlen : (nodes g).length ≤ 111) (hres : ∀ x ∈ h, ∀ k, Declares x k → ¬ Reserved k) (b : Biases) (hb : createFluxBiases g = .ok b) :
    ∃ sgn : String → ℝ, (∀ c, sgn c = 1 ∨ sgn c = -1) ∧
    (∀ br ∈ branches h, ∀ e ∈ edges g, g.cmap.get? e = some br.2.2 → (sgn br.2.2 = 1 ↔ e.1 = br.1)) ∧
    ∀ (E D R P X V Q : Type) (eng : Engine E) (law : eng.Lawful D) (A : Arith E) (_ : ArithLaws eng law A) (o : Orc)
      (ex : Resonator → Except Err (ResExprs E)) (again : Bool) (freq imp : ℕ → E) (u : Prefs) (cfg : Fin (nodes g).length → NodeCfg)
      (ops : ∀ i, Option PF → Except Err (NodeOps (cfg i).dim)) (base : Phys (BigNode cfg) (BigOp cfg) P X V R)
      (pc : PC E) (st₀ st st' : NS E Q (BigNode cfg)) (_ : systemParameters eng A o ex again g = .ok pc) (_ : numericalSystem eng A g b pc = .ok st₀)
      (_ : Used eng (circuitPhys g u cfg ops base).gen freq imp st₀ st) (ho : HashOrder) (fuel : ℕ) (args : List BulkArg)
      (_ : st.setParameterValues eng ho fuel (circuitPhys g u cfg ops base).gen args = (st', .ok ()))
      (v : String → ℚ) (_ : ValuesOf h st'.sw.pc v) (_ : PhysicalValues h v),
    ∃ (C : Matrix (Fin (nodes g).length) (Fin (nodes g).length) ℝ) (o : ∀ i, NodeOps (cfg i).dim) (N : Fin (nodes g).length → BigNode cfg),
      C.transpose = C ∧ C.det ≠ 0 ∧
      (∀ w : ℕ → ℝ, w 0 = 0 → atNodes g w ⬝ᵥ C.mulVec (atNodes g w) = electrostaticForm (fun c => (v c : ℝ)) h w) ∧
      (∀ i, ∃ z, ImpedanceIs st' ((nodes g).get i) (cfg i).basis z ∧ ops i z = .ok (o i)) ∧ (∀ i, expandNode cfg i (o i) = some (N i)) ∧
      callMethod (circuitPhys g u cfg ops base) st' .getHamiltonian none {} =
        .ok (.inl (netlistOperator (nodes g) h u.Ec u.El u.Ej u.Ep C (fun c => (v c : ℝ)) (gateCharge (fun s => (v ("Q" ++ s) : ℝ)) h)
          (fun c => sgn c * fluxOn (fun s => (v ("phi" ++ s) : ℝ)) h c) (nodeOperators N))) := by
  obtain ⟨sgn, h1, h2, h3⟩ := C101_hamiltonian_partial h g hs ha hn b hb
  refine ⟨sgn, h1, h2, ?_⟩
  intro E D R P X V Q eng law A laws o ex again freq imp u cfg ops base pc st₀ st st' hpc hst hused ho fuel args hset v hv hphys
  choose pinv hp using fun M : Matrix (Fin (edges g).length) (Fin (edges g).length) ℝ => pinv_exists M
  obtain ⟨rfl, hok⟩ := settled_run hs
  have hst₀ := prepared_new law hok ha (netlist_noRes hn) hlen hres hpc hst (freq := freq) (imp := imp)
  obtain ⟨k1, k2⟩ := prepared_used (law := law) hok ha hst₀.1 hused
  exact h3 E D R P X V Q eng law laws.numbers pinv hp u cfg ops base st st' (k2.trans hst₀.2) k1.tidy.clean
    (prepared_symbolic law laws hs ha hn hb pinv hp u k1) ho fuel args hset v hv hphys

theorem linearSweep_bounds {p p' : Param} {a b : PyVal} {n : CountArg} {pts : List PF} (h : p.linearSweep a b n = (p', .ok pts)) : p'.lo = p.lo ∧ p'.hi = p.hi := by
  unfold Param.linearSweep at h
  split at h
  · cases h
  split at h
  · cases h
  split at h
  · cases h
  split_ifs at h <;> cases h
  exact ⟨rfl, rfl⟩

theorem setValue_bounds {p p' : Param} (h : p'.lo = p.lo ∧ p'.hi = p.hi) {f : PF} (hs : (p.setValue (.float f)).2 = .ok ()) : (p'.setValue (.float f)).2 = .ok () := by
  unfold Param.setValue at hs ⊢
  simp only [PyVal.toFloat?, h.1, h.2] at hs ⊢
  split_ifs at hs ⊢ <;> first | rfl | cases hs

/-- **C102 (partial)** The same at the points of a sweep: when a system that was used in any way lays out a sweep of any parameters, its symbolic attributes are
still those of the circuit at all values.  This is what `C101_levels_partial` asks of the expressions.
Missing: as for `C102_symbolic_partial`. -/
theorem C102_sweep_partial {R O : Type} (eng : Engine E) (law : eng.Lawful D) (A : Arith E) (laws : ArithLaws eng law A) (o : Orc)
    (ex : Resonator → Except Err (ResExprs E)) (again : Bool) (h : List Circuit.Call) (g : CG) (hs : Settled h g) (ha : AllOk h) (hn : CircuitNetlist h)
    (hlen : (nodes g).length ≤ 111) (hres : ∀ x ∈ h, ∀ k, Declares x k → ¬ Reserved k) (b : Biases) (hb : createFluxBiases g = .ok b)
    (pinv : Matrix (Fin (edges g).length) (Fin (edges g).length) ℝ → Matrix (Fin (edges g).length) (Fin (edges g).length) ℝ)
    (hp : ∀ M, IsPinv M (pinv M)) (u : Prefs) (pc : PC E) (st₀ st : NS E R O) (h0 : systemParameters eng A o ex again g = .ok pc)
    (h1 : numericalSystem eng A g b pc = .ok st₀) (gen : List (ℕ × BasisName) → ℕ → Option PF → Except Err O) (freq imp : ℕ → E)
    (hu : Used eng gen freq imp st₀ st) (specs : List SweepSpec) (hnd : (sweptNames specs).Nodup) (sw : SW E R) (hsw : st.sw.ndSweep specs = (sw, .ok ())) :
    st.nodes = nodes g ∧ CleanReachable eng sw.pc ∧ SymbolicOf eng law h g b pinv u sw.pc st.exprs := by
  obtain ⟨rfl, hok⟩ := settled_run hs
  obtain ⟨i1, i2⟩ := prepared_new law hok ha (netlist_noRes hn) hlen hres h0 h1 (freq := freq) (imp := imp)
  obtain ⟨k1, k2⟩ := prepared_used (law := law) hok ha i1 hu
  have hcl : CleanReachable eng sw.pc := by
    have := ndSweep_clean (st := st.sw) k1.tidy.clean specs
    rw [hsw] at this
    exact this
  obtain ⟨w, hw⟩ := SW.ndSweep_ok hsw hnd
  refine ⟨k2.trans i2, hcl, prepared_symbolic law laws hs ha hn hb pinv hp u (k1.values (law := law) hcl hw.symMap_eq hw.parz_eq ?_)⟩
  rintro k f ⟨p, hp1, hp2⟩
  by_cases hk : k ∈ sweptNames specs
  · obtain ⟨s, hs1, rfl⟩ := List.mem_map.1 hk
    obtain ⟨j, hj⟩ := List.mem_iff_getElem?.1 hs1
    obtain ⟨p1, p2, pts, e1, e2, e3, -⟩ := hw.swept j s hj
    rw [hp1] at e1
    cases e1
    exact ⟨p2, e3, setValue_bounds (linearSweep_bounds e2) hp2⟩
  · exact ⟨p, by rw [hw.others k hk]; exact hp1, hp2⟩

theorem configured_unset {R O : Type} (eng : Engine E) (freq imp : ℕ → E) (cs : List (ℕ × ℕ × BasisName)) (st : NS E R O) (hn : st.num = []) (hv : st.vec = none) :
    (cs.foldl (fun s c => (s.configureOperator eng freq imp c.1 c.2.1 c.2.2).1) st).num = [] ∧
    (cs.foldl (fun s c => (s.configureOperator eng freq imp c.1 c.2.1 c.2.2).1) st).vec = none := by
  induction cs generalizing st with
  | nil => exact ⟨hn, hv⟩
  | cons c cs ih =>
    have : (st.configureOperator eng freq imp c.1 c.2.1 c.2.2).1.num = [] ∧ (st.configureOperator eng freq imp c.1 c.2.1 c.2.2).1.vec = none := by
      unfold NS.configureOperator
      split
      · exact ⟨hn, hv⟩
      · split
        · repeat' split
          all_goals exact ⟨hn, hv⟩
        · exact ⟨hn, hv⟩
    exact ih _ this.1 this.2

/-- **C102** `getHamiltonian` on a new system raises, however its operators were configured: values have to be set first. -/
theorem C102_unset (g : CG) (b : Biases) {E R P X V Q : Type} (eng : Engine E) (A : Arith E) (pc : PC E) (u : Prefs) (cfg : Fin (nodes g).length → NodeCfg)
    (ops : ∀ i, Option PF → Except Err (NodeOps (cfg i).dim)) (base : Phys (BigNode cfg) (BigOp cfg) P X V R) (freq imp : ℕ → E)
    (st₀ : NS E Q (BigNode cfg)) (h : numericalSystem eng A g b pc = .ok st₀) (cs : List (ℕ × ℕ × BasisName)) :
    ∃ e, callMethod (circuitPhys g u cfg ops base) (cs.foldl (fun s c => (s.configureOperator eng freq imp c.1 c.2.1 c.2.2).1) st₀) .getHamiltonian none {} = .error e := by
  have h0 : st₀.num = [] ∧ st₀.vec = none := by
    unfold numericalSystem at h
    split at h
    · cases h
    · cases h
      exact ⟨rfl, rfl⟩
  obtain ⟨_, h2⟩ := configured_unset eng freq imp cs st₀ h0.1 h0.2
  exact C101_unset g u cfg ops base _ (Or.inr h2)

end Verif.Props
