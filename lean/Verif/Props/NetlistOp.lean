import Verif.Lemmas.NetlistOp
import Verif.Props.Expansion

/-!
# C97: from the calls that describe a circuit to the operator that is diagonalised
-/

namespace Verif.Props

open Verif Verif.Circuit Verif.Sym Verif.Num Verif.Spec Complex Matrix

/-- The operators of the nodes, as the specification names them. -/
def nodeOperators {n : ℕ} {cfg : Fin n → NodeCfg} (N : Fin n → BigNode cfg) : NodeOperators (BigOp cfg) n :=
  ⟨fun i => (N i).Q, fun i => (N i).P, fun i => (N i).D, fun i => (N i).Ddag, fun i => (N i).S, fun i => (N i).Sdag⟩

theorem num_smul {A : Type} [Ring A] [Algebra ℂ A] (x : ℝ) (a : A) : num A x * a = ((x : ℝ) : ℂ) • a := by
  rw [Algebra.smul_def]; rfl

theorem num_one {A : Type} [Ring A] [Algebra ℂ A] (x : ℝ) : num A x = ((x : ℝ) : ℂ) • (1 : A) := by
  rw [← num_smul, mul_one]

theorem expTau_smul {A : Type} [Ring A] [Algebra ℂ A] (x : ℝ) (a : A) : expTau A x * a = exp (2 * Real.pi * x * I) • a := by
  unfold expTau
  rw [← Algebra.smul_def]
  congr 2
  ring

/-- The quadratic form of operators in terms of multiples. -/
theorem quadOp_smul {A : Type} [Ring A] [Algebra ℂ A] {n : ℕ} (M : Matrix (Fin n) (Fin n) ℝ) (x : Fin n → A) :
    quadOp (num A) M x = ∑ i, ∑ j, ((M i j : ℝ) : ℂ) • (x i * x j) := by
  unfold quadOp
  apply Finset.sum_congr rfl; intro i _
  rw [Finset.mul_sum]
  apply Finset.sum_congr rfl; intro j _
  rw [num_smul, mul_smul_comm]

theorem sum_filter_of_zero {α A : Type} [AddCommMonoid A] (l : List α) (P : α → Bool) (f : α → A) (h : ∀ a, P a = false → f a = 0) :
    ((l.filter P).map f).sum = (l.map f).sum := by
  induction l with
  | nil => rfl
  | cons a l ih =>
    cases hp : P a with
    | true => rw [List.filter_cons_of_pos hp, List.map_cons, List.sum_cons, ih, List.map_cons, List.sum_cons]
    | false => rw [List.filter_cons_of_neg (by simp [hp]), ih, List.map_cons, List.sum_cons, h a hp, zero_add]

theorem atNumber_comm {A : Type} [Ring A] {n : List ℕ} (D Dd : Fin n.length → A) (hc : ∀ i j, i ≠ j → D i * Dd j = Dd j * D i) {a b : ℕ} (hab : a ≠ b) :
    atNumber n D 1 a * atNumber n Dd 1 b = atNumber n Dd 1 b * atNumber n D 1 a := by
  unfold atNumber
  split_ifs with h1 h2 h2
  · apply hc
    intro hh
    exact hab ((List.idxOf_inj (List.idxOf_lt_length_iff.1 h1)).1 (Fin.mk.inj_iff.1 hh))
  all_goals simp

/-- The loop over the junctions or phase slips: `E k` is the energy of the branch `k`, `x k` its bias, `y a b c s` the bias of the component
`c` from `a` to `b` if the oriented circuit lists it in this direction (`s = 1`) or not. -/
theorem branch_loop {A : Type} [Ring A] [Algebra ℂ A] {h : List Call} {g : CG} (hs : Settled h g) (hends : ∀ b ∈ branches h, b.1 ≠ b.2.1)
    (p : Char) (hp : p ≠ 'C') (val : String → ℝ) (E x : Fin (edges g).length → ℝ) (y : ℕ → ℕ → String → ℝ → ℝ)
    (hy : ∀ a b c s, y b a c (-s) = -y a b c s)
    (hE : ∀ k c, g.cmap.get? ((edges g).get k) = some c → E k = if startsWith c p = true then val c else 0)
    (hx : ∀ k c, g.cmap.get? ((edges g).get k) = some c → startsWith c p = true → x k = y ((edges g).get k).1 ((edges g).get k).2.1 c 1)
    (terms : Fin (edges g).length → List (ℝ × ℕ)) (ht : ∀ k, terms k = branchTerms g (fun i j => if i = j then 1 else 0) ((edges g).get k))
    (D Dd : Fin (nodes g).length → A) (hc : ∀ i j, i ≠ j → D i * Dd j = Dd j * D i) :
    branchSum (num A (1 / 2)) (fun j => if h : j < (nodes g).length then D ⟨j, h⟩ else 0) (fun j => if h : j < (nodes g).length then Dd ⟨j, h⟩ else 0)
      (((List.finRange (edges g).length).filter fun k => E k ≠ 0).map fun k => ⟨num A (E k), expTau A (x k), expTau A (-(x k)), terms k⟩) 0 =
    some (-((branchesOf p (branches h)).map fun b => ((val b.2.2 / 2 : ℝ) : ℂ) •
      (exp (2 * Real.pi * y b.1 b.2.1 b.2.2 (biasSign h g b.2.2) * I) • (atNumber (nodes g) D 1 b.1 * atNumber (nodes g) Dd 1 b.2.1) +
        exp (-(2 * Real.pi * y b.1 b.2.1 b.2.2 (biasSign h g b.2.2) * I)) • (atNumber (nodes g) Dd 1 b.1 * atNumber (nodes g) D 1 b.2.1))).sum) := by
  have hne : ∀ k, ((edges g).get k).1 ≠ ((edges g).get k).2.1 := by
    intro k
    obtain ⟨b, hb, hbr, -⟩ := wc_branch hs (List.get_mem (edges g) k)
    have := hends b (List.mem_filter.1 hb).1
    rcases hbr with ⟨h1, h2⟩ | ⟨h1, h2⟩ <;> rw [h1, h2]
    · exact this
    · exact this.symm
  rw [branchSum_spec, if_pos, zero_add, List.map_map]
  swap
  · intro b hb
    obtain ⟨k, -, rfl⟩ := List.mem_map.1 hb
    show terms k ≠ []
    rw [ht]
    exact terms_nonempty hs k (hne k)
  congr 1
  rw [sum_filter_of_zero _ _ _ (by
    intro k hk
    have h0 : E k = 0 := by simpa using hk
    simp [h0])]
  rw [← Fin.sum_univ_def]
  have key := sum_netlist hs hends p hp (A := A) (fun a b c s => -(((val c / 2 : ℝ) : ℂ) •
      (exp (2 * Real.pi * y a b c s * I) • (atNumber (nodes g) D 1 a * atNumber (nodes g) Dd 1 b) +
        exp (-(2 * Real.pi * y a b c s * I)) • (atNumber (nodes g) Dd 1 a * atNumber (nodes g) D 1 b))))
    (by
      intro a b c s hab
      rw [hy, atNumber_comm D Dd hc hab, ← atNumber_comm D Dd hc hab.symm, add_comm]
      push_cast
      simp only [neg_mul, mul_neg, neg_neg])
    (fun k => -(num A (1 / 2) * num A (E k) * (dispProduct (fun j => if h : j < (nodes g).length then D ⟨j, h⟩ else 0)
      (fun j => if h : j < (nodes g).length then Dd ⟨j, h⟩ else 0) false (terms k) (expTau A (x k)) +
      dispProduct (fun j => if h : j < (nodes g).length then D ⟨j, h⟩ else 0)
      (fun j => if h : j < (nodes g).length then Dd ⟨j, h⟩ else 0) true (terms k) (expTau A (-(x k))))))
    (by
      intro k c hck
      rw [ht, disp_branch hs (List.get_mem _ _) (hne k) D Dd hc, disp_branch hs (List.get_mem _ _) (hne k) D Dd hc, hE k c hck]
      by_cases hcp : startsWith c p = true
      · rw [if_pos hcp, if_pos hcp, hx k c hck hcp, expTau_smul, expTau_smul, ← map_mul, num_smul]
        simp only [Bool.false_eq_true, if_false, if_true]
        push_cast
        simp only [mul_neg, neg_mul]
        congr 2
        ring
      · rw [if_neg hcp, if_neg hcp]
        simp)
  refine Eq.trans ?_ (key.trans ?_)
  · rfl
  · generalize branchesOf p (branches h) = l
    induction l with
    | nil => simp
    | cons a l ih =>
      simp only [List.map_cons, List.sum_cons, neg_add]
      rw [ih]

/-- **C97** Which circuits can be quantised: for every netlist of capacitors, inductors, junctions and phase slips, all non-negative
capacitances and all other values, the numbers of the Hamiltonian are computed if and only if every node is connected to the ground through
non-zero capacitances; otherwise the inversion of the capacitance matrix raises. -/
theorem C97_quantisable (h : List Call) (g : CG) (hs : Settled h g) (ha : AllOk h) (hn : CircuitNetlist h) (b : Biases)
    (hb : createFluxBiases g = .ok b) (val phi q : String → ℝ) (hv : NonnegCaps val h) (t : Transform ℝ (nodes g).length)
    (pinv : Matrix (Fin (edges g).length) (Fin (edges g).length) ℝ → Matrix (Fin (edges g).length) (Fin (edges g).length) ℝ) (u : Prefs) :
    ((∃ s, assemble g b val phi q t pinv u = .ok s) ↔ ∀ n ∈ nodesOf (branches h), Conn (capacitiveNet val h) n 0) ∧
    ((∀ s, assemble g b val phi q t pinv u ≠ .ok s) → assemble g b val phi q t pinv u = .error .valueError) := by
  obtain ⟨C, hC, hsym, hform⟩ := circuit_capacitance hs ha hn val
  have h1 := circuit_assemble hs ha hn hb val phi q t pinv u hC
  refine ⟨h1.trans (netlist_det hs val hv _ hsym hform), fun hno => ?_⟩
  have hd : (C.block (nodes g).length (nodes g).length).det = 0 := by
    by_contra hd
    obtain ⟨s, hs'⟩ := h1.2 hd
    exact hno s hs'
  unfold assemble
  simp only [hC]
  unfold inverseCapacitance
  simp [hd]

/-- The condition on the biases of the inductors, for the branches of the oriented circuit. -/
theorem grounded_edges {h : List Call} {g : CG} (hs : Settled h g) (ha : AllOk h) {b : Biases} (hb : createFluxBiases g = .ok b) {phi : String → ℝ}
    (hg : GroundedBiases phi h) : ∀ e ∈ g.wc, IsInductor g e → biasVal phi b.flux e ≠ 0 →
      (e.1 = 0 ∧ e.2.1 ≠ 0 ∧ ∀ e' ∈ g.wc, IsInductor g e' → e' ≠ e → e'.1 ≠ e.2.1 ∧ e'.2.1 ≠ e.2.1) ∨
      (e.2.1 = 0 ∧ e.1 ≠ 0 ∧ ∀ e' ∈ g.wc, IsInductor g e' → e' ≠ e → e'.1 ≠ e.1 ∧ e'.2.1 ≠ e.1) := by
  rintro e he ⟨c, hc, hL⟩ hne
  obtain ⟨br, hbr, hbe, hc'⟩ := wc_branch hs he
  obtain rfl : br.2.2 = c := Option.some.inj (hc'.symm.trans hc)
  rw [biasVal_eq hs ha hb phi he hc'] at hne
  obtain ⟨n, hn0, hends, hothers⟩ := hg br (List.mem_filter.2 ⟨(List.mem_filter.1 hbr).1, hL⟩) hne
  have others : ∀ e' ∈ g.wc, IsInductor g e' → e' ≠ e → e'.1 ≠ n ∧ e'.2.1 ≠ n := by
    rintro e' he' ⟨c', hc1, hL'⟩ hee
    obtain ⟨br', hbr', hbe', hc2⟩ := wc_branch hs he'
    obtain rfl : br'.2.2 = c' := Option.some.inj (hc2.symm.trans hc1)
    have hbb : br' ≠ br := by
      rintro rfl
      exact hee (wc_name_inj hs he' he hc2 hc')
    obtain ⟨o1, o2⟩ := hothers br' (List.mem_filter.2 ⟨(List.mem_filter.1 hbr').1, hL'⟩) hbb
    rcases hbe' with ⟨k1, k2⟩ | ⟨k1, k2⟩ <;> rw [k1, k2]
    · exact ⟨o1, o2⟩
    · exact ⟨o2, o1⟩
  rcases hends with ⟨z1, z2⟩ | ⟨z1, z2⟩ <;> rcases hbe with ⟨k1, k2⟩ | ⟨k1, k2⟩
  · left; rw [k1, k2, z1, z2]; exact ⟨rfl, hn0, others⟩
  · right; rw [k1, k2, z1, z2]; exact ⟨rfl, hn0, others⟩
  · right; rw [k1, k2, z1, z2]; exact ⟨rfl, hn0, others⟩
  · left; rw [k1, k2, z1, z2]; exact ⟨rfl, hn0, others⟩

/-- **C97 (partial)** From the calls to the operator that is diagonalised: take any netlist of capacitors, inductors, junctions and phase
slips between different nodes, built by successful calls, with flux and charge biases, without a transform.  Give the components any values
(capacitances not negative, every node connected to the ground through capacitors, inductances not zero) and the biases any values, and choose for
every node any basis and truncation for which its operators can be put on the whole space, and any operators there.  Then the Hamiltonian
exists and is the operator read off the netlist: charging energy in the capacitances of the netlist, inductors, cosines of the junctions and
cosines of the phase slips, each between the nodes it was added between, the ground at rest.  A bias counts in the direction in which the
oriented circuit graph lists its component.
Missing: biased inductors at a node with another inductor or away from the ground, for which it is false (`C59_false`); mutual inductances (C103);
transforms. -/
theorem C97_operator_partial (h : List Call) (g : CG) (hs : Settled h g) (ha : AllOk h) (hn : CircuitNetlist h) (b : Biases)
    (hb : createFluxBiases g = .ok b) :
    ∃ sgn : String → ℝ, (∀ c, sgn c = 1 ∨ sgn c = -1) ∧
    (∀ br ∈ branches h, ∀ e ∈ edges g, g.cmap.get? e = some br.2.2 → (sgn br.2.2 = 1 ↔ e.1 = br.1)) ∧
    ∀ (val phi q : String → ℝ) (_ : NonnegCaps val h) (_ : ∀ n ∈ nodesOf (branches h), Conn (capacitiveNet val h) n 0)
      (_ : ∀ br ∈ branchesOf 'L' (branches h), val br.2.2 ≠ 0) (_ : GroundedBiases phi h)
      (pinv : Matrix (Fin (edges g).length) (Fin (edges g).length) ℝ → Matrix (Fin (edges g).length) (Fin (edges g).length) ℝ)
      (_ : ∀ M, IsPinv M (pinv M)) (u : Prefs) (cfg : Fin (nodes g).length → NodeCfg) (o : ∀ i, NodeOps (cfg i).dim)
      (N : Fin (nodes g).length → BigNode cfg) (_ : ∀ i, expandNode cfg i (o i) = some (N i)),
    ∃ s C, assemble g b val phi q ⟨false, 1⟩ pinv u = .ok s ∧ C.transpose = C ∧ C.det ≠ 0 ∧
      (∀ v : ℕ → ℝ, v 0 = 0 → atNodes g v ⬝ᵥ C.mulVec (atNodes g v) = electrostaticForm val h v) ∧
      hamiltonian (s.withNodes N) = some (netlistOperator (nodes g) h u.Ec u.El u.Ej u.Ep C val (gateCharge q h)
        (fun c => sgn c * fluxOn phi h c) (nodeOperators N)) := by
  refine ⟨biasSign h g, fun c => by unfold biasSign; split_ifs <;> simp, ?_, ?_⟩
  · intro br hbr e he hc
    have hne := hn.ends br hbr
    rcases biasSign_branch hs hn.ends hbr he hc with ⟨k1, -, k3, -⟩ | ⟨k1, -, k3, -⟩
    · rw [k1, k3]; simp
    · rw [k1, k3]
      constructor
      · intro h1; norm_num at h1
      · intro h1; exact absurd h1.symm hne
  intro val phi q hv hconn hval hgr pinv hp u cfg o N hN
  obtain ⟨C, hC, hsym, hform⟩ := circuit_capacitance hs ha hn val
  have hdet := (netlist_det hs val hv _ hsym hform).2 hconn
  obtain ⟨s, hsok⟩ := (circuit_assemble hs ha hn hb val phi q ⟨false, 1⟩ pinv u hC).2 hdet
  have hsok' := hsok
  unfold assemble at hsok
  simp only [hC] at hsok
  unfold inverseCapacitance at hsok
  rw [if_neg hdet] at hsok
  simp only at hsok
  cases hM : branchInductance val g with
  | error e => rw [hM] at hsok; cases hsok
  | ok M =>
  rw [hM] at hsok
  have hseq := (Except.ok.inj hsok).symm
  refine ⟨s, C.block _ _, hsok', hsym, hdet, hform, ?_⟩
  -- the numbers
  have hu : s.u = u := by rw [hseq]
  have hCi : s.Cinv = (C.block (nodes g).length (nodes g).length)⁻¹ := by rw [hseq]; rfl
  have hcoup : g.coupled = [] := by obtain ⟨rfl, -⟩ := settled_run hs; exact (circuit_frame hn).1
  have hL : s.Linv = inductorMatrix (nodes g) val (branches h) := by
    apply inductor_matrix_eq hs hcoup val hval pinv (fun M _ => hp _)
    rw [hseq]
    unfold inverseInductance
    rw [hM]; rfl
  have hQb : ∀ i : Fin (nodes g).length, s.Qb i = gateCharge q h ((nodes g).get i) := by
    intro i
    rw [hseq]
    show chargeBiasVector q g i = _
    obtain ⟨rfl, hok⟩ := settled_run hs
    rw [gateCharge_eq hok ha]
    unfold chargeBiasVector
    rw [List.getElem?_eq_getElem i.2]
    rfl
  have hPbi : s.Pbi = atNodes g (nodeShift phi g b) := by
    rw [hseq]; exact fluxBiasNodes_eq hs phi b
  have ht : ∀ k, s.terms k = branchTerms g (fun i j => if i = j then 1 else 0) ((edges g).get k) := by
    intro k
    rw [hseq]
    exact identity_terms hs 1 rfl (List.get_mem _ _)
  have hcomm : ∀ i j, i ≠ j → (N i).D * (N j).Ddag = (N j).Ddag * (N i).D ∧ (N i).S * (N j).Sdag = (N j).Sdag * (N i).S := by
    intro i j hij
    obtain ⟨-, -, d1, d2, d3, d4⟩ := expandNode_some (hN i)
    obtain ⟨-, -, e1, e2, e3, e4⟩ := expandNode_some (hN j)
    exact ⟨C39_commute cfg i j hij _ _ _ _ d1 e2, C39_commute cfg i j hij _ _ _ _ d3 e4⟩
  have hat : ∀ n ∈ nodesOf (branches h), ¬ (nodes g).idxOf n < (nodes g).length → n = 0 := by
    intro n hn' hi
    rw [List.idxOf_lt_length_iff, (C29_rows h g hs).2] at hi
    by_contra h0
    exact hi ⟨hn', h0⟩
  -- the loops
  have hJ := branch_loop hs hn.ends 'I' (by decide) val s.J s.Pb (fun _ _ c σ => σ * fluxOn phi h c) (by intros; ring)
    (by
      intro k c hc
      rw [hseq]
      show josephsonVector val g k = _
      unfold josephsonVector
      have hc' : g.cmap.get? ((edges g)[(k : ℕ)]'k.2) = some c := hc
      rw [List.getElem?_eq_getElem k.2]
      simp only [hc', ← startsWith_iff])
    (by
      intro k c hc hI
      rw [hseq]
      show fluxBiasVector phi g b k = _
      unfold fluxBiasVector
      have hc' : g.cmap.get? ((edges g)[(k : ℕ)]'k.2) = some c := hc
      rw [List.getElem?_eq_getElem k.2]
      simp only
      rw [if_pos, biasVal_eq hs ha hb phi (List.getElem_mem k.2) hc', one_mul]
      unfold isEdgeOf
      rw [hc']
      simp [(startsWith_iff _ _).1 hI])
    s.terms ht (fun i => (N i).D) (fun i => (N i).Ddag) (fun i j hij => (hcomm i j hij).1)
  have hV := branch_loop hs hn.ends 'V' (by decide) val s.Ps s.Qbt
    (fun a b _ _ => (if a = 0 then 0 else gateCharge q h a) - if b = 0 then 0 else gateCharge q h b) (by intros; ring)
    (by
      intro k c hc
      rw [hseq]
      show phaseSlipVector val g k = _
      unfold phaseSlipVector
      have hc' : g.cmap.get? ((edges g)[(k : ℕ)]'k.2) = some c := hc
      rw [List.getElem?_eq_getElem k.2]
      simp only [hc', ← startsWith_iff])
    (by
      intro k c hc hI
      have h1 : s.Qbt = branchFluxes g s.Qb := by rw [hseq]; rfl
      have h2 : s.Qb = fun i => (fun n => if n = 0 then 0 else gateCharge q h n) ((nodes g).get i) := by
        funext i
        rw [hQb]
        have := ((C29_rows h g hs).2 ((nodes g).get i)).1 (List.get_mem _ _)
        dsimp only
        rw [if_neg this.2]
      rw [h1, h2]
      exact branchFluxes_eq hs (fun n => if n = 0 then 0 else gateCharge q h n) (by simp) k)
    s.terms ht (fun i => (N i).S) (fun i => (N i).Sdag) (fun i j hij => (hcomm i j hij).2)
  unfold hamiltonian
  have hJ' : branchSum (num (BigOp cfg) (1 / 2)) (s.withNodes N).D (s.withNodes N).Ddag ((josBranches (s.withNodes N)).map (josData (s.withNodes N))) 0 = _ := hJ
  have hV' : branchSum (num (BigOp cfg) (1 / 2)) (s.withNodes N).S (s.withNodes N).Sdag ((slipBranches (s.withNodes N)).map (slipData (s.withNodes N))) 0 = _ := hV
  rw [hJ', hV']
  dsimp only
  congr 1
  unfold netlistOperator
  have hu' : (s.withNodes N).u = u := hu
  rw [sub_eq_add_neg, sub_eq_add_neg, hu']
  congr 1
  swap
  · rw [num_smul, smul_neg]
    congr 1
    rw [List.smul_sum, List.map_map]
    congr 1
    apply List.map_congr_left
    intro br _
    dsimp only [Function.comp]
    rw [smul_smul]
    congr 1
    push_cast
    ring
  congr 1
  swap
  · rw [num_smul, smul_neg]
    congr 1
    rw [List.smul_sum, List.map_map]
    congr 1
    apply List.map_congr_left
    intro br _
    dsimp only [Function.comp]
    rw [smul_smul]
    congr 1
    push_cast
    ring
  unfold linearPart
  rw [hu']
  congr 1
  · rw [quadOp_smul, num_smul]
    congr 1
    · congr 1; ring
    apply Finset.sum_congr rfl; intro i _
    apply Finset.sum_congr rfl; intro j _
    have h1 : (s.withNodes N).Cinv = (C.block (nodes g).length (nodes g).length)⁻¹ := hCi
    have h2 : ∀ i, (s.withNodes N).Qb i = gateCharge q h ((nodes g).get i) := hQb
    rw [h1, h2, h2, num_one, num_one]
    rfl
  · have h1 : (s.withNodes N).Linv = inductorMatrix (nodes g) val (branches h) := hL
    have h2 : (s.withNodes N).Pbi = atNodes g (nodeShift phi g b) := hPbi
    rw [h1, h2, quadOp_inductors (num (BigOp cfg)) (fun x a => Algebra.commutes _ a) (C29_rows h g hs).1, num_smul, List.smul_sum, List.map_map]
    congr 1
    apply List.map_congr_left
    intro br hbr
    have hbr' := (List.mem_filter.1 hbr).1
    dsimp only [Function.comp]
    rw [num_smul, smul_smul]
    congr 1
    · push_cast
      have : ((val br.2.2 : ℝ) : ℂ) ≠ 0 := by exact_mod_cast hval br hbr
      field_simp
    congr 1
    have hn' : ∀ n ∈ nodesOf (branches h), atNumber (nodes g) (fun i => (s.withNodes N).P i + num (BigOp cfg) (atNodes g (nodeShift phi g b) i)) 0 n =
        atNumber (nodes g) (nodeOperators N).P 0 n + num (BigOp cfg) (nodeShift phi g b n) := by
      intro n hn1
      unfold atNumber
      split_ifs with hi
      · simp only [atNodes, List.get_eq_getElem, List.getElem_idxOf]
        rfl
      · rw [hat n hn1 hi]
        simp [nodeShift]
    rw [hn' _ (List.mem_toFinset.2 (List.mem_flatMap.2 ⟨br, hbr', by simp⟩)), hn' _ (List.mem_toFinset.2 (List.mem_flatMap.2 ⟨br, hbr', by simp⟩))]
    have hdiff : nodeShift phi g b br.1 - nodeShift phi g b br.2.1 = biasSign h g br.2.2 * fluxOn phi h br.2.2 := by
      have hcond : br ∈ conductors (branches h) := by
        refine List.mem_filter.2 ⟨hbr', ?_⟩
        cases hC' : startsWith br.2.2 'C' with
        | false => rfl
        | true => exact absurd (startsWith_unique hC' (List.mem_filter.1 hbr).2) (by decide)
      obtain ⟨e, he, hc⟩ := conductor_in_wc_ne hs hcond (hn.ends br hbr')
      have hk := nodeShift_diff hs phi b (grounded_edges hs ha hb hgr) he ⟨_, hc, (List.mem_filter.1 hbr).2⟩
      rw [biasVal_eq hs ha hb phi he hc] at hk
      rcases biasSign_branch hs hn.ends hbr' he hc with ⟨k1, k2, k3, -⟩ | ⟨k1, k2, k3, -⟩
      · rw [k1, k2] at hk; rw [k3, hk, one_mul]
      · rw [k1, k2] at hk; rw [k3, ← hk]; ring
    rw [← hdiff, ← num_one, map_sub]
    abel

/-- A junction across a biased inductor, coupled through a capacitor and a phase slip to a second node with a gate. -/
def slipSquid : List Call :=
  [.addBranch Orc.id 0 1 "C1", .addBranch Orc.id 0 1 "L1", .addBranch Orc.id 0 1 "I1", .addBranch Orc.id 1 2 "C2", .addBranch Orc.id 1 2 "V1",
    .addFluxBias "L1" (some "z") none, .addChargeBias 2 (some "g") none]

theorem slipSquid_settled : Settled slipSquid (run {} slipSquid) :=
  ⟨[.addBranch Orc.id 0 1 "C1", .addBranch Orc.id 0 1 "L1", .addBranch Orc.id 0 1 "I1", .addBranch Orc.id 1 2 "C2"], Orc.id, 1, 2, "V1",
    [.addFluxBias "L1" (some "z") none, .addChargeBias 2 (some "g") none],
    rfl, by simp [slipSquid, Call.OK, orcId_ok], by decide +kernel, by simp, rfl⟩

theorem slipSquid_ok : AllOk slipSquid := by
  apply allOk_of_prefixes
  decide +kernel

theorem slipSquid_branches : branches slipSquid = [(0, 1, "C1"), (0, 1, "L1"), (0, 1, "I1"), (1, 2, "C2"), (1, 2, "V1")] := by decide +kernel

theorem slipSquid_netlist : CircuitNetlist slipSquid := by
  refine ⟨by simp [slipSquid], ?_, ?_⟩
  · rw [slipSquid_branches]; decide +kernel
  · rw [slipSquid_branches]; decide +kernel

theorem slipSquid_conn (val : String → ℝ) (h1 : val "C1" ≠ 0) (h2 : val "C2" ≠ 0) :
    ∀ n ∈ nodesOf (branches slipSquid), Conn (capacitiveNet val slipSquid) n 0 := by
  intro n hn
  rw [slipSquid_branches] at hn
  have hn' : n = 0 ∨ n = 1 ∨ n = 2 := by
    revert hn; revert n; decide +kernel
  have m1 : ((0, 1, 0) : ℕ × ℕ × ℕ) ∈ capacitiveNet val slipSquid := by
    unfold capacitiveNet
    rw [slipSquid_branches]
    refine List.mem_append_left _ ?_
    simp [branchesOf, wires, h1, h2, startsWith]
  have m2 : ((1, 2, 0) : ℕ × ℕ × ℕ) ∈ capacitiveNet val slipSquid := by
    unfold capacitiveNet
    rw [slipSquid_branches]
    refine List.mem_append_left _ ?_
    simp [branchesOf, wires, h1, h2, startsWith]
  have c1 : Conn (capacitiveNet val slipSquid) 1 0 := Conn.symm (Conn.edge m1)
  rcases hn' with rfl | rfl | rfl
  · exact Conn.refl _ _
  · exact c1
  · exact (Conn.symm (Conn.edge m2)).trans c1

/-- The hypotheses of `C97_quantisable` and `C97_operator_partial` are met, with one node in the oscillator basis and one in the charge basis,
a bias on the inductor and any operators of the nodes. -/
example : ∃ (b : Biases) (val phi : String → ℝ)
    (pinv : Matrix (Fin (edges (run {} slipSquid)).length) (Fin (edges (run {} slipSquid)).length) ℝ →
      Matrix (Fin (edges (run {} slipSquid)).length) (Fin (edges (run {} slipSquid)).length) ℝ)
    (cfg : Fin (nodes (run {} slipSquid)).length → NodeCfg), (nodes (run {} slipSquid)).length = 2 ∧
    Settled slipSquid (run {} slipSquid) ∧ AllOk slipSquid ∧ CircuitNetlist slipSquid ∧ createFluxBiases (run {} slipSquid) = .ok b ∧
    NonnegCaps val slipSquid ∧ (∀ n ∈ nodesOf (branches slipSquid), Conn (capacitiveNet val slipSquid) n 0) ∧
    (∀ br ∈ branchesOf 'L' (branches slipSquid), val br.2.2 ≠ 0) ∧ fluxOn phi slipSquid "L1" ≠ 0 ∧ GroundedBiases phi slipSquid ∧
    (∀ M, IsPinv M (pinv M)) ∧ ∀ o : ∀ i, NodeOps (cfg i).dim, ∃ N : Fin (nodes (run {} slipSquid)).length → BigNode cfg,
      ∀ i, expandNode cfg i (o i) = some (N i) := by
  choose pinv hp using fun M : Matrix (Fin (edges (run {} slipSquid)).length) (Fin (edges (run {} slipSquid)).length) ℝ => pinv_exists M
  have hb : ∃ b, createFluxBiases (run {} slipSquid) = .ok b := by
    cases hc : createFluxBiases (run {} slipSquid) with
    | ok b => exact ⟨b, rfl⟩
    | error e =>
      have : (match createFluxBiases (run {} slipSquid) with | .ok _ => true | .error _ => false) = true := by decide +kernel
      rw [hc] at this
      cases this
  obtain ⟨b, hb⟩ := hb
  have hL : branchesOf 'L' (branches slipSquid) = [(0, 1, "L1")] := by rw [slipSquid_branches]; decide +kernel
  have hg : ∀ n, Spec.gateCap (fun _ => 1) slipSquid n = 0 := by
    intro n
    unfold Spec.gateCap slipSquid
    simp
  refine ⟨b, fun _ => 1, fun _ => 1, pinv, fun i => if (i : ℕ) = 0 then ⟨7, .oscillator⟩ else ⟨5, .charge⟩, by decide +kernel,
    slipSquid_settled, slipSquid_ok, slipSquid_netlist, hb, ⟨fun _ _ => zero_le_one, fun n _ => (hg n).ge⟩, ?_, fun _ _ => one_ne_zero, ?_, ?_, hp, ?_⟩
  · exact slipSquid_conn _ one_ne_zero one_ne_zero
  · unfold fluxOn slipSquid
    simp
  · intro br hbr _
    rw [hL] at hbr
    refine ⟨1, one_ne_zero, Or.inl ?_, ?_⟩
    · rw [List.mem_singleton.1 hbr]; exact ⟨rfl, rfl⟩
    · intro b' hb' hne
      rw [hL] at hb'
      exact absurd ((List.mem_singleton.1 hb').trans (List.mem_singleton.1 hbr).symm) hne
  · intro o
    have hst : Standard (fun i : Fin (nodes (run {} slipSquid)).length => if (i : ℕ) = 0 then NodeCfg.mk 7 .oscillator else ⟨5, .charge⟩) := by
      intro i
      by_cases hi : (i : ℕ) = 0
      · simp [hi]
      · simp [hi]
    choose N hN using fun i => expandNode_standard hst i (o i)
    exact ⟨N, hN⟩

end Verif.Props
