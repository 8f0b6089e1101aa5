import Verif.Props.Currents
import Verif.Props.NetlistLoaded
import Verif.Props.NetlistMutualExamples
import Verif.Spec.CurrentsMutual

/-!
# C99: the current and voltage operators with mutual inductances and resonators
-/

namespace Verif.Props

open Verif Verif.Circuit Verif.Sym Verif.Num Verif.Spec Complex Matrix

/-- A diagonal entry of the pseudo-inverse is the current that produces one unit of flux in its own inductor and none in the others. -/
theorem pinv_entry {A : Type} [Ring A] [Algebra ℂ A] {h : List Call} {g : CG} (hs : Settled h g) (ha : AllOk h) (hn : LoadedNetlist h) (val : String → ℝ)
    (pinv : Matrix (Fin (edges g).length) (Fin (edges g).length) ℝ → Matrix (Fin (edges g).length) (Fin (edges g).length) ℝ)
    (hp : ∀ M, IsPinv M (pinv M)) {M : Mat ℝ} (hM : branchInductance val g = .ok M) (k : Fin (edges g).length) {c : String}
    (hc : g.cmap.get? ((edges g).get k) = some c) (hL : startsWith c 'L' = true) (J : String → A)
    (hJ : Produces val (biasSign h g) h J fun b => if b.2.2 = c then 1 else 0) : num A (pinv (M.block _ _) k k) = J c := by
  have hr : ∀ x (a : A), num A x * a = a * num A x := fun x a => Algebra.commutes _ a
  have hsg : ∀ c, biasSign h g c * biasSign h g c = 1 := by
    intro c; unfold biasSign; split_ifs <;> norm_num
  set σ := biasSign h g with hσ
  set W := M.block (edges g).length (edges g).length with hW
  have hsym : Wᵀ = W := by
    obtain ⟨_, _, h3⟩ := branchInductance_ok hM
    ext i j; exact h3 _ _
  let I : Fin (edges g).length → A := fun k => match g.cmap.get? ((edges g).get k) with
    | some c' => if startsWith c' 'L' = true then num A (σ c' * σ c) * J c' else 0
    | none => 0
  have hI : ∀ k c', g.cmap.get? ((edges g).get k) = some c' → I k = if startsWith c' 'L' = true then num A (σ c' * σ c) * J c' else 0 := by
    intro k c hc; simp only [I, hc]
  have hWI : (W.map (num A)) *ᵥ I = Pi.single k 1 := by
    funext i
    have he : (edges g).get i ∈ g.wc := List.get_mem _ _
    obtain ⟨br, hbr, -, hcb⟩ := wc_branch hs he
    have hbr' := (List.mem_filter.1 hbr).1
    by_cases hcL : startsWith br.2.2 'L' = true
    · have h1 : ((W.map (num A)) *ᵥ I) i = ((branchesOf 'L' (branches h)).map fun b' =>
          num A ((if br.2.2 = b'.2.2 then val br.2.2 else mutualOf val h br.2.2 b'.2.2) * (σ b'.2.2 * σ c)) * J b'.2.2).sum := by
        simp only [Matrix.mulVec, dotProduct, Matrix.map_apply]
        refine sum_netlist hs hn.ends 'L' (by decide) (fun _ _ c' _ =>
          num A ((if br.2.2 = c' then val br.2.2 else mutualOf val h br.2.2 c') * (σ c' * σ c)) * J c') (fun _ _ _ _ _ => rfl) _ ?_
        intro j c' hc'
        rw [hI j c' hc']
        by_cases hL' : startsWith c' 'L' = true
        · rw [if_pos hL', if_pos hL']
          have : W i j = if br.2.2 = c' then val br.2.2 else mutualOf val h br.2.2 c' := branch_entry hs ha hn val hM i j hcb hc' hcL
          rw [this, ← mul_assoc, ← map_mul]
        · rw [if_neg hL', if_neg hL', mul_zero]
      have h2 : ((W.map (num A)) *ᵥ I) i = num A (σ br.2.2 * σ c) * if br.2.2 = c then 1 else 0 := by
        have hJb : _ = (if br.2.2 = c then (1 : A) else 0) := hJ br (List.mem_filter.2 ⟨hbr', hcL⟩)
        rw [h1, ← hJb, ← List.sum_map_mul_left]
        congr 1
        apply List.map_congr_left
        intro b' _
        rw [← num_smul, ← mul_assoc (num A (σ br.2.2 * σ c)), ← map_mul]
        congr 2
        unfold inductanceOf
        by_cases hcc : br.2.2 = b'.2.2
        · rw [if_pos hcc, if_pos hcc, hcc, mul_comm]
        · rw [if_neg hcc, if_neg hcc]
          calc mutualOf val h br.2.2 b'.2.2 * (σ b'.2.2 * σ c)
              = (1 : ℝ) * (σ b'.2.2 * σ c * mutualOf val h br.2.2 b'.2.2) := by ring
            _ = σ br.2.2 * σ br.2.2 * (σ b'.2.2 * σ c * mutualOf val h br.2.2 b'.2.2) := by rw [hsg]
            _ = _ := by ring
      rw [h2]
      by_cases hik : i = k
      · subst hik
        obtain rfl : br.2.2 = c := Option.some.inj (hcb.symm.trans hc)
        rw [if_pos rfl, hsg, map_one, one_mul, Pi.single_eq_same]
      · have : br.2.2 ≠ c := by
          intro hh
          have h3 := wc_name_inj hs he (List.get_mem (edges g) k) hcb (by rw [hh]; exact hc)
          exact hik ((wc_nodup hs).injective_get h3)
        rw [if_neg this, mul_zero, Pi.single_eq_of_ne hik]
    · have hni : ¬ IsInductor g ((edges g).get i) := by
        rintro ⟨c', hc', hl⟩
        obtain rfl : br.2.2 = c' := Option.some.inj (hcb.symm.trans hc')
        exact hcL hl
      have hik : i ≠ k := by
        rintro rfl
        exact hni ⟨c, hc, hL⟩
      rw [Pi.single_eq_of_ne hik]
      simp only [Matrix.mulVec, dotProduct, Matrix.map_apply]
      apply Finset.sum_eq_zero
      intro j _
      have : W i j = 0 := (C30_branch_matrix h g hs val M hM i j).2.1 hni
      rw [this, map_zero, zero_mul]
  have key := quadOp_pinv (num A) hr hsym (hp W) I 0 (mulVec_zero _)
  rw [add_zero, hWI, quadOp_dot] at key
  rw [single_dotProduct, one_mul, dotProduct_single, mul_one, mulVec_single_one, hI k c hc, if_pos hL, hsg, map_one, one_mul] at key
  exact key

/-- **C99** The current operators with mutual inductances and resonators: take any netlist with flux and charge biases, resonators and, after the
last branch, mutual inductances between different inductors.  The operator of the current through an inductor is the flux difference of its nodes
times its own entry of the inverse inductance matrix; junctions are as in `C99_current`; any other branch is refused. -/
theorem C99_current_coupled (h : List Call) (g : CG) (hs : Settled h g) (ha : AllOk h) (hn : LoadedNetlist h) (b : Biases) (hb : createFluxBiases g = .ok b) :
    ∃ sgn : String → ℝ, (∀ c, sgn c = 1 ∨ sgn c = -1) ∧
    (∀ br ∈ branches h, ∀ e ∈ edges g, g.cmap.get? e = some br.2.2 → (sgn br.2.2 = 1 ↔ e.1 = br.1)) ∧
    ∀ (val phi q : String → ℝ) (_ : (inductanceMatrix val sgn h).det ≠ 0)
      (pinv : Matrix (Fin (edges g).length) (Fin (edges g).length) ℝ → Matrix (Fin (edges g).length) (Fin (edges g).length) ℝ)
      (_ : ∀ M, IsPinv M (pinv M)) (u : Prefs) (cfg : Fin (nodes g).length → NodeCfg) (o : ∀ i, NodeOps (cfg i).dim)
      (N : Fin (nodes g).length → BigNode cfg) (_ : ∀ i, expandNode cfg i (o i) = some (N i)) (s : Sys PUnit (nodes g).length (edges g).length)
      (_ : assemble g b val phi q ⟨false, 1⟩ pinv u = .ok s) (k : Fin (edges g).length) (c : String) (_ : g.cmap.get? ((edges g).get k) = some c),
    currentOperator (s.withNodes N) k =
      match ownCurrent (nodes g) u.IopL u.IopJ val sgn (fluxOn phi h) h (nodeOperators N) ((edges g).get k).1 ((edges g).get k).2.1 c with
      | some X => .ok X
      | none => .error .userError := by
  refine ⟨biasSign h g, ?_, ?_, ?_⟩
  · intro c; unfold biasSign; split_ifs <;> simp
  · intro br hbr e he hc
    rcases biasSign_branch hs hn.ends hbr he hc with ⟨k1, k2, k3, -⟩ | ⟨k1, k2, k3, -⟩
    · simp [k1, k3]
    · have := hn.ends br hbr
      rw [k3, k1]
      norm_num
      exact this.symm
  intro val phi q hdet pinv hp u cfg o N hN s h1 k c hc
  obtain ⟨M, hM, hX⟩ := current_general hs ha hn.ends hb val phi q pinv u cfg o N hN s h1 k c hc
  rw [hX]
  unfold ownCurrent
  by_cases hL : startsWith c 'L' = true
  · rw [if_pos hL, if_pos hL]
    have hB : pinv (M.block _ _) k k = ownInverse val (biasSign h g) h c := by
      obtain ⟨hnames, -, -⟩ := C21_names hs
      obtain ⟨J, hJ, hJi⟩ := currents_exist (A := ℂ) hnames hdet fun b => if b.2.2 = c then 1 else 0
      have h2 := pinv_entry hs ha hn val pinv hp hM k hc hL J hJ
      obtain ⟨br, hbr, -, hcb⟩ := wc_branch hs (List.get_mem (edges g) k)
      obtain rfl : br.2.2 = c := Option.some.inj (hcb.symm.trans hc)
      obtain ⟨i, hi⟩ := List.mem_iff_get.1 (List.mem_filter.2 ⟨(List.mem_filter.1 hbr).1, hL⟩ : br ∈ branchesOf 'L' (branches h))
      have hndL : ((branchesOf 'L' (branches h)).map fun b => b.2.2).Nodup := hnames.sublist (List.Sublist.map _ List.filter_sublist)
      have hinj : ∀ j, ((branchesOf 'L' (branches h)).get j).2.2 = br.2.2 ↔ j = i := by
        intro j
        rw [← hi]
        refine ⟨fun hh => ?_, fun hh => hh ▸ rfl⟩
        exact hndL.of_map.injective_get (List.inj_on_of_nodup_map hndL (List.get_mem _ _) (List.get_mem _ _) hh)
      have h3 := hJi i
      rw [(hinj i).2 rfl, ← h2] at h3
      have h4 : ownInverse val (biasSign h g) h br.2.2 = (inductanceMatrix val (biasSign h g) h)⁻¹ i i := by
        unfold ownInverse
        exact (Finset.sum_eq_single i (fun j _ hj => if_neg fun hh => hj ((hinj j).1 hh)) (fun hh => absurd (Finset.mem_univ i) hh)).trans (if_pos ((hinj i).2 rfl))
      have h5 := h3.trans ((Finset.sum_eq_single i (fun j _ hj => by rw [if_neg fun hh => hj ((hinj j).1 hh), smul_zero]) (fun hh => absurd (Finset.mem_univ i) hh)).trans
        (by rw [if_pos ((hinj i).2 rfl), smul_eq_mul, mul_one]))
      rw [h4]
      exact Complex.ofReal_injective h5
    rw [hB]
    rfl
  · rw [if_neg hL, if_neg hL]
    rfl

/-- **C99 is false with mutual inductances**: two inductors `L1`, `L2` of inductance 1 with a mutual inductance of 1/2.  Whatever the operators of the nodes,
the operator that the program gives for the current through `L1` is not the current through `L1`, if the flux of the other node is not zero: the flux that
the current in `L2` produces in `L1` is left out. -/
theorem C99_mutual_false : Settled transformer (run {} transformer) ∧ AllOk transformer ∧ CoupledNetlist transformer ∧
    ∀ (b : Biases) (_ : createFluxBiases (run {} transformer) = .ok b)
      (pinv : Matrix (Fin (edges (run {} transformer)).length) (Fin (edges (run {} transformer)).length) ℝ →
        Matrix (Fin (edges (run {} transformer)).length) (Fin (edges (run {} transformer)).length) ℝ) (_ : ∀ M, IsPinv M (pinv M))
      (u : Prefs) (_ : u.IopL ≠ 0) (cfg : Fin (nodes (run {} transformer)).length → NodeCfg) (o : ∀ i, NodeOps (cfg i).dim)
      (N : Fin (nodes (run {} transformer)).length → BigNode cfg) (_ : ∀ i, expandNode cfg i (o i) = some (N i))
      (_ : atNumber (nodes (run {} transformer)) (fun i => (N i).P) 0 2 ≠ 0),
    ∃ s k X, assemble (run {} transformer) b (fun c => if c = "M1" then 1 / 2 else 1) (fun _ => 0) (fun _ => 0) ⟨false, 1⟩ pinv u = .ok s ∧
      (edges (run {} transformer)).get k = (0, 1, 1) ∧ (run {} transformer).cmap.get? ((edges (run {} transformer)).get k) = some "L1" ∧
      currentOperator (s.withNodes N) k = .ok X ∧
      ∀ J : String → BigOp cfg, Produces (fun c => if c = "M1" then 1 / 2 else 1) (fun _ => 1) transformer J
        (inductorFlux (nodes (run {} transformer)) (fun _ => 0) fun i => (N i).P) → X ≠ ((u.IopL : ℝ) : ℂ) • J "L1" := by
  refine ⟨transformer_settled, transformer_ok, transformer_netlist, fun b hb pinv hp u hu cfg o N hN hP => ?_⟩
  have hn := coupled_loaded transformer_netlist
  have hL : branchesOf 'L' (branches transformer) = [(0, 1, "L1"), (0, 2, "L2")] := by rw [transformer_branches]; decide +kernel
  have hm : ∀ val : String → ℝ, mutualOf val transformer "L1" "L2" = val "M1" ∧ mutualOf val transformer "L2" "L1" = val "M1" := by
    intro val
    unfold mutualOf couplings transformer
    simp
  set val : String → ℝ := fun c => if c = "M1" then 1 / 2 else 1 with hval
  have hg : ∀ n, Spec.gateCap val transformer n = 0 := by
    intro n
    unfold Spec.gateCap transformer
    simp
  have hnn : NonnegCaps val transformer := ⟨fun _ _ => by rw [hval]; positivity, fun n _ => (hg n).ge⟩
  have hedges : edges (run {} transformer) = [(0, 1, 1), (0, 2, 1), (2, 0, 2)] := by decide +kernel
  obtain ⟨k, hk⟩ := List.mem_iff_get.1 (show ((0, 1, 1) : Edge) ∈ edges (run {} transformer) by rw [hedges]; simp)
  have hc1 : (run {} transformer).cmap.get? (0, 1, 1) = some "L1" := by decide +kernel
  have hc2 : (run {} transformer).cmap.get? (0, 2, 1) = some "L2" := by decide +kernel
  have hs1 : biasSign transformer (run {} transformer) "L1" = 1 := by
    rcases biasSign_branch transformer_settled hn.ends (b := (0, 1, "L1")) (by rw [transformer_branches]; simp)
      (show ((0, 1, 1) : Edge) ∈ edges (run {} transformer) by rw [hedges]; simp) hc1 with ⟨-, -, k3, -⟩ | ⟨k1, -, -, -⟩
    · exact k3
    · cases k1
  have hs2 : biasSign transformer (run {} transformer) "L2" = 1 := by
    rcases biasSign_branch transformer_settled hn.ends (b := (0, 2, "L2")) (by rw [transformer_branches]; simp)
      (show ((0, 2, 1) : Edge) ∈ edges (run {} transformer) by rw [hedges]; simp) hc2 with ⟨-, -, k3, -⟩ | ⟨k1, -, -, -⟩
    · exact k3
    · cases k1
  have hv1 : val "L1" = 1 := by simp [hval]
  have hv2 : val "L2" = 1 := by simp [hval]
  have hm1 : mutualOf val transformer "L1" "L2" = 1 / 2 := (hm val).1.trans (by simp [hval])
  have hm2 : mutualOf val transformer "L2" "L1" = 1 / 2 := (hm val).2.trans (by simp [hval])
  have hprod : ∀ {A : Type} [Ring A] [Algebra ℂ A] (sgn : String → ℝ) (J : String → A) (X : ℕ × ℕ × String → A), sgn "L1" = 1 → sgn "L2" = 1 →
      (Produces val sgn transformer J X ↔ J "L1" + ((1 / 2 : ℝ) : ℂ) • J "L2" = X (0, 1, "L1") ∧ ((1 / 2 : ℝ) : ℂ) • J "L1" + J "L2" = X (0, 2, "L2")) := by
    intro A _ _ sgn J X g1 g2
    unfold Produces
    rw [hL]
    unfold inductanceOf
    simp only [List.forall_mem_cons, List.not_mem_nil, false_implies, implies_true, and_true, List.map_cons, List.map_nil, List.sum_cons, List.sum_nil, add_zero,
      hm1, hm2, g1, g2, hv1, hv2, mul_one, one_mul, if_pos, if_true, String.reduceEq, if_false, Complex.ofReal_one, one_smul]
  obtain ⟨C, hC, hsym, hform⟩ := loaded_capacitance transformer_settled transformer_ok hn val
  have hasm : ∃ s, assemble (run {} transformer) b val (fun _ => 0) (fun _ => 0) ⟨false, 1⟩ pinv u = .ok s := by
    obtain ⟨C', hC', hsym', hform'⟩ := coupled_capacitance transformer_settled transformer_ok transformer_netlist val
    have hdet := (netlist_det transformer_settled val hnn _ hsym' hform').2 (transformer_conn val (by simp [hval]) (by simp [hval]))
    obtain ⟨M, hM⟩ := coupled_inductance transformer_settled transformer_ok hn hb val
    unfold assemble
    simp only [hC', hM]
    unfold Verif.Sym.inverseCapacitance
    rw [if_neg hdet]
    exact ⟨_, rfl⟩
  obtain ⟨s, hsok⟩ := hasm
  have hck : (run {} transformer).cmap.get? ((edges (run {} transformer)).get k) = some "L1" := by rw [hk]; exact hc1
  obtain ⟨M, hM, hX⟩ := current_general transformer_settled transformer_ok hn.ends hb val (fun _ => 0) (fun _ => 0) pinv u cfg o N hN s hsok k "L1" hck
  have h43 : pinv (M.block _ _) k k = 4 / 3 := by
    have := pinv_entry (A := ℂ) transformer_settled transformer_ok hn val pinv hp hM k hck (by decide) (fun c => if c = "L1" then 4 / 3 else -2 / 3)
      ((hprod _ _ _ hs1 hs2).2 (by simp only [String.reduceEq, if_true, if_false]; norm_num))
    rw [if_pos rfl] at this
    have h2 : ((pinv (M.block _ _) k k : ℝ) : ℂ) = ((4 / 3 : ℝ) : ℂ) := by push_cast; exact this
    exact Complex.ofReal_injective h2
  rw [if_pos (by decide), h43] at hX
  refine ⟨s, k, _, hsok, hk, hck, hX, fun J hJ => ?_⟩
  obtain ⟨j1, j2⟩ := (hprod _ J _ rfl rfl).1 hJ
  have h0 : atNumber (nodes (run {} transformer)) (fun i => (N i).P) 0 0 = 0 := by
    unfold atNumber
    rw [dif_neg (by decide +kernel)]
  unfold inductorFlux at j1 j2
  simp only [h0, Complex.ofReal_zero, zero_smul, add_zero, zero_sub] at j1 j2
  rw [hk]
  dsimp only
  rw [h0, zero_sub]
  intro heq
  set P1 := atNumber (nodes (run {} transformer)) (fun i => (N i).P) 0 1
  set P2 := atNumber (nodes (run {} transformer)) (fun i => (N i).P) 0 2
  have huC : ((u.IopL : ℝ) : ℂ) ≠ 0 := by exact_mod_cast hu
  have h1 : ((4 / 3 : ℝ) : ℂ) • -P1 = J "L1" := by
    have : ((u.IopL : ℝ) : ℂ) • (((4 / 3 : ℝ) : ℂ) • -P1) = ((u.IopL : ℝ) : ℂ) • J "L1" := by
      rw [← heq, smul_smul]
      push_cast
      rfl
    exact smul_right_injective _ huC this
  apply hP
  rw [← j1] at h1
  have h3 : P2 = -(((1 / 2 : ℝ) : ℂ) • J "L1" + J "L2") := by rw [j2, neg_neg]
  rw [h3]
  have h4 : ((1 / 2 : ℝ) : ℂ) • J "L1" + J "L2" = (3 / 2 : ℂ) • (((4 / 3 : ℝ) : ℂ) • (J "L1" + ((1 / 2 : ℝ) : ℂ) • J "L2") - J "L1") := by
    simp only [smul_add, smul_sub, smul_smul]
    module
  rw [h4, h1, sub_self, smul_zero, neg_zero]

/-- **C99** The voltage operators with mutual inductances and resonators: `Vop` times the diagonal entry of the inverse of the capacitances of the netlist, loaded with
its resonators, times the charge of the node with its gate charge. -/
theorem C99_voltage_loaded (h : List Call) (g : CG) (hs : Settled h g) (ha : AllOk h) (hn : LoadedNetlist h) (b : Biases) (val phi q : String → ℝ)
    (pinv : Matrix (Fin (edges g).length) (Fin (edges g).length) ℝ → Matrix (Fin (edges g).length) (Fin (edges g).length) ℝ)
    (u : Prefs) (cfg : Fin (nodes g).length → NodeCfg) (N : Fin (nodes g).length → BigNode cfg) (s : Sys PUnit (nodes g).length (edges g).length)
    (h1 : assemble g b val phi q ⟨false, 1⟩ pinv u = .ok s) :
    ∃ C : Matrix (Fin (nodes g).length) (Fin (nodes g).length) ℝ, Cᵀ = C ∧ C.det ≠ 0 ∧
      (∀ v : ℕ → ℝ, v 0 = 0 → atNodes g v ⬝ᵥ C.mulVec (atNodes g v) = loadedForm val h v) ∧
      ∀ i, voltageOperator (num (BigOp cfg)) (s.withNodes N) i =
        ((u.Vop * C⁻¹ i i : ℝ) : ℂ) • ((N i).Q + ((gateCharge q h ((nodes g).get i) : ℝ) : ℂ) • 1) := by
  obtain ⟨C, hC, hsym, hform⟩ := loaded_capacitance hs ha hn val
  unfold assemble at h1
  simp only [hC] at h1
  unfold Verif.Sym.inverseCapacitance at h1
  by_cases hdet : (C.block (nodes g).length (nodes g).length).det = 0
  · rw [if_pos hdet] at h1
    cases h1
  rw [if_neg hdet] at h1
  simp only [Bool.false_eq_true, if_false] at h1
  cases hM : branchInductance val g with
  | error e => rw [hM] at h1; cases h1
  | ok M =>
  rw [hM] at h1
  have hseq := (Except.ok.inj h1).symm
  refine ⟨_, hsym, hdet, hform, fun i => ?_⟩
  have hCi : (s.withNodes N).Cinv = (C.block (nodes g).length (nodes g).length)⁻¹ := by rw [hseq]; rfl
  have hQb : (s.withNodes N).Qb i = gateCharge q h ((nodes g).get i) := by
    obtain ⟨hrun, hok⟩ := settled_run hs
    rw [gateCharge_eq hok ha q, ← hrun, hseq]
    show chargeBiasVector q g i = _
    unfold chargeBiasVector
    rw [List.getElem?_eq_getElem i.2]
    rfl
  have hu : (s.withNodes N).u = u := by rw [hseq]; rfl
  unfold voltageOperator
  rw [hCi, hQb, hu]
  show num (BigOp cfg) u.Vop * ((N i).Q + num (BigOp cfg) (gateCharge q h ((nodes g).get i))) * num (BigOp cfg) ((C.block _ _)⁻¹ i i) = _
  rw [← num_comm ((C.block _ _)⁻¹ i i), num_smul, num_smul, smul_smul, num_one]
  congr 1
  push_cast
  ring

/-- An operator that is not zero is not zero on the whole space. -/
theorem actsOn_ne_zero {n : ℕ} {cfg : Fin n → NodeCfg} {i : Fin n} (A : Op (cfg i).dim) (x : ∀ j, Fin (cfg j).dim) {a b : Fin (cfg i).dim} (h : A a b ≠ 0) :
    actsOn cfg i A ≠ 0 := by
  intro h0
  have h1 := congrFun (congrFun h0 (Function.update x i a)) (Function.update x i b)
  unfold actsOn at h1
  rw [if_pos fun j hj => by rw [Function.update_of_ne hj, Function.update_of_ne hj], Function.update_self, Function.update_self] at h1
  exact h h1

/-- The hypotheses of `C99_current_coupled`, `C99_mutual_false` and `C99_voltage_loaded` are met, with the operators of the oscillator basis. -/
example (D : Op 2) : ∃ (b : Biases) (pinv : Matrix (Fin (edges (run {} transformer)).length) (Fin (edges (run {} transformer)).length) ℝ →
      Matrix (Fin (edges (run {} transformer)).length) (Fin (edges (run {} transformer)).length) ℝ)
    (N : Fin (nodes (run {} transformer)).length → BigNode (fun _ : Fin (nodes (run {} transformer)).length => NodeCfg.mk 2 .oscillator)),
    createFluxBiases (run {} transformer) = .ok b ∧ (∀ M, IsPinv M (pinv M)) ∧
    (∀ i, expandNode (fun _ => NodeCfg.mk 2 .oscillator) i ⟨oscQ 2 1 1, oscP 2 1 1, D, Dᴴ, D, Dᴴ⟩ = some (N i)) ∧
    atNumber (nodes (run {} transformer)) (fun i => (N i).P) 0 2 ≠ 0 ∧
    (inductanceMatrix (fun c => if c = "M1" then 1 / 2 else 1) (fun _ => 1) transformer).det ≠ 0 ∧ LoadedNetlist transformer := by
  choose pinv hp using fun M : Matrix (Fin (edges (run {} transformer)).length) (Fin (edges (run {} transformer)).length) ℝ => pinv_exists M
  have hb : ∃ b, createFluxBiases (run {} transformer) = .ok b := by
    cases hc : createFluxBiases (run {} transformer) with
    | ok b => exact ⟨b, rfl⟩
    | error e =>
      have : (match createFluxBiases (run {} transformer) with | .ok _ => true | .error _ => false) = true := by decide +kernel
      rw [hc] at this
      cases this
  obtain ⟨b, hb⟩ := hb
  have hL : branchesOf 'L' (branches transformer) = [(0, 1, "L1"), (0, 2, "L2")] := by rw [transformer_branches]; decide +kernel
  have hst : Standard (fun _ : Fin (nodes (run {} transformer)).length => NodeCfg.mk 2 .oscillator) := fun i => Or.inr rfl
  have hP : ∀ i, ∃ N, expandNode (fun _ : Fin (nodes (run {} transformer)).length => NodeCfg.mk 2 .oscillator) i ⟨oscQ 2 1 1, oscP 2 1 1, D, Dᴴ, D, Dᴴ⟩ = some N ∧
      N.P = actsOn (fun _ : Fin (nodes (run {} transformer)).length => NodeCfg.mk 2 .oscillator) i (oscP 2 1 1) := by
    intro i
    unfold expandNode
    rw [C39_expansion_partial _ hst, C39_expansion_partial _ hst, C39_expansion_partial _ hst, C39_expansion_partial _ hst]
    exact ⟨_, rfl, rfl⟩
  choose N hN hNP using hP
  refine ⟨b, pinv, N, hb, hp, hN, ?_, ?_, coupled_loaded transformer_netlist⟩
  · have hnodes : nodes (run {} transformer) = [1, 2] := by decide +kernel
    unfold atNumber
    have hlt : (nodes (run {} transformer)).idxOf 2 < (nodes (run {} transformer)).length := by rw [hnodes]; decide
    rw [dif_pos hlt]
    dsimp only
    rw [hNP]
    refine actsOn_ne_zero _ (fun _ => (0 : Fin 2)) (a := (0 : Fin 2)) (b := (1 : Fin 2)) ?_
    show oscP 2 1 1 0 1 ≠ 0
    simp [oscP, create, destroy]
  · have hd := det_pair hL (inductanceOf (fun c => if c = "M1" then 1 / 2 else 1) (fun _ => 1) transformer)
    have hd' : (inductanceMatrix (fun c => if c = "M1" then 1 / 2 else 1) (fun _ => 1) transformer).det = _ := hd
    rw [hd']
    unfold inductanceOf mutualOf couplings transformer
    simp
    norm_num

end Verif.Props
