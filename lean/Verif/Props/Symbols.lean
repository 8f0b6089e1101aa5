import Verif.Props.Quantum
import Verif.Props.Construct

/-!
# Property C95: no two things share a symbol
-/

namespace Verif.Props

open Verif Verif.Circuit Verif.Sym Verif.Spec Verif.PC Verif.Derived

variable {E : Type}

/-! ### First letters of names -/

theorem pre_resonator_q {n : ℕ} {c k : String} (hc : pre c = some 'C') (h : k ∈ resonatorNames n c) : pre k ≠ some 'q' := by
  unfold resonatorNames at h
  simp only [List.mem_cons, List.not_mem_nil, or_false] at h
  rcases h with rfl | rfl | rfl | rfl | rfl | rfl | rfl | rfl
  · rw [hc]; decide
  all_goals
    unfold pre
    simp [toString]

theorem entry_pre_q {h : List Call} (hok : ∀ x ∈ h, x.OK) (ha : AllOk h) {q : String × Option Sym} (hq : DeclaredEntry h q) : pre q.1 ≠ some 'q' := by
  rcases hq with ⟨ho, hq⟩ | ⟨c, s, m, h, e⟩ | ⟨n, s, c, h, e⟩
  · have at_ : ∀ x ∈ h, ∃ l, (∀ x ∈ l, x.OK) ∧ (step (run {} l) x).2 = .ok () := by
      intro x hx
      obtain ⟨l, l', he⟩ := List.append_of_mem hx
      exact ⟨l, fun y hy => hok y (by rw [he]; simp [hy]), ha l x l' he⟩
    rcases hq with ⟨o, a, b, hx⟩ | ⟨a, b, hx⟩ | ⟨n, s, hx⟩ | ⟨n, s, hx⟩ | ⟨n, c, hx, hn⟩
    · obtain ⟨l, hl, hs⟩ := at_ _ hx
      have := addBranch_okPrefix (show (addBranch o (run {} l) a b q.1).2 = .ok () from hs)
      intro e
      unfold okPrefix at this
      rw [e] at this
      revert this; decide
    · obtain ⟨l, hl, hs⟩ := at_ _ hx
      obtain ⟨-, -, h1, -⟩ := coupleBranches_ok (show (coupleBranches (run {} l) a b q.1).2 = .ok () from hs)
      rw [h1]; decide
    · obtain ⟨l, hl, hs⟩ := at_ _ hx
      obtain ⟨-, -, -, -, h1, -⟩ := addChargeBias_ok (show (addChargeBias (run {} l) n s (some q.1)).2 = .ok () from hs)
      rw [(h1 _ rfl).1]; decide
    · obtain ⟨l, hl, hs⟩ := at_ _ hx
      obtain ⟨-, -, -, -, -, -, -, -, h1, -⟩ := addFluxBias_ok (graphInv_run l).toWF (traced_run hl) (show (addFluxBias (run {} l) n s (some q.1)).2 = .ok () from hs)
      rw [(h1 _ rfl).1]; decide
    · obtain ⟨l, hl, hs⟩ := at_ _ hx
      obtain ⟨-, -, -, h1, -⟩ := coupleResonator_ok (show (coupleResonator (run {} l) n c).2 = .ok () from hs)
      exact pre_resonator_q h1 hn
  · rw [e]; unfold pre; simp
  · rw [e]; unfold pre; simp

theorem biasSymb_toList (pfx s : String) : (biasSymb pfx s).name.toList = pfx.toList ++ '_' :: '{' :: (s.toList ++ ['}']) := by
  unfold biasSymb
  simp

theorem written_ne_phi {k : String} (s : String) : writtenAs k ≠ (biasSymb "\\phi" s).name := by
  intro h
  have h := congrArg String.toList h
  rw [writtenAs_toList, biasSymb_toList] at h
  split at h
  · simp at h
  · simp at h
  · simp at h

theorem written_q {k : String} (s : String) (h : writtenAs k = (biasSymb "q" s).name) : pre k = some 'q' := by
  have h := congrArg String.toList h
  rw [writtenAs_toList, biasSymb_toList] at h
  unfold pre
  split at h
  · simp at h
  · rename_i c t _ hk
    rw [hk]
    simp at h
    simp [h.1]
  · simp at h

theorem redFlux_is_bias (n : ℕ) : redFluxSymbol DofPrefixes.default n = biasSymb "\\phi" (toString n) := rfl

theorem squid_josephson {h : List Call} {g : CG} (hs : Settled h g) (he : edges g = [(0, 1, 0), (1, 0, 1)]) (hn : ∀ n ∈ nodes g, n ≠ 0)
    (hL : g.cmap.get? (0, 1, 0) = some "L1") (hI : g.cmap.get? (1, 0, 1) = some "I1") (hj : isEdgeOf g 'I' (1, 0, 1) = .ok true) (b : Biases)
    (hb : b.red.get? (1, 0, 1) = some (some "1")) (v : Symb → ℝ) :
    classicalJosephson g b (fun _ => 1) (fun s => v (biasSymb DofPrefixes.default.redflux s))
      (fun i => v (redFluxSymbol DofPrefixes.default ((nodes g).get i))) = - Real.cos (2 * v (redFluxSymbol DofPrefixes.default 1)) := by
  set φ : ℕ → ℝ := fun n => if n = 0 then 0 else v (redFluxSymbol DofPrefixes.default n) with hφ
  have hx : (fun i => v (redFluxSymbol DofPrefixes.default ((nodes g).get i))) = fun i => φ ((nodes g).get i) := by
    funext i
    exact (if_neg (hn _ (List.get_mem _ _))).symm
  unfold classicalJosephson
  rw [hx]
  have key : ∀ i : Fin (edges g).length, -(josephsonVector (fun _ => (1 : ℝ)) g i) * Real.cos (branchFluxes g (fun i => φ ((nodes g).get i)) i +
          redBiasVector (fun s => v (biasSymb DofPrefixes.default.redflux s)) g b i) =
      (fun e : Edge => if e = (1, 0, 1) then -Real.cos (φ e.1 - φ e.2.1 + v (biasSymb DofPrefixes.default.redflux "1")) else 0) (edges g)[(i : ℕ)] := by
    intro i
    rw [branchFluxes_eq hs φ (if_pos rfl) i]
    have hg : (edges g)[(i : ℕ)]? = some (edges g)[(i : ℕ)] := List.getElem?_eq_getElem i.2
    have hm : (edges g)[(i : ℕ)] = (0, 1, 0) ∨ (edges g)[(i : ℕ)] = (1, 0, 1) := by
      have : (edges g)[(i : ℕ)] ∈ edges g := List.getElem_mem i.2
      generalize (edges g)[(i : ℕ)] = e at this
      rw [he] at this
      simpa using this
    unfold josephsonVector redBiasVector biasVal
    rw [hg]
    rw [show (edges g).get i = (edges g)[(i : ℕ)] from rfl]
    rcases hm with h | h <;> rw [h]
    · simp only [hL]
      rw [if_neg (by decide +kernel : ¬pre "L1" = some 'I'), if_neg (by decide : ¬((0, 1, 0) : Edge) = (1, 0, 1)), neg_zero, zero_mul]
    · simp only [hI, hb, hj]
      rw [if_pos (by decide +kernel : pre "I1" = some 'I'), if_pos trivial, if_pos trivial, neg_one_mul]
  rw [Finset.sum_congr rfl fun i _ => key i]
  rw [Fin.sum_univ_fun_getElem (edges g)
    (fun e : Edge => if e = (1, 0, 1) then -Real.cos (φ e.1 - φ e.2.1 + v (biasSymb DofPrefixes.default.redflux "1")) else 0)]
  rw [he]
  simp only [hφ, List.map_cons, List.map_nil, List.sum_cons, List.sum_nil]
  rw [if_neg (by decide), if_pos trivial, if_pos trivial, if_neg (by decide)]
  rw [show biasSymb DofPrefixes.default.redflux "1" = redFluxSymbol DofPrefixes.default 1 from (redFlux_is_bias 1).symm]
  rw [two_mul, zero_add, add_zero, sub_zero]

theorem digit_repr {n : ℕ} (h : n < 10) : (toString n).toList = [Nat.digitChar n] := by
  show (Nat.repr n).toList = _
  unfold Nat.repr
  rw [String.toList_ofList, Nat.toDigits_of_lt_base h]

theorem branchName_inj {p q : String} {e e' : Edge} (hp : '_' ∉ p.toList) (hq : '_' ∉ q.toList) (h : e.1 < 10 ∧ e.2.1 < 10)
    (h' : e'.1 < 10 ∧ e'.2.1 < 10) (he : branchName p e = branchName q e') : e = e' := by
  have hr : ∀ (p : String) (e : Edge), branchName p e = p ++ "_{" ++ (toString e.1 ++ toString e.2.1 ++ "-" ++ toString e.2.2) ++ "}" := by
    intro p e
    unfold branchName
    simp only [String.append_assoc]
  rw [hr, hr] at he
  have := congrArg String.toList (indexed_inj hp hq he).2
  simp only [String.toList_append, digit_repr h.1, digit_repr h.2, digit_repr h'.1, digit_repr h'.2] at this
  simp only [List.cons_append, List.nil_append, List.append_assoc, List.cons.injEq] at this
  obtain ⟨h1, h2, h3⟩ := this
  have d : ∀ {a b : ℕ}, a < 10 → b < 10 → Nat.digitChar a = Nat.digitChar b → a = b := by
    intro a b ha hb hab
    apply Nat.repr_injective
    apply String.toList_inj.1
    have := digit_repr ha
    rw [hab, ← digit_repr hb] at this
    exact this
  refine Prod.ext (d h.1 h'.1 h1) (Prod.ext (d h.2 h'.2 h2) ?_)
  apply Nat.repr_injective
  apply String.toList_inj.1
  exact List.append_cancel_left h3

/-! ### The property -/

/-- The six operators of a node — flux, charge, and the displacements of the Josephson and of the phase-slip terms with their adjoints — have
symbols of their own: none is used twice, for any two nodes of any circuit. -/
theorem C95_operators (h : List Call) (g : CG) (hs : Settled h g) :
    ((nodes g).flatMap fun n => (nodeDofs DofPrefixes.default n).toList).Nodup :=
  dofs_nodup default_apart (C29_rows h g hs).1

/-- The symbol of a parameter is not that of an operator, nor that of the reduced flux of a node or of a reduced bias. -/
theorem C95_parameters (eng : Engine E) (isZero : E → Bool) (symE : Sym → E) (o : Orc) (ex : Resonator → Except Err (ResExprs E)) (M : ℕ → ℕ → E)
    (again : Bool) (h : List Call) (pc : PC E) (hok : ∀ x ∈ h, x.OK) (ha : AllOk h) (hk : KeepsResonators h)
    (hc : construct eng isZero symE Prefixes.default o ex (.ok M) again (run {} h) = .ok pc) (k : String) (hm : k ∈ pc.getParameterNamesList) (s : String)
    (hsy : pc.getSymbol k = .ok s) :
    (∀ n, ⟨s, true⟩ ∉ (nodeDofs DofPrefixes.default n).toList) ∧ (∀ n, ⟨s, true⟩ ≠ redFluxSymbol DofPrefixes.default n) ∧
    (∀ t, ⟨s, true⟩ ≠ biasSymb DofPrefixes.default.redflux t) ∧ ∀ t, ⟨s, true⟩ ≠ biasSymb DofPrefixes.default.redcharge t := by
  have f := construct_fresh hok ha hk hc
  have hw : s = writtenAs k := by
    obtain ⟨p, -, -, h1⟩ := f.params k hm
    unfold getSymbol at hsy
    rw [h1] at hsy
    cases hsy
    rfl
  have hq : pre k ≠ some 'q' := by
    rcases (f.keys k).1 hm with hd | ⟨i, j, -, -, -, -, rfl⟩
    · obtain ⟨q, hq, rfl⟩ := List.mem_map.1 ((declared_iff hok ha hk k).2 hd)
      exact entry_pre_q hok ha ((entry_iff hok ha hk q).1 hq)
    · rw [pre_derived]; decide
  subst hw
  refine ⟨fun n hn => ?_, fun n e => ?_, fun t e => ?_, fun t e => ?_⟩
  · rw [toList_nodeDofs] at hn
    obtain ⟨x, -, e⟩ := List.mem_map.1 hn
    exact Bool.false_ne_true (congrArg Symb.commutative e)
  · rw [redFlux_is_bias] at e
    exact written_ne_phi _ (congrArg Symb.name e)
  · exact written_ne_phi _ (congrArg Symb.name e)
  · exact hq (written_q _ (congrArg Symb.name e))

/-- The symbols of two biases are the same only for biases of the same kind and suffix. -/
theorem C95_biases (p q s t : String) (hp : p ∈ ["\\Phi", "\\phi", "Q", "q"]) (hq : q ∈ ["\\Phi", "\\phi", "Q", "q"]) :
    biasSymb p s = biasSymb q t ↔ p = q ∧ s = t := by
  constructor
  · intro h
    have plain : ∀ x ∈ ["\\Phi", "\\phi", "Q", "q"], '_' ∉ x.toList := by decide +kernel
    exact indexed_inj (plain p hp) (plain q hq) (congrArg Symb.name h)
  · rintro ⟨rfl, rfl⟩; rfl

/-- The reduced flux of a node and a reduced flux bias have symbols of their own, unless the suffix of the bias is the number of the node.
Missing: that case, where they are the same symbol (`C95_false_bias`). -/
theorem C95_reduced_partial (n : Node) (s : String) : redFluxSymbol DofPrefixes.default n = biasSymb DofPrefixes.default.redflux s ↔ s = toString n := by
  rw [redFlux_is_bias]
  constructor
  · intro h
    exact ((C95_biases "\\phi" "\\phi" _ _ (by simp) (by simp)).1 h).2.symm
  · rintro rfl; rfl

/-- **C95 is false** of the classical Hamiltonian: with the bias "1" on the junction of an rf SQUID, whatever values the symbols are given, the
Josephson energy is `-cos(2φ_1)`: the node flux and the bias are one and the same variable. -/
theorem C95_false_bias : ∃ h g b, h = rfSquid ++ [.addFluxBias "I1" (some "1") none] ∧ Settled h g ∧ createFluxBiases g = .ok b ∧
    ∀ v : Symb → ℝ, classicalJosephson g b (fun _ => 1) (fun s => v (biasSymb DofPrefixes.default.redflux s))
      (fun i => v (redFluxSymbol DofPrefixes.default ((nodes g).get i))) = - Real.cos (2 * v (redFluxSymbol DofPrefixes.default 1)) := by
  have hb : createFluxBiases (run {} (rfSquid ++ [.addFluxBias "I1" (some "1") none])) =
      .ok ⟨[((0, 1, 0), none), ((1, 0, 1), some "1")], [((0, 1, 0), none), ((1, 0, 1), some "1")]⟩ := by decide +kernel
  have hs := settled_bias rfSquid_settled "I1" (some "1")
  refine ⟨_, _, _, rfl, hs, hb, fun v => ?_⟩
  exact squid_josephson hs (by decide +kernel) (by decide +kernel) (by decide +kernel) (by decide +kernel) (by decide +kernel) _ (by decide +kernel) v

/-- **C95 is false** of the vectors of node voltages and currents: their entries are the symbols of phase slips and junctions numbered like the nodes. -/
theorem C95_false_current (n : Node) : currentSymbol n = componentSymbol ("I" ++ toString n) ∧ voltageSymbol n = componentSymbol ("V" ++ toString n) := by
  unfold currentSymbol voltageSymbol componentSymbol nodeName
  simp [toString, Nat.repr]

/-- A branch with nodes of one digit has symbols of its own.  Missing: nodes of more digits (`C95_false_branches`). -/
theorem C95_branches_partial (e e' : Edge) (h : e.1 < 10 ∧ e.2.1 < 10) (h' : e'.1 < 10 ∧ e'.2.1 < 10)
    (he : ∃ x ∈ (branchDofs DofPrefixes.default e).1 ++ (branchDofs DofPrefixes.default e).2,
      x ∈ (branchDofs DofPrefixes.default e').1 ++ (branchDofs DofPrefixes.default e').2) : e = e' := by
  obtain ⟨x, hx, hx'⟩ := he
  have plain : ∀ p ∈ ["\\Phi", "\\phi", "Q", "D", "D^{\\dagger}"], '_' ∉ p.toList := by decide +kernel
  have form : ∀ e : Edge, x ∈ (branchDofs DofPrefixes.default e).1 ++ (branchDofs DofPrefixes.default e).2 →
      ∃ p ∈ ["\\Phi", "\\phi", "Q", "D", "D^{\\dagger}"], x.name = branchName p e := by
    intro e hx
    unfold branchDofs DofPrefixes.default at hx
    simp only [List.mem_append, List.mem_cons, List.not_mem_nil, or_false] at hx
    rcases hx with (rfl | rfl | rfl | rfl) | (rfl | rfl | rfl)
    all_goals exact ⟨_, by simp, rfl⟩
  obtain ⟨p, hp, e1⟩ := form e hx
  obtain ⟨q, hq, e2⟩ := form e' hx'
  exact branchName_inj (plain p hp) (plain q hq) h h' (e1.symm.trans e2)

/-- **C95 is false** of the branches when a node has more than one digit: the branch from 1 to 23 and the branch from 12 to 3 have the same symbols. -/
theorem C95_false_branches : ∃ h g, Settled h g ∧ (1, 23, 0) ∈ edges g ∧ (12, 3, 0) ∈ edges g ∧
    branchDofs DofPrefixes.default (1, 23, 0) = branchDofs DofPrefixes.default (12, 3, 0) := by
  refine ⟨_, _, settled_of_list orcId_ok [(0, 1, "L1"), (1, 23, "I1"), (0, 12, "L2")] (12, 3, "I2") (by decide +kernel), by decide +kernel, by decide +kernel, rfl⟩

-- the hypotheses of `C95_parameters`, for a biased loop with a resonator: the parameter of its charge bias
example : ∃ pc, (∀ x ∈ biasedLoop, x.OK) ∧ AllOk biasedLoop ∧ KeepsResonators biasedLoop ∧
    construct Ast.engine (fun _ => false) .sym Prefixes.default Orc.id biasedEx (.ok biasedInv) false (run {} biasedLoop) = .ok pc ∧
    "Q1" ∈ pc.getParameterNamesList ∧ pc.getSymbol "Q1" = .ok "Q_{1}" := by
  have h := biasedLoop_names
  cases hc : construct Ast.engine (fun _ => false) .sym Prefixes.default Orc.id biasedEx (.ok biasedInv) false (run {} biasedLoop) with
  | error e => rw [hc] at h; cases h
  | ok pc =>
    have hok : ∀ x ∈ biasedLoop, x.OK := by simp [biasedLoop, Call.OK, orcId_ok]
    have hk : KeepsResonators biasedLoop := by simp [KeepsResonators, biasedLoop]
    rw [hc] at h
    have hm : "Q1" ∈ pc.getParameterNamesList := by
      have := congrArg Prod.fst (Except.ok.inj h)
      simp only at this
      rw [this]
      decide +kernel
    exact ⟨pc, hok, biasedLoop_ok, hk, rfl, hm,
      ((C89_symbols _ _ _ _ _ _ _ _ _ hok biasedLoop_ok hk hc).1 _ hm).1.trans (congrArg _ (by decide +kernel))⟩

-- and those of `C95_operators`
example : Settled biasedSquid (run {} biasedSquid) ∧ nodes (run {} biasedSquid) = [1] := ⟨biasedSquid_settled, by decide +kernel⟩

end Verif.Props
