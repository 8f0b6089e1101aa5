import Verif.Props.NetlistMutual

/-!
# C103: examples, and the direction of mutual inductances
-/

namespace Verif.Props

open Verif Verif.Circuit Verif.Sym Verif.Num Verif.Spec Complex Matrix

/-- Two resonators with a mutual inductance, one of them with a junction and a flux bias. -/
def transformer : List Call :=
  [.addBranch Orc.id 0 1 "C1", .addBranch Orc.id 0 1 "L1", .addBranch Orc.id 0 2 "C2", .addBranch Orc.id 0 2 "L2", .addBranch Orc.id 0 2 "I1",
    .addFluxBias "L2" (some "z") none, .coupleBranches "L1" "L2" "M1"]

theorem transformer_settled : Settled transformer (run {} transformer) :=
  ⟨[.addBranch Orc.id 0 1 "C1", .addBranch Orc.id 0 1 "L1", .addBranch Orc.id 0 2 "C2", .addBranch Orc.id 0 2 "L2"], Orc.id, 0, 2, "I1",
    [.addFluxBias "L2" (some "z") none, .coupleBranches "L1" "L2" "M1"],
    rfl, by simp [transformer, Call.OK, orcId_ok], by decide +kernel, by simp, rfl⟩

theorem transformer_ok : AllOk transformer := by
  apply allOk_of_prefixes
  decide +kernel

theorem transformer_branches : branches transformer = [(0, 1, "C1"), (0, 1, "L1"), (0, 2, "C2"), (0, 2, "L2"), (0, 2, "I1")] := by decide +kernel

/-- No coupling before a branch, checked by position. -/
theorem after_of_take {h : List Call} (hp : ∀ i : Fin h.length, (h[i]).isBranch = true →
    ∀ x ∈ h.take i, match x with | .coupleBranches _ _ _ => False | _ => True) :
    ∀ l o a b c l', h = l ++ .addBranch o a b c :: l' → ∀ c₁ c₂ m, Circuit.Call.coupleBranches c₁ c₂ m ∉ l := by
  rintro l o a b c l' rfl c₁ c₂ m hm
  have := hp ⟨l.length, by simp⟩ (by simp [Circuit.Call.isBranch]) (.coupleBranches c₁ c₂ m) (by simpa using hm)
  exact this

theorem transformer_netlist : CoupledNetlist transformer := by
  refine ⟨by simp [transformer], after_of_take ?_, ?_, ?_⟩
  · intro i
    fin_cases i <;> simp [transformer, Circuit.Call.isBranch]
  · rw [transformer_branches]; decide +kernel
  · rw [transformer_branches]; decide +kernel

theorem det_pair {L : List (ℕ × ℕ × String)} {a b : ℕ × ℕ × String} (hL : L = [a, b]) (F : String → String → ℝ) :
    (Matrix.of fun i j : Fin L.length => F (L.get i).2.2 (L.get j).2.2).det = F a.2.2 a.2.2 * F b.2.2 b.2.2 - F a.2.2 b.2.2 * F b.2.2 a.2.2 := by
  subst hL
  exact Matrix.det_fin_two _

theorem transformer_conn (val : String → ℝ) (h1 : val "C1" ≠ 0) (h2 : val "C2" ≠ 0) :
    ∀ n ∈ nodesOf (branches transformer), Conn (capacitiveNet val transformer) n 0 := by
  intro n hn
  rw [transformer_branches] at hn
  have hn' : n = 0 ∨ n = 1 ∨ n = 2 := by
    revert hn; revert n; decide +kernel
  have m1 : ((0, 1, 0) : ℕ × ℕ × ℕ) ∈ capacitiveNet val transformer := by
    unfold capacitiveNet
    rw [transformer_branches]
    refine List.mem_append_left _ ?_
    simp [branchesOf, wires, h1, h2, startsWith]
  have m2 : ((0, 2, 0) : ℕ × ℕ × ℕ) ∈ capacitiveNet val transformer := by
    unfold capacitiveNet
    rw [transformer_branches]
    refine List.mem_append_left _ ?_
    simp [branchesOf, wires, h1, h2, startsWith]
  rcases hn' with rfl | rfl | rfl
  · exact Conn.refl _ _
  · exact Conn.symm (Conn.edge m1)
  · exact Conn.symm (Conn.edge m2)

/-- The hypotheses of `C103_operator_partial` (and with `currents_exist` those of `C103_currents_partial`) are met, with a bias on an inductor, a
mutual inductance that is not zero, one node in the oscillator basis and one in the charge basis, and any operators of the nodes. -/
example : ∃ (b : Biases) (val phi : String → ℝ)
    (pinv : Matrix (Fin (edges (run {} transformer)).length) (Fin (edges (run {} transformer)).length) ℝ →
      Matrix (Fin (edges (run {} transformer)).length) (Fin (edges (run {} transformer)).length) ℝ)
    (cfg : Fin (nodes (run {} transformer)).length → NodeCfg), (nodes (run {} transformer)).length = 2 ∧
    Settled transformer (run {} transformer) ∧ AllOk transformer ∧ CoupledNetlist transformer ∧ createFluxBiases (run {} transformer) = .ok b ∧
    NonnegCaps val transformer ∧ (∀ n ∈ nodesOf (branches transformer), Conn (capacitiveNet val transformer) n 0) ∧
    (∀ sgn : String → ℝ, (∀ c, sgn c = 1 ∨ sgn c = -1) → (inductanceMatrix val sgn transformer).det ≠ 0) ∧ mutualOf val transformer "L1" "L2" ≠ 0 ∧
    fluxOn phi transformer "L2" ≠ 0 ∧ GroundedBiases phi transformer ∧
    (∀ M, IsPinv M (pinv M)) ∧ ∀ o : ∀ i, NodeOps (cfg i).dim, ∃ N : Fin (nodes (run {} transformer)).length → BigNode cfg,
      ∀ i, expandNode cfg i (o i) = some (N i) := by
  choose pinv hp using fun M : Matrix (Fin (edges (run {} transformer)).length) (Fin (edges (run {} transformer)).length) ℝ => pinv_exists M
  have hb : ∃ b, createFluxBiases (run {} transformer) = .ok b := by
    cases hc : createFluxBiases (run {} transformer) with
    | ok b => exact ⟨b, rfl⟩
    | error e =>
      have : (match createFluxBiases (run {} transformer) with | .ok _ => true | .error _ => false) = true := by decide +kernel
      rw [hc] at this
      cases this
  obtain ⟨b, hb⟩ := hb
  have hL : branchesOf 'L' (branches transformer) = [(0, 1, "L1"), (0, 2, "L2")] := by rw [transformer_branches]; decide +kernel
  have hg : ∀ val n, Spec.gateCap val transformer n = 0 := by
    intro val n
    unfold Spec.gateCap transformer
    simp
  have hm : ∀ val : String → ℝ, mutualOf val transformer "L1" "L2" = val "M1" ∧ mutualOf val transformer "L2" "L1" = val "M1" := by
    intro val
    unfold mutualOf couplings transformer
    simp
  refine ⟨b, fun c => if c = "M1" then 1 / 2 else 1, fun _ => 1, pinv, fun i => if (i : ℕ) = 0 then ⟨7, .oscillator⟩ else ⟨5, .charge⟩, by decide +kernel,
    transformer_settled, transformer_ok, transformer_netlist, hb, ⟨fun _ _ => by positivity, fun n _ => (hg _ n).ge⟩, ?_, ?_, ?_, ?_, ?_, hp, ?_⟩
  · exact transformer_conn _ (by simp) (by simp)
  · intro sgn hsgn
    have hd := det_pair hL (inductanceOf (fun c => if c = "M1" then 1 / 2 else 1) sgn transformer)
    have hd' : (inductanceMatrix (fun c => if c = "M1" then 1 / 2 else 1) sgn transformer).det = _ := hd
    rw [hd']
    unfold inductanceOf
    simp only [(hm _).1, (hm _).2]
    rcases hsgn "L1" with h1 | h1 <;> rcases hsgn "L2" with h2 | h2 <;> rw [h1, h2] <;> simp <;> norm_num
  · rw [(hm _).1]; simp
  · unfold fluxOn transformer
    simp
  · intro br hbr hne
    rw [hL] at hbr
    have : br = (0, 1, "L1") ∨ br = (0, 2, "L2") := by simpa using hbr
    rcases this with rfl | rfl
    · refine ⟨1, one_ne_zero, Or.inl ⟨rfl, rfl⟩, ?_⟩
      intro b' hb' hne
      rw [hL] at hb'
      have : b' = (0, 1, "L1") ∨ b' = (0, 2, "L2") := by simpa using hb'
      rcases this with rfl | rfl
      · exact absurd rfl hne
      · exact ⟨by decide, by decide⟩
    · refine ⟨2, by decide, Or.inl ⟨rfl, rfl⟩, ?_⟩
      intro b' hb' hne
      rw [hL] at hb'
      have : b' = (0, 1, "L1") ∨ b' = (0, 2, "L2") := by simpa using hb'
      rcases this with rfl | rfl
      · exact ⟨by decide, by decide⟩
      · exact absurd rfl hne
  · intro o
    have hst : Standard (fun i : Fin (nodes (run {} transformer)).length => if (i : ℕ) = 0 then NodeCfg.mk 7 .oscillator else ⟨5, .charge⟩) := by
      intro i
      by_cases hi : (i : ℕ) = 0
      · simp [hi]
      · simp [hi]
    choose N hN using fun i => expandNode_standard hst i (o i)
    exact ⟨N, hN⟩

/-! ### The directions -/

/-- A ring of three inductors, the first two coupled. -/
def coupledRing : List Call :=
  [.addBranch Orc.id 0 1 "C1", .addBranch Orc.id 0 2 "C2", .addBranch Orc.id 0 1 "L1", .addBranch Orc.id 1 2 "L2", .addBranch Orc.id 0 2 "L3",
    .coupleBranches "L1" "L2" "M1"]

theorem coupledRing_settled : Settled coupledRing (run {} coupledRing) :=
  ⟨[.addBranch Orc.id 0 1 "C1", .addBranch Orc.id 0 2 "C2", .addBranch Orc.id 0 1 "L1", .addBranch Orc.id 1 2 "L2"], Orc.id, 0, 2, "L3",
    [.coupleBranches "L1" "L2" "M1"], rfl, by simp [coupledRing, Call.OK, orcId_ok], by decide +kernel, by simp, rfl⟩

theorem coupledRing_ok : AllOk coupledRing := by
  apply allOk_of_prefixes
  decide +kernel

theorem coupledRing_branches : branches coupledRing = [(0, 1, "C1"), (0, 2, "C2"), (0, 1, "L1"), (1, 2, "L2"), (0, 2, "L3")] := by decide +kernel

theorem coupledRing_netlist : CoupledNetlist coupledRing := by
  refine ⟨by simp [coupledRing], after_of_take ?_, ?_, ?_⟩
  · intro i
    fin_cases i <;> simp [coupledRing, Circuit.Call.isBranch]
  · rw [coupledRing_branches]; decide +kernel
  · rw [coupledRing_branches]; decide +kernel

/-- **C103 is false** if mutual inductances are meant to count in the directions in which the inductors were added: in a ring of three inductors
added from 0 to 1, from 1 to 2 and from 0 to 2, with a mutual inductance between the first two, currents that produce the fluxes do not give the
energy that the inverse inductance matrix gives. -/
theorem C103_directions_false : ∃ (h : List Call) (g : CG), Settled h g ∧ AllOk h ∧ CoupledNetlist h ∧
    ∃ (val : String → ℝ) (pinv : Matrix (Fin (edges g).length) (Fin (edges g).length) ℝ → Matrix (Fin (edges g).length) (Fin (edges g).length) ℝ)
      (L : Matrix (Fin (nodes g).length) (Fin (nodes g).length) ℝ) (φ : Fin (nodes g).length → ℂ) (J : String → ℂ),
      (∀ M, IsPinv M (pinv M)) ∧ (∀ c, 0 < val c) ∧ inverseInductance val g pinv = .ok L ∧
      Produces val (fun _ => 1) h J (inductorFlux (nodes g) (fun _ => 0) φ) ∧
      ∑ i, ∑ j, ((L i j : ℝ) : ℂ) • (φ i * φ j) ≠
        ((branchesOf 'L' (branches h)).map fun b => J b.2.2 * inductorFlux (nodes g) (fun _ => 0) φ b).sum := by
  choose pinv hp using fun M : Matrix (Fin (edges (run {} coupledRing)).length) (Fin (edges (run {} coupledRing)).length) ℝ => pinv_exists M
  have hL : branchesOf 'L' (branches coupledRing) = [(0, 1, "L1"), (1, 2, "L2"), (0, 2, "L3")] := by rw [coupledRing_branches]; decide +kernel
  have hb : ∃ b, createFluxBiases (run {} coupledRing) = .ok b := by
    cases hc : createFluxBiases (run {} coupledRing) with
    | ok b => exact ⟨b, rfl⟩
    | error e =>
      have : (match createFluxBiases (run {} coupledRing) with | .ok _ => true | .error _ => false) = true := by decide +kernel
      rw [hc] at this
      cases this
  obtain ⟨b, hb⟩ := hb
  let val : String → ℝ := fun c => if c = "M1" then 1 / 2 else 1
  obtain ⟨M, hM⟩ := coupled_inductance coupledRing_settled coupledRing_ok (coupled_loaded coupledRing_netlist) hb val
  let φ : Fin (nodes (run {} coupledRing)).length → ℂ := fun i => if (nodes (run {} coupledRing)).get i = 1 then 1 else 0
  have hnodes : nodes (run {} coupledRing) = [1, 2] := by decide +kernel
  have hφ : atNumber (nodes (run {} coupledRing)) φ 0 0 = 0 ∧ atNumber (nodes (run {} coupledRing)) φ 0 1 = 1 ∧
      atNumber (nodes (run {} coupledRing)) φ 0 2 = 0 := by
    have key : ∀ ns : List ℕ, ns = [1, 2] → atNumber ns (fun i => if ns.get i = 1 then (1 : ℂ) else 0) 0 0 = 0 ∧
        atNumber ns (fun i => if ns.get i = 1 then (1 : ℂ) else 0) 0 1 = 1 ∧ atNumber ns (fun i => if ns.get i = 1 then (1 : ℂ) else 0) 0 2 = 0 := by
      rintro _ rfl
      unfold atNumber
      refine ⟨?_, ?_, ?_⟩ <;> simp [List.idxOf, List.findIdx_cons]
    exact key _ hnodes
  have hflux : ∀ f : String → ℝ, (∀ c, f c = 0) → inductorFlux (nodes (run {} coupledRing)) f φ (0, 1, "L1") = -1 ∧
      inductorFlux (nodes (run {} coupledRing)) f φ (1, 2, "L2") = 1 ∧ inductorFlux (nodes (run {} coupledRing)) f φ (0, 2, "L3") = 0 := by
    intro f hf
    unfold inductorFlux
    simp only [hφ.1, hφ.2.1, hφ.2.2, hf]
    simp
  have hm : mutualOf val coupledRing "L1" "L2" = 1 / 2 ∧ mutualOf val coupledRing "L2" "L1" = 1 / 2 ∧ mutualOf val coupledRing "L1" "L3" = 0 ∧
      mutualOf val coupledRing "L3" "L1" = 0 ∧ mutualOf val coupledRing "L2" "L3" = 0 ∧ mutualOf val coupledRing "L3" "L2" = 0 := by
    unfold mutualOf couplings coupledRing
    simp [val]
  have hprod : ∀ (sgn : String → ℝ) (f : String → ℝ), (∀ c, f c = 0) → ∀ s : ℝ, sgn "L1" * sgn "L2" = s → s = 1 ∨ s = -1 →
      Produces val sgn coupledRing (fun c => if c = "L1" then ((-(2 * (2 + s)) / 3 : ℝ) : ℂ) else if c = "L2" then ((2 * (2 + s) / 3 : ℝ) : ℂ) else 0)
        (inductorFlux (nodes (run {} coupledRing)) f φ) := by
    intro sgn f hf s hs hs1
    have hs' : sgn "L2" * sgn "L1" = s := by rw [mul_comm]; exact hs
    intro b' hb'
    rw [hL] at hb' ⊢
    obtain ⟨f1, f2, f3⟩ := hflux f hf
    have hb'' : b' = (0, 1, "L1") ∨ b' = (1, 2, "L2") ∨ b' = (0, 2, "L3") := by simpa using hb'
    rcases hb'' with rfl | rfl | rfl
    · rw [f1]
      simp only [List.map_cons, List.map_nil, List.sum_cons, List.sum_nil, inductanceOf, hm.1, hm.2.2.1]
      rcases hs1 with rfl | rfl <;> simp [hs, val] <;> norm_num
    · rw [f2]
      simp only [List.map_cons, List.map_nil, List.sum_cons, List.sum_nil, inductanceOf, hm.2.1, hm.2.2.2.2.1]
      rcases hs1 with rfl | rfl <;> simp [hs', val] <;> norm_num
    · rw [f3]
      simp only [List.map_cons, List.map_nil, List.sum_cons, List.sum_nil, inductanceOf, hm.2.2.2.1, hm.2.2.2.2.2]
      simp
  have hsign : biasSign coupledRing (run {} coupledRing) "L1" * biasSign coupledRing (run {} coupledRing) "L2" = -1 := by
    have h1 := biasSign_branch coupledRing_settled coupledRing_netlist.ends (b := (0, 1, "L1")) (by rw [coupledRing_branches]; simp)
      (e := (0, 1, 1)) (by decide +kernel) (by decide +kernel)
    have h2 := biasSign_branch coupledRing_settled coupledRing_netlist.ends (b := (1, 2, "L2")) (by rw [coupledRing_branches]; simp)
      (e := (2, 1, 0)) (by decide +kernel) (by decide +kernel)
    rcases h1 with ⟨-, -, h1, -⟩ | ⟨h1, -⟩
    · rcases h2 with ⟨h2, -⟩ | ⟨-, -, h2, -⟩
      · exact absurd h2 (by decide)
      · rw [h1, h2]; norm_num
    · exact absurd h1 (by decide)
  have hzero : ∀ c, fluxOn (fun _ => 0) coupledRing c = 0 := by
    intro c
    unfold fluxOn coupledRing
    simp
  have hgr : GroundedBiases (fun _ => 0) coupledRing := fun b' _ hne => absurd (hzero _) hne
  have hshift : ∀ n, nodeShift (fun _ => (0 : ℝ)) (run {} coupledRing) b n = 0 := by
    intro n
    unfold nodeShift
    split_ifs
    · rfl
    · apply List.sum_eq_zero
      intro x hx
      obtain ⟨e, -, rfl⟩ := List.mem_map.1 hx
      have hbv : biasVal (fun _ => (0 : ℝ)) b.flux e = 0 := by
        unfold biasVal
        split <;> rfl
      rw [hbv]
      cases (run {} coupledRing).cmap.get? e <;> simp
  have hform := inductive_form (A := ℂ) coupledRing_settled coupledRing_ok (coupled_loaded coupledRing_netlist) hb val (fun _ => 0) hgr pinv hp hM φ _
    (hprod _ _ (fun c => by rw [hzero, mul_zero]) (-1) hsign (Or.inr rfl))
  have hx : (fun i => φ i + num ℂ (atNodes (run {} coupledRing) (nodeShift (fun _ => (0 : ℝ)) (run {} coupledRing) b) i)) = φ := by
    funext i
    unfold atNodes
    rw [hshift, map_zero, add_zero]
  rw [hx, quadOp_smul] at hform
  refine ⟨coupledRing, run {} coupledRing, coupledRing_settled, coupledRing_ok, coupledRing_netlist, val, pinv,
    toNodes (run {} coupledRing) (pinv (M.block _ _)), φ, _, hp, ?_, ?_, hprod (fun _ => 1) (fun _ => 0) (fun _ => rfl) 1 (by norm_num) (Or.inl rfl), ?_⟩
  · intro c
    simp only [val]
    split_ifs <;> norm_num
  · unfold inverseInductance
    rw [hM]
  · rw [hform, hL]
    obtain ⟨f1, f2, f3⟩ := hflux (fun c => biasSign coupledRing (run {} coupledRing) c * fluxOn (fun _ => 0) coupledRing c) (fun c => by rw [hzero, mul_zero])
    obtain ⟨g1, g2, g3⟩ := hflux (fun _ => 0) (fun _ => rfl)
    simp only [List.map_cons, List.map_nil, List.sum_cons, List.sum_nil, f1, f2, f3, g1, g2, g3]
    simp
    norm_num

end Verif.Props
