import Verif.Model.Potential
import Verif.Spec.Potential
import Verif.Props.SymbolicBias
import Verif.Props.SymbolicCos
import Std.Data.String.ToNat

/-!
# C67: the classical potential function
-/

namespace Verif.Props

open Verif Verif.Circuit Verif.Sym Verif.Spec

/-- The name under which the value of a symbol is given. -/
def atomName : Atom → String
  | .node n => "phi" ++ toString n
  | .bias s => "phi" ++ s

theorem phi_inj {s t : String} (h : "phi" ++ s = "phi" ++ t) : s = t := by
  have := congrArg String.toList h
  rw [String.toList_append, String.toList_append] at this
  exact String.toList_inj.1 (List.append_cancel_left this)

theorem toString_nat_inj {n m : ℕ} (h : toString n = toString m) : n = m := Nat.repr_injective h

theorem set_named {d : Dict String Atom} (hd : ∀ p ∈ d, p.1 = atomName p.2) (s : String) :
    ∀ p ∈ d.set ("phi" ++ s) (.bias s), p.1 = atomName p.2 := by
  induction d with
  | nil => intro p hp; simp [Dict.set] at hp; subst hp; rfl
  | cons q d ih =>
    intro p hp
    unfold Dict.set at hp
    split_ifs at hp with hk
    · rcases List.mem_cons.1 hp with rfl | hp
      · exact hk
      · exact hd p (List.mem_cons_of_mem _ hp)
    · rcases List.mem_cons.1 hp with rfl | hp
      · exact hd _ List.mem_cons_self
      · exact ih (fun p hp => hd p (List.mem_cons_of_mem _ hp)) p hp

theorem fold_named : ∀ (l : List String) {d : Dict String Atom}, (∀ p ∈ d, p.1 = atomName p.2) →
    ∀ p ∈ l.foldl (fun d s => Dict.set d ("phi" ++ s) (Atom.bias s)) d, p.1 = atomName p.2 := by
  intro l
  induction l with
  | nil => exact fun h => h
  | cons s l ih => exact fun h => ih (set_named h s)

theorem dofMap_named (ord : List String → List String) (g : CG) (b : Biases) : ∀ p ∈ dofMap ord g b, p.1 = atomName p.2 := by
  apply fold_named
  intro p hp
  obtain ⟨n, _, rfl⟩ := List.mem_map.1 hp
  rfl

theorem get?_fold : ∀ (l : List String) (d : Dict String Atom) (t : String),
    (l.foldl (fun d s => Dict.set d ("phi" ++ s) (Atom.bias s)) d).get? ("phi" ++ t) =
      if t ∈ l then some (.bias t) else d.get? ("phi" ++ t) := by
  intro l
  induction l with
  | nil => simp
  | cons s l ih =>
    intro d t
    rw [List.foldl_cons, ih]
    by_cases h1 : t ∈ l
    · rw [if_pos h1, if_pos (List.mem_cons_of_mem _ h1)]
    · rw [if_neg h1]
      by_cases h2 : t = s
      · subst h2
        rw [if_pos List.mem_cons_self, Dict.get?_set_self]
      · rw [if_neg (by simp [h1, h2]), Dict.get?_set_ne]
        exact fun h => h2 (phi_inj h).symm

theorem get?_nodes (l : List ℕ) (n : ℕ) (hn : n ∈ l) :
    Dict.get? (l.map fun n => ("phi" ++ toString n, Atom.node n)) ("phi" ++ toString n) = some (.node n) := by
  induction l with
  | nil => cases hn
  | cons m l ih =>
    rw [List.map_cons, Dict.get?_cons]
    split_ifs with h
    · rw [toString_nat_inj (phi_inj h)]
    · refine ih ?_
      rcases List.mem_cons.1 hn with rfl | hn
      · exact absurd rfl h
      · exact hn

theorem value_mem {d : Dict String Atom} {k : String} {a : Atom} (h : d.get? k = some a) : a ∈ d.values :=
  List.mem_map.2 ⟨_, Dict.mem_of_get? h, rfl⟩

theorem atomVal_eq {d : Dict String Atom} (hd : ∀ p ∈ d, p.1 = atomName p.2) {a : Atom} (ha : a ∈ d.values) (inputs : Dict String ℝ) :
    atomVal d inputs a = (inputs.get? (atomName a)).getD 0 := by
  unfold atomVal
  obtain ⟨q, hq, hqa⟩ := List.mem_map.1 ha
  have : (d.find? fun p => p.2 = a).isSome := List.find?_isSome.2 ⟨q, hq, by simpa using hqa⟩
  obtain ⟨p, hp⟩ := Option.isSome_iff_exists.1 this
  have h1 := List.find?_some hp
  have h2 := hd p (List.mem_of_find?_eq_some hp)
  simp only [decide_eq_true_eq] at h1
  rw [hp, Option.bind_some, h2, h1]

theorem values_node {ord : List String → List String} (ho : ∀ l, (ord l).Perm l) {g : CG} {b : Biases}
    {n : ℕ} (hn : n ∈ nodes g) (hname : toString n ∉ biasesOn g b 'I') :
    Atom.node n ∈ (dofMap ord g b).values := by
  apply value_mem (k := "phi" ++ toString n)
  unfold dofMap
  rw [get?_fold, if_neg, get?_nodes _ _ hn]
  intro h
  exact hname ((mem_uniq _ _).1 ((ho _).mem_iff.1 h))

theorem values_bias {ord : List String → List String} (ho : ∀ l, (ord l).Perm l) {g : CG} {b : Biases} {s : String}
    (hs : s ∈ biasesOn g b 'I') : Atom.bias s ∈ (dofMap ord g b).values := by
  apply value_mem (k := "phi" ++ s)
  unfold dofMap
  rw [get?_fold, if_pos ((ho _).mem_iff.2 ((mem_uniq _ _).2 hs))]

theorem fold_keys : ∀ (l : List String) (d : Dict String Atom), d.keys.Nodup → l.Nodup → (∀ s ∈ l, "phi" ++ s ∉ d.keys) →
    (l.foldl (fun d s => Dict.set d ("phi" ++ s) (Atom.bias s)) d).keys = d.keys ++ l.map ("phi" ++ ·) := by
  intro l
  induction l with
  | nil => simp
  | cons s l ih =>
    intro d hd hl hk
    have h1 : "phi" ++ s ∉ d.keys := hk s List.mem_cons_self
    rw [List.foldl_cons, ih _ (Dict.nodup_keys_set hd _ _) (List.nodup_cons.1 hl).2, Dict.keys_set_of_not_mem _ h1]
    · simp
    · intro t ht
      rw [Dict.keys_set_of_not_mem _ h1]
      intro hm
      rcases List.mem_append.1 hm with hm | hm
      · exact hk t (List.mem_cons_of_mem _ ht) hm
      · have := phi_inj (List.mem_singleton.1 hm)
        subst this
        exact (List.nodup_cons.1 hl).1 ht

/-- The potential with the inductive energy as a quadratic form of the inverse inductance matrix, whatever that matrix is. -/
theorem potential_value (ord : List String → List String) (ho : ∀ l, (ord l).Perm l) (h : List Call) (g : CG) (hs : Settled h g)
    (Ej El : ℝ) (val : String → ℝ) (L : Matrix (Fin (nodes g).length) (Fin (nodes g).length) ℝ) (b : Biases)
    (hind : ∀ e ∈ g.wc, isEdgeOf g 'L' e = .ok true → ∀ s, b.flux.get? e ≠ some (some s))
    (hname : ∀ s ∈ biasesOn g b 'I', ∀ n ∈ nodes g, s ≠ toString n) :
    ∃ f names, classicalPotential ord g b Ej El val L = .ok (f, names) ∧
      names.Perm ((nodes g).map (fun n => "phi" ++ toString n) ++ (uniq (biasesOn g b 'I')).map ("phi" ++ ·)) ∧
      (∀ inputs, (∃ k ∈ names, inputs.get? k = none) → f inputs = .error .assertionError) ∧
      ∀ (inputs : Dict String ℝ) (φ : ℕ → ℝ) (phi : String → ℝ), φ 0 = 0 →
        (∀ n ∈ nodes g, inputs.get? ("phi" ++ toString n) = some (φ n)) →
        (∀ s ∈ biasesOn g b 'I', inputs.get? ("phi" ++ s) = some (phi s)) →
        f inputs = .ok (1 / 2 * El * (atNodes g φ ⬝ᵥ L.mulVec (atNodes g φ)) - junctionEnergy g Ej val (biasVal phi b.flux) φ) := by
  obtain ⟨o, fct⟩ := settled_facts hs
  have hw := fct.inv.toWF
  have hnd := nodes_nodup hw
  have hnode : ∀ i : Fin (nodes g).length, Atom.node ((nodes g).get i) ∈ (dofMap ord g b).values :=
    fun i => values_node ho (List.get_mem _ _) fun hm => hname _ hm _ (List.get_mem _ _) rfl
  have hlam : Lambdifiable (dofMap ord g b) g b L :=
    ⟨fun i _ => hnode i, fun s hs => values_bias ho hs, fun i _ => hnode i,
      fun j hj s hsj => absurd hsj (hind _ (List.get_mem _ _) hj s)⟩
  have hkeys : (dofMap ord g b).keys.Perm ((nodes g).map (fun n => "phi" ++ toString n) ++ (uniq (biasesOn g b 'I')).map ("phi" ++ ·)) := by
    unfold dofMap
    rw [fold_keys]
    · refine List.Perm.append ?_ ((ho _).map _)
      unfold Dict.keys
      rw [List.map_map]
      rfl
    · unfold Dict.keys
      rw [List.map_map]
      exact hnd.map fun n m h => toString_nat_inj (phi_inj h)
    · exact (ho _).nodup_iff.2 (uniq_nodup _)
    · intro s hsm hk
      unfold Dict.keys at hk
      rw [List.map_map] at hk
      obtain ⟨n, hn, he⟩ := List.mem_map.1 hk
      exact hname s ((mem_uniq _ _).1 ((ho _).mem_iff.1 hsm)) n hn (phi_inj he).symm
  refine ⟨_, _, by unfold classicalPotential; rw [if_pos hlam], hkeys, ?_, ?_⟩
  · rintro inputs ⟨k, hk, hn⟩
    unfold potential
    rw [if_neg]
    intro hall
    have := hall k hk
    unfold Dict.has at this
    rw [hn] at this
    cases this
  · intro inputs φ phi h0 hφ hphi
    have hall : ∀ k ∈ (dofMap ord g b).keys, inputs.has k = true := by
      intro k hk
      unfold Dict.has
      rcases List.mem_append.1 (hkeys.mem_iff.1 hk) with hk | hk
      · obtain ⟨n, hn, rfl⟩ := List.mem_map.1 hk
        rw [hφ n hn]; rfl
      · obtain ⟨s, hs, rfl⟩ := List.mem_map.1 hk
        rw [hphi s ((mem_uniq _ _).1 hs)]; rfl
    unfold potential
    rw [if_pos hall]
    have hP : (fun i => atomVal (dofMap ord g b) inputs (.node ((nodes g).get i))) = atNodes g φ := by
      funext i
      rw [atomVal_eq (dofMap_named ord g b) (hnode i)]
      change (inputs.get? ("phi" ++ toString _)).getD 0 = _
      rw [hφ _ (List.get_mem _ _)]
      rfl
    have hB : ∀ s ∈ biasesOn g b 'I', atomVal (dofMap ord g b) inputs (.bias s) = phi s := by
      intro s hs
      rw [atomVal_eq (dofMap_named ord g b) (values_bias ho hs)]
      change (inputs.get? ("phi" ++ s)).getD 0 = _
      rw [hphi s hs]
      rfl
    have hN : fluxBiasNodes (fun s => atomVal (dofMap ord g b) inputs (.bias s)) g b = 0 := by
      unfold fluxBiasNodes
      have : (fun j : Fin (edges g).length => fluxBiasVectorInd (fun s => atomVal (dofMap ord g b) inputs (.bias s)) g b j) = 0 := by
        funext j
        unfold fluxBiasVectorInd
        rw [List.getElem?_eq_getElem j.2]
        simp only
        split_ifs with hj
        · unfold biasVal
          have := hind _ (List.getElem_mem j.2) hj
          cases hg : b.flux.get? (edges g)[(j : ℕ)] with
          | none => rfl
          | some x =>
            cases x with
            | none => rfl
            | some s => exact absurd hg (this s)
        · rfl
      rw [this, Matrix.mulVec_zero]
    simp only [hN, hP, add_zero]
    congr 1
    rw [add_comm]
    have e1 : atNodes g φ ⬝ᵥ ((1 / 2 * El) • L).mulVec (atNodes g φ) = 1 / 2 * El * (atNodes g φ ⬝ᵥ L.mulVec (atNodes g φ)) := by
      rw [Matrix.smul_mulVec, dotProduct_smul, smul_eq_mul]
    rw [e1, sub_eq_add_neg]
    congr 1
    unfold junctionEnergy
    rw [neg_neg, show g.wc = edges g from rfl, ← Fin.sum_univ_fun_getElem]
    apply Finset.sum_congr rfl
    intro j _
    rw [show atNodes g φ = fun i => φ ((nodes g).get i) from rfl, branchFluxes_eq hs φ h0 j]
    unfold josephsonVector fluxBiasVector
    have hj : (edges g)[(j : ℕ)]? = some ((edges g).get j) := List.getElem?_eq_getElem j.2
    obtain ⟨x, _, _, hcm⟩ := wc_branch hs (e := (edges g).get j) (List.get_mem _ _)
    have hedge : isEdgeOf g 'I' ((edges g).get j) = .ok true ↔ pre x.2.2 = some 'I' := by
      unfold isEdgeOf
      rw [hcm]
      simp
    have hjm : (edges g).get j ∈ edges g := List.get_mem _ _
    rw [hj, show (edges g)[(j : ℕ)] = (edges g).get j from rfl]
    generalize (edges g).get j = e at *
    simp only [hcm]
    by_cases hI : pre x.2.2 = some 'I'
    · rw [if_pos hI, if_pos (hedge.2 hI), if_pos ((startsWith_iff _ _).2 hI)]
      congr 4
      unfold biasVal
      cases hg : b.flux.get? e with
      | none => rfl
      | some y =>
        cases y with
        | none => rfl
        | some s =>
          refine hB s (List.mem_filterMap.2 ⟨e, hjm, ?_⟩)
          rw [if_pos (hedge.2 hI), hg]
          rfl
    · rw [if_neg hI, if_neg (fun h => hI ((startsWith_iff _ _).1 h))]
      ring

/-- **C67 (partial)** Without transform, for uncoupled inductors, when no inductor is biased and no junction bias has the number of a node as
its suffix: the potential is built, its inputs are the node fluxes and the junction biases, a call without one of them is refused, and a call with
all of them gives the energy of the inductors *minus* the energy of the junctions.  Missing: the sign of the junction energies (see
`C67_false_sign`), biased inductors, clashing names and transforms. -/
theorem C67_value_partial (ord : List String → List String) (ho : ∀ l, (ord l).Perm l) (h : List Call) (g : CG) (hs : Settled h g)
    (hc : g.coupled = []) (Ej El : ℝ) (val : String → ℝ) (hval : ∀ b ∈ branchesOf 'L' (branches h), val b.2.2 ≠ 0)
    (pinv : Matrix (Fin (edges g).length) (Fin (edges g).length) ℝ → Matrix (Fin (edges g).length) (Fin (edges g).length) ℝ)
    (hp : ∀ M, branchInductance val g = .ok M → IsPinv (M.block _ _) (pinv (M.block _ _)))
    (L : Matrix (Fin (nodes g).length) (Fin (nodes g).length) ℝ) (hL : inverseInductance val g pinv = .ok L) (b : Biases)
    (hind : ∀ e ∈ g.wc, isEdgeOf g 'L' e = .ok true → ∀ s, b.flux.get? e ≠ some (some s))
    (hname : ∀ s ∈ biasesOn g b 'I', ∀ n ∈ nodes g, s ≠ toString n) :
    ∃ f names, classicalPotential ord g b Ej El val L = .ok (f, names) ∧
      names.Perm ((nodes g).map (fun n => "phi" ++ toString n) ++ (uniq (biasesOn g b 'I')).map ("phi" ++ ·)) ∧
      (∀ inputs, (∃ k ∈ names, inputs.get? k = none) → f inputs = .error .assertionError) ∧
      ∀ (inputs : Dict String ℝ) (φ : ℕ → ℝ) (phi : String → ℝ), φ 0 = 0 →
        (∀ n ∈ nodes g, inputs.get? ("phi" ++ toString n) = some (φ n)) →
        (∀ s ∈ biasesOn g b 'I', inputs.get? ("phi" ++ s) = some (phi s)) →
        f inputs = .ok (inductorEnergy (branches h) El val φ - junctionEnergy g Ej val (biasVal phi b.flux) φ) := by
  obtain ⟨f, names, h1, h2, h3, h4⟩ := potential_value ord ho h g hs Ej El val L b hind hname
  refine ⟨f, names, h1, h2, h3, fun inputs φ phi h0 hφ hphi => ?_⟩
  rw [h4 inputs φ phi h0 hφ hphi, C30_uncoupled h g hs hc val hval pinv hp L hL φ h0]
  rfl

/-- **C67 (partial)** In circuits without junctions the potential is the energy of the circuit. -/
theorem C67_linear_partial (ord : List String → List String) (ho : ∀ l, (ord l).Perm l) (h : List Call) (g : CG) (hs : Settled h g)
    (hc : g.coupled = []) (Ej El : ℝ) (val : String → ℝ) (hval : ∀ b ∈ branchesOf 'L' (branches h), val b.2.2 ≠ 0)
    (pinv : Matrix (Fin (edges g).length) (Fin (edges g).length) ℝ → Matrix (Fin (edges g).length) (Fin (edges g).length) ℝ)
    (hp : ∀ M, branchInductance val g = .ok M → IsPinv (M.block _ _) (pinv (M.block _ _)))
    (L : Matrix (Fin (nodes g).length) (Fin (nodes g).length) ℝ) (hL : inverseInductance val g pinv = .ok L) (b : Biases)
    (hind : ∀ e ∈ g.wc, isEdgeOf g 'L' e = .ok true → ∀ s, b.flux.get? e ≠ some (some s))
    (hno : ∀ e ∈ g.wc, ∀ c, g.cmap.get? e = some c → startsWith c 'I' = false) :
    ∃ f names, classicalPotential ord g b Ej El val L = .ok (f, names) ∧
      ∀ (inputs : Dict String ℝ) (φ : ℕ → ℝ), φ 0 = 0 → (∀ n ∈ nodes g, inputs.get? ("phi" ++ toString n) = some (φ n)) →
        f inputs = .ok (inductorEnergy (branches h) El val φ + junctionEnergy g Ej val (fun _ => 0) φ) := by
  have hb : biasesOn g b 'I' = [] := by
    refine List.eq_nil_iff_forall_not_mem.2 fun s hsm => ?_
    obtain ⟨e, he, hse⟩ := List.mem_filterMap.1 hsm
    obtain ⟨x, _, _, hcm⟩ := wc_branch hs (e := e) he
    rw [if_neg] at hse
    · cases hse
    · unfold isEdgeOf
      rw [hcm]
      have := hno e he _ hcm
      intro hI
      simp only [Except.ok.injEq, decide_eq_true_eq] at hI
      rw [(startsWith_iff _ _).2 hI] at this
      cases this
  obtain ⟨f, names, hf, _, _, hv⟩ := C67_value_partial ord ho h g hs hc Ej El val hval pinv hp L hL b hind (by rw [hb]; simp)
  refine ⟨f, names, hf, fun inputs φ h0 hφ => ?_⟩
  have hz : ∀ bias, junctionEnergy g Ej val bias φ = 0 := by
    intro bias
    unfold junctionEnergy
    rw [neg_eq_zero]
    apply List.sum_eq_zero
    intro y hy
    obtain ⟨e, he, rfl⟩ := List.mem_map.1 hy
    obtain ⟨x, _, _, hcm⟩ := wc_branch hs (e := e) he
    simp only [hcm, hno e he _ hcm]
    simp
  rw [hv inputs φ (fun _ => 0) h0 hφ (by rw [hb]; simp), hz, hz, sub_zero, add_zero]

theorem bias_value {ord : List String → List String} (ho : ∀ l, (ord l).Perm l) {g : CG} {b : Biases} {s : String}
    (hm : Atom.bias s ∈ (dofMap ord g b).values) : s ∈ biasesOn g b 'I' := by
  obtain ⟨p, hp, hps⟩ := List.mem_map.1 hm
  have key : ∀ (l : List String) (d : Dict String Atom), (∀ q ∈ d, ∀ t, q.2 = .bias t → t ∈ biasesOn g b 'I') → (∀ t ∈ l, t ∈ biasesOn g b 'I') →
      ∀ q ∈ l.foldl (fun d s => Dict.set d ("phi" ++ s) (Atom.bias s)) d, ∀ t, q.2 = .bias t → t ∈ biasesOn g b 'I' := by
    intro l
    induction l with
    | nil => exact fun d h _ => h
    | cons u l ih =>
      intro d hd hl
      refine ih _ ?_ fun t ht => hl t (List.mem_cons_of_mem _ ht)
      intro q hq t ht
      have : q ∈ d ∨ q.2 = .bias u := by
        clear hd ih
        change q ∈ Dict.set d _ _ at hq
        induction d with
        | nil => simp [Dict.set] at hq; right; rw [hq]
        | cons r d ihd =>
          unfold Dict.set at hq
          split_ifs at hq with hk
          · rcases List.mem_cons.1 hq with rfl | hq
            · exact Or.inr rfl
            · exact Or.inl (List.mem_cons_of_mem _ hq)
          · rcases List.mem_cons.1 hq with rfl | hq
            · exact Or.inl List.mem_cons_self
            · rcases ihd hq with h | h
              · exact Or.inl (List.mem_cons_of_mem _ h)
              · exact Or.inr h
      rcases this with h | h
      · exact hd q h t ht
      · rw [h] at ht
        cases ht
        exact hl _ List.mem_cons_self
  refine key _ _ ?_ ?_ p hp s hps
  · intro q hq t ht
    obtain ⟨n, _, rfl⟩ := List.mem_map.1 hq
    cases ht
  · intro t ht
    exact (mem_uniq _ _).1 ((ho _).mem_iff.1 ht)

theorem node_value {ord : List String → List String} (ho : ∀ l, (ord l).Perm l) {g : CG} (hnd : (nodes g).Nodup) {b : Biases} {n : ℕ}
    (hm : Atom.node n ∈ (dofMap ord g b).values) : toString n ∉ biasesOn g b 'I' := by
  intro hs
  obtain ⟨p, hp, hpn⟩ := List.mem_map.1 hm
  have h1 := dofMap_named ord g b p hp
  rw [hpn] at h1
  have hnodup : (dofMap ord g b).keys.Nodup := by
    unfold dofMap
    have key : ∀ (l : List String) (d : Dict String Atom), d.keys.Nodup → (l.foldl (fun d s => Dict.set d ("phi" ++ s) (Atom.bias s)) d).keys.Nodup := by
      intro l
      induction l with
      | nil => exact fun d h => h
      | cons u l ih => exact fun d h => ih _ (Dict.nodup_keys_set h _ _)
    apply key
    unfold Dict.keys
    rw [List.map_map]
    exact hnd.map fun n m h => toString_nat_inj (phi_inj h)
  have h2 := Dict.get?_of_mem hnodup (k := p.1) (v := p.2) hp
  rw [hpn, h1] at h2
  have h3 : (dofMap ord g b).get? ("phi" ++ toString n) = some (.bias (toString n)) := by
    unfold dofMap
    rw [get?_fold, if_pos ((ho _).mem_iff.2 ((mem_uniq _ _).2 hs))]
  have := h2.symm.trans h3
  simp at this

/-- **C67** When the potential can be built: exactly if every bias of an inductor is also the bias of a junction, and no junction bias has
the number of a connected node as its suffix. -/
theorem C67_defined (ord : List String → List String) (ho : ∀ l, (ord l).Perm l) (h : List Call) (g : CG) (hs : Settled h g)
    (hc : g.coupled = []) (Ej El : ℝ) (val : String → ℝ) (hval : ∀ b ∈ branchesOf 'L' (branches h), 0 < val b.2.2)
    (pinv : Matrix (Fin (edges g).length) (Fin (edges g).length) ℝ → Matrix (Fin (edges g).length) (Fin (edges g).length) ℝ)
    (hp : ∀ M, branchInductance val g = .ok M → IsPinv (M.block _ _) (pinv (M.block _ _)))
    (L : Matrix (Fin (nodes g).length) (Fin (nodes g).length) ℝ) (hL : inverseInductance val g pinv = .ok L) (b : Biases) :
    (∃ r, classicalPotential ord g b Ej El val L = .ok r) ↔
      (∀ e ∈ g.wc, e.1 ≠ e.2.1 → isEdgeOf g 'L' e = .ok true → ∀ s, b.flux.get? e = some (some s) → s ∈ biasesOn g b 'I') ∧
      (∀ e ∈ g.wc, e.1 ≠ e.2.1 → ∀ n ∈ nodes g, n = e.1 ∨ n = e.2.1 → toString n ∉ biasesOn g b 'I') := by
  obtain ⟨o, fct⟩ := settled_facts hs
  have hw := fct.inv.toWF
  have hnd := nodes_nodup hw
  have hinc : ∀ (i : Fin (nodes g).length) (j : Fin (edges g).length), incidence (K := ℝ) g i j ≠ 0 ↔
      ((edges g).get j).1 ≠ ((edges g).get j).2.1 ∧ ((nodes g).get i = ((edges g).get j).1 ∨ (nodes g).get i = ((edges g).get j).2.1) := by
    intro i j
    have := incidence_eq (K := ℝ) g i j
    unfold Mat.block at this
    rw [this]
    by_cases h1 : ((edges g).get j).1 = (nodes g).get i <;> by_cases h2 : ((edges g).get j).2.1 = (nodes g).get i
    · rw [if_pos h1, if_pos h2]
      exact iff_of_false (by norm_num) fun h => h.1 (h1.trans h2.symm)
    · rw [if_pos h1, if_neg h2]
      refine iff_of_true (by norm_num) ⟨fun h => h2 (h ▸ h1), Or.inl h1.symm⟩
    · rw [if_neg h1, if_pos h2]
      refine iff_of_true (by norm_num) ⟨fun h => h1 (h.trans h2), Or.inr h2.symm⟩
    · rw [if_neg h1, if_neg h2]
      refine iff_of_false (by norm_num) ?_
      rintro ⟨_, h | h⟩
      · exact h1 h.symm
      · exact h2 h.symm
  have hdef : (∃ r, classicalPotential ord g b Ej El val L = .ok r) ↔ Lambdifiable (dofMap ord g b) g b L := by
    unfold classicalPotential
    split_ifs with hl
    · exact iff_of_true ⟨_, rfl⟩ hl
    · refine iff_of_false ?_ hl
      rintro ⟨r, hr⟩
      cases hr
  rw [hdef]
  constructor
  · rintro ⟨l1, _, _, l4⟩
    constructor
    · intro e he hne hind s hse
      obtain ⟨j, hj⟩ := List.get_of_mem (show e ∈ edges g from he)
      subst hj
      obtain ⟨ha, hb⟩ := wc_ends hs he
      have hex : ∃ n ∈ nodes g, n = ((edges g).get j).1 ∨ n = ((edges g).get j).2.1 := by
        by_cases h0 : ((edges g).get j).1 = 0
        · exact ⟨_, (mem_nodes hw _).2 ⟨hb, fun h2 => hne (h0.trans h2.symm)⟩, Or.inr rfl⟩
        · exact ⟨_, (mem_nodes hw _).2 ⟨ha, h0⟩, Or.inl rfl⟩
      obtain ⟨n, hn, hne'⟩ := hex
      obtain ⟨i, hi⟩ := List.get_of_mem hn
      refine bias_value ho (l4 j hind s hse i ?_ ((hinc i j).2 ⟨hne, hi ▸ hne'⟩))
      refine ⟨i, Or.inl ?_⟩
      -- the diagonal entry is the sum of the inverse inductances at the node
      have hn0 : n ≠ 0 := ((mem_nodes hw n).1 hn).2
      let φ : ℕ → ℝ := fun m => if m = n then 1 else 0
      have hφ0 : φ 0 = 0 := if_neg (Ne.symm hn0)
      have hform := C30_uncoupled h g hs hc val (fun b hb => (hval b hb).ne') pinv hp L hL φ hφ0
      have hat : atNodes g φ = Pi.single i 1 := by
        funext k
        change (if (nodes g).get k = n then (1 : ℝ) else 0) = _
        by_cases hk : k = i
        · subst hk; rw [if_pos hi, Pi.single_eq_same]
        · rw [Pi.single_eq_of_ne hk, if_neg]
          intro hkn
          exact hk (List.Nodup.injective_get hnd (hkn.trans hi.symm))
      rw [hat] at hform
      have hLii : (Pi.single i 1 : Fin (nodes g).length → ℝ) ⬝ᵥ L.mulVec (Pi.single i 1) = L i i := by simp
      rw [hLii] at hform
      rw [hform]
      obtain ⟨x, hx, hbr, hcm⟩ := wc_branch hs (e := (edges g).get j) he
      have hxL : startsWith x.2.2 'L' = true := by
        unfold isEdgeOf at hind
        rw [hcm] at hind
        simp only [Except.ok.injEq, decide_eq_true_eq] at hind
        exact (startsWith_iff _ _).2 hind
      have hxm : x ∈ branchesOf 'L' (branches h) := List.mem_filter.2 ⟨(List.mem_filter.1 hx).1, hxL⟩
      intro hz
      have hx0 := sum_eq_zero_list (fun b : ℕ × ℕ × String => (φ b.1 - φ b.2.1) ^ 2 / val b.2.2) (branchesOf 'L' (branches h))
        (fun b hb => div_nonneg (sq_nonneg _) (hval b hb).le) hz x hxm
      rw [div_eq_zero_iff] at hx0
      rcases hx0 with hx0 | hx0
      · have hd : φ x.1 - φ x.2.1 = 0 := pow_eq_zero_iff two_ne_zero |>.1 hx0
        have : φ x.1 = φ x.2.1 := sub_eq_zero.1 hd
        simp only [φ] at this
        rcases hbr with ⟨e1, e2⟩ | ⟨e1, e2⟩ <;> rw [e1, e2] at hne hne'
        · rcases hne' with h1 | h1
          · rw [if_pos h1.symm, if_neg (fun hh => hne (h1.symm.trans hh.symm))] at this; norm_num at this
          · rw [if_pos h1.symm, if_neg (fun hh => hne (hh.trans h1))] at this; norm_num at this
        · rcases hne' with h1 | h1
          · rw [if_pos h1.symm, if_neg (fun hh => hne (h1.symm.trans hh.symm))] at this; norm_num at this
          · rw [if_pos h1.symm, if_neg (fun hh => hne (hh.trans h1))] at this; norm_num at this
      · exact (hval x hxm).ne' hx0
    · intro e he hne n hn hne'
      obtain ⟨j, hj⟩ := List.get_of_mem (show e ∈ edges g from he)
      obtain ⟨i, hi⟩ := List.get_of_mem hn
      subst hj
      have := l1 i ⟨j, (hinc i j).2 ⟨hne, hi ▸ hne'⟩⟩
      rw [hi] at this
      exact node_value ho hnd this
  · rintro ⟨c1, c2⟩
    have hnode : ∀ i : Fin (nodes g).length, (∃ j : Fin (edges g).length, incidence (K := ℝ) g i j ≠ 0) →
        Atom.node ((nodes g).get i) ∈ (dofMap ord g b).values := by
      rintro i ⟨j, hij⟩
      obtain ⟨h1, h2⟩ := (hinc i j).1 hij
      exact values_node ho (List.get_mem _ _) (c2 _ (List.get_mem _ _) h1 _ (List.get_mem _ _) h2)
    refine ⟨hnode, fun s hs => values_bias ho hs, ?_, ?_⟩
    · intro i hi
      apply hnode
      by_contra hno
      push Not at hno
      obtain ⟨M, hM, rfl⟩ := inverseInductance_ok hL
      have hrow : ∀ k, Mat.block (K := ℝ) (incidence g) (nodes g).length (edges g).length i k = 0 := hno
      obtain ⟨j, hj⟩ := hi
      have z1 : toNodes g (pinv (M.block _ _)) i j = 0 := by
        unfold toNodes
        rw [Matrix.mul_assoc, Matrix.mul_apply]
        exact Finset.sum_eq_zero fun k _ => by rw [hrow k, zero_mul]
      have z2 : toNodes g (pinv (M.block _ _)) j i = 0 := by
        unfold toNodes
        rw [Matrix.mul_apply]
        exact Finset.sum_eq_zero fun k _ => by rw [Matrix.transpose_apply, hrow k, mul_zero]
      rcases hj with hj | hj
      · exact hj z1
      · exact hj z2
    · intro j hj s hsj i _ hij
      obtain ⟨h1, _⟩ := (hinc i j).1 hij
      exact values_bias ho (c1 _ (List.get_mem _ _) h1 hj s hsj)

/-! ### Concrete cases -/

theorem oneJunction_settled : Settled oneJunction (run {} oneJunction) :=
  settled_of_list orcId_ok [(0, 1, "C1")] (0, 1, "I1") (by decide +kernel)

/-- An rf-SQUID: an inductor and a junction to ground. -/
def rfSquid : List Call := [.addBranch Orc.id 0 1 "L1", .addBranch Orc.id 0 1 "I1"]

theorem rfSquid_settled : Settled rfSquid (run {} rfSquid) :=
  settled_of_list orcId_ok [(0, 1, "L1")] (0, 1, "I1") (by decide +kernel)

/-- Histories with a bias at the end are settled. -/
theorem settled_bias {h : List Call} (hs : Settled h (run {} h)) (c : String) (s : Option String) :
    Settled (h ++ [.addFluxBias c s none]) (run {} (h ++ [.addFluxBias c s none])) := by
  obtain ⟨l1, o, a, b, x, l2, he, h1, h2, h3, _⟩ := hs
  refine ⟨l1, o, a, b, x, l2 ++ [.addFluxBias c s none], by rw [he]; simp, ?_, h2, ?_, rfl⟩
  · intro y hy
    rcases List.mem_append.1 hy with hy | hy
    · exact h1 y hy
    · rw [List.mem_singleton.1 hy]; trivial
  · intro y hy
    rcases List.mem_append.1 hy with hy | hy
    · exact h3 y hy
    · rw [List.mem_singleton.1 hy]; intro o a b c hh; cases hh

theorem oneJunction_ind (val : String → ℝ) : branchInductance val (run {} oneJunction) = .ok fun _ _ => 0 := rfl

theorem oneJunction_potential : ∃ b, createFluxBiases (run {} oneJunction) = .ok b ∧
    ∃ L, inverseInductance (fun _ => (1 : ℝ)) (run {} oneJunction) (fun M => M) = .ok L ∧
    ∃ f names, classicalPotential id (run {} oneJunction) b 1 1 (fun _ => 1) L = .ok (f, names) ∧
      ∀ x : ℝ, f [("phi1", x)] = .ok (Real.cos (2 * Real.pi * x)) ∧
        junctionEnergy (run {} oneJunction) 1 (fun _ => 1) (fun _ => 0) (fun n => if n = 1 then x else 0) = - Real.cos (2 * Real.pi * x) ∧
        inductorEnergy (branches oneJunction) 1 (fun _ => 1) (fun n => if n = 1 then x else 0) = 0 := by
  have hb : createFluxBiases (run {} oneJunction) = .ok ⟨[((0, 1, 1), none)], [((0, 1, 1), none)]⟩ := by decide +kernel
  have hn : nodes (run {} oneJunction) = [1] := by decide +kernel
  have hwc : (run {} oneJunction).wc = [(0, 1, 1)] := by decide +kernel
  have hcm : (run {} oneJunction).cmap.get? (0, 1, 1) = some "I1" := by decide +kernel
  have hbI : biasesOn (run {} oneJunction) ⟨[((0, 1, 1), none)], [((0, 1, 1), none)]⟩ 'I' = [] := by decide +kernel
  have hje : ∀ x : ℝ, ∀ bias : ℕ × ℕ × ℕ → ℝ, bias (0, 1, 1) = 0 →
      junctionEnergy (run {} oneJunction) 1 (fun _ => 1) bias (fun n => if n = 1 then x else 0) = - Real.cos (2 * Real.pi * x) := by
    intro x bias hbias
    unfold junctionEnergy
    rw [hwc]
    simp only [List.map_cons, List.map_nil, List.sum_cons, List.sum_nil, hcm, hbias]
    rw [if_pos (by decide +kernel)]
    norm_num
  have hie : ∀ x : ℝ, inductorEnergy (branches oneJunction) 1 (fun _ => 1) (fun n => if n = 1 then x else 0) = 0 := by
    intro x
    unfold inductorEnergy inductorForm
    rw [show branchesOf 'L' (branches oneJunction) = [] by decide +kernel]
    simp
  have hL : inverseInductance (fun _ => (1 : ℝ)) (run {} oneJunction) (fun M => M) = .ok _ := rfl
  refine ⟨_, hb, _, hL, ?_⟩
  obtain ⟨f, names, hf, _, _, hv⟩ := C67_value_partial id (fun l => List.Perm.refl l) oneJunction (run {} oneJunction) oneJunction_settled
    (by decide +kernel) 1 1 (fun _ => 1) (by simp) (fun M => M)
    (by
      intro M hM
      obtain rfl := Except.ok.inj (hM.symm.trans (oneJunction_ind _))
      have : (Mat.block (fun _ _ => (0 : ℝ)) (edges (run {} oneJunction)).length (edges (run {} oneJunction)).length) = 0 := rfl
      rw [this]
      constructor <;> simp) _ hL ⟨[((0, 1, 1), none)], [((0, 1, 1), none)]⟩
    (by
      intro e he _ s hse
      rw [hwc] at he
      obtain rfl := List.mem_singleton.1 he
      have : (Dict.get? [((0, 1, 1), (none : Option String))] (0, 1, 1)) = some none := by decide
      rw [show (Dict.get? _ _) = _ from hse] at this
      cases this) (by rw [hbI]; simp)
  refine ⟨f, names, hf, fun x => ⟨?_, hje x _ rfl, hie x⟩⟩
  rw [hv [("phi1", x)] (fun n => if n = 1 then x else 0) (fun _ => 0) (by simp) ?_ (by rw [hbI]; simp), hie, hje x _ rfl]
  · simp
  · intro n hnm
    rw [hn] at hnm
    obtain rfl := List.mem_singleton.1 hnm
    have : "phi" ++ toString 1 = "phi1" := by decide +kernel
    rw [this]
    simp

theorem get?_defaults (names : List String) (k : String) : ((defaultInputs names).get? k).getD 0 = 0 := by
  unfold defaultInputs
  induction names with
  | nil => rfl
  | cons x l ih =>
    rw [List.map_cons]
    change (if x = k then some 0 else Dict.get? (l.map fun k => (k, (0 : ℝ))) k).getD 0 = 0
    split
    · rfl
    · exact ih

/-- **C67** Whenever the potential is built, whatever the circuit, it accepts the default inputs, and its value there is minus the energy of the
unbiased junctions at zero flux: the inductors contribute nothing. -/
theorem C67_defaults (ord : List String → List String) (g : CG) (b : Biases) (Ej El : ℝ) (val : String → ℝ)
    (L : Matrix (Fin (nodes g).length) (Fin (nodes g).length) ℝ) (f : Dict String ℝ → Except Err ℝ) (names : List String)
    (hf : classicalPotential ord g b Ej El val L = .ok (f, names)) :
    f (defaultInputs names) = .ok (- junctionEnergy g Ej val (fun _ => 0) (fun _ => 0)) := by
  unfold classicalPotential at hf
  split at hf
  swap
  · cases hf
  cases hf
  have hat : ∀ a, atomVal (dofMap ord g b) (defaultInputs (dofMap ord g b).keys) a = 0 := by
    intro a
    unfold atomVal
    cases (dofMap ord g b).find? fun p => p.2 = a with
    | none => rfl
    | some p => exact get?_defaults _ p.1
  have hbv : ∀ (d : Dict Edge (Option String)) e, biasVal (fun _ => (0 : ℝ)) d e = 0 := by
    intro d e
    unfold biasVal
    split <;> rfl
  have hN : fluxBiasNodes (fun _ => (0 : ℝ)) g b = 0 := by
    unfold fluxBiasNodes
    have : (fun j : Fin (edges g).length => fluxBiasVectorInd (fun _ => (0 : ℝ)) g b j) = 0 := by
      funext j
      unfold fluxBiasVectorInd
      split
      · rw [hbv, ite_self]; rfl
      · rfl
    rw [this, Matrix.mulVec_zero]
  have hall : ∀ k ∈ (dofMap ord g b).keys, (defaultInputs (dofMap ord g b).keys).has k = true := by
    intro k hk
    unfold defaultInputs
    generalize (dofMap ord g b).keys = l at hk
    induction l with
    | nil => cases hk
    | cons x l ih =>
      change ((if x = k then some 0 else Dict.get? (l.map fun k => (k, (0 : ℝ))) k)).isSome = true
      split
      · rfl
      · rename_i hx
        rcases List.mem_cons.1 hk with rfl | hk
        · exact absurd rfl hx
        · exact ih hk
  unfold potential
  rw [if_pos hall]
  simp only [hat, hN]
  have hP : branchFluxes g (fun _ : Fin (nodes g).length => (0 : ℝ)) = 0 := by
    unfold branchFluxes
    exact Matrix.mulVec_zero _
  rw [hP, show (fun _ : Fin (nodes g).length => (0 : ℝ)) = 0 from rfl, add_zero, zero_dotProduct, add_zero]
  congr 1
  unfold junctionEnergy
  rw [neg_neg, show g.wc = edges g from rfl, ← Fin.sum_univ_fun_getElem]
  apply Finset.sum_congr rfl
  intro j _
  have hv : fluxBiasVector (fun _ => (0 : ℝ)) g b j = 0 := by
    unfold fluxBiasVector
    split
    · rw [hbv, ite_self]
    · rfl
  rw [hv]
  unfold josephsonVector
  rw [List.getElem?_eq_getElem j.2]
  simp only [Pi.zero_apply, add_zero, sub_zero, mul_zero, Real.cos_zero, mul_one]
  cases g.cmap.get? (edges g)[(j : ℕ)] with
  | none => simp
  | some c =>
    change Ej * (if pre c = some 'I' then val c else 0) = if startsWith c 'I' = true then Ej * val c else 0
    by_cases hI : pre c = some 'I'
    · rw [if_pos ((startsWith_iff _ _).2 hI), if_pos hI]
    · rw [if_neg fun hc => hI ((startsWith_iff _ _).1 hc), if_neg hI, mul_zero]

/-- The potential of one junction is built, and at the default inputs it is `Ej I = 1`. -/
example : ∃ b L f names, classicalPotential id (run {} oneJunction) b 1 1 (fun _ => 1) L = .ok (f, names) ∧ f (defaultInputs names) = .ok 1 := by
  obtain ⟨b, _, L, _, f, names, hf, hv⟩ := oneJunction_potential
  refine ⟨b, L, f, names, hf, ?_⟩
  have := (hv 0).2.1
  simp only [ite_self, mul_zero, Real.cos_zero] at this
  rw [C67_defaults id _ b 1 1 _ L f names hf, this, neg_neg]

/-- **C67 is false**: the junction energies have the wrong sign.  For one junction (a transmon without its capacitor) the potential at zero flux
is +1 and the energy -1: the minimum of the potential is a maximum of the energy. -/
theorem C67_false_sign : ∃ b, createFluxBiases (run {} oneJunction) = .ok b ∧
    ∃ L, inverseInductance (fun _ => (1 : ℝ)) (run {} oneJunction) (fun M => M) = .ok L ∧
    ∃ f names, classicalPotential id (run {} oneJunction) b 1 1 (fun _ => 1) L = .ok (f, names) ∧ f [("phi1", 0)] = .ok 1 ∧
      inductorEnergy (branches oneJunction) 1 (fun _ => 1) (fun n => if n = 1 then 0 else 0) +
        junctionEnergy (run {} oneJunction) 1 (fun _ => 1) (fun _ => 0) (fun n => if n = 1 then 0 else 0) = -1 := by
  obtain ⟨b, hb, L, hL, f, names, hf, hv⟩ := oneJunction_potential
  obtain ⟨h1, h2, h3⟩ := hv 0
  refine ⟨b, hb, L, hL, f, names, hf, ?_, ?_⟩
  · rw [h1]; simp
  · rw [h2, h3]; simp

/-- **C67 is false** with a transform (besides the sign): the fluxes of the junctions are computed as if the inputs were still node fluxes.
With the coordinate `x = 2 φ` the input 1/2 means the node flux 1/4, where the energy of the junction is 0, but the potential is -1.
(The circuit has no inductor, so its inverse inductance matrix is 0 with every transform.) -/
theorem C67_false_transform : ∃ b, createFluxBiases (run {} oneJunction) = .ok b ∧
    ∃ L, inverseInductance (fun _ => (1 : ℝ)) (run {} oneJunction) (fun M => M) = .ok L ∧
    ∃ f names, classicalPotential id (run {} oneJunction) b 1 1 (fun _ => 1) L = .ok (f, names) ∧ f [("phi1", 1 / 2)] = .ok (-1) ∧
      junctionEnergy (run {} oneJunction) 1 (fun _ => 1) (fun _ => 0) (fun n => if n = 1 then 1 / 4 else 0) = 0 := by
  obtain ⟨b, hb, L, hL, f, names, hf, hv⟩ := oneJunction_potential
  refine ⟨b, hb, L, hL, f, names, hf, ?_, ?_⟩
  · rw [(hv (1 / 2)).1, show 2 * Real.pi * (1 / 2) = Real.pi by ring, Real.cos_pi]
  · rw [(hv (1 / 4)).2.1, show 2 * Real.pi * (1 / 4) = Real.pi / 2 by ring, Real.cos_pi_div_two, neg_zero]

/-- The pseudo-inverse of the branch inductances of the rf-SQUID with inductance 1. -/
noncomputable def squidPinv (n : ℕ) : Matrix (Fin n) (Fin n) ℝ := fun i j => if (i : ℕ) = 0 ∧ (j : ℕ) = 0 then 1 else 0

theorem squidPinv_pinv (n : ℕ) (hn : n = 2) : IsPinv (squidPinv n) (squidPinv n) := by
  subst hn
  have h2 : squidPinv 2 * squidPinv 2 = squidPinv 2 := by
    ext i j; fin_cases i <;> fin_cases j <;> simp [squidPinv, Matrix.mul_apply]
  have h3 : (squidPinv 2).transpose = squidPinv 2 := by
    ext i j; fin_cases i <;> fin_cases j <;> simp [squidPinv]
  constructor
  · rw [h2, h2]
  · rw [h2, h2]
  · rw [h2, h3]
  · rw [h2, h3]

theorem squid_refused (h : List Call) (g : CG) (hs : Settled h g) (b : Biases) (hwc : g.wc = [(0, 1, 0), (1, 0, 1)])
    (h1 : g.cmap.get? (0, 1, 0) = some "L1") (h2 : g.cmap.get? (1, 0, 1) = some "I1")
    (hfb : (g.fluxBias.get? (0, 1, 0)).bind Bias.comp = none) (hc : g.coupled = [])
    (hbad : ¬ ((∀ e ∈ g.wc, e.1 ≠ e.2.1 → isEdgeOf g 'L' e = .ok true → ∀ t, b.flux.get? e = some (some t) → t ∈ biasesOn g b 'I') ∧
      (∀ e ∈ g.wc, e.1 ≠ e.2.1 → ∀ n ∈ nodes g, n = e.1 ∨ n = e.2.1 → toString n ∉ biasesOn g b 'I'))) :
    ∃ L, inverseInductance (fun _ => (1 : ℝ)) g (fun _ => squidPinv _) = .ok L ∧
      ∃ err, classicalPotential id g b 1 1 (fun _ => 1) L = .error err := by
  have hind : branchInductance (fun _ => (1 : ℝ)) g = .ok (Mat.setAt (fun _ _ => (0 : ℝ)) 0 0 1) := by
    unfold branchInductance edges
    rw [hwc, hc]
    have d1 : ∀ M : Mat ℝ, indDiag (fun _ => (1 : ℝ)) g M ((0, 1, 0), 0) = .ok (M.setAt 0 0 1) := by
      intro M
      unfold indDiag
      simp only [h1]
      rw [if_pos (by decide +kernel)]
      cases hb : g.fluxBias.get? (0, 1, 0) with
      | none => rfl
      | some x =>
        rw [hb, Option.bind_some] at hfb
        simp only [hfb]
    have d2 : ∀ M : Mat ℝ, indDiag (fun _ => (1 : ℝ)) g M ((1, 0, 1), 1) = .ok M := by
      intro M
      unfold indDiag
      simp only [h2]
      rw [if_neg (by decide +kernel)]
    simp [List.zipIdx, d1, d2, bind, Except.bind, pure, Except.pure]
  have hlen : (edges g).length = 2 := by unfold edges; rw [hwc]; rfl
  have hL : ∃ L, inverseInductance (fun _ => (1 : ℝ)) g (fun _ => squidPinv _) = .ok L := by
    unfold inverseInductance
    rw [hind]
    exact ⟨_, rfl⟩
  obtain ⟨L, hL⟩ := hL
  refine ⟨L, hL, ?_⟩
  have := C67_defined id (fun l => List.Perm.refl l) h g hs hc 1 1 (fun _ => 1) (by simp) (fun _ => squidPinv _) (by
    intro M hM
    obtain rfl := Except.ok.inj (hM.symm.trans hind)
    exact squidPinv_pinv _ hlen) L hL b
  cases hr : classicalPotential id g b 1 1 (fun _ => 1) L with
  | error e => exact ⟨e, rfl⟩
  | ok r => exact absurd (this.1 ⟨r, hr⟩) hbad

/-- **C67 is false**: there is no potential for an rf-SQUID whose flux bias is on its inductor. -/
theorem C67_false_inductor : ∃ h g b, h = rfSquid ++ [.addFluxBias "L1" (some "z") none] ∧ Settled h g ∧ createFluxBiases g = .ok b ∧
    ∃ L, inverseInductance (fun _ => (1 : ℝ)) g (fun _ => squidPinv _) = .ok L ∧
      ∃ err, classicalPotential id g b 1 1 (fun _ => 1) L = .error err := by
  have hb : createFluxBiases (run {} (rfSquid ++ [.addFluxBias "L1" (some "z") none])) =
    .ok ⟨[((0, 1, 0), some "z"), ((1, 0, 1), none)], [((0, 1, 0), some "z"), ((1, 0, 1), none)]⟩ := by decide +kernel
  have hs := settled_bias rfSquid_settled "L1" (some "z")
  refine ⟨_, _, _, rfl, hs, hb, squid_refused _ _ hs _ (by decide +kernel) (by decide +kernel) (by decide +kernel)
    (by decide +kernel) (by decide +kernel) ?_⟩
  rintro ⟨h1, _⟩
  exact absurd (h1 (0, 1, 0) (by decide +kernel) (by decide) (by decide +kernel) "z" (by decide +kernel)) (by decide +kernel)

/-- **C67 is false**: there is no potential for an rf-SQUID whose bias on the junction was given the suffix "1", the number of its node. -/
theorem C67_false_name : ∃ h g b, h = rfSquid ++ [.addFluxBias "I1" (some "1") none] ∧ Settled h g ∧ createFluxBiases g = .ok b ∧
    ∃ L, inverseInductance (fun _ => (1 : ℝ)) g (fun _ => squidPinv _) = .ok L ∧
      ∃ err, classicalPotential id g b 1 1 (fun _ => 1) L = .error err := by
  have hb : createFluxBiases (run {} (rfSquid ++ [.addFluxBias "I1" (some "1") none])) =
    .ok ⟨[((0, 1, 0), none), ((1, 0, 1), some "1")], [((0, 1, 0), none), ((1, 0, 1), some "1")]⟩ := by decide +kernel
  have hs := settled_bias rfSquid_settled "I1" (some "1")
  refine ⟨_, _, _, rfl, hs, hb, squid_refused _ _ hs _ (by decide +kernel) (by decide +kernel) (by decide +kernel)
    (by decide +kernel) (by decide +kernel) ?_⟩
  rintro ⟨_, h2⟩
  exact absurd (h2 (0, 1, 0) (by decide +kernel) (by decide) 1 (by decide +kernel) (Or.inr rfl)) (by decide +kernel)

-- the hypotheses of `C67_value_partial` on the biases hold for an rf-SQUID with a bias "z" on its junction
example : ∃ h g b, h = rfSquid ++ [.addFluxBias "I1" (some "z") none] ∧ Settled h g ∧ createFluxBiases g = .ok b ∧ biasesOn g b 'I' = ["z"] ∧
    (∀ e ∈ g.wc, isEdgeOf g 'L' e = .ok true → ∀ s, b.flux.get? e ≠ some (some s)) ∧
    (∀ s ∈ biasesOn g b 'I', ∀ n ∈ nodes g, s ≠ toString n) := by
  have hb : createFluxBiases (run {} (rfSquid ++ [.addFluxBias "I1" (some "z") none])) =
    .ok ⟨[((0, 1, 0), none), ((1, 0, 1), some "z")], [((0, 1, 0), none), ((1, 0, 1), some "z")]⟩ := by decide +kernel
  refine ⟨_, _, _, rfl, settled_bias rfSquid_settled "I1" (some "z"), hb, by decide +kernel, ?_, by decide +kernel⟩
  intro e he hI s hse
  have hwc : (run {} (rfSquid ++ [.addFluxBias "I1" (some "z") none])).wc = [(0, 1, 0), (1, 0, 1)] := by decide +kernel
  rw [hwc] at he
  rcases List.mem_cons.1 he with rfl | he
  · have : (Dict.get? [((0, 1, 0), none), ((1, 0, 1), some "z")] (0, 1, 0)) = some none := by decide
    rw [show (Dict.get? _ _) = _ from hse] at this
    cases this
  · obtain rfl := List.mem_singleton.1 he
    exact absurd hI (by decide +kernel)

end Verif.Props
