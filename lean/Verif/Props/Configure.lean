import Verif.Props.NumericalSet
import Verif.Props.NumericalExamples
import Verif.Props.Derived

/-!
# C80: choosing the basis of a node
-/

namespace Verif.Props

open Verif Verif.Num Verif.Spec

variable {E D R O : Type}

/-! ### Helper lemmas -/

theorem set_new {V : Type} (d : Dict String V) (k : String) (v : V) (h : k ∉ d.keys) : d.set k v = d ++ [(k, v)] := by
  induction d with
  | nil => rfl
  | cons p d ih =>
    obtain ⟨a, b⟩ := p
    have ha : a ≠ k := by rintro rfl; exact h (by simp [Dict.keys])
    simp only [Dict.set, if_neg ha, List.cons_append]
    rw [ih fun hm => h (by simp only [Dict.keys, List.map_cons, List.mem_cons]; exact Or.inr hm)]

theorem set_same {V : Type} (d : Dict String V) (k : String) (v : V) (h : d.get? k = some v) : d.set k v = d := by
  induction d with
  | nil => cases h
  | cons p d ih =>
    obtain ⟨a, b⟩ := p
    rw [Dict.get?_cons] at h
    simp only [Dict.set]
    split_ifs at h ⊢ with ha
    · cases h; rfl
    · rw [ih h]

theorem revMap_set (pc : PC E) (name : String) (s s' : Sym) (hs : s ≠ s') (hn : name ∉ pc.symMap.keys) :
    PC.revMap { pc with symMap := pc.symMap.set name s } s' = pc.revMap s' := by
  have : pc.symMap.set name s = pc.symMap ++ [(name, s)] := set_new _ _ _ hn
  unfold PC.revMap
  simp only [this, List.reverse_append, List.reverse_cons, List.reverse_nil, List.nil_append, List.singleton_append, List.find?_cons]
  simp [hs]

theorem symbolNames_of {pc pc' : PC E} : ∀ l : List Sym, (∀ s ∈ l, pc'.revMap s = pc.revMap s) → pc'.symbolNames l = pc.symbolNames l := by
  intro l
  induction l with
  | nil => intro _; rfl
  | cons s l ih =>
    intro h
    unfold PC.symbolNames
    rw [h s (List.mem_cons_self ..), ih fun x hx => h x (List.mem_cons_of_mem _ hx)]

theorem addParameter_cases (pc pc' : PC E) (name : String) (h : pc.addParameter name = (pc', .ok ())) :
    (pc' = pc ∧ pc.coll.has name = true) ∨ ∃ p, pc.coll.has name = false ∧ p.name = name ∧ p.value = none ∧
      pc' = { pc with coll := pc.coll.set name p, symMap := pc.symMap.set name p.symbol, graph := pc.graph.addNode name } := by
  unfold PC.addParameter at h
  split_ifs at h with hh
  · cases h; exact Or.inl ⟨rfl, hh⟩
  · split at h
    · cases h
    · rename_i p hp
      cases h
      refine Or.inr ⟨p, by simpa using hh, ?_, ?_, rfl⟩
      all_goals
        unfold Param.new at hp
        split_ifs at hp
        simp only at hp
        split at hp
        · cases hp
        · split at hp
          · cases hp
          · split_ifs at hp
            split at hp <;> cases hp <;> rfl

theorem addParameterisation_cases (eng : Engine E) (pc pc' : PC E) (name : String) (ex : E) (h : pc.addParameterisation eng name ex = (pc', .ok ())) :
    ∃ ns, pc.coll.has name = true ∧ pc.symbolNames (eng.free ex) = .ok ns ∧ (ns.foldl (fun g p => g.addEdge p name) pc.graph).isDag = true ∧
      pc' = { pc with parz := pc.parz.set name (ex, ns), graph := ns.foldl (fun g p => g.addEdge p name) pc.graph } := by
  unfold PC.addParameterisation at h
  split_ifs at h with hh
  · split at h
    · cases h
    · rename_i ns hns
      simp only at h
      split_ifs at h with hd
      · cases h
        exact ⟨ns, hh, hns, hd, rfl⟩
      · cases h
  · cases h

/-- The dependencies of a parameterisation are in the graph. -/
def Drawn (g : DiGraph String) (name : String) (ns : List String) : Prop := ∀ p ∈ ns, p ∈ g.nodes ∧ name ∈ g.nodes ∧ (p, name) ∈ g.edges

theorem addNode_mono (g : DiGraph String) (n : String) : (∀ x ∈ g.nodes, x ∈ (g.addNode n).nodes) ∧ ∀ e ∈ g.edges, e ∈ (g.addNode n).edges := by
  refine ⟨fun x hx => (DiGraph.mem_addNode _ _ _).2 (Or.inl hx), fun e he => ?_⟩
  rw [DiGraph.addNode_edges]; exact he

theorem addEdge_mono (g : DiGraph String) (u v : String) : (∀ x ∈ g.nodes, x ∈ (g.addEdge u v).nodes) ∧ (∀ e ∈ g.edges, e ∈ (g.addEdge u v).edges) ∧
    u ∈ (g.addEdge u v).nodes ∧ v ∈ (g.addEdge u v).nodes ∧ (u, v) ∈ (g.addEdge u v).edges := by
  refine ⟨fun x hx => (DiGraph.mem_addEdge _ _ _ _).2 (Or.inl hx), ?_, (DiGraph.mem_addEdge _ _ _ _).2 (by simp), (DiGraph.mem_addEdge _ _ _ _).2 (by simp), ?_⟩
  · intro e he
    unfold DiGraph.addEdge
    simp only [DiGraph.addNode_edges]
    split_ifs <;> simp [he]
  · unfold DiGraph.addEdge
    simp only [DiGraph.addNode_edges]
    split_ifs with h <;> simp [h]

theorem addEdges_mono (name : String) : ∀ (ns : List String) (g : DiGraph String),
    (∀ x ∈ g.nodes, x ∈ (ns.foldl (fun g p => g.addEdge p name) g).nodes) ∧ (∀ e ∈ g.edges, e ∈ (ns.foldl (fun g p => g.addEdge p name) g).edges) ∧
    Drawn (ns.foldl (fun g p => g.addEdge p name) g) name ns := by
  intro ns
  induction ns with
  | nil => intro g; exact ⟨fun _ h => h, fun _ h => h, by intro p hp; cases hp⟩
  | cons n ns ih =>
    intro g
    obtain ⟨a, b, c⟩ := ih (g.addEdge n name)
    obtain ⟨m1, m2, m3, m4, m5⟩ := addEdge_mono g n name
    refine ⟨fun x hx => a x (m1 x hx), fun e he => b e (m2 e he), ?_⟩
    intro p hp
    rcases List.mem_cons.1 hp with rfl | hp
    · exact ⟨a _ m3, a _ m4, b _ m5⟩
    · exact c p hp

theorem addEdges_again (name : String) : ∀ (ns : List String) (g : DiGraph String), Drawn g name ns → ns.foldl (fun g p => g.addEdge p name) g = g := by
  intro ns
  induction ns with
  | nil => intro g _; rfl
  | cons n ns ih =>
    intro g h
    obtain ⟨a, b, c⟩ := h n (List.mem_cons_self ..)
    have : g.addEdge n name = g := by
      unfold DiGraph.addEdge
      simp only [DiGraph.addNode_of_mem a, DiGraph.addNode_of_mem b, if_pos c]
    rw [List.foldl_cons, this]
    exact ih g fun p hp => h p (List.mem_cons_of_mem _ hp)

theorem names_differ (a b : ℕ) : NS.fName a ≠ NS.zName b := by
  intro h
  have := congrArg (fun s : String => s.toList.head?) h
  simp [NS.fName, NS.zName] at this

/-- What a successful call in the oscillator basis does, step by step. -/
theorem configure_cases (eng : Engine E) (st st' : NS E R O) (freq imp : ℕ → E) (node trunc : ℕ)
    (h : st.configureOperator eng freq imp node trunc .oscillator = (st', .ok ())) :
    node ∈ st.nodes ∧ ∃ p₁ p₂ p₃ p₄, st.sw.pc.addParameter (NS.fName node) = (p₁, .ok ()) ∧ p₁.addParameterisation eng (NS.fName node) (freq node) = (p₂, .ok ()) ∧
      p₂.addParameter (NS.zName node) = (p₃, .ok ()) ∧ p₃.addParameterisation eng (NS.zName node) (imp node) = (p₄, .ok ()) ∧
      st' = { st with sw := { st.sw with pc := p₄ }, cfg := st.cfg.set node ⟨trunc, .oscillator, some (imp node)⟩ } := by
  unfold NS.configureOperator at h
  by_cases hn : node ∈ st.nodes
  · simp only [hn, not_true_eq_false, if_false, if_true] at h
    refine ⟨hn, ?_⟩
    split at h
    · cases h
    rename_i p₁ h1
    split at h
    · cases h
    rename_i p₂ h2
    split at h
    · cases h
    rename_i p₃ h3
    split at h
    · cases h
    rename_i p₄ h4
    cases h
    exact ⟨p₁, p₂, p₃, p₄, h1, h2, h3, h4, rfl⟩
  · simp only [hn, not_false_eq_true, if_true] at h
    cases h

/-! ### C80 -/

/-- **C80** A node that is not in the circuit is refused, and nothing changes. -/
theorem C80_unknown_node (eng : Engine E) (st : NS E R O) (freq imp : ℕ → E) (node trunc : ℕ) (basis : BasisName) (h : node ∉ st.nodes) :
    ∃ e, st.configureOperator eng freq imp node trunc basis = (st, .error e) :=
  ⟨_, by unfold NS.configureOperator; rw [if_pos h]⟩

/-- **C80** A basis other than the oscillator basis is always accepted for a node of the circuit; it touches no parameter and no other node. -/
theorem C80_other_basis (eng : Engine E) (st : NS E R O) (freq imp : ℕ → E) (node trunc : ℕ) (basis : BasisName) (h : node ∈ st.nodes)
    (hb : basis ≠ .oscillator) :
    ∃ st', st.configureOperator eng freq imp node trunc basis = (st', .ok ()) ∧ st' = { st with cfg := st'.cfg } ∧
      st'.cfg.get? node = some ⟨trunc, basis, none⟩ ∧ ∀ m, m ≠ node → st'.cfg.get? m = st.cfg.get? m := by
  refine ⟨_, by unfold NS.configureOperator; rw [if_neg (not_not.2 h), if_neg hb], rfl, ?_, ?_⟩
  · simp [Dict.get?_set_self]
  · intro m hm
    exact Dict.get?_set_ne _ _ (Ne.symm hm)

/-- **C80** The oscillator basis, when accepted, makes the frequency and the impedance of the node parametric parameters with the expressions of the node; the
configuration of the other nodes and the values, symbols and expressions of the other parameters stay, as do the numbers, operators and pending sweeps. -/
theorem C80_oscillator (eng : Engine E) (st st' : NS E R O) (freq imp : ℕ → E) (node trunc : ℕ)
    (h : st.configureOperator eng freq imp node trunc .oscillator = (st', .ok ())) :
    st'.sw.pc.getParametricExpression eng 0 ("fosc" ++ toString node) false = .ok (freq node) ∧
    st'.sw.pc.getParametricExpression eng 0 ("Zosc" ++ toString node) false = .ok (imp node) ∧
    st'.cfg.get? node = some ⟨trunc, .oscillator, some (imp node)⟩ ∧ (∀ m, m ≠ node → st'.cfg.get? m = st.cfg.get? m) ∧
    (∀ k, k ≠ "fosc" ++ toString node → k ≠ "Zosc" ++ toString node → st'.sw.pc.getParameterValue k = st.sw.pc.getParameterValue k ∧
      st'.sw.pc.getSymbol k = st.sw.pc.getSymbol k ∧ st'.sw.pc.getParametricExpression eng 0 k false = st.sw.pc.getParametricExpression eng 0 k false) ∧
    st' = { st with sw := { st.sw with pc := st'.sw.pc }, cfg := st'.cfg } := by
  obtain ⟨hn, p₁, p₂, p₃, p₄, h1, h2, h3, h4, rfl⟩ := configure_cases eng st st' freq imp node trunc h
  have hne : NS.zName node ≠ NS.fName node := (names_differ node node).symm
  obtain ⟨n1, a1, a2, a3, rfl⟩ := addParameterisation_cases eng _ _ _ _ h2
  obtain ⟨n2, b1, b2, b3, rfl⟩ := addParameterisation_cases eng _ _ _ _ h4
  have q1 : p₃.parz = (p₁.parz.set (NS.fName node) (freq node, n1)) := by
    rcases addParameter_cases _ _ _ h3 with ⟨rfl, _⟩ | ⟨p, _, _, _, rfl⟩ <;> rfl
  have q0 : p₁.parz = st.sw.pc.parz := by
    rcases addParameter_cases _ _ _ h1 with ⟨rfl, _⟩ | ⟨p, _, _, _, rfl⟩ <;> rfl
  have r0 : ∀ k, k ≠ NS.fName node → p₁.coll.get? k = st.sw.pc.coll.get? k ∧ p₁.symMap.get? k = st.sw.pc.symMap.get? k := by
    intro k hk
    rcases addParameter_cases _ _ _ h1 with ⟨rfl, _⟩ | ⟨p, _, _, _, rfl⟩
    · exact ⟨rfl, rfl⟩
    · exact ⟨Dict.get?_set_ne _ _ (Ne.symm hk), Dict.get?_set_ne _ _ (Ne.symm hk)⟩
  have r1 : ∀ k, k ≠ NS.zName node → p₃.coll.get? k = p₁.coll.get? k ∧ p₃.symMap.get? k = p₁.symMap.get? k := by
    intro k hk
    rcases addParameter_cases _ _ _ h3 with ⟨rfl, _⟩ | ⟨p, _, _, _, rfl⟩
    · exact ⟨rfl, rfl⟩
    · exact ⟨Dict.get?_set_ne _ _ (Ne.symm hk), Dict.get?_set_ne _ _ (Ne.symm hk)⟩
  refine ⟨?_, ?_, ?_, ?_, ?_, rfl⟩
  · show PC.getParametricExpression eng _ 0 (NS.fName node) false = _
    unfold PC.getParametricExpression
    simp only [Dict.get?_set_ne _ _ hne, q1, Dict.get?_set_self]
    rfl
  · show PC.getParametricExpression eng _ 0 (NS.zName node) false = _
    unfold PC.getParametricExpression
    simp only [Dict.get?_set_self]
    rfl
  · exact Dict.get?_set_self _ _ _
  · intro m hm
    exact Dict.get?_set_ne _ _ (Ne.symm hm)
  · intro k hk1 hk2
    have c1 := r0 k hk1
    have c2 := r1 k hk2
    refine ⟨?_, ?_, ?_⟩
    · unfold PC.getParameterValue
      simp only [c2.1, c1.1]
    · unfold PC.getSymbol
      simp only [c2.2, c1.2]
    · unfold PC.getParametricExpression
      have hg : Dict.get? (p₃.parz.set (NS.zName node) (imp node, n2)) k = st.sw.pc.parz.get? k := by
        rw [Dict.get?_set_ne _ _ (Ne.symm hk2 : NS.zName node ≠ k), q1, Dict.get?_set_ne _ _ (Ne.symm hk1 : NS.fName node ≠ k), q0]
      simp only [hg, Bool.false_eq_true, if_false]

/-- **C80** Configuring a node again in the oscillator basis only replaces its truncation.  (The symbol of a parameter just added is not in the expression
of the frequency: that is made of the symbols of the components.) -/
theorem C80_again (eng : Engine E) (st st' : NS E R O) (freq imp : ℕ → E) (node trunc trunc' : ℕ)
    (h : st.configureOperator eng freq imp node trunc .oscillator = (st', .ok ()))
    (hkeys : ∀ k, k ∈ st.sw.pc.symMap.keys → k ∈ st.sw.pc.coll.keys)
    (hz : ∀ s ∈ eng.free (freq node), st'.sw.pc.getSymbol ("Zosc" ++ toString node) ≠ .ok s) :
    st'.configureOperator eng freq imp node trunc' .oscillator =
      ({ st' with cfg := st'.cfg.set node ⟨trunc', .oscillator, some (imp node)⟩ }, .ok ()) := by
  obtain ⟨hn, p₁, p₂, p₃, p₄, h1, h2, h3, h4, rfl⟩ := configure_cases eng st st' freq imp node trunc h
  have hne : NS.zName node ≠ NS.fName node := (names_differ node node).symm
  obtain ⟨n1, a1, a2, a3, rfl⟩ := addParameterisation_cases eng _ _ _ _ h2
  obtain ⟨n2, b1, b2, b3, rfl⟩ := addParameterisation_cases eng _ _ _ _ h4
  simp only at hz
  -- the second call finds both parameters
  have hf : p₃.coll.has (NS.fName node) = true := by
    rcases addParameter_cases _ _ _ h3 with ⟨rfl, _⟩ | ⟨p, _, _, _, rfl⟩
    · exact a1
    · rw [Dict.has_iff] at a1 ⊢
      exact Dict.mem_keys_set.2 (Or.inr a1)
  have hparz : p₃.parz = p₁.parz.set (NS.fName node) (freq node, n1) := by
    rcases addParameter_cases _ _ _ h3 with ⟨rfl, _⟩ | ⟨p, _, _, _, rfl⟩ <;> rfl
  have hrev : ∀ s ∈ eng.free (freq node), p₃.revMap s = p₁.revMap s := by
    intro s hs
    rcases addParameter_cases _ _ _ h3 with ⟨rfl, _⟩ | ⟨p, hp, _, _, rfl⟩
    · rfl
    · have hne' : p.symbol ≠ s := by
        intro he
        apply hz s hs
        show PC.getSymbol _ (NS.zName node) = _
        unfold PC.getSymbol
        simp [Dict.get?_set_self, he]
      refine (revMap_set { p₁ with parz := p₁.parz.set (NS.fName node) (freq node, n1), graph := _ } _ _ _ hne' ?_).trans rfl
      intro hm
      have hm1 : NS.zName node ∈ p₁.coll.keys := by
        rcases addParameter_cases _ _ _ h1 with ⟨rfl, _⟩ | ⟨p', hp', _, _, rfl⟩
        · exact hkeys _ hm
        · rcases Dict.mem_keys_set.1 hm with hm | hm
          · exact absurd hm hne
          · exact Dict.mem_keys_set.2 (Or.inr (hkeys _ hm))
      have : p₁.coll.has (NS.zName node) = true := (Dict.has_iff _ _).2 hm1
      rw [show p₁.coll.has (NS.zName node) = false from hp] at this
      cases this
  have hd1 := addEdges_mono (NS.fName node) n1 p₁.graph
  have hg3 : (∀ x ∈ (n1.foldl (fun g p => g.addEdge p (NS.fName node)) p₁.graph).nodes, x ∈ p₃.graph.nodes) ∧
      ∀ e ∈ (n1.foldl (fun g p => g.addEdge p (NS.fName node)) p₁.graph).edges, e ∈ p₃.graph.edges := by
    rcases addParameter_cases _ _ _ h3 with ⟨rfl, _⟩ | ⟨p, _, _, _, rfl⟩
    · exact ⟨fun _ h => h, fun _ h => h⟩
    · exact addNode_mono _ _
  have hd2 := addEdges_mono (NS.zName node) n2 p₃.graph
  have hdf : Drawn (n2.foldl (fun g p => g.addEdge p (NS.zName node)) p₃.graph) (NS.fName node) n1 := by
    intro p hp
    obtain ⟨x, y, z⟩ := hd1.2.2 p hp
    exact ⟨hd2.1 _ (hg3.1 _ x), hd2.1 _ (hg3.1 _ y), hd2.2.1 _ (hg3.2 _ z)⟩
  set p₄ : PC E := { p₃ with parz := p₃.parz.set (NS.zName node) (imp node, n2), graph := n2.foldl (fun g p => g.addEdge p (NS.zName node)) p₃.graph } with hp4
  have e1 : p₄.addParameter (NS.fName node) = (p₄, .ok ()) := by
    unfold PC.addParameter
    rw [if_pos hf]
  have e2 : p₄.addParameterisation eng (NS.fName node) (freq node) = (p₄, .ok ()) := by
    unfold PC.addParameterisation
    rw [if_pos hf]
    have : p₄.symbolNames (eng.free (freq node)) = .ok n1 := by
      rw [← a2]
      exact symbolNames_of _ hrev
    simp only [this]
    have hgr : n1.foldl (fun g p => g.addEdge p (NS.fName node)) p₄.graph = p₄.graph := addEdges_again _ _ _ hdf
    have hps : p₄.parz.set (NS.fName node) (freq node, n1) = p₄.parz := by
      apply set_same
      show Dict.get? (p₃.parz.set _ _) _ = _
      rw [Dict.get?_set_ne _ _ hne, hparz, Dict.get?_set_self]
    rw [hgr, if_pos b3, hps]
  have e3 : p₄.addParameter (NS.zName node) = (p₄, .ok ()) := by
    unfold PC.addParameter
    rw [if_pos b1]
  have e4 : p₄.addParameterisation eng (NS.zName node) (imp node) = (p₄, .ok ()) := by
    unfold PC.addParameterisation
    rw [if_pos b1]
    have : p₄.symbolNames (eng.free (imp node)) = .ok n2 := by
      rw [← b2]
      exact symbolNames_of _ fun s _ => rfl
    simp only [this]
    have hgr : n2.foldl (fun g p => g.addEdge p (NS.zName node)) p₄.graph = p₄.graph := addEdges_again _ _ _ hd2.2.2
    have hps : p₄.parz.set (NS.zName node) (imp node, n2) = p₄.parz := set_same _ _ _ (Dict.get?_set_self _ _ _)
    rw [hgr, if_pos b3, hps]
  unfold NS.configureOperator
  simp only [hn, not_true_eq_false, if_false, if_true, e1, e2, e3, e4]

/-- **C80** After a successful set, the operators of a node are those of its basis and truncation in the space of all the nodes: in the oscillator basis made for the
present value of its impedance parameter, in the other bases of no parameter. -/
theorem C80_operators (eng : Engine E) (gen : List (ℕ × BasisName) → ℕ → Option PF → Except Err O) (st st' : NS E R O) (c : HashOrder × ℕ × NS.SetCall)
    (h : st.set eng gen c = (st', .ok ())) :
    ∃ sh : List (ℕ × BasisName), st'.nodes.map (fun m => (st'.cfg.get? m).map fun c => (c.trunc, c.basis)) = sh.map some ∧
      ∀ node ∈ st'.nodes, ∃ cf o, st'.cfg.get? node = some cf ∧ st'.circ.get? node = some o ∧
        (cf.basis = .oscillator → ∃ z, st'.sw.pc.getParameterValue ("Zosc" ++ toString node) = .ok (some z) ∧ gen sh node (some z) = .ok o) ∧
        (cf.basis ≠ .oscillator → gen sh node none = .ok o) := by
  obtain ⟨_, ⟨sh, h1, h2⟩, _⟩ := C78_current eng gen st st' c h
  refine ⟨sh, ?_, ?_⟩
  · unfold NS.shape at h1
    have key : ∀ (l : List ℕ) (sh : List (ℕ × BasisName)), (l.mapM (fun node => match st'.cfg.get? node with
        | none => Except.error Err.keyError
        | some c => .ok (c.trunc, c.basis)) : Except Err _) = .ok sh → l.map (fun m => (st'.cfg.get? m).map fun c => (c.trunc, c.basis)) = sh.map some := by
      intro l
      induction l with
      | nil => intro sh h; cases h; rfl
      | cons n l ih =>
        intro sh h
        rw [List.mapM_cons] at h
        cases hn : st'.cfg.get? n with
        | none => simp [hn, bind, Except.bind] at h
        | some cf =>
          simp only [hn, bind, Except.bind, pure, Except.pure] at h
          split at h
          · cases h
          · rename_i sh' hsh
            cases h
            simp [hn, ih _ hsh]
    exact key _ _ h1
  · intro node hn
    obtain ⟨o, h3, h4⟩ := h2 node hn
    unfold NS.opsOf at h3
    split at h3
    · cases h3
    · rename_i cf hcf
      refine ⟨cf, o, hcf, h4, ?_, ?_⟩
      · intro hb
        rw [if_pos hb] at h3
        split at h3
        · cases h3
        · cases h3
        · rename_i z hz
          exact ⟨z, hz, h3⟩
      · intro hb
        rw [if_neg hb] at h3
        exact h3

/-! ### Examples -/

/-- The hypotheses of `C80_oscillator`, `C80_again` and `C80_operators` are met by the LC circuit. -/
example : lcNS₀.2 = .ok () ∧ (∀ k, k ∈ lcPC.symMap.keys → k ∈ lcPC.coll.keys) ∧
    (∀ s ∈ Ast.engine.free (lcFreq 1), lcNS₀.1.sw.pc.getSymbol ("Zosc" ++ toString 1) ≠ .ok s) ∧
    lcNS₀.1.set Ast.engine lcGen (.id, 10, .many [.dict [("C", .int 1), ("L", .int 1), ("phie", .int 0)]]) = (lcNS.1, .ok ()) := by
  refine ⟨lc_ok.1, by decide +kernel, by decide +kernel, ?_⟩
  rw [← lc_ok.2]; rfl

/-- The configuration of a node can be changed from charge to oscillator basis. -/
example : ((({ sw := { pc := lcPC }, exprs := lcExprs, nodes := [1] } : NS Ast LcRes (Option PF)).configureOperator Ast.engine lcFreq lcImp 1 5 .charge).1.configureOperator
    Ast.engine lcFreq lcImp 1 2 .oscillator).2 = .ok () := by decide +kernel

/-- A node with a capacitor only: its inverse inductance is zero. -/
def cExprs : Attr → List Ast
  | .Cinv => [.inv (.sym "C_{}")]
  | _ => [.lit (.fin 0)]

def cPC : PC Ast := (PC.new ["C"]).toOption.getD { coll := [], symMap := [], parz := [], graph := { nodes := [], edges := [] } }

/-- `√(Linv Cinv)` and `√(Cinv / Linv)` with `Linv = 0`. -/
def cFreq : ℕ → Ast := fun _ => .sqrt (.mul (.lit (.fin 0)) (.inv (.sym "C_{}")))

def cImp : ℕ → Ast := fun _ => .sqrt (.mul (.inv (.sym "C_{}")) (.inv (.lit (.fin 0))))

def cNS : NS Ast LcRes (Option PF) := { sw := { pc := cPC }, exprs := cExprs, nodes := [1] }

/-- **C80** The choice of a basis cannot always be taken back: on a node without inductance the oscillator basis is accepted, its impedance has no value, so every
attempt to set a parameter raises; after choosing the charge basis instead it still does, although with the charge basis from the start it succeeds. -/
theorem C80_false_reconfigured : ∃ (st st₁ st₂ st₃ : NS Ast LcRes (Option PF)),
    st.configureOperator Ast.engine cFreq cImp 1 5 .oscillator = (st₁, .ok ()) ∧
    st₁.configureOperator Ast.engine cFreq cImp 1 5 .charge = (st₂, .ok ()) ∧
    st.configureOperator Ast.engine cFreq cImp 1 5 .charge = (st₃, .ok ()) ∧
    st₂.cfg = st₃.cfg ∧
    (st₃.setParameterValue Ast.engine .id 10 lcGen "C" (.int 1)).2 = .ok () ∧
    (st₁.setParameterValue Ast.engine .id 10 lcGen "C" (.int 1)).2 = .error .assertionError ∧
    (st₂.setParameterValue Ast.engine .id 10 lcGen "C" (.int 1)).2 = .error .assertionError :=
  ⟨cNS, (cNS.configureOperator Ast.engine cFreq cImp 1 5 .oscillator).1,
    ((cNS.configureOperator Ast.engine cFreq cImp 1 5 .oscillator).1.configureOperator Ast.engine cFreq cImp 1 5 .charge).1,
    (cNS.configureOperator Ast.engine cFreq cImp 1 5 .charge).1, Prod.ext rfl (by decide +kernel), Prod.ext rfl (by decide +kernel), Prod.ext rfl (by decide +kernel),
    by decide +kernel, by decide +kernel, by decide +kernel, by decide +kernel⟩

end Verif.Props
