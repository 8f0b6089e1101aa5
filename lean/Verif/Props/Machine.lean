import Verif.Spec.Machine
import Verif.Props.NumericalSet
import Verif.Props.NetlistOp
import Verif.Props.SweepArray

/-!
# C101: from the calls that describe a circuit and set its parameters to the operator whose levels are stored
-/

namespace Verif.Props

open Verif Verif.Spec Verif.PC Verif.Num Verif.Sym Verif.Circuit

variable {E D R O : Type}

/-- Substituting all the parameter values. -/
theorem substituted_value {eng : Engine E} (law : eng.Lawful D) {pc : PC E} (h : CleanReachable eng pc) {e : E} {d : D} (hv : ValueIs eng law pc e d)
    {dA : Dict Sym (Option PF)} (hd : pc.getSymbolValuesDict = .ok dA) : eng.toFloat (subsDict eng e dA) = law.toPF d := by
  have hg := CleanReachable.good law h
  obtain ⟨dA', a1, a2, a3⟩ := getSymbolValues_ok hg.symInj hg.sameKeys pc.coll.keys (fun _ hn => hn)
  rw [← getSymbolValuesDict_eq hg.collKeys, hd] at a1
  cases a1
  obtain ⟨ρ, h1, h2⟩ := hv
  classical
  obtain ⟨ρ', hρ'⟩ : ∃ ρ' : Sym → D, ∀ s n f, pc.getSymbol n = .ok s → pc.getParameterValue n = .ok (some f) → ρ' s = law.ofPF f := by
    refine ⟨fun s => if hx : ∃ f n, pc.getSymbol n = .ok s ∧ pc.getParameterValue n = .ok (some f) then
      law.ofPF hx.choose else ρ s, ?_⟩
    intro s n f hs hv
    have hx : ∃ f n, pc.getSymbol n = .ok s ∧ pc.getParameterValue n = .ok (some f) := ⟨f, n, hs, hv⟩
    simp only [dif_pos hx]
    obtain ⟨m, hm, hvm⟩ := hx.choose_spec
    have hnm := hg.symInj _ _ s (getSymbol_iff.1 hm) (getSymbol_iff.1 hs)
    subst hnm
    rw [hv] at hvm
    simp only [Except.ok.injEq, Option.some.injEq] at hvm
    rw [← hvm]
  have hd' : law.eval ρ' e = some d := by
    rw [law.eval_congr ρ' ρ e, h1]
    intro s hs
    obtain ⟨n, f, x1, x2, x3⟩ := h2 s hs
    rw [x3, hρ' s n f x1 x2]
  refine law.toFloat_closed ρ' _ d ?_ (subsDict_eval law ρ' dA e d ?_ hd')
  · rw [List.eq_nil_iff_forall_not_mem]
    intro x hx
    obtain ⟨b1, b2⟩ := subsDict_free law _ _ _ hx
    obtain ⟨n, f, x1, x2, _⟩ := h2 x b1
    obtain ⟨p, hp, -⟩ := getValue_iff.1 x2
    exact b2 f (Dict.mem_of_get? ((a3 x (some f)).2 ⟨n, Dict.mem_keys_of_get? hp, x1, x2⟩))
  · intro s v hm
    obtain ⟨n, _, x1, x2⟩ := (a3 s (some v)).1 (Dict.get?_of_mem a2 hm)
    exact hρ' s n v x1 x2

theorem mapM_finite : ∀ l : List ℚ, (l.map PF.fin).mapM finite = some l := by
  intro l
  induction l with
  | nil => rfl
  | cons x l ih => simp [finite, ih]

/-- The numbers of a system that is up to date. -/
theorem current_numbers {eng : Engine E} (law : eng.Lawful D) (hex : ∀ q : ℚ, law.toPF (law.ofPF (.fin q)) = some (.fin q))
    {gen : List (ℕ × BasisName) → ℕ → Option PF → Except Err O} {st : NS E R O} (hc : Current eng gen st) (h : CleanReachable eng st.sw.pc)
    {x : Attr → List ℚ} (hx : ∀ a, List.Forall₂ (fun e q => ValueIs eng law st.sw.pc e (law.ofPF (.fin q))) (st.exprs a) (x a)) :
    readAttrs st.num.get? = .ok x := by
  obtain ⟨d, hd, hn⟩ := hc.numbers
  have key : ∀ a, numbersOf st.num.get? a = .ok (x a) := by
    intro a
    obtain ⟨xs, h1, h2⟩ := hn a
    have h3 : (st.exprs a).map (fun e => eng.toFloat (subsDict eng e d)) = ((x a).map PF.fin).map some := by
      have key : ∀ (l : List E) (l' : List ℚ), List.Forall₂ (fun e q => ValueIs eng law st.sw.pc e (law.ofPF (.fin q))) l l' →
          l.map (fun e => eng.toFloat (subsDict eng e d)) = (l'.map PF.fin).map some := by
        intro l l' hl
        induction hl with
        | nil => rfl
        | cons hv _ ih => rw [List.map_cons, ih, substituted_value law h hv hd, hex]; rfl
      exact key _ _ (hx a)
    have h4 : xs = (x a).map PF.fin := by
      rw [h3] at h2
      exact (List.map_injective_iff.2 (Option.some_injective _) h2).symm
    unfold numbersOf
    rw [h1]
    simp only [h4, mapM_finite]
  unfold readAttrs
  simp only [key]
  congr 1
  funext a
  cases a <;> rfl

theorem matrixOf_rows {n m : ℕ} {M : Matrix (Fin n) (Fin m) ℝ} {l : List ℚ} (h : RowsOf M l) : matrixOf n m l = M := by
  funext i j
  obtain ⟨x, h1, h2⟩ := h i j
  unfold matrixOf
  rw [List.getD_eq_getElem?_getD, h1]
  exact h2

theorem vectorOf_entries {n : ℕ} {f : Fin n → ℝ} {l : List ℚ} (h : EntriesOf f l) : vectorOf n l = f := by
  funext i
  obtain ⟨x, h1, h2⟩ := h i
  unfold vectorOf
  rw [List.getD_eq_getElem?_getD, h1]
  exact h2

/-- What `getHamiltonian` reads is what was assembled. -/
theorem readSys_eq {g : CG} {b : Biases} {val phi q : String → ℝ}
    {pinv : Matrix (Fin (edges g).length) (Fin (edges g).length) ℝ → Matrix (Fin (edges g).length) (Fin (edges g).length) ℝ} {u : Prefs}
    {s : Sys PUnit (nodes g).length (edges g).length} (hs : assemble g b val phi q ⟨false, 1⟩ pinv u = .ok s) {x : Attr → List ℚ}
    (hx : AttrsOf s x) : readSys g u x = s := by
  have h0 : s.kind = (readSys g u x).kind ∧ s.terms = (readSys g u x).terms ∧ s.u = u := by
    unfold assemble at hs
    split at hs
    · cases hs
    split at hs
    · cases hs
    split at hs
    · cases hs
    cases hs
    exact ⟨rfl, rfl, rfl⟩
  obtain ⟨k1, k2, k3⟩ := h0
  have h1 := matrixOf_rows hx.Cinv
  have h2 := matrixOf_rows hx.Linv
  have h3 := matrixOf_rows hx.LinvB
  have h4 := vectorOf_entries hx.J
  have h5 := vectorOf_entries hx.Ps
  have h6 := vectorOf_entries hx.Qb
  have h7 := vectorOf_entries hx.Qbt
  have h8 := vectorOf_entries hx.Pbi
  have h9 : (readSys g u x).Pb = s.Pb := by
    funext i
    show matrixOf _ _ (x .Pbm) i i = _
    rw [matrixOf_rows hx.Pbm, Matrix.diagonal_apply_eq]
  unfold readSys at k1 k2 h9 ⊢
  simp only at k1 k2 h9
  obtain ⟨a1, a2, a3, a4, a5, a6, a7, a8, a9, a10, a11, a12, a13, a14, a15, a16, a17, a18, a19⟩ := s
  simp only at k1 k2 k3 h1 h2 h3 h4 h5 h6 h7 h8 h9
  subst k1 k2 k3 h1 h2 h3 h4 h5 h6 h7 h8
  rw [Sys.mk.injEq]
  exact ⟨rfl, rfl, rfl, rfl, rfl, h9, rfl, rfl, rfl, rfl, rfl, rfl, rfl, rfl, rfl, rfl, rfl, rfl, rfl⟩

theorem nodeIndex_get {g : CG} (hnd : (nodes g).Nodup) (i : Fin (nodes g).length) : nodeIndex g ((nodes g).get i) = some i := by
  have : (nodes g).idxOf ((nodes g).get i) = i := by simpa using hnd.idxOf_getElem i i.2
  unfold nodeIndex
  rw [dif_pos (by rw [this]; exact i.2)]
  congr 1
  exact Fin.ext this

theorem genOf_ok {g : CG} (hnd : (nodes g).Nodup) {cfg : Fin (nodes g).length → NodeCfg} {ops : ∀ i, Option PF → Except Err (NodeOps (cfg i).dim)}
    {sh : List (ℕ × BasisName)} {i : Fin (nodes g).length} {z : Option PF} {N : BigNode cfg} (h : genOf g cfg ops sh ((nodes g).get i) z = .ok N) :
    sh = (List.finRange (nodes g).length).map (fun i => ((cfg i).trunc, (cfg i).basis.name)) ∧
    ∃ o, ops i z = .ok o ∧ expandNode cfg i o = some N := by
  unfold genOf at h
  split_ifs at h with hsh
  rw [nodeIndex_get hnd] at h
  simp only at h
  split at h
  · cases h
  rename_i o ho
  split at h
  · cases h
  rename_i N' hN
  cases h
  exact ⟨hsh, o, ho, hN⟩

theorem mapM_except_get {α β ε : Type} (f : α → Except ε β) : ∀ (l : List α) (ys : List β), l.mapM f = .ok ys → ∀ (i : ℕ) (x : α), l[i]? = some x →
    ∃ y, f x = .ok y ∧ ys[i]? = some y := by
  intro l
  induction l with
  | nil => intro ys _ i x hi; simp at hi
  | cons a l ih =>
    intro ys h i x hi
    rw [List.mapM_cons] at h
    cases hc : f a with
    | error e => rw [hc] at h; cases h
    | ok y =>
      rw [hc] at h
      cases hl : l.mapM f with
      | error e => rw [hl] at h; cases h
      | ok zs =>
        rw [hl] at h
        cases h
        cases i with
        | zero =>
          simp only [List.getElem?_cons_zero, Option.some.injEq] at hi
          subst hi
          exact ⟨y, hc, rfl⟩
        | succ i => exact ih zs hl i x (by simpa using hi)

theorem shape_get {st : NS E R O} {sh : List (ℕ × BasisName)} (h : st.shape = .ok sh) (i : ℕ) (node : ℕ) (hi : st.nodes[i]? = some node) :
    ∃ c, st.cfg.get? node = some c ∧ sh[i]? = some (c.trunc, c.basis) := by
  obtain ⟨y, h1, h2⟩ := mapM_except_get _ _ _ h i node hi
  cases hc : st.cfg.get? node with
  | none => rw [hc] at h1; cases h1
  | some c =>
    rw [hc] at h1
    cases h1
    exact ⟨c, rfl, h2⟩

theorem basis_name_osc (b : Basis) : b.name = .oscillator ↔ b = .oscillator := by cases b <;> simp [Basis.name]

/-- The operators that an up to date system holds. -/
theorem nodes_current {eng : Engine E} {g : CG} (hnd : (nodes g).Nodup) {cfg : Fin (nodes g).length → NodeCfg}
    {ops : ∀ i, Option PF → Except Err (NodeOps (cfg i).dim)} {st : NS E R (BigNode cfg)} (hc : Current eng (genOf g cfg ops) st)
    (hn : st.nodes = nodes g) :
    ∃ (l : List (BigNode cfg)) (hlen : l.length = (nodes g).length) (o : ∀ i, NodeOps (cfg i).dim), st.vec = some l ∧ (nodes g).mapM st.circ.get? = some l ∧
      (∀ i, ∃ z, ImpedanceIs st ((nodes g).get i) (cfg i).basis z ∧ ops i z = .ok (o i)) ∧
      ∀ i, expandNode cfg i (o i) = some (l.get (i.cast hlen.symm)) := by
  obtain ⟨sh, hsh, hops⟩ := hc.operators
  obtain ⟨l, hl, hv⟩ := hc.vectors
  rw [hn] at hops hv
  have hlen : l.length = (nodes g).length := by simpa using (congrArg List.length hv).symm
  have hmap : (nodes g).mapM st.circ.get? = some l := by
    have : ∀ (n : List ℕ) (l : List (BigNode cfg)), n.map st.circ.get? = l.map some → n.mapM st.circ.get? = some l := by
      intro n
      induction n with
      | nil => intro l h; cases l with
        | nil => rfl
        | cons => simp at h
      | cons a n ih =>
        intro l h
        cases l with
        | nil => simp at h
        | cons y l =>
          simp only [List.map_cons, List.cons.injEq] at h
          rw [List.mapM_cons, h.1, ih l h.2]; rfl
    exact this _ _ hv
  have hget : ∀ i : Fin (nodes g).length, st.circ.get? ((nodes g).get i) = some (l.get (i.cast hlen.symm)) := by
    intro i
    have := congrArg (fun m : List (Option (BigNode cfg)) => m[(i : ℕ)]?) hv
    simp only [List.getElem?_map] at this
    rw [List.getElem?_eq_getElem i.2, List.getElem?_eq_getElem (by rw [hlen]; exact i.2)] at this
    simpa using this
  have hone : ∀ i : Fin (nodes g).length, ∃ z o, ImpedanceIs st ((nodes g).get i) (cfg i).basis z ∧ ops i z = .ok o ∧
      expandNode cfg i o = some (l.get (i.cast hlen.symm)) := by
    intro i
    obtain ⟨N, h1, h2⟩ := hops _ (List.get_mem _ i)
    rw [hget i] at h2
    obtain rfl := Option.some.inj h2
    obtain ⟨c, hcfg, hs⟩ := shape_get hsh i ((nodes g).get i) (by rw [hn]; simp)
    unfold NS.opsOf at h1
    rw [hcfg] at h1
    simp only at h1
    have hb : ∀ {z}, genOf g cfg ops sh ((nodes g).get i) z = .ok (l.get (i.cast hlen.symm)) → c.basis = (cfg i).basis.name := by
      intro z hz
      rw [(genOf_ok hnd hz).1] at hs
      simp only [List.getElem?_map] at hs
      rw [List.getElem?_eq_getElem (by simp)] at hs
      simp at hs
      exact hs.2.symm
    split_ifs at h1 with hosc
    · split at h1
      · cases h1
      · cases h1
      · rename_i z hz
        obtain ⟨-, o, ho, hN⟩ := genOf_ok hnd h1
        refine ⟨some z, o, ?_, ho, hN⟩
        have hb' := hb h1
        rw [hosc] at hb'
        unfold ImpedanceIs
        rw [if_pos ((basis_name_osc _).1 hb'.symm)]
        exact ⟨z, rfl, hz⟩
    · obtain ⟨-, o, ho, hN⟩ := genOf_ok hnd h1
      refine ⟨none, o, ?_, ho, hN⟩
      have hb' := hb h1
      unfold ImpedanceIs
      rw [if_neg]
      intro hh
      rw [hb'] at hosc
      exact hosc ((basis_name_osc _).2 hh)
  choose z o hz ho hN using hone
  exact ⟨l, hlen, o, hl, hmap, fun i => ⟨z i, hz i, ho i⟩, hN⟩

/-- `getHamiltonian` on a system that is up to date. -/
theorem hamiltonianOf_current {eng : Engine E} {g : CG} (hnd : (nodes g).Nodup) {u : Prefs} {cfg : Fin (nodes g).length → NodeCfg}
    {ops : ∀ i, Option PF → Except Err (NodeOps (cfg i).dim)} {st : NS E R (BigNode cfg)} (hc : Current eng (genOf g cfg ops) st)
    (hn : st.nodes = nodes g) {x : Attr → List ℚ} (hx : readAttrs st.num.get? = .ok x) :
    ∃ (o : ∀ i, NodeOps (cfg i).dim) (N : Fin (nodes g).length → BigNode cfg),
      (∀ i, ∃ z, ImpedanceIs st ((nodes g).get i) (cfg i).basis z ∧ ops i z = .ok (o i)) ∧ (∀ i, expandNode cfg i (o i) = some (N i)) ∧
      ∀ H, hamiltonian ((readSys g u x).withNodes N) = some H → hamiltonianOf g u cfg st.num.get? st.circ.get? st.vec = .ok H := by
  obtain ⟨l, hlen, o, hl, hmap, h1, h2⟩ := nodes_current hnd hc hn
  refine ⟨o, fun i => l.get (i.cast hlen.symm), h1, h2, ?_⟩
  intro H hH
  unfold hamiltonianOf
  rw [hx]
  simp only [hmap, hl]
  rw [dif_pos ⟨hlen, hlen⟩]
  have : withStored (readSys g u x) (fun i => l.get (i.cast hlen.symm)) (fun i => l.get (i.cast hlen.symm)) =
      (readSys g u x).withNodes (fun i => l.get (i.cast hlen.symm)) := rfl
  rw [this, hH]

/-- `getHamiltonian` with operator vectors of an earlier state. -/
theorem hamiltonianOf_stored {eng : Engine E} {g : CG} (hnd : (nodes g).Nodup) {u : Prefs} {cfg : Fin (nodes g).length → NodeCfg}
    {ops : ∀ i, Option PF → Except Err (NodeOps (cfg i).dim)} {st st₀ : NS E R (BigNode cfg)} (hc : Current eng (genOf g cfg ops) st)
    (hc₀ : Current eng (genOf g cfg ops) st₀) (hn : st.nodes = nodes g) (hn₀ : st₀.nodes = nodes g) {x : Attr → List ℚ} (hx : readAttrs st.num.get? = .ok x) :
    ∃ (o o₀ : ∀ i, NodeOps (cfg i).dim) (N N₀ : Fin (nodes g).length → BigNode cfg),
      (∀ i, ∃ z, ImpedanceIs st ((nodes g).get i) (cfg i).basis z ∧ ops i z = .ok (o i)) ∧ (∀ i, expandNode cfg i (o i) = some (N i)) ∧
      (∀ i, ∃ z, ImpedanceIs st₀ ((nodes g).get i) (cfg i).basis z ∧ ops i z = .ok (o₀ i)) ∧ (∀ i, expandNode cfg i (o₀ i) = some (N₀ i)) ∧
      ∀ H, hamiltonian ((readSys g u x).withNodes fun i => { N i with Q := (N₀ i).Q, P := (N₀ i).P }) = some H →
        hamiltonianOf g u cfg st.num.get? st.circ.get? st₀.vec = .ok H := by
  obtain ⟨l, hlen, o, hl, hmap, h1, h2⟩ := nodes_current hnd hc hn
  obtain ⟨l₀, hlen₀, o₀, hl₀, hmap₀, h1₀, h2₀⟩ := nodes_current hnd hc₀ hn₀
  refine ⟨o, o₀, fun i => l.get (i.cast hlen.symm), fun i => l₀.get (i.cast hlen₀.symm), h1, h2, h1₀, h2₀, ?_⟩
  intro H hH
  unfold hamiltonianOf
  rw [hx]
  simp only [hmap, hl₀]
  rw [dif_pos ⟨hlen, hlen₀⟩]
  have : hamiltonian (withStored (readSys g u x) (fun i => l.get (i.cast hlen.symm)) (fun i => l₀.get (i.cast hlen₀.symm))) =
      hamiltonian ((readSys g u x).withNodes
        (fun i => { l.get (i.cast hlen.symm) with Q := (l₀.get (i.cast hlen₀.symm)).Q, P := (l₀.get (i.cast hlen₀.symm)).P })) := rfl
  rw [this, hH]

/-- The operators of a node with the charge and the flux of other operators. -/
theorem expandNode_mixed {n : ℕ} {cfg : Fin n → NodeCfg} {i : Fin n} {o o₀ : NodeOps (cfg i).dim} {N N₀ : BigNode cfg} (h : expandNode cfg i o = some N)
    (h₀ : expandNode cfg i o₀ = some N₀) : expandNode cfg i { o with Q := o₀.Q, P := o₀.P } = some { N with Q := N₀.Q, P := N₀.P } := by
  unfold expandNode at h h₀ ⊢
  split at h
  · rename_i q p d d' s s' e1 e2 e3 e4 e5 e6
    split at h₀
    · rename_i q₀ p₀ _ _ _ _ f1 f2 _ _ _ _
      cases h
      cases h₀
      simp only [e3, e4, e5, e6, f1, f2]
    · cases h₀
  · cases h

theorem set_clean {eng : Engine E} {st st' : NS E R O} {gen : List (ℕ × BasisName) → ℕ → Option PF → Except Err O} {ho : HashOrder} {fuel : ℕ}
    {args : List BulkArg} (h : CleanReachable eng st.sw.pc) (hset : st.setParameterValues eng ho fuel gen args = (st', .ok ())) :
    st.sw.pc.setParameterValues eng ho fuel args = (st'.sw.pc, .ok ()) ∧ CleanReachable eng st'.sw.pc ∧ st'.sw.pc.parz = st.sw.pc.parz := by
  have h1 : st.sw.pc.setParameterValues eng ho fuel args = (st'.sw.pc, .ok ()) := by
    unfold NS.setParameterValues at hset
    split at hset
    · cases hset
    · rename_i pc hpc
      rw [hpc]
      dsimp only at hset
      split_ifs at hset
      · split at hset
        · cases hset
        · rename_i st1 hs1
          have e := (refresh_spec eng gen _ _ _ hs1 hset).2.2.2.2.1
          rw [e]
      · cases hset
  refine ⟨h1, ?_, ?_⟩
  · have := clean_step h ⟨ho, fuel, .setParameterValues args⟩ (by simp [CleanCall])
    simpa [call, h1] using this
  · have := (setParameterValues_frame eng ho fuel st.sw.pc args).2.1
    rw [h1] at this
    exact this

/-- Setting values leaves the bounds. -/
theorem set_admits {eng : Engine E} (law : eng.Lawful D) {st st' : PC E} (h : CleanReachable eng st) {ho : HashOrder} {fuel : ℕ}
    {args : List BulkArg} (hset : st.setParameterValues eng ho fuel args = (st', .ok ())) {k : String} {f : PF} (ha : Admits st k f) :
    Admits st' k f := by
  have hg := CleanReachable.good law h
  obtain ⟨p, hp, hadm⟩ := ha
  unfold setParameterValues at hset
  split at hset
  · cases hset
  · rename_i pairs _
    obtain ⟨q, q1, q2, -⟩ := setPairs_param pairs st k p hp
    have hfr := setPairs_frame pairs st
    split at hset
    · cases hset
    · rename_i st1 heq
      rw [heq] at q1 hfr
      simp only at q1 hfr
      obtain ⟨p', a, b, -⟩ := update_param_frame eng ho fuel st1 (by rw [hfr.2.2]; exact hg.wf) k q q1
      rw [hset] at a
      refine ⟨p', a, ?_⟩
      have hlohi : p'.lo = p.lo ∧ p'.hi = p.hi := by
        rcases q2 with rfl | ⟨f, rfl⟩ <;> rcases b with rfl | ⟨g, rfl⟩ <;> exact ⟨rfl, rfl⟩
      unfold Param.setValue at hadm ⊢
      simp only [PyVal.toFloat?, hlohi.1, hlohi.2] at hadm ⊢
      split_ifs at hadm ⊢ <;> first | rfl | simp at hadm

/-- What setting a dictionary gives an independent parameter that it names. -/
theorem set_value {eng : Engine E} (law : eng.Lawful D) {st st' : PC E} (hc : CleanReachable eng st) {ho : HashOrder} {fuel : ℕ}
    {d : Dict String PF} (hd : d.keys.Nodup) (h : st.setParameterValues eng ho fuel (pointArg d) = (st', .ok ())) {n : String} {x : PF}
    (hn : d.get? n = some x) (hnp : ¬ Parametric st n) (hin : st.coll.get? n ≠ none) : st'.getParameterValue n = .ok (some x) := by
  have hg := CleanReachable.good law hc
  obtain ⟨p, hp⟩ := Option.ne_none_iff_exists'.1 hin
  unfold pointArg setParameterValues at h
  simp only [parseBulk] at h
  split at h
  · cases h
  · rename_i st1 heq
    have hfr := setPairs_frame ((d.map fun kv => (kv.1, PyVal.np kv.2)).map fun p => (some p.1, p.2)) st
    rw [heq] at hfr
    simp only at hfr
    obtain ⟨q, q1, q2⟩ := setPairs_value _ st st1 n p heq (by
      have := (Dict.has_iff st.parz n).not.2 hnp
      simpa using this) hp
    obtain ⟨p', a, _, c⟩ := update_param_frame eng ho fuel st1 (by rw [hfr.2.2]; exact hg.wf) n q q1
    rw [h] at a
    rw [c (by unfold Parametric getParametricParametersList at hnp ⊢; rw [hfr.2.1]; exact hnp)] at a
    unfold getParameterValue
    simp only at a
    rw [a]
    simp only [Param.getValue, q2, Except.ok.injEq]
    have hmem := Dict.mem_of_get? hn
    clear hn heq q2 h
    generalize p.value = acc
    induction d generalizing acc with
    | nil => simp at hmem
    | cons y d ih =>
      obtain ⟨k, w⟩ := y
      rw [List.map_cons, List.map_cons, lastVal]
      have hd' : k ∉ Dict.keys d ∧ (Dict.keys d).Nodup := by simpa [Dict.keys] using hd
      rcases List.mem_cons.1 hmem with hm | hm
      · cases hm
        rw [if_pos rfl]
        have hno : ∀ (l : Dict String PF) (acc : Option PF), n ∉ Dict.keys l →
            lastVal ((l.map fun kv => (kv.1, PyVal.np kv.2)).map fun p => (some p.1, p.2)) n acc = acc := by
          intro l
          induction l with
          | nil => intro acc _; rfl
          | cons z l ihl =>
            intro acc hz
            have hz' : z.1 ≠ n ∧ n ∉ Dict.keys l := by
              simp only [Dict.keys, List.map_cons, List.mem_cons, not_or] at hz ⊢
              exact ⟨fun e => hz.1 e.symm, hz.2⟩
            rw [List.map_cons, List.map_cons, lastVal, if_neg (by simpa using hz'.1)]
            exact ihl acc hz'.2
        rw [hno d _ hd'.1]
        rfl
      · exact ih hd'.2 hm _

/-- The values of the parameters of a circuit after a point of a sweep has been set. -/
theorem point_values {eng : Engine E} (law : eng.Lawful D) {st st' : PC E} (hc : CleanReachable eng st) {ho : HashOrder} {fuel : ℕ}
    {d : Dict String PF} (hd : d.keys.Nodup) (h : st.setParameterValues eng ho fuel (pointArg d) = (st', .ok ()))
    (hind : ∀ n ∈ d.keys, st.coll.get? n ≠ none ∧ ¬ Parametric st n) {l : List Circuit.Call} {v : String → ℚ} (hv : PointValues l st d v) :
    ValuesOf l st' v := by
  intro c n hcl hdec
  rcases hv c n hcl hdec with hx | ⟨hx, hnp, hval⟩
  · obtain ⟨h1, h2⟩ := hind n (Dict.mem_keys_of_get? hx)
    exact set_value law hc hd h hx h2 h1
  · have hkeys : Dict.keys (d.map fun kv => (kv.1, PyVal.np kv.2)) = Dict.keys d := by unfold Dict.keys; simp
    have hf := set_frame law hc (Dict.keys d) ho fuel (d.map fun kv : String × PF => (kv.1, PyVal.np kv.2)) (by rw [hkeys]; exact fun _ hn => hn) st' h
    obtain ⟨p, hp, hpv⟩ := getValue_iff.1 hval
    obtain ⟨p', a, -, b⟩ := hf.param n p hp
    have hn : n ∉ d.keys := by rwa [← Dict.get?_eq_none_iff]
    rw [b hn hnp] at a
    exact getValue_iff.2 ⟨p, a, hpv⟩

/-- **C101 (partial)** From the calls that describe a circuit and set its parameters to the Hamiltonian.  Take any netlist of capacitors,
inductors, junctions and phase slips with flux and charge biases, built by successful calls, and its numerical system, whose symbolic
attributes are the matrices of the circuit.  After any successful `setParameterValues`, if the parameters hold values for which the circuit
can be quantised, `getHamiltonian` succeeds and returns the operator read off the netlist at those values, in the operators that
`getOperatorList` gives for the present impedances.
Missing: as for `C97_operator_partial`. -/
theorem C101_hamiltonian_partial (h : List Circuit.Call) (g : CG) (hs : Settled h g) (ha : AllOk h) (hn : CircuitNetlist h) (b : Biases)
    (hb : createFluxBiases g = .ok b) :
    ∃ sgn : String → ℝ, (∀ c, sgn c = 1 ∨ sgn c = -1) ∧
    (∀ br ∈ branches h, ∀ e ∈ edges g, g.cmap.get? e = some br.2.2 → (sgn br.2.2 = 1 ↔ e.1 = br.1)) ∧
    ∀ (E D R P X V Q : Type) (eng : Engine E) (law : eng.Lawful D) (_ : ∀ q : ℚ, law.toPF (law.ofPF (.fin q)) = some (.fin q))
      (pinv : Matrix (Fin (edges g).length) (Fin (edges g).length) ℝ → Matrix (Fin (edges g).length) (Fin (edges g).length) ℝ)
      (_ : ∀ M, IsPinv M (pinv M)) (u : Prefs) (cfg : Fin (nodes g).length → NodeCfg)
      (ops : ∀ i, Option PF → Except Err (NodeOps (cfg i).dim)) (base : Phys (BigNode cfg) (BigOp cfg) P X V R)
      (st st' : NS E Q (BigNode cfg)) (_ : st.nodes = nodes g) (_ : CleanReachable eng st.sw.pc)
      (_ : SymbolicOf eng law h g b pinv u st.sw.pc st.exprs) (ho : HashOrder) (fuel : ℕ) (args : List BulkArg)
      (_ : st.setParameterValues eng ho fuel (circuitPhys g u cfg ops base).gen args = (st', .ok ()))
      (v : String → ℚ) (_ : ValuesOf h st'.sw.pc v) (_ : PhysicalValues h v),
    ∃ (C : Matrix (Fin (nodes g).length) (Fin (nodes g).length) ℝ) (o : ∀ i, NodeOps (cfg i).dim) (N : Fin (nodes g).length → BigNode cfg),
      C.transpose = C ∧ C.det ≠ 0 ∧
      (∀ w : ℕ → ℝ, w 0 = 0 → atNodes g w ⬝ᵥ C.mulVec (atNodes g w) = electrostaticForm (fun c => (v c : ℝ)) h w) ∧
      (∀ i, ∃ z, ImpedanceIs st' ((nodes g).get i) (cfg i).basis z ∧ ops i z = .ok (o i)) ∧ (∀ i, expandNode cfg i (o i) = some (N i)) ∧
      callMethod (circuitPhys g u cfg ops base) st' .getHamiltonian none {} =
        .ok (.inl (netlistOperator (nodes g) h u.Ec u.El u.Ej u.Ep C (fun c => (v c : ℝ)) (gateCharge (fun s => (v ("Q" ++ s) : ℝ)) h)
          (fun c => sgn c * fluxOn (fun s => (v ("phi" ++ s) : ℝ)) h c) (nodeOperators N))) := by
  obtain ⟨sgn, h1, h2, h3⟩ := C97_operator_partial h g hs ha hn b hb
  refine ⟨sgn, h1, h2, ?_⟩
  intro E D R P X V Q eng law hex pinv hp u cfg ops base st st' hnodes hclean hsym ho fuel args hset v hv hphys
  obtain ⟨k1, k2, k3⟩ := set_clean hclean hset
  have hcur := C78_current eng (circuitPhys g u cfg ops base).gen st st' (ho, fuel, .many args) hset
  obtain ⟨f1, -, f3, f4, -⟩ := setCall_frame eng (circuitPhys g u cfg ops base).gen st (ho, fuel, .many args)
  have hset' : st.set eng (circuitPhys g u cfg ops base).gen (ho, fuel, .many args) = (st', .ok ()) := hset
  rw [hset'] at f1 f3 f4
  have hup : UpToDate eng law st'.sw.pc := fun k f a b => C06_dependents_follow_bulk_set_partial eng law st.sw.pc hclean ho fuel args _ k1 k f a b
  have hnd : (nodes g).Nodup := (C29_rows h g hs).1
  obtain ⟨C, hC, hsymm, hform⟩ := circuit_capacitance hs ha hn (fun c => (v c : ℝ))
  have hdet := (netlist_det hs _ hphys.caps _ hsymm hform).2 hphys.ground
  obtain ⟨s, hsok⟩ := (circuit_assemble hs ha hn hb (fun c => (v c : ℝ)) (fun s => (v ("phi" ++ s) : ℝ)) (fun s => (v ("Q" ++ s) : ℝ)) ⟨false, 1⟩ pinv u hC).2 hdet
  obtain ⟨x, x1, x2⟩ := hsym st'.sw.pc v s f4 k3 (fun k f => set_admits law hclean k1) hup hv hphys hsok
  rw [← f1] at x2
  have hread := current_numbers law hex hcur k2 x2
  obtain ⟨o, N, n1, n2, n3⟩ := hamiltonianOf_current (u := u) hnd hcur (f3.trans hnodes) hread
  obtain ⟨s', C', g1, g2, g3, g4, g5⟩ := h3 (fun c => (v c : ℝ)) (fun s => (v ("phi" ++ s) : ℝ)) (fun s => (v ("Q" ++ s) : ℝ)) hphys.caps hphys.ground
    (fun br hbr => by exact_mod_cast hphys.inductors br hbr) hphys.biases pinv hp u cfg o N n2
  rw [hsok] at g1
  cases g1
  rw [readSys_eq hsok x1] at n3
  refine ⟨C', o, N, g2, g3, g4, n1, n2, ?_⟩
  have hham : (circuitPhys g u cfg ops base).ham st'.num.get? st'.circ.get? st'.vec = .ok _ := n3 _ g5
  unfold callMethod
  simp only [hham]

/-- **C101 (partial)** From the calls that describe a circuit to the curves of its levels.  Sweep any parameters of the numerical system of
such a circuit and ask for the levels as a function of one parameter, the others fixed.  The call returns an array `a` in which `a[l, i]`
(`a[l, 0, i]` when eigenvectors are kept) is the `l`-th eigenvalue, as the eigensolver gives it, of the operator read off the netlist at the
`i`-th value of that parameter, at the sweep points nearest the requested values of the other swept parameters, and at the values that the
parameters which are not swept have.
Missing: as for `C97_operator_partial`; sweeps that change the impedance of an oscillator (`C40_false`). -/
theorem C101_levels_partial (h : List Circuit.Call) (g : CG) (hs : Settled h g) (ha : AllOk h) (hn : CircuitNetlist h) (b : Biases)
    (hb : createFluxBiases g = .ok b) :
    ∃ sgn : String → ℝ, (∀ c, sgn c = 1 ∨ sgn c = -1) ∧
    (∀ br ∈ branches h, ∀ e ∈ edges g, g.cmap.get? e = some br.2.2 → (sgn br.2.2 = 1 ↔ e.1 = br.1)) ∧
    ∀ (E D R P X V : Type) (eng : Engine E) (law : eng.Lawful D) (_ : ∀ q : ℚ, law.toPF (law.ofPF (.fin q)) = some (.fin q))
      (pinv : Matrix (Fin (edges g).length) (Fin (edges g).length) ℝ → Matrix (Fin (edges g).length) (Fin (edges g).length) ℝ)
      (_ : ∀ M, IsPinv M (pinv M)) (u : Prefs) (cfg : Fin (nodes g).length → NodeCfg)
      (ops : ∀ i, Option PF → Except Err (NodeOps (cfg i).dim)) (base : Phys (BigNode cfg) (BigOp cfg) P X V R)
      (ho : HashOrder) (fuel : ℕ) (gv : Bool) (ks : List String) (st st₁ st' : NS E (Res X V R) (BigNode cfg)) (sw : SW E (Res X V R))
      (pts : List (Dict String PF)) (files : List (SW.Pickled (Res X V R)))
      (_ : st.nodes = nodes g) (_ : SymbolicOf eng law h g b pinv u sw.pc st.exprs)
      (_ : st.sw.ndSweep st.specs = (sw, .ok ())) (_ : Ready eng law (circuitPhys g u cfg ops base).gen ks { st with sw := sw })
      (_ : ({ st with sw := sw, evals := evaluations st } : NS E (Res X V R) (BigNode cfg)).presub eng ho = (st₁, .ok ()))
      (_ : gridPoints sw = .ok pts) (_ : evaluations st = [hamEntry])
      (_ : ∀ node c imp n s, st.cfg.get? node = some c → c.basis = .oscillator → c.impedance = some imp →
        sw.pc.getSymbol n = .ok s → s ∈ eng.free imp → ¬ Affected sw.pc ks n)
      (_ : paramSweep eng ho fuel (circuitPhys g u cfg ops base) gv st = (st', files, .ok ()))
      (k : ℕ) (_ : ∀ hm es vs, base.solve hm = .ok (es, vs) → es.length = k ∧ vs.length = k)
      (_ : (sweptNames st.specs).Nodup) (_ : (sizes st.specs).prod ≠ 0) (_ : FiniteSweeps sw st.specs)
      (names : ℕ → String) (disk : String → Option (SW.Pickled (Res X V R))) (_ : ∀ i, i < files.length → disk (names i) = files[i]?)
      (m : ℕ) (si : SweepSpec) (_ : st.specs[m]? = some si) (static : List (String × PF)) (_ : StaticsFor st.specs [si.name] static),
    ∃ p a vals, sw.pc.coll.get? si.name = some p ∧
      getSweepLevels st'.sw files names disk si.name static "Hamiltonian" = .ok (p.sweep, a, vals) ∧
      a.shape = (if gv then [k, 2, p.sweep.length] else [k, p.sweep.length]) ∧
      ∀ i, i < p.sweep.length → ∃ d es vs, PointAt sw st.specs si.name static vals p.sweep i d ∧ es.length = k ∧ vs.length = k ∧
        (∀ l, if gv then a.get [l, 0, i] = ((es[l]?).map Cell.num).getD .none ∧ a.get [l, 1, i] = ((vs[l]?).map Cell.vec).getD .none
          else a.get [l, i] = ((es[l]?).map Cell.num).getD .none) ∧
        ∀ v, PointValues h sw.pc d v → PhysicalValues h v →
          ∀ (stF : NS E (Res X V R) (BigNode cfg)) (ho' : HashOrder) (fuel' : ℕ),
          NS.setParameterValues eng ho' fuel' (circuitPhys g u cfg ops base).gen { st with sw := sw } (pointArg d) = (stF, .ok ()) →
          Defined eng law { st with sw := sw } stF.sw.pc →
          ∃ (C : Matrix (Fin (nodes g).length) (Fin (nodes g).length) ℝ) (o : ∀ i, NodeOps (cfg i).dim) (N : Fin (nodes g).length → BigNode cfg),
            C.transpose = C ∧ C.det ≠ 0 ∧
            (∀ w : ℕ → ℝ, w 0 = 0 → atNodes g w ⬝ᵥ C.mulVec (atNodes g w) = electrostaticForm (fun c => (v c : ℝ)) h w) ∧
            (∀ i, ∃ z, ImpedanceIs stF ((nodes g).get i) (cfg i).basis z ∧ ops i z = .ok (o i)) ∧ (∀ i, expandNode cfg i (o i) = some (N i)) ∧
            base.solve (netlistOperator (nodes g) h u.Ec u.El u.Ej u.Ep C (fun c => (v c : ℝ)) (gateCharge (fun s => (v ("Q" ++ s) : ℝ)) h)
              (fun c => sgn c * fluxOn (fun s => (v ("phi" ++ s) : ℝ)) h c) (nodeOperators N)) = .ok (es, vs) := by
  obtain ⟨sgn, h1, h2, h3⟩ := C101_hamiltonian_partial h g hs ha hn b hb
  refine ⟨sgn, h1, h2, ?_⟩
  intro E D R P X V eng law hex pinv hp u cfg ops base ho fuel gv ks st st₁ st' sw pts files hnodes hsym hsw hready hpre hpts hev himp hrun k hk
    hnd hpos hfin names disk hdisk m si hm static hst
  obtain ⟨p, a, vals, a1, a2, a3, a4⟩ := C88_levels eng law ho fuel (circuitPhys g u cfg ops base) gv ks st st₁ st' sw pts files hsw hready hpre hpts hev
    himp hrun k hk hnd hpos hfin names disk hdisk m si hm static hst
  refine ⟨p, a, vals, a1, a2, a3, ?_⟩
  intro i hi
  obtain ⟨d, es, vs, d1, d2, d3, d4, d5⟩ := a4 i hi
  refine ⟨d, es, vs, d1, d3, d4, d5, ?_⟩
  intro v hv hphys stF ho' fuel' hset hdef
  obtain ⟨hm', m1, m2⟩ := d2 stF ho' fuel' hset hdef
  obtain ⟨k1, -, -⟩ := set_clean (st := { st with sw := sw }) hready.clean hset
  have hks : ks = sweptNames st.specs := by
    obtain ⟨sw0, hs0⟩ := SW.ndSweep_ok hsw hnd
    have := hready.params
    rw [show ({ st with sw := sw } : NS E (Res X V R) (BigNode cfg)).sw.params = sw.params from rfl, hs0.params_eq] at this
    exact (Option.some.inj this).symm
  have hvals := point_values law hready.clean d1.nodup k1 (fun n hn => hready.indep n (by rw [hks]; exact (d1.keys n).1 hn)) hv
  obtain ⟨C, o, N, c1, c2, c3, c4, c5, c6⟩ := h3 E D R P X V _ eng law hex pinv hp u cfg ops base { st with sw := sw } stF hnodes hready.clean hsym ho' fuel'
    (pointArg d) hset v hvals hphys
  refine ⟨C, o, N, c1, c2, c3, c4, c5, ?_⟩
  unfold callMethod at c6
  simp only [m1, Except.ok.injEq, Sum.inl.injEq] at c6
  rw [← c6]
  exact m2

/-- **C101** Without numbers for all attributes, or without operator vectors, `getHamiltonian` raises; it makes up nothing. -/
theorem C101_unset (g : CG) (u : Prefs) (cfg : Fin (nodes g).length → NodeCfg) (ops : ∀ i, Option PF → Except Err (NodeOps (cfg i).dim)) {P X V : Type}
    (base : Phys (BigNode cfg) (BigOp cfg) P X V R) {Q : Type} (st : NS E Q (BigNode cfg)) (h : (∃ a, st.num.get? a = none) ∨ st.vec = none) :
    ∃ e, callMethod (circuitPhys g u cfg ops base) st .getHamiltonian none {} = .error e := by
  have key : ∃ e, hamiltonianOf g u cfg st.num.get? st.circ.get? st.vec = .error e := by
    unfold hamiltonianOf
    cases hx : readAttrs st.num.get? with
    | error e => exact ⟨e, rfl⟩
    | ok x =>
      rcases h with ⟨a, ha⟩ | hv
      · exfalso
        have hno : ∀ y, numbersOf st.num.get? a ≠ .ok y := by
          intro y hy
          unfold numbersOf at hy
          rw [ha] at hy
          cases hy
        unfold readAttrs at hx
        split at hx
        · rename_i x1 x2 x3 x4 x5 x6 x7 x8 x9 h1 h2 h3 h4 h5 h6 h7 h8 h9
          cases a <;> first | exact hno _ h1 | exact hno _ h2 | exact hno _ h3 | exact hno _ h4 | exact hno _ h5 | exact hno _ h6 | exact hno _ h7 | exact hno _ h8 | exact hno _ h9
        · cases hx
      · rw [hv]
        cases (nodes g).mapM st.circ.get? <;> exact ⟨_, rfl⟩
  obtain ⟨e, he⟩ := key
  have : (circuitPhys g u cfg ops base).ham st.num.get? st.circ.get? st.vec = .error e := he
  refine ⟨e, ?_⟩
  unfold callMethod
  simp only [this]

end Verif.Props
