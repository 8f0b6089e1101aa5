import Verif.Lemmas.Construct
import Verif.Model.Assembly
import Verif.Model.AstEngine
import Verif.Props.Assembly

/-!
# Property C89: the parameters of a new system
-/

namespace Verif.Props

open Verif Verif.Circuit Verif.Sym Verif.Spec Verif.PC Verif.Derived

variable {E : Type}

/-! ### The circuit holds what the calls declare -/

theorem coupled_run {h : List Call} (hok : ∀ x ∈ h, x.OK) (ha : AllOk h) (m : String) :
    m ∈ Dict.keys (run {} h).coupled ↔ ∃ a b, Call.coupleBranches a b m ∈ h := by
  induction h using List.reverseRecOn with
  | nil => simp [run, Dict.keys]
  | append_singleton l c ih =>
    have ih := ih (fun x hx => hok x (List.mem_append_left _ hx)) (allOk_snoc ha).1
    have hc := (allOk_snoc ha).2
    have key : ∀ c : Call, (∀ a b m, c ≠ .coupleBranches a b m) → (step (run {} l) c).1.coupled = (run {} l).coupled →
        (m ∈ Dict.keys (run {} (l ++ [c])).coupled ↔ ∃ a b, Call.coupleBranches a b m ∈ l ++ [c]) := by
      intro c hne heq
      rw [run_snoc, heq, ih]
      constructor
      · rintro ⟨a, b, h⟩; exact ⟨a, b, List.mem_append_left _ h⟩
      · rintro ⟨a, b, h⟩
        rcases List.mem_append.1 h with h | h
        · exact ⟨a, b, h⟩
        · exact absurd (List.mem_singleton.1 h).symm (hne a b m)
    cases c with
    | addBranch o a b c => exact key _ (by simp) (by simp only [step]; rw [addBranch_frame.2.2.1])
    | coupleResonator n c => exact key _ (by simp) (by simp only [step]; rw [coupleResonator_frame])
    | removeAllResonators => exact key _ (by simp) rfl
    | addFluxBias c s m => exact key _ (by simp) (by simp only [step]; rw [addFluxBias_frame])
    | addChargeBias n s m => exact key _ (by simp) (by simp only [step]; rw [addChargeBias_frame])
    | coupleBranches a b m' =>
      obtain ⟨e1, e2, -, -, -, -, -, -, -, -, -, heq⟩ := coupleBranches_ok (show (coupleBranches (run {} l) a b m').2 = .ok () from hc)
      rw [run_snoc]
      simp only [step]
      rw [heq]
      simp only [Dict.keys, List.map_append, List.map_cons, List.map_nil, List.mem_append, List.mem_singleton]
      rw [show (m ∈ List.map Prod.fst (run {} l).coupled) = (m ∈ Dict.keys (run {} l).coupled) from rfl, ih]
      constructor
      · rintro (⟨a', b', h⟩ | rfl)
        · exact ⟨a', b', Or.inl h⟩
        · exact ⟨a, b, Or.inr rfl⟩
      · rintro ⟨a', b', h | h⟩
        · exact Or.inl ⟨a', b', h⟩
        · cases h; exact Or.inr rfl

theorem mem_resonatorsOf {g : CG} (hn : (Dict.keys g.resonators).Nodup) (r : Resonator) : r ∈ resonatorsOf g ↔ ∃ n, g.resonators.get? n = some (some r) := by
  unfold resonatorsOf Dict.values
  simp only [List.mem_filterMap, List.mem_map, id]
  constructor
  · rintro ⟨x, ⟨⟨n, y⟩, hy, rfl⟩, hx⟩
    simp only at hx
    subst hx
    exact ⟨n, Dict.get?_of_mem hn hy⟩
  · rintro ⟨n, hn'⟩
    exact ⟨some r, ⟨(n, some r), Dict.mem_of_get? hn', rfl⟩, rfl⟩

theorem updateCouplings_some (d : Dict Node (Option Resonator)) (a b n : Node) (r : Resonator) :
    (updateCouplings d a b).get? n = some (some r) ↔ d.get? n = some (some r) := by
  have key : ∀ (d : Dict Node (Option Resonator)) (a : Node), Dict.get? (if d.has a then d else d.set a none) n = some (some r) ↔ Dict.get? d n = some (some r) := by
    intro d a
    split_ifs with h
    · exact Iff.rfl
    · rw [Dict.get?_set]
      split_ifs with e
      · subst e
        have : Dict.get? d a = none := by simpa [Dict.has] using h
        rw [this]; simp
      · exact Iff.rfl
  unfold updateCouplings
  rw [key, key]

theorem resonator_run {h : List Call} (ha : AllOk h) (hk : KeepsResonators h) (n : Node) (r : Resonator) :
    (run {} h).resonators.get? n = some (some r) ↔ ∃ c, Call.coupleResonator n c ∈ h ∧ r = mkResonator n c := by
  induction h using List.reverseRecOn generalizing r with
  | nil => simp [run]
  | append_singleton l c ih =>
    have ih : ∀ r, (run {} l).resonators.get? n = some (some r) ↔ ∃ c, Call.coupleResonator n c ∈ l ∧ r = mkResonator n c := fun r =>
      ih (allOk_snoc ha).1 (fun x hx => hk x (List.mem_append_left _ hx)) r
    have hc := (allOk_snoc ha).2
    have key : ∀ c : Call, (∀ m b, c ≠ .coupleResonator m b) →
        ((step (run {} l) c).1.resonators.get? n = some (some r) ↔ (run {} l).resonators.get? n = some (some r)) →
        ((run {} (l ++ [c])).resonators.get? n = some (some r) ↔ ∃ c', Call.coupleResonator n c' ∈ l ++ [c] ∧ r = mkResonator n c') := by
      intro c hne heq
      rw [run_snoc, heq, ih]
      constructor
      · rintro ⟨b, h, e⟩; exact ⟨b, List.mem_append_left _ h, e⟩
      · rintro ⟨b, h, e⟩
        rcases List.mem_append.1 h with h | h
        · exact ⟨b, h, e⟩
        · exact absurd (List.mem_singleton.1 h).symm (hne n b)
    cases c with
    | addBranch o a b c => exact key _ (by simp) (by simp only [step] at hc ⊢; rw [addBranch_resonators hc, updateCouplings_some])
    | removeAllResonators => exact absurd rfl (hk .removeAllResonators (by simp))
    | addFluxBias c s m => exact key _ (by simp) (by simp only [step]; rw [addFluxBias_frame])
    | addChargeBias n s m => exact key _ (by simp) (by simp only [step]; rw [addChargeBias_frame])
    | coupleBranches a b m => exact key _ (by simp) (by simp only [step]; rw [coupleBranches_frame])
    | coupleResonator m c =>
      obtain ⟨-, -, hn, -, -, heq⟩ := coupleResonator_ok (show (coupleResonator (run {} l) m c).2 = .ok () from hc)
      rw [run_snoc]
      simp only [step]
      rw [heq]
      simp only [List.mem_append, List.mem_singleton]
      rw [Dict.get?_set]
      split_ifs with e
      · subst e
        constructor
        · intro h
          cases h
          exact ⟨c, Or.inr rfl, rfl⟩
        · rintro ⟨c', h | h, rfl⟩
          · have := (ih (mkResonator m c')).2 ⟨c', h, rfl⟩
            rw [hn] at this; cases this
          · cases h; rfl
      · rw [ih]
        constructor
        · rintro ⟨b, h, e⟩; exact ⟨b, Or.inl h, e⟩
        · rintro ⟨b, h | h, e'⟩
          · exact ⟨b, h, e'⟩
          · cases h; exact absurd rfl e

theorem branch_run {h : List Call} (ha : AllOk h) (c : String) :
    c ∈ (run {} h).graph.view.map Prod.snd ↔ ∃ o a b, Call.addBranch o a b c ∈ h := by
  have hw := (graphInv_run h).toWF
  have h1 : c ∈ (run {} h).graph.view.map Prod.snd ↔ ∃ p ∈ (run {} h).graph.es, p.2 = c := by
    simp only [List.mem_map, MGraph.mem_view hw]
    constructor
    · rintro ⟨x, ⟨p, hp, rfl⟩, rfl⟩; exact ⟨p, hp, rfl⟩
    · rintro ⟨p, hp, rfl⟩; exact ⟨_, ⟨p, hp, rfl⟩, rfl⟩
  have h2 : (∃ p ∈ (run {} h).graph.es, p.2 = c) ↔ ∃ b ∈ branches h, b.2.2 = c := by
    have := run_graph h {}
    simp only [List.map_nil, List.nil_append] at this
    rw [← this]
    simp [strip]
  rw [h1, h2]
  unfold branches
  simp only [List.mem_filterMap]
  constructor
  · rintro ⟨b, ⟨x, hx, hb⟩, rfl⟩
    cases x <;> simp only [branchOf] at hb <;> try cases hb
    split_ifs at hb
    cases hb
    exact ⟨_, _, _, hx⟩
  · rintro ⟨o, a, b, hx⟩
    obtain ⟨l, l', he⟩ := List.append_of_mem hx
    have hok := ha l _ l' he
    have hp := addBranch_okPrefix (show (addBranch o (run {} l) a b c).2 = .ok () from hok)
    exact ⟨(a, b, c), ⟨_, hx, by simp only [branchOf]; rw [← okPrefix_eq, hp]; rfl⟩, rfl⟩

theorem charge_run {h : List Call} (hok : ∀ x ∈ h, x.OK) (ha : AllOk h) (b : Bias) :
    b ∈ (run {} h).chargeBias.values ↔ ∃ n, Call.addChargeBias n (some b.suffix) b.comp ∈ h := by
  have hf := biasesFrom hok ha
  have hn := (C26_history h hok).1
  unfold Dict.values
  simp only [List.mem_map]
  constructor
  · rintro ⟨⟨n, b'⟩, hb, rfl⟩
    exact ⟨n, hf.charge n b' (Dict.get?_of_mem hn hb)⟩
  · rintro ⟨n, hx⟩
    obtain ⟨s, hs, hg⟩ := hf.charge' n _ _ hx
    cases hs
    exact ⟨_, Dict.mem_of_get? hg, rfl⟩

theorem flux_run {h : List Call} (hok : ∀ x ∈ h, x.OK) (ha : AllOk h) (b : Bias) :
    b ∈ (run {} h).fluxBias.values ↔ ∃ c, Call.addFluxBias c (some b.suffix) b.comp ∈ h := by
  have hf := biasesFrom hok ha
  have hn := (C24_history h hok).2.1
  unfold Dict.values
  simp only [List.mem_map]
  constructor
  · rintro ⟨q, hb, rfl⟩
    obtain ⟨c, m, p, h1, -, -⟩ := hf.flux q hb
    obtain ⟨s', e, p', h2, h3, -, -⟩ := hf.flux' _ _ _ h1
    cases h2
    have : q = (e, ⟨m, q.2.suffix⟩) := List.inj_on_of_nodup_map hn hb h3 rfl
    have hm : q.2.comp = m := by rw [this]
    exact ⟨c, by rw [hm]; exact h1⟩
  · rintro ⟨c, hx⟩
    obtain ⟨s, e, p, hs, hg, -, -⟩ := hf.flux' c _ _ hx
    cases hs
    exact ⟨_, hg, rfl⟩

theorem suffix_of {h : List Call} (hok : ∀ x ∈ h, x.OK) (ha : AllOk h) :
    (∀ n s c, Call.addChargeBias n s c ∈ h → ∃ s', s = some s') ∧ ∀ c s m, Call.addFluxBias c s m ∈ h → ∃ s', s = some s' := by
  have hf := biasesFrom hok ha
  exact ⟨fun n s c hx => (hf.charge' n s c hx).imp fun _ h => h.1, fun c s m hx => by
    obtain ⟨s', e, p, h, -⟩ := hf.flux' c s m hx
    exact ⟨s', h⟩⟩

theorem names_mk (n : ℕ) (c : String) : Resonator.names (mkResonator n c) = resonatorNames n c := rfl

/-- What the constructor asks for, part by part. -/
theorem mem_parameterList (p : Prefixes) (g : CG) (q : String × Option Sym) : q ∈ parameterList p g ↔
    (q.2 = none ∧ q.1 ∈ g.graph.view.map Prod.snd) ∨ (q.2 = none ∧ q.1 ∈ Dict.keys g.coupled) ∨
    (∃ b ∈ g.chargeBias.values, q.2 = none ∧ b.comp = some q.1) ∨ (∃ b ∈ g.fluxBias.values, q.2 = none ∧ b.comp = some q.1) ∨
    (∃ b ∈ g.fluxBias.values, q = ("phi" ++ b.suffix, some (biasSymbol p.flux b.suffix))) ∨
    (∃ b ∈ g.chargeBias.values, q = (p.charge ++ b.suffix, some (biasSymbol p.charge b.suffix))) ∨
    ∃ r ∈ resonatorsOf g, q.2 = none ∧ q.1 ∈ Resonator.names r := by
  obtain ⟨k, o⟩ := q
  have hn : ∀ l : List String, (k, o) ∈ l.map (fun n => (n, (none : Option Sym))) ↔ o = none ∧ k ∈ l := by
    intro l
    simp only [List.mem_map, Prod.mk.injEq]
    constructor
    · rintro ⟨a, h, rfl, rfl⟩; exact ⟨rfl, h⟩
    · rintro ⟨rfl, h⟩; exact ⟨k, h, rfl, rfl⟩
  have hf : (k, o) ∈ (g.fluxBias.map fun q => ("phi" ++ q.2.suffix, some (biasSymbol p.flux q.2.suffix))) ↔
      ∃ b ∈ g.fluxBias.values, (k, o) = ("phi" ++ b.suffix, some (biasSymbol p.flux b.suffix)) := by
    simp only [Dict.values, List.mem_map]
    constructor
    · rintro ⟨q, hq, e⟩; exact ⟨q.2, ⟨q, hq, rfl⟩, e.symm⟩
    · rintro ⟨b, ⟨q, hq, rfl⟩, e⟩; exact ⟨q, hq, e.symm⟩
  have hc : (k, o) ∈ (g.chargeBias.values.map fun b => (p.charge ++ b.suffix, some (biasSymbol p.charge b.suffix))) ↔
      ∃ b ∈ g.chargeBias.values, (k, o) = (p.charge ++ b.suffix, some (biasSymbol p.charge b.suffix)) := by
    simp only [List.mem_map, eq_comm]
  unfold parameterList circuitNames
  rw [List.mem_append, List.mem_append, List.mem_append, hn, hn, hf, hc]
  simp only [List.mem_append, List.mem_filterMap, List.mem_flatMap]
  constructor
  · rintro (((⟨ho, (((h | h) | ⟨b, hb, h⟩) | ⟨b, hb, h⟩)⟩ | h) | h) | ⟨ho, r, hr, h⟩)
    · exact Or.inl ⟨ho, h⟩
    · exact Or.inr (Or.inl ⟨ho, h⟩)
    · exact Or.inr (Or.inr (Or.inl ⟨b, hb, ho, h⟩))
    · exact Or.inr (Or.inr (Or.inr (Or.inl ⟨b, hb, ho, h⟩)))
    · exact Or.inr (Or.inr (Or.inr (Or.inr (Or.inl h))))
    · exact Or.inr (Or.inr (Or.inr (Or.inr (Or.inr (Or.inl h)))))
    · exact Or.inr (Or.inr (Or.inr (Or.inr (Or.inr (Or.inr ⟨r, hr, ho, h⟩)))))
  · rintro (⟨ho, h⟩ | ⟨ho, h⟩ | ⟨b, hb, ho, h⟩ | ⟨b, hb, ho, h⟩ | h | h | ⟨r, hr, ho, h⟩)
    · exact Or.inl (Or.inl (Or.inl ⟨ho, Or.inl (Or.inl (Or.inl h))⟩))
    · exact Or.inl (Or.inl (Or.inl ⟨ho, Or.inl (Or.inl (Or.inr h))⟩))
    · exact Or.inl (Or.inl (Or.inl ⟨ho, Or.inl (Or.inr ⟨b, hb, h⟩)⟩))
    · exact Or.inl (Or.inl (Or.inl ⟨ho, Or.inr ⟨b, hb, h⟩⟩))
    · exact Or.inl (Or.inl (Or.inr h))
    · exact Or.inl (Or.inr h)
    · exact Or.inr ⟨ho, r, hr, h⟩

/-- A declared parameter: its entry in the list, with the symbol the constructor gives it. -/
def DeclaredEntry (h : List Call) (q : String × Option Sym) : Prop :=
  (q.2 = none ∧ ((∃ o a b, Call.addBranch o a b q.1 ∈ h) ∨ (∃ a b, Call.coupleBranches a b q.1 ∈ h) ∨ (∃ n s, Call.addChargeBias n s (some q.1) ∈ h) ∨
    (∃ c s, Call.addFluxBias c s (some q.1) ∈ h) ∨ ∃ n c, Call.coupleResonator n c ∈ h ∧ q.1 ∈ resonatorNames n c)) ∨
  (∃ c s m, Call.addFluxBias c (some s) m ∈ h ∧ q = ("phi" ++ s, some (biasSymbol "\\Phi" s))) ∨
  ∃ n s c, Call.addChargeBias n (some s) c ∈ h ∧ q = ("Q" ++ s, some (biasSymbol "Q" s))

theorem entry_iff {h : List Call} (hok : ∀ x ∈ h, x.OK) (ha : AllOk h) (hk : KeepsResonators h) (q : String × Option Sym) :
    q ∈ parameterList Prefixes.default (run {} h) ↔ DeclaredEntry h q := by
  rw [mem_parameterList, branch_run ha, coupled_run hok ha]
  unfold DeclaredEntry
  simp only [mem_resonatorsOf (resonators_nodup h hok), charge_run hok ha, flux_run hok ha, resonator_run ha hk]
  obtain ⟨s1, s2⟩ := suffix_of hok ha
  constructor
  · rintro (⟨ho, h⟩ | ⟨ho, h⟩ | ⟨b, ⟨n, hb⟩, ho, h⟩ | ⟨b, ⟨n, hb⟩, ho, h⟩ | ⟨b, ⟨n, hb⟩, h⟩ | ⟨b, ⟨n, hb⟩, h⟩ | ⟨r, ⟨n, c, hc, rfl⟩, ho, h⟩)
    · exact Or.inl ⟨ho, Or.inl h⟩
    · exact Or.inl ⟨ho, Or.inr (Or.inl h)⟩
    · rw [h] at hb; exact Or.inl ⟨ho, Or.inr (Or.inr (Or.inl ⟨n, _, hb⟩))⟩
    · rw [h] at hb; exact Or.inl ⟨ho, Or.inr (Or.inr (Or.inr (Or.inl ⟨n, _, hb⟩)))⟩
    · exact Or.inr (Or.inl ⟨n, _, _, hb, h⟩)
    · exact Or.inr (Or.inr ⟨n, _, _, hb, h⟩)
    · exact Or.inl ⟨ho, Or.inr (Or.inr (Or.inr (Or.inr ⟨n, c, hc, by rw [names_mk] at h; exact h⟩)))⟩
  · rintro (⟨ho, (h | h | ⟨n, s, h⟩ | ⟨n, s, h⟩ | ⟨n, c, hc, h⟩)⟩ | ⟨c, s, m, h, e⟩ | ⟨n, s, c, h, e⟩)
    · exact Or.inl ⟨ho, h⟩
    · exact Or.inr (Or.inl ⟨ho, h⟩)
    · obtain ⟨s', rfl⟩ := s1 _ _ _ h
      exact Or.inr (Or.inr (Or.inl ⟨⟨some q.1, s'⟩, ⟨n, h⟩, ho, rfl⟩))
    · obtain ⟨s', rfl⟩ := s2 _ _ _ h
      exact Or.inr (Or.inr (Or.inr (Or.inl ⟨⟨some q.1, s'⟩, ⟨n, h⟩, ho, rfl⟩)))
    · exact Or.inr (Or.inr (Or.inr (Or.inr (Or.inr (Or.inr ⟨_, ⟨n, c, hc, rfl⟩, ho, h⟩)))))
    · exact Or.inr (Or.inr (Or.inr (Or.inr (Or.inl ⟨⟨m, s⟩, ⟨c, h⟩, e⟩))))
    · exact Or.inr (Or.inr (Or.inr (Or.inr (Or.inr (Or.inl ⟨⟨c, s⟩, ⟨n, h⟩, e⟩)))))

/-- The names that the constructor asks for are those the calls declare. -/
theorem declared_iff {h : List Call} (hok : ∀ x ∈ h, x.OK) (ha : AllOk h) (hk : KeepsResonators h) (k : String) :
    k ∈ (parameterList Prefixes.default (run {} h)).keys ↔ ∃ x ∈ h, Declares x k := by
  unfold Dict.keys
  simp only [List.mem_map, entry_iff hok ha hk]
  constructor
  · rintro ⟨⟨k', o⟩, hq, rfl⟩
    rcases hq with ⟨-, (⟨o, a, b, h⟩ | ⟨a, b, h⟩ | ⟨n, s, h⟩ | ⟨n, s, h⟩ | ⟨n, c, hc, h⟩)⟩ | ⟨c, s, m, h, e⟩ | ⟨n, s, c, h, e⟩
    · exact ⟨_, h, .branch _ _ _ _⟩
    · exact ⟨_, h, .mutual _ _ _⟩
    · exact ⟨_, h, .gate _ _ _⟩
    · exact ⟨_, h, .coil _ _ _⟩
    · exact ⟨_, hc, .resonator _ _ _ h⟩
    · cases e; exact ⟨_, h, .flux _ _ _⟩
    · cases e; exact ⟨_, h, .charge _ _ _⟩
  · rintro ⟨x, hx, hd⟩
    cases hd with
    | branch o a b => exact ⟨(k, none), Or.inl ⟨rfl, Or.inl ⟨_, _, _, hx⟩⟩, rfl⟩
    | «mutual» a b => exact ⟨(k, none), Or.inl ⟨rfl, Or.inr (Or.inl ⟨_, _, hx⟩)⟩, rfl⟩
    | gate n s => exact ⟨(k, none), Or.inl ⟨rfl, Or.inr (Or.inr (Or.inl ⟨_, _, hx⟩))⟩, rfl⟩
    | coil c s => exact ⟨(k, none), Or.inl ⟨rfl, Or.inr (Or.inr (Or.inr (Or.inl ⟨_, _, hx⟩)))⟩, rfl⟩
    | resonator n c _ hn => exact ⟨(k, none), Or.inl ⟨rfl, Or.inr (Or.inr (Or.inr (Or.inr ⟨_, _, hx, hn⟩)))⟩, rfl⟩
    | flux c s m => exact ⟨_, Or.inr (Or.inl ⟨_, _, _, hx, rfl⟩), rfl⟩
    | charge n s c => exact ⟨_, Or.inr (Or.inr ⟨_, _, _, hx, rfl⟩), rfl⟩

/-! ### How the parameters are written -/

theorem writtenAs_toList (name : String) : (writtenAs name).toList = match name.toList with
    | 'p' :: 'h' :: 'i' :: s => '\\' :: 'P' :: 'h' :: 'i' :: '_' :: '{' :: (s ++ ['}'])
    | c :: s => c :: '_' :: '{' :: (s ++ ['}'])
    | [] => [] := by
  unfold writtenAs
  split <;> simp_all

theorem writtenAs_inj {a b : String} (ha : a ≠ "") (hb : b ≠ "") (h : writtenAs a = writtenAs b) : a = b := by
  replace h := congrArg String.toList h
  rw [writtenAs_toList, writtenAs_toList] at h
  have ha' : a.toList ≠ [] := fun e => ha (String.toList_eq_nil_iff.1 e)
  have hb' : b.toList ≠ [] := fun e => hb (String.toList_eq_nil_iff.1 e)
  apply String.toList_inj.1
  clear ha hb
  revert h ha' hb'
  generalize a.toList = u
  generalize b.toList = v
  clear a b
  intro h ha hb
  split at h <;> split at h
  · simp only [List.cons.injEq, List.append_cancel_right_eq, true_and] at h; rw [h]
  · rename_i hne; simp only [List.cons.injEq] at h; exact absurd h.2.1 (by decide)
  · cases h
  · simp only [List.cons.injEq] at h; exact absurd h.2.1 (by decide)
  · simp only [List.cons.injEq, List.append_cancel_right_eq, true_and] at h; rw [h.1, h.2]
  · cases h
  · cases h
  · cases h
  · exact absurd rfl ha

theorem writtenAs_reserved {a : String} (ha : a ≠ "") : writtenAs a ≠ "\\Phi_0" ∧ writtenAs a ≠ "R_Q" ∧ writtenAs a ≠ "e" := by
  have ha' : a.toList ≠ [] := fun e => ha (String.toList_eq_nil_iff.1 e)
  have key : ∀ s : String, (∀ c l, s.toList ≠ c :: '_' :: '{' :: l) → (∀ l, s.toList ≠ '\\' :: 'P' :: 'h' :: 'i' :: '_' :: '{' :: l) → writtenAs a ≠ s := by
    intro s h1 h2 e
    have e := congrArg String.toList e
    rw [writtenAs_toList] at e
    split at e
    · exact h2 _ e.symm
    · exact h1 _ _ e.symm
    · rename_i h0; exact ha' h0
  refine ⟨key _ ?_ ?_, key _ ?_ ?_, key _ ?_ ?_⟩ <;> intros <;> simp [String.toList_ofList]

theorem writtenAs_of_symbolOf {k : String} {s : Sym} (h : Param.symbolOf k = some s) (hp : pre k ≠ some 'p') : s = writtenAs k := by
  unfold Param.symbolOf at h
  unfold pre at hp
  apply String.toList_inj.1
  rw [writtenAs_toList]
  split at h
  · cases h
  · rename_i c cs hk
    cases h
    rw [hk] at hp ⊢
    split
    · simp_all
    · simp_all
    · simp_all

theorem writtenAs_flux (s : String) : biasSymbol "\\Phi" s = writtenAs ("phi" ++ s) := by
  apply String.toList_inj.1
  rw [writtenAs_toList]
  unfold biasSymbol
  simp

theorem writtenAs_charge (s : String) : biasSymbol "Q" s = writtenAs ("Q" ++ s) := by
  apply String.toList_inj.1
  rw [writtenAs_toList]
  unfold biasSymbol
  simp

theorem pre_resonator {n : ℕ} {c k : String} (hc : pre c = some 'C') (h : k ∈ resonatorNames n c) : pre k ≠ some 'p' := by
  unfold resonatorNames at h
  simp only [List.mem_cons, List.not_mem_nil, or_false] at h
  rcases h with rfl | rfl | rfl | rfl | rfl | rfl | rfl | rfl
  · rw [hc]; decide
  all_goals
    unfold pre
    simp [toString]

theorem entry_pre {h : List Call} (hok : ∀ x ∈ h, x.OK) (ha : AllOk h) {q : String × Option Sym} (hq : DeclaredEntry h q) (hn : q.2 = none) :
    pre q.1 ≠ some 'p' := by
  rcases hq with ⟨ho, hq⟩ | ⟨c, s, m, h, e⟩ | ⟨n, s, c, h, e⟩
  · have at_ : ∀ x ∈ h, ∃ l, (∀ x ∈ l, x.OK) ∧ (step (run {} l) x).2 = .ok () := by
      intro x hx
      obtain ⟨l, l', he⟩ := List.append_of_mem hx
      exact ⟨l, fun y hy => hok y (by rw [he]; simp [hy]), ha l x l' he⟩
    rcases hq with ⟨o, a, b, hx⟩ | ⟨a, b, hx⟩ | ⟨n, s, hx⟩ | ⟨n, s, hx⟩ | ⟨n, c, hx, hn⟩
    · obtain ⟨l, hl, hs⟩ := at_ _ hx
      have := addBranch_okPrefix (show (addBranch o (run {} l) a b q.1).2 = .ok () from hs)
      intro e
      unfold okPrefix at this
      rw [e] at this
      revert this; decide
    · obtain ⟨l, hl, hs⟩ := at_ _ hx
      obtain ⟨-, -, h1, -⟩ := coupleBranches_ok (show (coupleBranches (run {} l) a b q.1).2 = .ok () from hs)
      rw [h1]; decide
    · obtain ⟨l, hl, hs⟩ := at_ _ hx
      obtain ⟨-, -, -, -, h1, -⟩ := addChargeBias_ok (show (addChargeBias (run {} l) n s (some q.1)).2 = .ok () from hs)
      rw [(h1 _ rfl).1]; decide
    · obtain ⟨l, hl, hs⟩ := at_ _ hx
      obtain ⟨-, -, -, -, -, -, -, -, h1, -⟩ := addFluxBias_ok (graphInv_run l).toWF (traced_run hl) (show (addFluxBias (run {} l) n s (some q.1)).2 = .ok () from hs)
      rw [(h1 _ rfl).1]; decide
    · obtain ⟨l, hl, hs⟩ := at_ _ hx
      obtain ⟨-, -, -, h1, -⟩ := coupleResonator_ok (show (coupleResonator (run {} l) n c).2 = .ok () from hs)
      exact pre_resonator h1 hn
  · rw [e] at hn; cases hn
  · rw [e] at hn; cases hn

theorem entry_written {h : List Call} (hok : ∀ x ∈ h, x.OK) (ha : AllOk h) {q : String × Option Sym} (hq : DeclaredEntry h q) {p : Param}
    (hp : Param.new q.1 = .ok p) : q.2.getD p.symbol = writtenAs q.1 := by
  have hsym := param_new_symbol hp
  have hpre := entry_pre hok ha hq
  rcases hq with ⟨ho, hq⟩ | ⟨c, s, m, h, e⟩ | ⟨n, s, c, h, e⟩
  · rw [ho]
    exact writtenAs_of_symbolOf hsym (hpre ho)
  · rw [e]; exact writtenAs_flux s
  · rw [e]; exact writtenAs_charge s

/-! ### The whole constructor -/

/-- The parameter of an entry of the inverse inductance matrix: `L`, row, column, `i`. -/
def IsDerived (eng : Engine E) (isZero : E → Bool) (n : ℕ) (M : ℕ → ℕ → E) (k : String) : Prop :=
  ∃ i j, i ≤ j ∧ j < n ∧ isZero (M i j) = false ∧ 2 ≤ (eng.free (M i j)).length ∧ k = s!"L{i}{j}i"

theorem dname_text (i j : ℕ) : dname 'L' true i j = s!"L{i}{j}i" := by
  apply String.toList_inj.1
  rw [dname_toList]
  simp [toString]

theorem isDerived_iff (eng : Engine E) (isZero : E → Bool) (n : ℕ) (M : ℕ → ℕ → E) (k : String) :
    (∃ p ∈ upper n, skipped eng isZero (M p.1 p.2) = false ∧ k = dname 'L' true p.1 p.2) ↔ IsDerived eng isZero n M k := by
  constructor
  · rintro ⟨⟨i, j⟩, hp, hs, rfl⟩
    obtain ⟨h1, h2⟩ := upper_mem.1 hp
    unfold skipped at hs
    simp at hs
    exact ⟨i, j, h1, h2, hs.1, hs.2, dname_text i j⟩
  · rintro ⟨i, j, h1, h2, h3, h4, rfl⟩
    exact ⟨(i, j), upper_mem.2 ⟨h1, h2⟩, by unfold skipped; simp [h3]; omega, (dname_text i j).symm⟩

/-- What the constructor leaves behind. -/
structure Fresh (eng : Engine E) (isZero : E → Bool) (h : List Call) (n : ℕ) (M : ℕ → ℕ → E) (pc : PC E) : Prop where
  nodup : pc.coll.keys.Nodup
  keys : ∀ k, k ∈ pc.coll.keys ↔ (∃ x ∈ h, Declares x k) ∨ IsDerived eng isZero n M k
  params : ∀ k ∈ pc.coll.keys, ∃ p, Param.new k = .ok p ∧ pc.coll.get? k = some { p with symbol := writtenAs k } ∧ pc.symMap.get? k = some (writtenAs k)
  parz : ∀ k, k ∈ pc.parz.keys ↔ (∃ x ∈ h, ∃ m c, x = Call.coupleResonator m c ∧ k ∈ resonatorComputed m) ∨ IsDerived eng isZero n M k
  biased : ∀ q ∈ (run {} h).fluxBias, q.1 ∈ Sym.edges (run {} h)
  syms : SymKeys pc

theorem transform_spec {eng : Engine E} {isZero : E → Bool} {symE : Sym → E} {n : ℕ} {M : ℕ → ℕ → E} {again : Bool} {pc pc' : PC E}
    (h : transformParameters eng isZero symE n M again pc = (pc', .ok ())) :
    (∀ k, k ∈ pc'.coll.keys ↔ k ∈ pc.coll.keys ∨ IsDerived eng isZero n M k) ∧
    (∀ k, k ∈ pc'.parz.keys ↔ k ∈ pc.parz.keys ∨ IsDerived eng isZero n M k) ∧
    (∀ k, pc.coll.get? k ≠ none → pc'.coll.get? k = pc.coll.get? k ∧ pc'.symMap.get? k = pc.symMap.get? k) ∧
    (∀ k, pc.coll.get? k = none → pc'.coll.get? k ≠ none → ∃ p, Param.new k = .ok p ∧ pc'.coll.get? k = some p ∧ pc'.symMap.get? k = some p.symbol) ∧
    (pc.coll.keys.Nodup → pc'.coll.keys.Nodup) ∧ (SymKeys pc → SymKeys pc') := by
  have one : ∀ {pc pc' : PC E} {M' : ℕ → ℕ → E}, parameterise eng isZero symE 'L' true n pc M = (pc', .ok M') →
    (∀ k, k ∈ pc'.coll.keys ↔ k ∈ pc.coll.keys ∨ IsDerived eng isZero n M k) ∧
    (∀ k, k ∈ pc'.parz.keys ↔ k ∈ pc.parz.keys ∨ IsDerived eng isZero n M k) ∧
    (∀ k, pc.coll.get? k ≠ none → pc'.coll.get? k = pc.coll.get? k ∧ pc'.symMap.get? k = pc.symMap.get? k) ∧
    (∀ k, pc.coll.get? k = none → pc'.coll.get? k ≠ none → ∃ p, Param.new k = .ok p ∧ pc'.coll.get? k = some p ∧ pc'.symMap.get? k = some p.symbol) ∧
    (pc.coll.keys.Nodup → pc'.coll.keys.Nodup) ∧ (SymKeys pc → SymKeys pc') := by
    intro pc pc' M' h
    have := parLoop_keys eng isZero symE (dname 'L' true) (upper n) pc pc' M M' (upper_nodup n) (fun p hp => (upper_mem.1 hp).1) h
    simpa only [isDerived_iff] using this
  unfold transformParameters at h
  split at h
  · cases h
  rename_i pc1 M1 h1
  have f1 := one h1
  cases again with
  | false =>
    rw [if_neg (by simp)] at h
    cases h
    exact f1
  | true =>
    rw [if_pos rfl] at h
    split at h
    · cases h
    rename_i pc2 M2 h2
    have f2 := one h2
    cases h
    obtain ⟨a1, a2, a3, a4, a5, a6⟩ := f1
    obtain ⟨b1, b2, b3, b4, b5, b6⟩ := f2
    refine ⟨fun k => ?_, fun k => ?_, fun k hk => ?_, fun k hk hk' => ?_, fun h => b5 (a5 h), fun h => b6 (a6 h)⟩
    · rw [b1, a1]; tauto
    · rw [b2, a2]; tauto
    · obtain ⟨u1, u2⟩ := a3 k hk
      obtain ⟨v1, v2⟩ := b3 k (by rw [u1]; exact hk)
      exact ⟨v1.trans u1, v2.trans u2⟩
    · by_cases hk1 : pc1.coll.get? k = none
      · exact b4 k hk1 hk'
      · obtain ⟨p, q1, q2, q3⟩ := a4 k hk hk1
        obtain ⟨v1, v2⟩ := b3 k hk1
        exact ⟨p, q1, v1.trans q2, v2.trans q3⟩

theorem pre_derived (i j : ℕ) : pre s!"L{i}{j}i" = some 'L' := by
  rw [← dname_text]; unfold pre; rw [dname_toList]; rfl

theorem construct_fresh {eng : Engine E} {isZero : E → Bool} {symE : Sym → E} {o : Orc} {ex : Resonator → Except Err (ResExprs E)} {M : ℕ → ℕ → E}
    {again : Bool} {h : List Call} {pc : PC E} (hok : ∀ x ∈ h, x.OK) (ha : AllOk h) (hk : KeepsResonators h)
    (hc : construct eng isZero symE Prefixes.default o ex (.ok M) again (run {} h) = .ok pc) :
    Fresh eng isZero h (nodes (run {} h)).length M pc := by
  unfold construct at hc
  split_ifs at hc with h0
  rw [show (PC.new [] : Except Err (PC E)) = .ok { coll := [], symMap := [], parz := [], graph := DiGraph.empty } from rfl] at hc
  simp only at hc
  split at hc
  · cases hc
  rename_i pc1 h1
  split at hc
  · cases hc
  rename_i pc2 h2
  cases hc
  obtain ⟨⟨pc0, a0, a1, a2⟩, a3, a4⟩ := create_spec h1
  obtain ⟨b1, b2, b3, b4, b5, b6⟩ := transform_spec h2
  have hkeys : ∀ k, k ∈ pc1.coll.keys ↔ ∃ x ∈ h, Declares x k := by
    intro k
    rw [a1, a0.keys, declared_iff hok ha hk]
    simp [Dict.keys]
  have hpar : ∀ k ∈ pc1.coll.keys, ∃ p, Param.new k = .ok p ∧ pc1.coll.get? k = some { p with symbol := writtenAs k } ∧ pc1.symMap.get? k = some (writtenAs k) := by
    intro k hk'
    have hk0 := hk'
    rw [hkeys, ← declared_iff hok ha hk] at hk'
    cases hg : Dict.get? (parameterList Prefixes.default (run {} h)) k with
    | none => rw [Dict.get?_eq_none_iff] at hg; exact absurd hk' hg
    | some s =>
      obtain ⟨p, q1, q2, q3⟩ := a0.new k s rfl hg
      have hw := entry_written hok ha ((entry_iff hok ha hk (k, s)).1 (Dict.mem_of_get? hg)) q1
      simp only at hw
      rw [hw] at q2 q3
      rw [a1, a2]
      exact ⟨p, q1, q2, q3⟩
  refine ⟨b5 (by rw [a1]; exact a0.nodup (by simp [Dict.keys])), fun k => by rw [b1, hkeys], fun k hk' => ?_, fun k => ?_, a4,
    b6 (by unfold SymKeys; rw [a1, a2]; exact a0.syms ⟨by simp [Dict.keys], by simp [Dict.keys]⟩)⟩
  · by_cases hk1 : pc1.coll.get? k = none
    · have hk2 : pc.coll.get? k ≠ none := fun e => (Dict.get?_eq_none_iff _ _).1 e hk'
      obtain ⟨p, q1, q2, q3⟩ := b4 k hk1 hk2
      have hw : p.symbol = writtenAs k := by
        apply writtenAs_of_symbolOf (param_new_symbol q1)
        rcases (b1 k).1 hk' with h | ⟨i, j, -, -, -, -, rfl⟩
        · exact absurd h ((Dict.get?_eq_none_iff _ _).1 hk1)
        · rw [pre_derived]; decide
      refine ⟨p, q1, ?_, by rw [q3, hw]⟩
      rw [q2, ← hw]
    · obtain ⟨u1, u2⟩ := b3 k hk1
      rw [u1, u2]
      refine hpar k ?_
      by_contra hn
      exact hk1 ((Dict.get?_eq_none_iff _ _).2 hn)
  · rw [b2, a3]
    apply or_congr _ Iff.rfl
    simp only [mem_resonatorsOf (resonators_nodup h hok), resonator_run ha hk]
    constructor
    · rintro (h | ⟨r, ⟨n, c, hc, rfl⟩, h⟩)
      · simp [Dict.keys] at h
      · exact ⟨_, hc, n, c, rfl, h⟩
    · rintro ⟨x, hx, n, c, rfl, h⟩
      exact Or.inr ⟨_, ⟨n, c, hx, rfl⟩, h⟩

theorem param_new_value {k : String} {p : Param} (h : Param.new k = .ok p) : p.value = none := by
  unfold Param.new at h
  split_ifs at h
  cases hs : Param.symbolOf k with
  | none => rw [hs] at h; cases h
  | some s => rw [hs] at h; cases h; rfl

theorem fresh_nonempty {k : String} {p : Param} (h : Param.new k = .ok p) : k ≠ "" := by
  rintro rfl
  cases h

/-! ### The system's coefficients use only those parameters -/

/-- A name that the matrices and vectors of the circuit read. -/
def Reads (g : CG) (c : String) : Prop :=
  (∃ e, g.cmap.get? e = some c) ∨ c ∈ Dict.keys g.coupled ∨ (∃ n b, g.chargeBias.get? n = some b ∧ b.comp = some c) ∨
  ∃ n r, g.resonators.get? n = some (some r) ∧ c ∈ Resonator.names r

theorem capacitance_reads {g : CG} {v w : String → ℝ} (h : ∀ c, Reads g c → v c = w c) :
    capacitance v (resonatorCap v) g = capacitance w (resonatorCap w) g := by
  have h1 : ∀ i, diagEdge v g i = diagEdge w g i := by
    intro i; funext M e
    unfold diagEdge
    cases hc : g.cmap.get? e with
    | none => rfl
    | some c => simp only; rw [h c (Or.inl ⟨e, hc⟩)]
  have h2 : ∀ n, diagGate v g n = diagGate w g n := by
    intro n; funext i M
    unfold diagGate
    cases hc : g.chargeBias.get? n with
    | none => rfl
    | some b =>
      simp only
      cases hb : b.comp with
      | none => rfl
      | some c => simp only; rw [h c (Or.inr (Or.inr (Or.inl ⟨n, b, hc, hb⟩)))]
  have h3 : ∀ n, diagRes (resonatorCap v) g n = diagRes (resonatorCap w) g n := by
    intro n; funext i M
    unfold diagRes
    cases hc : g.resonators.get? n with
    | none => rfl
    | some b =>
      cases b with
      | none => rfl
      | some r =>
        simp only
        unfold resonatorCap
        rw [h r.coupling (Or.inr (Or.inr (Or.inr ⟨n, r, hc, by simp [Resonator.names]⟩))),
          h r.cr (Or.inr (Or.inr (Or.inr ⟨n, r, hc, by simp [Resonator.names]⟩)))]
  have h4 : diagNode v (resonatorCap v) g = diagNode w (resonatorCap w) g := by
    funext M p
    unfold diagNode
    rw [h1, h2, h3]
  have h5 : offEdge v g (nodes g) = offEdge w g (nodes g) := by
    funext M e
    unfold offEdge
    cases hc : g.cmap.get? e with
    | none => rfl
    | some c => simp only; rw [h c (Or.inl ⟨e, hc⟩)]
  unfold capacitance
  rw [h4, h5]

theorem foldlM_reads {α β : Type} {f g : β → α → Except Err β} : ∀ (l : List α) (b : β), (∀ x ∈ l, ∀ b, f b x = g b x) → l.foldlM f b = l.foldlM g b := by
  intro l
  induction l with
  | nil => intro b _; rfl
  | cons a l ih =>
    intro b h
    rw [List.foldlM_cons, List.foldlM_cons, h a (by simp)]
    congr 1
    funext c
    exact ih c fun x hx => h x (by simp [hx])

theorem inductance_reads {g : CG} {v w : String → ℝ} (h : ∀ c, Reads g c → v c = w c) : branchInductance v g = branchInductance w g := by
  have h1 : indDiag v g = indDiag w g := by
    funext M p
    unfold indDiag
    cases hc : g.cmap.get? p.1 with
    | none => rfl
    | some c => simp only; rw [h c (Or.inl ⟨_, hc⟩)]
  have h2 : ∀ M, g.coupled.foldlM (indOff v g) M = g.coupled.foldlM (indOff w g) M := by
    intro M
    apply foldlM_reads
    intro q hq M
    unfold indOff
    rw [h q.1 (Or.inr (Or.inl (List.mem_map_of_mem hq)))]
  unfold branchInductance
  rw [h1]
  split
  · rfl
  · exact h2 _

theorem vectors_read {g : CG} {v w : String → ℝ} (h : ∀ c, Reads g c → v c = w c) :
    (∀ i, josephsonVector v g i = josephsonVector w g i) ∧ ∀ i, Num.phaseSlipVector v g i = Num.phaseSlipVector w g i := by
  constructor
  · intro i
    unfold josephsonVector
    cases (edges g)[i]? with
    | none => rfl
    | some e =>
      simp only
      cases hc : g.cmap.get? e with
      | none => rfl
      | some c => simp only; rw [h c (Or.inl ⟨_, hc⟩)]
  · intro i
    unfold Num.phaseSlipVector
    cases (edges g)[i]? with
    | none => rfl
    | some e =>
      simp only
      cases hc : g.cmap.get? e with
      | none => rfl
      | some c => simp only; rw [h c (Or.inl ⟨_, hc⟩)]

theorem reads_declared {h : List Call} (hs : Settled h (run {} h)) (ha : AllOk h) (hk : KeepsResonators h) {c : String} (hc : Reads (run {} h) c) :
    ∃ x ∈ h, Declares x c := by
  have hok : ∀ x ∈ h, x.OK := by obtain ⟨_, _, _, _, _, _, _, h, _⟩ := hs; exact h
  obtain ⟨o, f⟩ := settled_facts hs
  rw [← declared_iff hok ha hk]
  have key : ∀ q, q ∈ parameterList Prefixes.default (run {} h) → q.1 ∈ (parameterList Prefixes.default (run {} h)).keys := fun q hq => List.mem_map_of_mem hq
  rcases hc with ⟨e, hc⟩ | hc | ⟨n, b, hb, hc⟩ | ⟨n, r, hr, hc⟩
  · refine key (c, none) ((mem_parameterList _ _ _).2 (Or.inl ⟨rfl, ?_⟩))
    rcases (f.synced.cmap e c).1 hc with h | h
    · exact List.mem_map.2 ⟨_, h, rfl⟩
    · exact List.mem_map.2 ⟨_, h, rfl⟩
  · exact key (c, none) ((mem_parameterList _ _ _).2 (Or.inr (Or.inl ⟨rfl, hc⟩)))
  · exact key (c, none) ((mem_parameterList _ _ _).2 (Or.inr (Or.inr (Or.inl ⟨b, List.mem_map.2 ⟨_, Dict.mem_of_get? hb, rfl⟩, rfl, hc⟩))))
  · exact key (c, none) ((mem_parameterList _ _ _).2 (Or.inr (Or.inr (Or.inr (Or.inr (Or.inr (Or.inr
      ⟨r, (mem_resonatorsOf (resonators_nodup h hok) r).2 ⟨n, hr⟩, rfl, hc⟩)))))))

theorem biases_declared {h : List Call} (hok : ∀ x ∈ h, x.OK) (ha : AllOk h) {b : Biases} (hb : createFluxBiases (run {} h) = .ok b) {e : Edge} {s : String}
    (he : b.flux.get? e = some (some s)) : ∃ x ∈ h, Declares x ("phi" ++ s) := by
  obtain ⟨hnd, -, -⟩ := C24_history h hok
  obtain ⟨h1, h2⟩ := addBiases_get _ _ _ hnd hb
  by_cases hm : e ∈ (run {} h).fluxBias.map Prod.fst
  · obtain ⟨q, hq, rfl⟩ := List.mem_map.1 hm
    rw [(h1 q hq).2] at he
    cases he
    obtain ⟨c, hc⟩ := (flux_run hok ha q.2).1 (List.mem_map.2 ⟨q, hq, rfl⟩)
    exact ⟨_, hc, .flux _ _ _⟩
  · rw [h2 e hm] at he
    rcases flat_get (edges (run {} h)) e with h | h <;> rw [h] at he <;> cases he

/-! ### The property -/

/-- The parameters of a new system are, once each, those that the calls name, and one for every entry of the inverse inductance matrix that is not zero
and has more than one symbol. -/
theorem C89_names (eng : Engine E) (isZero : E → Bool) (symE : Sym → E) (o : Orc) (ex : Resonator → Except Err (ResExprs E)) (M : ℕ → ℕ → E)
    (again : Bool) (h : List Call) (pc : PC E) (hok : ∀ x ∈ h, x.OK) (ha : AllOk h) (hk : KeepsResonators h)
    (hc : construct eng isZero symE Prefixes.default o ex (.ok M) again (run {} h) = .ok pc) :
    pc.getParameterNamesList.Nodup ∧ ∀ k, k ∈ pc.getParameterNamesList ↔ (∃ x ∈ h, Declares x k) ∨
      ∃ i j, i ≤ j ∧ j < (nodes (run {} h)).length ∧ isZero (M i j) = false ∧ 2 ≤ (eng.free (M i j)).length ∧ k = s!"L{i}{j}i" :=
  have f := construct_fresh hok ha hk hc
  ⟨f.nodup, f.keys⟩

/-- None of them has a value. -/
theorem C89_unset (eng : Engine E) (isZero : E → Bool) (symE : Sym → E) (o : Orc) (ex : Resonator → Except Err (ResExprs E)) (M : ℕ → ℕ → E)
    (again : Bool) (h : List Call) (pc : PC E) (hok : ∀ x ∈ h, x.OK) (ha : AllOk h) (hk : KeepsResonators h)
    (hc : construct eng isZero symE Prefixes.default o ex (.ok M) again (run {} h) = .ok pc) :
    (∀ k ∈ pc.getParameterNamesList, pc.getParameterValue k = .ok none) ∧ pc.allParametersSet = false := by
  have f := construct_fresh hok ha hk hc
  have key : ∀ k ∈ pc.getParameterNamesList, pc.getParameterValue k = .ok none := by
    intro k hk'
    obtain ⟨p, hp, h1, -⟩ := f.params k hk'
    unfold PC.getParameterValue
    rw [h1]
    exact congrArg Except.ok (show p.value = none from param_new_value hp)
  refine ⟨key, ?_⟩
  have h0 : (0 : ℕ) ∈ (run {} h).graph.nodes := by
    by_contra h0
    unfold construct at hc
    rw [if_pos h0] at hc
    cases hc
  obtain ⟨c, hcv⟩ : ∃ c, c ∈ (run {} h).graph.view.map Prod.snd := by
    obtain ⟨p, hp, -⟩ := touched_run h 0 h0
    exact ⟨p.2, List.mem_map.2 ⟨_, (MGraph.mem_view (graphInv_run h).toWF _).2 ⟨p, hp, rfl⟩, rfl⟩⟩
  obtain ⟨o', a, b, hx⟩ := (branch_run ha c).1 hcv
  have hm := (f.keys c).2 (Or.inl ⟨_, hx, .branch _ _ _ _⟩)
  obtain ⟨p, hp, h1, -⟩ := f.params c hm
  by_contra hs
  rw [Bool.not_eq_false] at hs
  unfold allParametersSet getParameterValuesDict at hs
  rw [List.all_eq_true] at hs
  have := hs (c, Param.getValue { p with symbol := writtenAs c }) (List.mem_map.2 ⟨_, Dict.mem_of_get? h1, rfl⟩)
  rw [show Param.getValue { p with symbol := writtenAs c } = none from (show p.value = none from param_new_value hp)] at this
  cases this

/-- The parametric ones are those computed for a resonator, and the entries of the inverse inductance matrix. -/
theorem C89_parametric (eng : Engine E) (isZero : E → Bool) (symE : Sym → E) (o : Orc) (ex : Resonator → Except Err (ResExprs E)) (M : ℕ → ℕ → E)
    (again : Bool) (h : List Call) (pc : PC E) (hok : ∀ x ∈ h, x.OK) (ha : AllOk h) (hk : KeepsResonators h)
    (hc : construct eng isZero symE Prefixes.default o ex (.ok M) again (run {} h) = .ok pc) (k : String) :
    k ∈ pc.getParametricParametersList ↔ (∃ n c, Call.coupleResonator n c ∈ h ∧ k ∈ resonatorComputed n) ∨
      ∃ i j, i ≤ j ∧ j < (nodes (run {} h)).length ∧ isZero (M i j) = false ∧ 2 ≤ (eng.free (M i j)).length ∧ k = s!"L{i}{j}i" := by
  have f := construct_fresh hok ha hk hc
  unfold getParametricParametersList
  rw [f.parz]
  apply or_congr _ Iff.rfl
  constructor
  · rintro ⟨x, hx, n, c, rfl, hk⟩; exact ⟨n, c, hx, hk⟩
  · rintro ⟨n, c, hx, hk⟩; exact ⟨_, hx, n, c, rfl, hk⟩

/-- Every one of them has its own symbol, from which it can be found again, and no symbol of a physical constant is taken. -/
theorem C89_symbols (eng : Engine E) (isZero : E → Bool) (symE : Sym → E) (o : Orc) (ex : Resonator → Except Err (ResExprs E)) (M : ℕ → ℕ → E)
    (again : Bool) (h : List Call) (pc : PC E) (hok : ∀ x ∈ h, x.OK) (ha : AllOk h) (hk : KeepsResonators h)
    (hc : construct eng isZero symE Prefixes.default o ex (.ok M) again (run {} h) = .ok pc) :
    (∀ k ∈ pc.getParameterNamesList, pc.getSymbol k = .ok (writtenAs k) ∧ pc.getParameterFromSymbol (writtenAs k) = .ok k ∧
      writtenAs k ≠ "\\Phi_0" ∧ writtenAs k ≠ "R_Q" ∧ writtenAs k ≠ "e") ∧
    ∀ k ∈ pc.getParameterNamesList, ∀ l ∈ pc.getParameterNamesList, pc.getSymbol k = pc.getSymbol l → k = l := by
  have f := construct_fresh hok ha hk hc
  have hne : ∀ k ∈ pc.getParameterNamesList, k ≠ "" := fun k hk' => by
    obtain ⟨p, hp, -, -⟩ := f.params k hk'
    exact fresh_nonempty hp
  have hget : ∀ k s, pc.symMap.get? k = some s → k ∈ pc.getParameterNamesList ∧ s = writtenAs k := by
    intro k s hks
    have hm : k ∈ pc.getParameterNamesList := (f.syms.2 k).1 (Dict.mem_keys_of_get? hks)
    obtain ⟨p, -, -, h1⟩ := f.params k hm
    rw [h1] at hks
    cases hks
    exact ⟨hm, rfl⟩
  have hsym : ∀ k ∈ pc.getParameterNamesList, pc.getSymbol k = .ok (writtenAs k) := by
    intro k hk'
    obtain ⟨p, -, -, h1⟩ := f.params k hk'
    unfold getSymbol
    rw [h1]
  refine ⟨fun k hk' => ⟨hsym k hk', ?_, ?_⟩, fun k hk1 l hl1 e => ?_⟩
  · obtain ⟨p, -, -, h1⟩ := f.params k hk'
    obtain ⟨m, hm⟩ := fromSymbol_isOk h1
    have := hget _ _ (fromSymbol_ok f.syms.1 hm)
    rw [hm, writtenAs_inj (hne k hk') (hne m this.1) this.2]
  · exact writtenAs_reserved (hne k hk')
  · rw [hsym k hk1, hsym l hl1] at e
    exact writtenAs_inj (hne k hk1) (hne l hl1) (Except.ok.inj e)

/-- The charging, inductive, Josephson and phase-slip coefficients and the biases of the system depend on nothing but the parameters listed. -/
theorem C89_determined (eng : Engine E) (isZero : E → Bool) (symE : Sym → E) (o : Orc) (ex : Resonator → Except Err (ResExprs E)) (M : ℕ → ℕ → E)
    (again : Bool) (h : List Call) (g : CG) (pc : PC E) (hs : Settled h g) (ha : AllOk h) (hk : KeepsResonators h)
    (hc : construct eng isZero symE Prefixes.default o ex (.ok M) again g = .ok pc) (b : Biases) (hb : createFluxBiases g = .ok b)
    (v w : String → ℝ) (hvw : ∀ k ∈ pc.getParameterNamesList, v k = w k) (t : Transform ℝ (nodes g).length)
    (pinv : Matrix (Fin (edges g).length) (Fin (edges g).length) ℝ → Matrix (Fin (edges g).length) (Fin (edges g).length) ℝ) (u : Num.Prefs) :
    Num.assemble g b v (fun s => v ("phi" ++ s)) (fun s => v ("Q" ++ s)) t pinv u =
      Num.assemble g b w (fun s => w ("phi" ++ s)) (fun s => w ("Q" ++ s)) t pinv u := by
  have hg : g = run {} h := by obtain ⟨_, _, _, _, _, _, _, _, _, _, rfl⟩ := hs; rfl
  have hok : ∀ x ∈ h, x.OK := by obtain ⟨_, _, _, _, _, _, _, h, _⟩ := hs; exact h
  subst hg
  have f := construct_fresh hok ha hk hc
  have hv : ∀ k, (∃ x ∈ h, Declares x k) → v k = w k := fun k hd => hvw k ((f.keys k).2 (Or.inl hd))
  have h1 := capacitance_reads fun c hc => hv c (reads_declared hs ha hk hc)
  have h2 := inductance_reads fun c hc => hv c (reads_declared hs ha hk hc)
  obtain ⟨h3, h4⟩ := vectors_read fun c hc => hv c (reads_declared hs ha hk hc)
  have h5 : ∀ e, biasVal (fun s => v ("phi" ++ s)) b.flux e = biasVal (fun s => w ("phi" ++ s)) b.flux e := by
    intro e
    unfold biasVal
    cases he : b.flux.get? e with
    | none => rfl
    | some x =>
      cases x with
      | none => rfl
      | some s => exact hv _ (biases_declared hok ha hb he)
  have h6 : ∀ i, fluxBiasVector (fun s => v ("phi" ++ s)) (run {} h) b i = fluxBiasVector (fun s => w ("phi" ++ s)) (run {} h) b i := by
    intro i; unfold fluxBiasVector; simp only [h5]
  have h7 : fluxBiasNodes (fun s => v ("phi" ++ s)) (run {} h) b = fluxBiasNodes (fun s => w ("phi" ++ s)) (run {} h) b := by
    unfold fluxBiasNodes fluxBiasVectorInd; simp only [h5]
  have h8 : ∀ i, chargeBiasVector (fun s => v ("Q" ++ s)) (run {} h) i = chargeBiasVector (fun s => w ("Q" ++ s)) (run {} h) i := by
    intro i
    unfold chargeBiasVector
    cases (nodes (run {} h))[i]? with
    | none => rfl
    | some n =>
      simp only
      cases hc : (run {} h).chargeBias.get? n with
      | none => rfl
      | some x =>
        obtain ⟨m, hm⟩ := (charge_run hok ha x).1 (List.mem_map.2 ⟨_, Dict.mem_of_get? hc, rfl⟩)
        exact hv _ ⟨_, hm, .charge _ _ _⟩
  unfold Num.assemble
  rw [h1, h2]
  simp only [h3, h4, h6, h7, h8]

/-! ### A circuit that meets the hypotheses, and three that show why they are there -/

/-- An rf SQUID with a flux bias, a second node with a gate, and a resonator. -/
def biasedLoop : List Call :=
  [.addBranch Orc.id 0 1 "C1", .addBranch Orc.id 0 1 "L1", .addBranch Orc.id 0 1 "I1", .addBranch Orc.id 1 2 "C2", .addBranch Orc.id 1 2 "L2",
    .addFluxBias "I1" (some "x") none, .addChargeBias 2 (some "1") (some "Cg"), .coupleResonator 1 "Cc"]

/-- Expressions for the resonator, in the symbols of its parameters. -/
def biasedEx (r : Resonator) : Except Err (ResExprs Ast) :=
  .ok ⟨.inv (.mul (.sym (writtenAs r.fr)) (.sym (writtenAs r.zr))), .mul (.inv (.sym (writtenAs r.fr))) (.sym (writtenAs r.zr)),
    .mul (.sym (writtenAs r.fr)) (.sym (writtenAs r.coupling)), .mul (.sym (writtenAs r.zr)) (.sym (writtenAs r.coupling)),
    .mul (.sym (writtenAs r.coupling)) (.sym (writtenAs r.fr))⟩

/-- Its inverse inductance matrix. -/
def biasedInv : ℕ → ℕ → Ast := fun i j =>
  if i = 0 ∧ j = 0 then .add (.inv (.sym "L_{1}")) (.inv (.sym "L_{2}")) else .inv (.sym "L_{2}")

theorem biasedLoop_settled : Settled biasedLoop (run {} biasedLoop) :=
  ⟨[.addBranch Orc.id 0 1 "C1", .addBranch Orc.id 0 1 "L1", .addBranch Orc.id 0 1 "I1", .addBranch Orc.id 1 2 "C2"], Orc.id, 1, 2, "L2",
    [.addFluxBias "I1" (some "x") none, .addChargeBias 2 (some "1") (some "Cg"), .coupleResonator 1 "Cc"],
    rfl, by simp [biasedLoop, Call.OK, orcId_ok], by decide +kernel, by simp, rfl⟩

theorem biasedLoop_ok : AllOk biasedLoop := by
  apply allOk_of_prefixes
  decide +kernel

theorem biasedLoop_names : (construct Ast.engine (fun _ => false) .sym Prefixes.default Orc.id biasedEx (.ok biasedInv) false (run {} biasedLoop)).map
    (fun pc => (pc.getParameterNamesList, pc.getParameterSymbolsList, pc.getParametricParametersList)) =
    .ok (["C1", "L1", "I1", "C2", "L2", "Cg", "phix", "Q1", "Cc", "f1r", "Z1r", "C1r", "L1r", "g1r", "f1rl", "Z1rl", "L00i"],
      ["C_{1}", "L_{1}", "I_{1}", "C_{2}", "L_{2}", "C_{g}", "\\Phi_{x}", "Q_{1}", "C_{c}", "f_{1r}", "Z_{1r}", "C_{1r}", "L_{1r}", "g_{1r}",
        "f_{1rl}", "Z_{1rl}", "L_{00i}"], ["C1r", "L1r", "f1rl", "Z1rl", "g1r", "L00i"]) := by
  decide +kernel

/-- The hypotheses of the theorems above are met. -/
example : ∃ pc b, (∀ x ∈ biasedLoop, x.OK) ∧ Settled biasedLoop (run {} biasedLoop) ∧ AllOk biasedLoop ∧ KeepsResonators biasedLoop ∧
    construct Ast.engine (fun _ => false) .sym Prefixes.default Orc.id biasedEx (.ok biasedInv) false (run {} biasedLoop) = .ok pc ∧
    createFluxBiases (run {} biasedLoop) = .ok b := by
  have h := biasedLoop_names
  cases hc : construct Ast.engine (fun _ => false) .sym Prefixes.default Orc.id biasedEx (.ok biasedInv) false (run {} biasedLoop) with
  | error e => rw [hc] at h; cases h
  | ok pc =>
    have hb : ∃ b, createFluxBiases (run {} biasedLoop) = .ok b := by
      have : (createFluxBiases (run {} biasedLoop)).isOk = true := by decide +kernel
      cases hb : createFluxBiases (run {} biasedLoop) with
      | error e => rw [hb] at this; cases this
      | ok b => exact ⟨b, rfl⟩
    obtain ⟨b, hb⟩ := hb
    exact ⟨pc, b, by simp [biasedLoop, Call.OK, orcId_ok], biasedLoop_settled, biasedLoop_ok, by simp [KeepsResonators, biasedLoop], rfl, hb⟩

/-- A charge prefix `C` for the degrees of freedom: the charge bias `1` and the capacitor `C1` are one parameter. -/
theorem C89_false_prefix : ∃ h, Settled h (run {} h) ∧ AllOk h ∧ .addBranch Orc.id 0 1 "C1" ∈ h ∧ .addChargeBias 1 (some "1") none ∈ h ∧
    (construct Ast.engine (fun _ => false) .sym ⟨"\\Phi", "C"⟩ Orc.id biasedEx (.ok fun _ _ => .lit (.fin 0)) false (run {} h)).map getParameterNamesList =
      .ok ["C1", "I1"] := by
  refine ⟨[.addBranch Orc.id 0 1 "C1", .addBranch Orc.id 0 1 "I1", .addChargeBias 1 (some "1") none],
    ⟨[.addBranch Orc.id 0 1 "C1"], Orc.id, 0, 1, "I1", [.addChargeBias 1 (some "1") none], rfl, by simp [Call.OK, orcId_ok], by decide +kernel, by simp, rfl⟩,
    ?_, by simp, by simp, by decide +kernel⟩
  apply allOk_of_prefixes
  decide +kernel

/-- A gate capacitor `C1r` and a resonator on node 1: the capacitor becomes the computed capacitance of the resonator. -/
theorem C89_false_resonator : ∃ h, Settled h (run {} h) ∧ AllOk h ∧ .addChargeBias 2 (some "1") (some "C1r") ∈ h ∧ .coupleResonator 1 "Cc" ∈ h ∧
    (construct Ast.engine (fun _ => false) .sym Prefixes.default Orc.id biasedEx (.ok fun _ _ => .lit (.fin 0)) false (run {} h)).map
      (fun pc => decide ("C1r" ∈ pc.getParametricParametersList)) = .ok true := by
  refine ⟨[.addBranch Orc.id 0 1 "C1", .addBranch Orc.id 1 2 "I1", .addChargeBias 2 (some "1") (some "C1r"), .coupleResonator 1 "Cc"],
    ⟨[.addBranch Orc.id 0 1 "C1"], Orc.id, 1, 2, "I1", [.addChargeBias 2 (some "1") (some "C1r"), .coupleResonator 1 "Cc"], rfl,
      by simp [Call.OK, orcId_ok], by decide +kernel, by simp, rfl⟩, ?_, by simp, by simp, by decide +kernel⟩
  apply allOk_of_prefixes
  decide +kernel

end Verif.Props
