import Verif.Lemmas.Update
import Verif.Model.AstEngine

/-!
# Properties C03 to C09: `ParamCollection`
-/

set_option linter.unusedVariables false

namespace Verif.Props

open Verif Verif.Spec Verif.PC

variable {E D : Type}

theorem CleanReachable.good {eng : Engine E} (law : eng.Lawful D) {st : PC E} (h : CleanReachable eng st) :
    st.Good eng := by
  obtain ⟨names, st₀, hist, h1, h2, rfl⟩ := h
  exact good_run law hist st₀ (new_good h1) h2

theorem Reachable.inv {eng : Engine E} (hfree : ∀ e, (eng.free e).Nodup) {st : PC E}
    (h : Reachable eng st) : st.KeysInv ∧ st.Inv := by
  obtain ⟨names, st₀, hist, h1, rfl⟩ := h
  exact run_inv eng hfree hist st₀ (new_keysInv h1) (new_inv h1)

theorem dependsOn_iff {st : PC E} {a b : String} :
    RecordedDep st a b ↔ ∃ ex ns, st.parz.get? a = some (ex, ns) ∧ b ∈ ns := by
  unfold RecordedDep getParameterisationParameters
  cases st.parz.get? a with
  | none => simp
  | some q => obtain ⟨x, y⟩ := q; simp

theorem Good.dependsOn_iff_adj {eng : Engine E} {st : PC E} (hg : st.Good eng) {a b : String} :
    RecordedDep st a b ↔ st.graph.Adj b a := by
  rw [dependsOn_iff]
  constructor
  · rintro ⟨ex, ns, h1, h2⟩; exact hg.recorded a ex ns h1 b h2
  · intro h; obtain ⟨ex, ns, h1, h2⟩ := hg.edgesRecorded b a h; exact ⟨ex, ns, h1, h2⟩

theorem transGen_swap {α : Type} {r : α → α → Prop} {a b : α}
    (h : Relation.TransGen (fun x y => r y x) a b) : Relation.TransGen r b a := by
  induction h with
  | single h => exact Relation.TransGen.single h
  | tail _ h ih => exact Relation.TransGen.head h ih

/-! ## Concrete collections used to show that hypotheses can be met -/

/-- The collection of parameters `A B C D` with `A = B + C`, `D = 2 * A`. -/
def demoHistory : List (Call Ast) :=
  [⟨.id, 10, .addParameterisation "A" (.add (.sym "B_{}") (.sym "C_{}"))⟩,
   ⟨.id, 10, .addParameterisation "D" (.mul (.lit (.fin 2)) (.sym "A_{}"))⟩,
   ⟨.id, 10, .setParameterValue "B" (.int 3)⟩,
   ⟨.id, 10, .setParameterValue "C" (.int 4)⟩]

/-- A freshly made parameter. -/
def freshParam (n : String) (s : Sym) : Param :=
  { name := n, symbol := s, value := none, lo := .ninf, hi := .pinf, upref := .fin 1, sweep := [], N := 0 }

/-- What `ParamCollection(["A", "B", "C", "D"])` makes. -/
def demo₀ : PC Ast :=
  { coll := [("A", freshParam "A" "A_{}"), ("B", freshParam "B" "B_{}"), ("C", freshParam "C" "C_{}"),
             ("D", freshParam "D" "D_{}")]
    symMap := [("A", "A_{}"), ("B", "B_{}"), ("C", "C_{}"), ("D", "D_{}")]
    parz := []
    graph := { nodes := ["A", "B", "C", "D"], edges := [] } }

theorem demo₀_eq : PC.new ["A", "B", "C", "D"] = .ok demo₀ := by decide +kernel

def demo : PC Ast := runPC Ast.engine demo₀ demoHistory

theorem demo_clean : CleanReachable Ast.engine demo := by
  refine ⟨_, demo₀, demoHistory, demo₀_eq, ?_, rfl⟩
  simp only [CleanHistory, demoHistory, CleanCall, and_true, true_and]
  refine ⟨?_, ?_⟩ <;> unfold Parametric <;> decide +kernel

/-- The demonstration collection holds `D = 2 * (B + C)`. -/
example : demo.getParameterValue "D" = .ok (some (.fin 14)) := by decide +kernel

/-! ## C03 -/

/-- C03: whatever calls were made, failing ones included, no parameter depends on itself through the
recorded dependencies. -/
theorem C03_no_recorded_cycle (eng : Engine E) (hfree : ∀ e, (eng.free e).Nodup) (st : PC E)
    (h : Reachable eng st) (x : String) : ¬ Relation.TransGen (RecordedDep st) x x := by
  intro hx
  have hi := (Reachable.inv hfree h).2
  refine hi.acyclic x (transGen_swap (hx.lift id ?_))
  intro a b hab
  obtain ⟨ex, ns, h1, h2⟩ := dependsOn_iff.1 hab
  exact hi.recorded a ex ns h1 b h2

/-- The demonstration collection is reachable and has a dependency chain of length two. -/
example : Reachable Ast.engine demo ∧ Relation.TransGen (RecordedDep demo) "D" "B" := by
  refine ⟨⟨_, demo₀, demoHistory, demo₀_eq, rfl⟩, ?_⟩
  refine Relation.TransGen.tail (b := "A") (Relation.TransGen.single ⟨["A"], by decide +kernel, by simp⟩)
    ⟨["B", "C"], by decide +kernel, by simp⟩

/-- C03 for the expressions themselves: after a clean history no parameter's expression mentions it,
directly or through other parameterisations. -/
theorem C03_no_mention_cycle_partial (eng : Engine E) (law : eng.Lawful D) (st : PC E)
    (h : CleanReachable eng st) (x : String) : ¬ Relation.TransGen (Mentions eng st) x x := by
  intro hx
  have hg := CleanReachable.good law h
  refine hg.acyclic x (transGen_swap (hx.lift id ?_))
  rintro a b ⟨ex, s, h1, h2, h3⟩
  obtain ⟨ns, h4⟩ := getExpr_iff.1 h1
  obtain ⟨m, hm, hms⟩ := hg.parzSyms a ex ns h4 s h3
  have := hg.symInj _ _ _ hms (getSymbol_iff.1 h2)
  subst this
  exact hg.recorded a ex ns h4 m hm

/-- The collection of one parameter `A = 2 * A`, obtained with a symbolic prefactor. -/
def loopHistory : List (Call Ast) :=
  [⟨.id, 10, .addParameterisation "A" (.lit (.fin 2))⟩,
   ⟨.id, 10, .addParameterisationPrefactor "A" (.sym "A_{}")⟩]

def loop₀ : PC Ast :=
  { coll := [("A", freshParam "A" "A_{}")], symMap := [("A", "A_{}")], parz := []
    graph := { nodes := ["A"], edges := [] } }

theorem loop₀_eq : PC.new ["A"] = .ok loop₀ := by decide +kernel

def loopState : PC Ast := runPC Ast.engine loop₀ loopHistory

/-- Symbolic prefactors are not recorded as dependencies: a parameter's expression can be made to
mention itself. -/
theorem C03_false_for_expressions :
    ∃ st : PC Ast, Reachable Ast.engine st ∧ Mentions Ast.engine st "A" "A" :=
  ⟨loopState, ⟨["A"], loop₀, loopHistory, loop₀_eq, rfl⟩,
    .mul (.lit (.fin 2)) (.sym "A_{}"), "A_{}", by decide +kernel, by decide +kernel, by decide +kernel⟩

/-! ## C04 -/

/-- C04, atomicity: a refused parameterisation changes nothing at all, in any state. -/
theorem C04_refused_changes_nothing (eng : Engine E) (st : PC E) (name : String) (ex : E) (err : Err)
    (h : (st.addParameterisation eng name ex).2 = .error err) :
    (st.addParameterisation eng name ex).1 = st := by
  unfold addParameterisation at h ⊢
  split_ifs at h ⊢
  · split at h
    · rename_i heq; simp only [heq]
    · rename_i names heq
      simp only [heq] at h ⊢
      split_ifs at h ⊢
      rfl
  · rfl

/-- The symbol belongs to a parameter of the collection. -/
theorem revMap_isSome_iff {eng : Engine E} {st : PC E} (hg : st.Good eng) (s : Sym) (n : String) :
    st.revMap s = some n ↔ st.getSymbol n = .ok s := by
  rw [getSymbol_iff]
  constructor
  · intro h; exact Dict.get?_of_mem hg.symKeys (revMap_some h)
  · intro h
    obtain ⟨m, hm⟩ := revMap_isSome_of h
    rw [hm, hg.symInj m n s (Dict.get?_of_mem hg.symKeys (revMap_some hm)) h]

/-- C04, unknown names: after a clean history, `ValueError` is raised exactly when the name or one of
the symbols is unknown. -/
theorem C04_value_error_iff (eng : Engine E) (law : eng.Lawful D) (st : PC E) (h : CleanReachable eng st)
    (name : String) (ex : E) :
    (st.addParameterisation eng name ex).2 = .error .valueError ↔
      st.coll.get? name = none ∨ ∃ s ∈ eng.free ex, ∀ m, st.getSymbol m ≠ .ok s := by
  have hg := CleanReachable.good law h
  have herr := symbolNames_error_iff st (eng.free ex)
  have hve : ∀ l e, st.symbolNames l = .error e → e = .valueError := by
    intro l
    induction l with
    | nil => intro e h; simp [symbolNames] at h
    | cons s ss ih =>
      intro e h
      unfold symbolNames at h
      split at h
      · cases h; rfl
      · split at h
        · rename_i e' he'; cases h; exact ih _ he'
        · cases h
  have hun : (∃ s ∈ eng.free ex, st.revMap s = none) ↔ ∃ s ∈ eng.free ex, ∀ m, st.getSymbol m ≠ .ok s := by
    constructor
    · rintro ⟨s, h1, h2⟩
      refine ⟨s, h1, fun m hm => ?_⟩
      rw [(revMap_isSome_iff hg s m).2 hm] at h2; cases h2
    · rintro ⟨s, h1, h2⟩
      refine ⟨s, h1, ?_⟩
      cases hr : st.revMap s with
      | none => rfl
      | some m => exact absurd ((revMap_isSome_iff hg s m).1 hr) (h2 m)
  rw [← hun, ← herr]
  unfold addParameterisation
  by_cases hh : st.coll.has name = true
  · have : st.coll.get? name ≠ none := by
      rw [Dict.has_iff, ← not_not (a := name ∈ _), ← Dict.get?_eq_none_iff] at hh; exact hh
    simp only [hh, if_true, this, false_or]
    cases hs : st.symbolNames (eng.free ex) with
    | error e => have := hve _ _ hs; subst this; simp
    | ok ns => simp only; split_ifs <;> simp
  · have : st.coll.get? name = none := by
      rw [Dict.has_iff] at hh; exact (Dict.get?_eq_none_iff _ _).2 hh
    simp [hh, this]

/-- C04, cycles: after a clean history, the cycle error is raised exactly when the names are all known
and the new dependencies together with the recorded ones contain a cycle. -/
theorem C04_cycle_error_iff (eng : Engine E) (law : eng.Lawful D) (st : PC E) (h : CleanReachable eng st)
    (name : String) (ex : E) :
    (st.addParameterisation eng name ex).2 = .error .assertionError ↔
      (st.coll.get? name ≠ none ∧ ∀ s ∈ eng.free ex, ∃ m, st.getSymbol m = .ok s) ∧
      ∃ x, Relation.TransGen
        (fun a b => RecordedDep st a b ∨ (a = name ∧ ∃ s ∈ eng.free ex, st.getSymbol b = .ok s)) x x := by
  have hg := CleanReachable.good law h
  have hval := C04_value_error_iff eng law st h name ex
  by_cases hbad : st.coll.get? name = none ∨ ∃ s ∈ eng.free ex, ∀ m, st.getSymbol m ≠ .ok s
  · rw [hval.2 hbad]
    constructor
    · intro h; cases h
    · rintro ⟨⟨h1, h2⟩, _⟩
      rcases hbad with hb | ⟨s, hs, hb⟩
      · exact absurd hb h1
      · obtain ⟨m, hm⟩ := h2 s hs; exact absurd hm (hb m)
  · have hbad' := hbad
    push Not at hbad
    rw [and_iff_right hbad]
    unfold addParameterisation at hval ⊢
    have hh : st.coll.has name = true := by
      rw [Dict.has_iff, ← not_not (a := name ∈ _), ← Dict.get?_eq_none_iff]; exact hbad.1
    simp only [hh, if_true] at hval ⊢
    cases hs : st.symbolNames (eng.free ex) with
    | error e =>
      exfalso
      obtain ⟨s, h1, h2⟩ := (symbolNames_error_iff st (eng.free ex)).1 ⟨e, hs⟩
      obtain ⟨m, hm⟩ := hbad.2 s h1
      rw [(revMap_isSome_iff hg s m).2 hm] at h2; cases h2
    | ok ns =>
      simp only
      have hmem : ∀ b, b ∈ ns ↔ ∃ s ∈ eng.free ex, st.getSymbol b = .ok s := by
        have h2 := symbolNames_spec st _ ns hs
        intro b
        constructor
        · intro hb
          obtain ⟨i, hi, rfl⟩ := List.mem_iff_getElem.1 hb
          have hl := h2.length_eq
          have := List.forall₂_iff_get.1 h2
          exact ⟨_, List.getElem_mem (by omega : i < (eng.free ex).length),
            (revMap_isSome_iff hg _ _).1 (this.2 i (by omega) hi)⟩
        · rintro ⟨s, hs', hb⟩
          obtain ⟨i, hi, rfl⟩ := List.mem_iff_getElem.1 hs'
          have hl := h2.length_eq
          have := (List.forall₂_iff_get.1 h2).2 i hi (by omega)
          simp only [List.get_eq_getElem] at this
          rw [(revMap_isSome_iff hg _ _).2 hb] at this
          simp only [Option.some.injEq] at this
          rw [this]; exact List.getElem_mem _
      have hadj : ∀ a b, (ns.foldl (fun g pname => g.addEdge pname name) st.graph).Adj b a ↔
          (RecordedDep st a b ∨ (a = name ∧ ∃ s ∈ eng.free ex, st.getSymbol b = .ok s)) := by
        intro a b
        rw [foldl_addEdge_adj, hmem, Good.dependsOn_iff_adj hg]
        tauto
      have hdag := DiGraph.isDag_iff _ (foldl_addEdge_wf ns name st.graph hg.wf)
      have hcyc : ¬ (ns.foldl (fun g pname => g.addEdge pname name) st.graph).isDag = true ↔
          ∃ x, Relation.TransGen
            (fun a b => RecordedDep st a b ∨ (a = name ∧ ∃ s ∈ eng.free ex, st.getSymbol b = .ok s)) x x := by
        rw [hdag]
        unfold DiGraph.Acyclic
        push Not
        constructor
        · rintro ⟨x, hx⟩
          refine ⟨x, transGen_swap (hx.lift id ?_)⟩
          intro a b hab; exact (hadj b a).1 hab
        · rintro ⟨x, hx⟩
          refine ⟨x, transGen_swap (hx.lift id ?_)⟩
          intro a b hab; exact (hadj a b).2 hab
      rw [← hcyc]
      split_ifs with hd <;> simp [hd]

/-- In the demonstration collection making `B` depend on `D` is refused as a cycle, and making `B`
depend on an unknown symbol is refused as unknown. -/
example : (demo.addParameterisation Ast.engine "B" (.sym "D_{}")).2 = .error .assertionError ∧
    (demo.addParameterisation Ast.engine "B" (.sym "x")).2 = .error .valueError := by decide +kernel

/-- Names `A B C`; `A = B` is replaced by `A = C`, then the parameterisation of `A` is removed. -/
def staleHistory : List (Call Ast) :=
  [⟨.id, 10, .addParameterisation "A" (.sym "B_{}")⟩,
   ⟨.id, 10, .addParameterisation "A" (.sym "C_{}")⟩,
   ⟨.id, 10, .rmParameterisation "A"⟩]

def stale : PC Ast := runPC Ast.engine demo₀ staleHistory

theorem stale_reachable : Reachable Ast.engine stale := ⟨_, demo₀, staleHistory, demo₀_eq, rfl⟩

/-- The cycle test is not exact in general: after a parameterisation was replaced by another one, a
parameterisation creating no cycle can be refused. -/
theorem C04_false_after_overwrite :
    ∃ st : PC Ast, Reachable Ast.engine st ∧ st.getParametricParametersList = [] ∧
      (st.addParameterisation Ast.engine "B" (.sym "A_{}")).2 = .error .assertionError :=
  ⟨stale, stale_reachable, by decide +kernel, by decide +kernel⟩

/-! ## C05 -/

/-- C05, single: setting a parametric parameter returns normally and changes nothing. -/
theorem C05_parametric_set_is_noop (eng : Engine E) (ho : HashOrder) (fuel : ℕ) (st : PC E) (name : String)
    (v : PyVal) (hin : st.coll.get? name ≠ none) (hp : Parametric st name) :
    st.setParameterValue eng ho fuel name v = (st, .ok ()) := by
  unfold setParameterValue
  cases h : st.coll.get? name with
  | none => exact absurd h hin
  | some p =>
    have : st.parz.has name = true := (Dict.has_iff _ _).2 hp
    simp [this]

theorem setPairs_skip (st : PC E) (keep : String → Bool)
    (hk : ∀ n, keep n = false → n ∈ st.coll.keys ∧ n ∈ st.parz.keys) :
    ∀ (l : List (String × PyVal)) (st' : PC E), st'.coll.keys = st.coll.keys → st'.parz = st.parz →
    setPairs st' (l.map fun p => (some p.1, p.2)) =
      setPairs st' ((l.filter fun p => keep p.1).map fun p => (some p.1, p.2)) := by
  intro l
  induction l with
  | nil => intro st' _ _; rfl
  | cons x l ih =>
    intro st' h1 h2
    obtain ⟨n, v⟩ := x
    simp only [List.map_cons, List.filter_cons]
    by_cases hn : keep n = true
    · simp only [hn, if_true, List.map_cons]
      unfold setPairs
      split
      · rfl
      · rename_i p hp
        split_ifs
        · exact ih st' h1 h2
        · split
          · rfl
          · exact ih _ (by simp only; rw [Dict.keys_set_of_mem _ (Dict.mem_keys_of_get? hp)]; exact h1) h2
    · simp only [hn]
      obtain ⟨hc, hpz⟩ := hk n (by simpa using hn)
      rw [setPairs]
      rw [← h1, Dict.mem_keys_iff, Option.isSome_iff_exists] at hc
      obtain ⟨p, hp⟩ := hc
      rw [hp]
      have : st'.parz.has n = true := by rw [Dict.has_iff, h2]; exact hpz
      simp only [this, if_true]
      exact ih st' h1 h2

/-- C05, bulk: in a bulk set given as a dictionary, the entries of parametric parameters are as good as
absent. -/
theorem C05_parametric_entries_are_skipped (eng : Engine E) (ho : HashOrder) (fuel : ℕ) (st : PC E)
    (d : Dict String PyVal) (keep : String → Bool)
    (hk : ∀ n, keep n = false → st.coll.get? n ≠ none ∧ Parametric st n) :
    st.setParameterValues eng ho fuel [.dict d] =
      st.setParameterValues eng ho fuel [.dict (d.filter fun p => keep p.1)] := by
  unfold setParameterValues
  simp only [parseBulk]
  rw [setPairs_skip st keep ?_ d st rfl rfl]
  intro n hn
  obtain ⟨h1, h2⟩ := hk n hn
  refine ⟨?_, h2⟩
  by_contra hc
  exact h1 ((Dict.get?_eq_none_iff _ _).2 hc)

/-- In the demonstration collection `A` exists and is parametric. -/
example : demo.coll.get? "A" ≠ none ∧ Parametric demo "A" := by
  refine ⟨by decide +kernel, ?_⟩
  unfold Parametric
  decide +kernel

/-! ## C06 -/

theorem update_denotes {eng : Engine E} (law : eng.Lawful D) (ho : HashOrder) (fuel : ℕ) {st : PC E}
    (hg : st.Good eng) (hok : (updateParameterisations eng ho fuel st).2 = .ok ()) (k : String) (f : PF)
    (hsrc : HasSource eng (updateParameterisations eng ho fuel st).1 k)
    (hc : Computable eng law (updateParameterisations eng ho fuel st).1 k f) :
    (updateParameterisations eng ho fuel st).1.getParameterValue k = .ok (some f) := by
  obtain ⟨u1, u2, u3⟩ := update_ok law ho hg fuel hok
  obtain ⟨f1, f2, f3⟩ := update_frame eng ho fuel st
  set st' := (updateParameterisations eng ho fuel st).1 with hst'
  have hpar : ∀ m, Parametric st' m ↔ Parametric st m := by
    intro m; unfold Parametric getParametricParametersList; rw [f2]
  obtain ⟨d, hd, hdf, p', hp', hadm⟩ := hc
  have hd' : Denotes eng law st k d := by
    refine Denotes.congr f1.symm f2.symm ?_ hd
    intro m hm
    rw [hpar] at hm
    unfold getParameterValue
    rw [u1 m hm]
  have hment : ∀ a b, Mentions eng st' a b → Mentions eng st a b := by
    rintro a b ⟨ex, s, h1, h2, h3⟩
    refine ⟨ex, s, ?_, ?_, h3⟩
    · rw [getExpr_iff] at h1 ⊢; rwa [f2] at h1
    · rw [getSymbol_iff] at h2 ⊢; rwa [f1] at h2
  obtain ⟨i, hi, hki⟩ := hsrc
  have hki' : Relation.TransGen (Mentions eng st) k i := hki.lift id hment
  have hkp : Parametric st k := by
    obtain ⟨b, hb, _⟩ := Relation.TransGen.head'_iff.1 hki'
    obtain ⟨ex, s, h1, _, _⟩ := hb
    obtain ⟨ns, h2⟩ := getExpr_iff.1 h1
    exact Dict.mem_keys_of_get? h2
  have hkc : k ∈ st.coll.keys := hg.parzColl k hkp
  rw [Dict.mem_keys_iff, Option.isSome_iff_exists] at hkc
  obtain ⟨p, hp⟩ := hkc
  have hfin := u3 k d p i hd' hp hkp (fun h => hi ((hpar i).2 h)) hki'
  rw [hdf] at hfin
  simp only at hfin
  have hsame : p'.lo = p.lo ∧ p'.hi = p.hi := by
    rw [hp'] at hfin
    simp only [Option.some.injEq] at hfin
    rcases setValue_frame p (.float f) with h | ⟨g, h⟩ <;> rw [hfin, h] <;> simp
  have hpok : (p.setValue (.float f)).1.value = some f := by
    unfold Param.setValue at hadm ⊢
    simp only [PyVal.toFloat?, hsame.1, hsame.2] at hadm ⊢
    split_ifs at hadm ⊢
    rfl
  rw [getValue_iff]
  exact ⟨_, hfin, hpok⟩

/-- C06: after a clean history, when `setParameterValue` on an independent parameter succeeds, every
parametric parameter which has some independent source and whose recursively evaluated value is a number
admitted by its bounds holds exactly that value.  This is for any iteration order of the sets involved. -/
theorem C06_dependents_follow_set_partial (eng : Engine E) (law : eng.Lawful D) (st : PC E)
    (h : CleanReachable eng st) (ho : HashOrder) (fuel : ℕ) (name : String) (v : PyVal)
    (hnp : ¬ Parametric st name) (st' : PC E)
    (hok : st.setParameterValue eng ho fuel name v = (st', .ok ()))
    (k : String) (f : PF) (hsrc : HasSource eng st' k) (hc : Computable eng law st' k f) :
    st'.getParameterValue k = .ok (some f) := by
  have hg := CleanReachable.good law h
  unfold setParameterValue at hok
  split at hok
  · cases hok
  · rename_i p hp
    have : ¬ st.parz.has name = true := fun hc => hnp ((Dict.has_iff _ _).1 hc)
    rw [if_neg this] at hok
    split at hok
    · cases hok
    · rename_i p' hp'
      have hg1 : Good eng { st with coll := st.coll.set name p' } :=
        hg.of_coll rfl rfl rfl (Dict.keys_set_of_mem _ (Dict.mem_keys_of_get? hp))
      have e1 := congrArg Prod.fst hok
      have e2 := congrArg Prod.snd hok
      simp only at e1 e2
      subst e1
      exact update_denotes law ho fuel hg1 e2 k f hsrc hc

/-- C06 for the bulk setter. -/
theorem C06_dependents_follow_bulk_set_partial (eng : Engine E) (law : eng.Lawful D) (st : PC E)
    (h : CleanReachable eng st) (ho : HashOrder) (fuel : ℕ) (args : List BulkArg) (st' : PC E)
    (hok : st.setParameterValues eng ho fuel args = (st', .ok ()))
    (k : String) (f : PF) (hsrc : HasSource eng st' k) (hc : Computable eng law st' k f) :
    st'.getParameterValue k = .ok (some f) := by
  have hg := CleanReachable.good law h
  unfold setParameterValues at hok
  split at hok
  · cases hok
  · rename_i pairs _
    have hf := setPairs_frame pairs st
    have hk := setPairs_keys pairs st
    split at hok
    · cases hok
    · rename_i st1 heq
      rw [heq] at hf hk
      have hg1 : Good eng st1 := hg.of_coll hf.1 hf.2.1 hf.2.2 hk
      have e1 := congrArg Prod.fst hok
      have e2 := congrArg Prod.snd hok
      simp only at e1 e2
      subst e1
      exact update_denotes law ho fuel hg1 e2 k f hsrc hc

/-- C06, liveness: after a clean history, a number that an independent parameter's bounds admit can be
set (given enough fuel for the expansion loop, i.e. the call terminates without an exception), and is
then read back. -/
theorem C06_admissible_set_succeeds (eng : Engine E) (law : eng.Lawful D) (st : PC E)
    (h : CleanReachable eng st) (name : String) (hnp : ¬ Parametric st name) :
    ∃ N, ∀ fuel, N ≤ fuel → ∀ (ho : HashOrder) (v : PyVal) (f : PF), v.toFloat? = some f →
      Admits st name f →
      ∃ st', st.setParameterValue eng ho fuel name v = (st', .ok ()) ∧
        st'.getParameterValue name = .ok (some f) := by
  have hg := CleanReachable.good law h
  obtain ⟨N, hN⟩ := update_total law hg
  refine ⟨N, fun fuel hf ho v f hv ⟨p, hp, hadm⟩ => ?_⟩
  have hset : p.setValue v = ({ p with value := some f }, .ok ()) := by
    unfold Param.setValue at hadm ⊢
    rw [hv]
    simp only [show (PyVal.float f).toFloat? = some f from rfl] at hadm ⊢
    split_ifs at hadm ⊢
    rfl
  have hnh : ¬ st.parz.has name = true := fun hc => hnp ((Dict.has_iff _ _).1 hc)
  have hkeys := Dict.keys_set_of_mem { p with value := some f } (Dict.mem_keys_of_get? hp)
  have hok := hN fuel hf ho { st with coll := st.coll.set name { p with value := some f } } rfl rfl rfl hkeys
  have hg1 : Good eng { st with coll := st.coll.set name { p with value := some f } } :=
    hg.of_coll rfl rfl rfl hkeys
  refine ⟨(updateParameterisations eng ho fuel
    { st with coll := st.coll.set name { p with value := some f } }).1, ?_, ?_⟩
  · unfold setParameterValue
    simp only [hp, hnh, hset]
    exact Prod.ext rfl hok
  · rw [getValue_iff]
    refine ⟨{ p with value := some f }, ?_, rfl⟩
    rw [(update_ok law ho hg1 fuel hok).1 name hnp]
    simp

/-- Setting `B` in the demonstration collection meets the hypotheses of C06 for the parameter `D`, two
levels up. -/
example : ∃ st', demo.setParameterValue Ast.engine .rev 10 "B" (.int 10) = (st', .ok ()) ∧
    HasSource Ast.engine st' "D" ∧ Computable Ast.engine Ast.lawful st' "D" (.fin 28) := by
  refine ⟨(demo.setParameterValue Ast.engine .rev 10 "B" (.int 10)).1, ?_, ?_, ?_⟩
  · refine Prod.ext rfl ?_
    decide +kernel
  · refine ⟨"B", ?_, Relation.TransGen.tail (b := "A") (Relation.TransGen.single ?_) ?_⟩
    · unfold Parametric; decide +kernel
    · exact ⟨.mul (.lit (.fin 2)) (.sym "A_{}"), "A_{}", by decide +kernel, by decide +kernel, by decide +kernel⟩
    · exact ⟨.add (.sym "B_{}") (.sym "C_{}"), "B_{}", by decide +kernel, by decide +kernel, by decide +kernel⟩
  · refine ⟨.fin 28, ?_, rfl, ?_⟩
    · refine Denotes.parametric "D" (.mul (.lit (.fin 2)) (.sym "A_{}")) (fun _ => .fin 14) (fun _ => "A") _
        (by decide +kernel) (by decide +kernel) ?_ (by decide +kernel)
      intro s _
      refine Denotes.parametric "A" (.add (.sym "B_{}") (.sym "C_{}"))
        (fun s => if s = "B_{}" then .fin 10 else .fin 4) (fun s => if s = "B_{}" then "B" else "C") _
        (by decide +kernel) (by decide +kernel) ?_ (by decide +kernel)
      intro s hs
      have : s = "B_{}" ∨ s = "C_{}" := by
        simpa [Ast.engine, Ast.syms] using hs
      rcases this with rfl | rfl
      · exact Denotes.independent "B" (.fin 10) (by unfold Parametric; decide +kernel) (by decide +kernel)
      · exact Denotes.independent "C" (.fin 4) (by unfold Parametric; decide +kernel) (by decide +kernel)
    · exact ⟨_, rfl, by decide +kernel⟩

/-- The restriction to clean histories matters: after an overwritten parameterisation of `A` is removed,
setting `A` succeeds but a dependent of `A` is not brought up to date. -/
theorem C06_false_after_overwrite :
    ∃ (st st' : PC Ast), Reachable Ast.engine st ∧
      st.setParameterValue Ast.engine .id 10 "A" (.int 1) = (st', .ok ()) ∧
      HasSource Ast.engine st' "D" ∧ Computable Ast.engine Ast.lawful st' "D" (.fin 1) ∧
      st'.getParameterValue "D" = .ok none := by
  refine ⟨runPC Ast.engine demo₀ (staleHistory ++ [⟨.id, 10, .addParameterisation "D" (.sym "A_{}")⟩]),
    ((runPC Ast.engine demo₀ (staleHistory ++ [⟨.id, 10, .addParameterisation "D" (.sym "A_{}")⟩])).setParameterValue
      Ast.engine .id 10 "A" (.int 1)).1, ⟨_, demo₀, _, demo₀_eq, rfl⟩, ?_, ?_, ?_, ?_⟩
  · exact Prod.ext rfl (by decide +kernel)
  · exact ⟨"A", by unfold Parametric; decide +kernel, Relation.TransGen.single
      ⟨.sym "A_{}", "A_{}", by decide +kernel, by decide +kernel, by decide +kernel⟩⟩
  · refine ⟨.fin 1, ?_, rfl, _, rfl, by decide +kernel⟩
    refine Denotes.parametric "D" (.sym "A_{}") (fun _ => .fin 1) (fun _ => "A") _
        (by decide +kernel) (by decide +kernel) ?_ (by decide +kernel)
    intro s _
    exact Denotes.independent "A" (.fin 1) (by unfold Parametric; decide +kernel) (by decide +kernel)
  · decide +kernel

end Verif.Props
