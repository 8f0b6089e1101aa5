import Verif.Model.Construct
import Verif.Spec.Construct
import Verif.Lemmas.Netlist
import Verif.Props.CollectionBulk
import Verif.Props.Derived

/-!
# Lemmas: the parameters that the constructor makes
-/

namespace Verif.Props

open Verif Verif.Circuit Verif.Sym Verif.Spec Verif.PC Verif.Derived

variable {E : Type}

/-- The symbol map is about the parameters there are. -/
def SymKeys (st : PC E) : Prop := st.symMap.keys.Nodup ∧ ∀ n, n ∈ st.symMap.keys ↔ n ∈ st.coll.keys

/-- `st'` is `st` with the parameters `L` added, in this order, unless they were there. -/
structure Added (st : PC E) (L : Dict String (Option Sym)) (st' : PC E) : Prop where
  keys : ∀ k, k ∈ st'.coll.keys ↔ k ∈ st.coll.keys ∨ k ∈ L.keys
  old : ∀ k, st.coll.get? k ≠ none → st'.coll.get? k = st.coll.get? k ∧ st'.symMap.get? k = st.symMap.get? k
  new : ∀ k o, st.coll.get? k = none → L.get? k = some o → ∃ p, Param.new k = .ok p ∧ st'.coll.get? k = some { p with symbol := o.getD p.symbol } ∧
    st'.symMap.get? k = some (o.getD p.symbol)
  parz : st'.parz = st.parz
  nodup : st.coll.keys.Nodup → st'.coll.keys.Nodup
  syms : SymKeys st → SymKeys st'

theorem get?_append_dict {κ α : Type} [DecidableEq κ] (d d' : Dict κ α) (k : κ) : Dict.get? (d ++ d' : Dict κ α) k = (Dict.get? d k).or (Dict.get? d' k) := by
  induction d with
  | nil => simp
  | cons p d ih =>
    obtain ⟨a, b⟩ := p
    simp only [List.cons_append, Dict.get?_cons]
    split_ifs <;> simp [ih]

theorem Added.refl (st : PC E) : Added st [] st := ⟨by simp [Dict.keys], fun _ _ => ⟨rfl, rfl⟩, fun k o _ h => (by cases h), rfl, fun h => h, fun h => h⟩

theorem Added.trans {st st' st'' : PC E} {L L' : Dict String (Option Sym)} (h : Added st L st') (h' : Added st' L' st'') : Added st (L ++ L') st'' := by
  have some_of : ∀ k, st.coll.get? k = none → ∀ o, Dict.get? L k = some o → st'.coll.get? k ≠ none := by
    intro k hk o ho
    obtain ⟨p, -, h2, -⟩ := h.new k o hk ho
    rw [h2]; simp
  refine ⟨fun k => ?_, fun k hk => ?_, fun k o hk ho => ?_, h'.parz.trans h.parz, fun hn => h'.nodup (h.nodup hn), fun hn => h'.syms (h.syms hn)⟩
  · rw [h'.keys, h.keys]; simp only [Dict.keys, List.map_append, List.mem_append]; tauto
  · obtain ⟨a, b⟩ := h.old k hk
    obtain ⟨a', b'⟩ := h'.old k (by rw [a]; exact hk)
    exact ⟨a'.trans a, b'.trans b⟩
  · rw [get?_append_dict] at ho
    cases hL : Dict.get? L k with
    | some o1 =>
      rw [hL] at ho
      obtain rfl : o1 = o := by simpa using ho
      obtain ⟨p, h1, h2, h3⟩ := h.new k o1 hk hL
      obtain ⟨a, b⟩ := h'.old k (by rw [h2]; simp)
      exact ⟨p, h1, a.trans h2, b.trans h3⟩
    | none =>
      rw [hL] at ho
      refine h'.new k o ?_ (by simpa using ho)
      rw [Dict.get?_eq_none_iff] at hk hL ⊢
      rw [h.keys]; tauto

theorem added_one (st st' : PC E) (n : String) (o : Option Sym) (h : st.addParameter n o = (st', .ok ())) : Added st [(n, o)] st' := by
  rcases addParameter_bulk_cases st n o with ⟨hm, ha⟩ | ⟨hm, ⟨e, hp, ha⟩ | ⟨p, hp, ha⟩⟩
  · rw [ha] at h; cases h
    refine ⟨fun k => ?_, fun _ _ => ⟨rfl, rfl⟩, fun k o' hk ho => ?_, rfl, fun h => h, fun h => h⟩
    · simp only [Dict.keys, List.map_cons, List.map_nil, List.mem_singleton]
      constructor
      · exact Or.inl
      · rintro (h | rfl)
        · exact h
        · exact (Dict.mem_keys_iff _ _).2 (Option.isSome_iff_ne_none.2 hm)
    · simp only [Dict.get?_cons] at ho
      split_ifs at ho with e
      · subst e; exact absurd hk hm
      · cases ho
  · rw [ha] at h; cases h
  · rw [ha] at h
    simp only [Prod.mk.injEq, and_true] at h
    subst h
    refine ⟨fun k => ?_, fun k hk => ?_, fun k o' hk ho => ?_, rfl, fun h => Dict.nodup_keys_set h _ _,
      fun h => ⟨Dict.nodup_keys_set h.1 _ _, fun k => by rw [Dict.mem_keys_set, Dict.mem_keys_set, h.2]⟩⟩
    · rw [Dict.mem_keys_set]; simp only [Dict.keys, List.map_cons, List.map_nil, List.mem_singleton]; tauto
    · have hne : n ≠ k := by rintro rfl; exact hk hm
      exact ⟨Dict.get?_set_ne _ _ hne, Dict.get?_set_ne _ _ hne⟩
    · simp only [Dict.get?_cons] at ho
      split_ifs at ho with e
      · subst e; cases ho; exact ⟨p, hp, by simp, by simp⟩
      · cases ho

theorem added_list (names : List String) : ∀ (st st' : PC E), st.addParameters names = (st', .ok ()) → Added st (names.map fun n => (n, none)) st' := by
  induction names with
  | nil => intro st st' h; unfold addParameters at h; cases h; exact .refl _
  | cons n names ih =>
    intro st st' h
    unfold addParameters at h
    split at h
    · cases h
    · rename_i st1 h1
      exact (added_one _ _ _ _ h1).trans (ih _ _ h)

theorem added_flux (p : Prefixes) (g : CG) (l : List (Edge × Bias)) : ∀ (st st' : PC E), addFluxParameters p g l st = (st', .ok ()) →
    Added st (l.map fun q => ("phi" ++ q.2.suffix, some (biasSymbol p.flux q.2.suffix))) st' ∧ ∀ q ∈ l, q.1 ∈ Sym.edges g := by
  induction l with
  | nil => intro st st' h; unfold addFluxParameters at h; cases h; exact ⟨.refl _, by simp⟩
  | cons q l ih =>
    obtain ⟨e, b⟩ := q
    intro st st' h
    unfold addFluxParameters at h
    split_ifs at h with h1 h2
    · cases h
    split at h
    · cases h
    · rename_i st1 ha
      obtain ⟨k1, k2⟩ := ih _ _ h
      refine ⟨(added_one _ _ _ _ ha).trans k1, fun q hq => ?_⟩
      rcases List.mem_cons.1 hq with rfl | hq
      · exact h1
      · exact k2 q hq
    · cases h

theorem added_charge (p : Prefixes) (l : List Bias) : ∀ (st st' : PC E), addChargeParameters p l st = (st', .ok ()) →
    Added st (l.map fun b => (p.charge ++ b.suffix, some (biasSymbol p.charge b.suffix))) st' := by
  induction l with
  | nil => intro st st' h; unfold addChargeParameters at h; cases h; exact .refl _
  | cons b l ih =>
    intro st st' h
    unfold addChargeParameters at h
    split_ifs at h with h2
    · cases h
    split at h
    · cases h
    · rename_i st1 ha
      exact (added_one _ _ _ _ ha).trans (ih _ _ h)

/-- The parameterisations change nothing but the parameterisations and the graph. -/
theorem parameterised (eng : Engine E) (l : List (String × E)) : ∀ (st st' : PC E), addParameterisations eng l st = (st', .ok ()) →
    st'.coll = st.coll ∧ st'.symMap = st.symMap ∧ ∀ k, k ∈ st'.parz.keys ↔ k ∈ st.parz.keys ∨ k ∈ l.map Prod.fst := by
  induction l with
  | nil => intro st st' h; unfold addParameterisations at h; cases h; simp
  | cons q l ih =>
    obtain ⟨n, e⟩ := q
    intro st st' h
    unfold addParameterisations at h
    split at h
    · cases h
    · rename_i st1 ha
      obtain ⟨names, b1, b2, b3⟩ := parz_set ha
      obtain ⟨k1, k2, k3⟩ := ih _ _ h
      refine ⟨k1.trans b1, k2.trans b2, fun k => ?_⟩
      rw [k3, b3, Dict.mem_keys_set]
      simp only [List.map_cons, List.mem_cons]; tauto

/-- The parameters of the circuit, in the order in which the constructor asks for them. -/
def parameterList (p : Prefixes) (g : CG) : Dict String (Option Sym) :=
  (circuitNames g).map (fun n => (n, none)) ++ (g.fluxBias.map fun q => ("phi" ++ q.2.suffix, some (biasSymbol p.flux q.2.suffix))) ++
    (g.chargeBias.values.map fun b => (p.charge ++ b.suffix, some (biasSymbol p.charge b.suffix))) ++
    ((resonatorsOf g).flatMap Resonator.names).map fun n => (n, none)

theorem create_spec {eng : Engine E} {p : Prefixes} {o : Orc} {ex : Resonator → Except Err (ResExprs E)} {g : CG} {st st' : PC E}
    (h : createParameters eng p o ex g st = (st', .ok ())) :
    (∃ st1, Added st (parameterList p g) st1 ∧ st'.coll = st1.coll ∧ st'.symMap = st1.symMap) ∧
    (∀ k, k ∈ st'.parz.keys ↔ k ∈ st.parz.keys ∨ ∃ r ∈ resonatorsOf g, k ∈ [r.cr, r.lr, r.frl, r.zrl, r.gc]) ∧
    ∀ q ∈ g.fluxBias, q.1 ∈ Sym.edges g := by
  unfold createParameters at h
  split at h
  · cases h
  rename_i s1 h1
  split at h
  · cases h
  rename_i s2 h2
  split at h
  · cases h
  rename_i s3 h3
  have a1 := added_list _ _ _ h1
  obtain ⟨a2, a5⟩ := added_flux _ _ _ _ _ h2
  have a3 := added_charge _ _ _ _ h3
  have a := (a1.trans a2).trans a3
  by_cases hr : (resonatorsOf g).isEmpty = true
  · rw [if_pos hr] at h
    simp only [Prod.mk.injEq, and_true] at h
    subst h
    have hr' : resonatorsOf g = [] := List.isEmpty_iff.1 hr
    refine ⟨⟨s3, ?_, rfl, rfl⟩, fun k => ?_, a5⟩
    · unfold parameterList; rw [hr']; simpa using a
    · rw [a.parz, hr']; simp
  · rw [if_neg hr] at h
    unfold addResonatorParameters at h
    split at h
    · cases h
    split at h
    · cases h
    rename_i s4 h4
    split at h
    · cases h
    rename_i ps hps
    obtain ⟨b1, b2, b3⟩ := parameterised _ _ _ _ h
    have a4 := a.trans (added_list _ _ _ h4)
    refine ⟨⟨s4, a4, b1, b2⟩, fun k => ?_, a5⟩
    rw [b3, a4.parz]
    apply or_congr Iff.rfl
    have hm : ∀ (l : List Resonator) (ps : List (List (String × E))), l.mapM (fun r => (ex r).map (resPairs r)) = .ok ps →
        (k ∈ ps.flatten.map Prod.fst ↔ ∃ r ∈ l, k ∈ [r.cr, r.lr, r.frl, r.zrl, r.gc]) := by
      intro l
      induction l with
      | nil => intro ps h; cases h; simp
      | cons r l ih =>
        intro ps h
        rw [List.mapM_cons] at h
        cases hx : ex r with
        | error e => rw [hx] at h; cases h
        | ok x =>
          rw [hx] at h
          cases hl : l.mapM (fun r => (ex r).map (resPairs r)) with
          | error e => rw [hl] at h; cases h
          | ok ps' =>
            rw [hl] at h
            cases h
            rw [List.flatten_cons, List.map_append, List.mem_append, ih ps' hl]
            simp only [resPairs, List.map_cons, List.map_nil, List.exists_mem_cons_iff]
    exact hm _ _ hps

/-! ### The derived parameters -/

theorem setAt_other {M : ℕ → ℕ → E} {i j a b : ℕ} {x : E} (h1 : ¬ (a = i ∧ b = j)) (h2 : ¬ (a = j ∧ b = i)) : setAt (setAt M i j x) j i x a b = M a b := by
  unfold setAt; rw [if_neg h2, if_neg h1]

theorem parLoop_keys (eng : Engine E) (isZero : E → Bool) (symE : Sym → E) (name : ℕ → ℕ → String) : ∀ (l : List (ℕ × ℕ)) (pc pc' : PC E)
    (M M' : ℕ → ℕ → E), l.Nodup → (∀ p ∈ l, p.1 ≤ p.2) → parLoop eng isZero symE name l pc M = (pc', .ok M') →
    (∀ k, k ∈ pc'.coll.keys ↔ k ∈ pc.coll.keys ∨ ∃ p ∈ l, skipped eng isZero (M p.1 p.2) = false ∧ k = name p.1 p.2) ∧
    (∀ k, k ∈ pc'.parz.keys ↔ k ∈ pc.parz.keys ∨ ∃ p ∈ l, skipped eng isZero (M p.1 p.2) = false ∧ k = name p.1 p.2) ∧
    (∀ k, pc.coll.get? k ≠ none → pc'.coll.get? k = pc.coll.get? k ∧ pc'.symMap.get? k = pc.symMap.get? k) ∧
    (∀ k, pc.coll.get? k = none → pc'.coll.get? k ≠ none → ∃ p, Param.new k = .ok p ∧ pc'.coll.get? k = some p ∧ pc'.symMap.get? k = some p.symbol) ∧
    (pc.coll.keys.Nodup → pc'.coll.keys.Nodup) ∧ (SymKeys pc → SymKeys pc') := by
  intro l
  induction l with
  | nil =>
    intro pc pc' M M' _ _ h
    cases h
    exact ⟨by simp, by simp, fun _ _ => ⟨rfl, rfl⟩, fun k h1 h2 => absurd h1 h2, fun h => h, fun h => h⟩
  | cons p l ih =>
    obtain ⟨i, j⟩ := p
    intro pc pc' M M' hnd hle h
    rw [List.nodup_cons] at hnd
    have hle' : ∀ p ∈ l, p.1 ≤ p.2 := fun p hp => hle p (by simp [hp])
    unfold parLoop at h
    by_cases hsk : skipped eng isZero (M i j) = true
    · rw [if_pos hsk] at h
      obtain ⟨h1, h2, h3, h4, h5, h6⟩ := ih pc pc' M M' hnd.2 hle' h
      refine ⟨fun k => ?_, fun k => ?_, h3, h4, h5, h6⟩
      · rw [h1, List.exists_mem_cons_iff]; simp [hsk]
      · rw [h2, List.exists_mem_cons_iff]; simp [hsk]
    · rw [if_neg hsk] at h
      have hsk' : skipped eng isZero (M i j) = false := by simpa using hsk
      split at h
      · cases h
      rename_i pc1 hadd
      split at h
      · cases h
      rename_i pc2 hpar
      split at h
      · cases h
      rename_i s hs
      have ha := added_one _ _ _ _ hadd
      obtain ⟨names, b1, b2, b3⟩ := parz_set hpar
      obtain ⟨h1, h2, h3, h4, h5, h6⟩ := ih pc2 pc' _ M' hnd.2 hle' h
      have hM : ∀ q ∈ l, setAt (setAt M i j (symE s)) j i (symE s) q.1 q.2 = M q.1 q.2 := by
        intro q hq
        have hq' := hle' q hq
        have hij := hle (i, j) (by simp)
        simp only at hij
        have n1 : ¬ (q.1 = i ∧ q.2 = j) := by
          rintro ⟨e1, e2⟩
          exact hnd.1 (by rw [← e1, ← e2]; exact hq)
        exact setAt_other n1 (by rintro ⟨e1, e2⟩; exact n1 ⟨by omega, by omega⟩)
      have hex : ∀ k, (∃ p ∈ l, skipped eng isZero (setAt (setAt M i j (symE s)) j i (symE s) p.1 p.2) = false ∧ k = name p.1 p.2) ↔
          ∃ p ∈ l, skipped eng isZero (M p.1 p.2) = false ∧ k = name p.1 p.2 := by
        intro k
        constructor <;> rintro ⟨p, hp, q1, q2⟩ <;> refine ⟨p, hp, ?_, q2⟩
        · rw [hM p hp] at q1; exact q1
        · rw [hM p hp]; exact q1
      refine ⟨fun k => ?_, fun k => ?_, fun k hk => ?_, fun k hk hk' => ?_, fun hn => h5 (by rw [b1]; exact ha.nodup hn),
        fun hn => h6 (by unfold SymKeys; rw [b1, b2]; exact ha.syms hn)⟩
      · rw [h1, hex, b1, ha.keys, List.exists_mem_cons_iff]
        simp [hsk', Dict.keys]; tauto
      · rw [h2, hex, b3, Dict.mem_keys_set, ha.parz, List.exists_mem_cons_iff]
        simp [hsk']; tauto
      · obtain ⟨a, b⟩ := ha.old k hk
        obtain ⟨a', b'⟩ := h3 k (by rw [b1, a]; exact hk)
        rw [b1] at a'; rw [b2] at b'
        exact ⟨a'.trans a, b'.trans b⟩
      · by_cases hk1 : pc1.coll.get? k = none
        · exact h4 k (by rw [b1]; exact hk1) hk'
        · have hkn : k = name i j := by
            by_contra hne
            apply hk1
            rw [Dict.get?_eq_none_iff] at hk ⊢
            rw [ha.keys]; simp [Dict.keys] at hk ⊢; tauto
          subst hkn
          obtain ⟨p, q1, q2, q3⟩ := ha.new _ none hk (by simp)
          obtain ⟨a', b'⟩ := h3 (name i j) (by rw [b1]; exact hk1)
          rw [b1, q2] at a'; rw [b2, q3] at b'
          exact ⟨p, q1, a', b'⟩

end Verif.Props
