import Verif.Model.NumericalSet
import Verif.Spec.NumericalSet
import Verif.Props.NumericalExamples

/-!
# C78: setting parameters keeps a numerical system up to date
-/

namespace Verif.Props

open Verif Verif.Spec Verif.PC Verif.Num

variable {E R O : Type}

theorem toNumbers_map (eng : Engine E) (d : Dict Sym (Option PF)) : ∀ (l : List E) (xs : List PF), NS.toNumbers eng d l = .ok xs →
    l.map (fun e => eng.toFloat (subsDict eng e d)) = xs.map some := by
  intro l
  induction l with
  | nil => intro xs h; cases h; rfl
  | cons e l ih =>
    intro xs h
    unfold NS.toNumbers at h
    split at h
    · cases h
    · rename_i x hx
      split at h
      · cases h
      · rename_i ys hy
        cases h
        rw [List.map_cons, List.map_cons, hx, ih ys hy]

theorem mapM_some_eq {α β : Type} (f : α → Option β) : ∀ (l : List α) (ys : List β), l.mapM f = some ys → l.map f = ys.map some := by
  intro l
  induction l with
  | nil => intro ys h; simp at h; subst h; rfl
  | cons x l ih =>
    intro ys h
    rw [List.mapM_cons] at h
    cases hx : f x with
    | none => rw [hx] at h; simp at h
    | some y =>
      rw [hx] at h
      cases hl : l.mapM f with
      | none => rw [hl] at h; simp at h
      | some zs =>
        rw [hl] at h
        simp at h
        subst h
        rw [List.map_cons, List.map_cons, hx, ih zs hl]

/-- What substituting and preparing the operators do, whatever was set before. -/
theorem refresh_spec (eng : Engine E) (gen : List (ℕ × BasisName) → ℕ → Option PF → Except Err O) (st st₁ st' : NS E R O)
    (h1 : st.substitute eng = (st₁, .ok ())) (h2 : st₁.prepareOperators gen = (st', .ok ())) :
    Current eng gen st' ∧ st'.exprs = st.exprs ∧ st'.cfg = st.cfg ∧ st'.nodes = st.nodes ∧ st'.sw = st.sw ∧
      ∀ node, node ∉ st.nodes → st'.circ.get? node = st.circ.get? node := by
  unfold NS.substitute at h1
  split at h1
  · cases h1
  rename_i d hd
  generalize hnum : NS.assignNumbers eng _ d _ _ = q at h1
  obtain ⟨num, r⟩ := q
  simp only [Prod.mk.injEq] at h1
  obtain ⟨rfl, rfl⟩ := h1
  have hg := (NS.assign_get eng _ d _ _ _ hnum).1
  have hex : st'.exprs = st.exprs := by
    unfold NS.prepareOperators at h2
    split at h2
    · cases h2
    · rename_i st2 h3
      unfold NS.expand at h3
      split at h3
      · cases h3
      · simp only [Prod.mk.injEq] at h3
        obtain ⟨rfl, _⟩ := h3
        unfold NS.vectors at h2
        split at h2
        · cases h2
        · simp only [Prod.mk.injEq, and_true] at h2
          subst h2; rfl
  obtain ⟨sh, l, f1, f2, f3, f4, f5, f6, f7, f8, f9⟩ := prepared_spec h2
  simp only at f1 f4 f5 f6 f7 f8 f9
  refine ⟨⟨⟨d, by rw [f4]; exact hd, fun a => ?_⟩, ⟨sh, ?_, ?_⟩, ⟨l, f3, mapM_some_eq _ _ _ f2⟩⟩, hex, f6, f7, f4, f9⟩
  · obtain ⟨xs, hx, hy⟩ := hg a (mem_order a).1
    refine ⟨xs, by rw [f5]; exact hy, ?_⟩
    rw [hex]
    exact toNumbers_map eng d _ _ hx
  · unfold NS.shape at f1 ⊢; rw [f6, f7]; exact f1
  · intro node hn
    obtain ⟨o, h3, h4⟩ := f8 node (by rwa [f7] at hn)
    refine ⟨o, ?_, h4⟩
    unfold NS.opsOf at h3 ⊢
    rw [f6, f4]; exact h3

/-- **C78** After a successful `setParameterValue` or `setParameterValues` the system is up to date, whatever state it was in before. -/
theorem C78_current (eng : Engine E) (gen : List (ℕ × BasisName) → ℕ → Option PF → Except Err O) (st st' : NS E R O) (c : HashOrder × ℕ × NS.SetCall)
    (h : st.set eng gen c = (st', .ok ())) : Current eng gen st' := by
  obtain ⟨ho, fuel, c⟩ := c
  cases c with
  | one name value =>
    unfold NS.set NS.setParameterValue at h
    simp only at h
    split at h
    · cases h
    split_ifs at h with hall
    · split at h
      · cases h
      rename_i st₁ h1
      exact (refresh_spec eng gen _ _ _ h1 h).1
    · cases h
  | many args =>
    unfold NS.set NS.setParameterValues at h
    simp only at h
    split at h
    · cases h
    split_ifs at h with hall
    · split at h
      · cases h
      rename_i st₁ h1
      exact (refresh_spec eng gen _ _ _ h1 h).1
    · cases h

theorem expandLoop_outside (gen : List (ℕ × BasisName) → ℕ → Option PF → Except Err O) (st : NS E R O) (sh : List (ℕ × BasisName))
    (only : Option (List ℕ)) (m : ℕ) : ∀ (l : List ℕ) (circ : Dict ℕ O), m ∉ l → (NS.expandLoop gen st sh only l circ).1.get? m = circ.get? m := by
  intro l
  induction l with
  | nil => intro circ _; rfl
  | cons n l ih =>
    intro circ hm
    rw [List.mem_cons, not_or] at hm
    unfold NS.expandLoop
    split_ifs
    · split
      · rfl
      · rw [ih _ hm.2, Dict.get?_set_ne _ _ (Ne.symm hm.1)]
    · exact ih _ hm.2

/-- What neither substitution nor preparing the operators changes, whether they succeed or not. -/
theorem refresh_frame (eng : Engine E) (gen : List (ℕ × BasisName) → ℕ → Option PF → Except Err O) (st : NS E R O) :
    (let r := (match st.substitute eng with
      | (st, .error e) => (st, .error e)
      | (st, .ok ()) => st.prepareOperators gen : NS E R O × Except Err Unit)
    r.1.exprs = st.exprs ∧ r.1.cfg = st.cfg ∧ r.1.nodes = st.nodes ∧ r.1.sw = st.sw ∧
      ∀ node, node ∉ st.nodes → r.1.circ.get? node = st.circ.get? node) := by
  have hs : ∀ st₁ r, st.substitute eng = (st₁, r) → st₁.exprs = st.exprs ∧ st₁.cfg = st.cfg ∧ st₁.nodes = st.nodes ∧ st₁.sw = st.sw ∧ st₁.circ = st.circ := by
    intro st₁ r h
    unfold NS.substitute at h
    split at h
    · cases h; exact ⟨rfl, rfl, rfl, rfl, rfl⟩
    · simp only [Prod.mk.injEq] at h
      obtain ⟨rfl, _⟩ := h
      exact ⟨rfl, rfl, rfl, rfl, rfl⟩
  have hp : ∀ st₁ : NS E R O, (st₁.prepareOperators gen).1.exprs = st₁.exprs ∧ (st₁.prepareOperators gen).1.cfg = st₁.cfg ∧
      (st₁.prepareOperators gen).1.nodes = st₁.nodes ∧ (st₁.prepareOperators gen).1.sw = st₁.sw ∧
      ∀ node, node ∉ st₁.nodes → (st₁.prepareOperators gen).1.circ.get? node = st₁.circ.get? node := by
    intro st₁
    have he : ∀ st₂ r, st₁.expand gen none = (st₂, r) → st₂.exprs = st₁.exprs ∧ st₂.cfg = st₁.cfg ∧ st₂.nodes = st₁.nodes ∧ st₂.sw = st₁.sw ∧
        ∀ node, node ∉ st₁.nodes → st₂.circ.get? node = st₁.circ.get? node := by
      intro st₂ r h
      unfold NS.expand at h
      split at h
      · cases h; exact ⟨rfl, rfl, rfl, rfl, fun _ _ => rfl⟩
      · simp only [Prod.mk.injEq] at h
        obtain ⟨rfl, _⟩ := h
        exact ⟨rfl, rfl, rfl, rfl, fun node hn => expandLoop_outside gen st₁ _ none node _ _ hn⟩
    unfold NS.prepareOperators
    split
    · rename_i st₂ e h; exact he _ _ h
    · rename_i st₂ h
      obtain ⟨h1, h2, h3, h4, h5⟩ := he _ _ h
      unfold NS.vectors
      split
      · exact ⟨h1, h2, h3, h4, h5⟩
      · exact ⟨h1, h2, h3, h4, h5⟩
  dsimp only
  split
  · rename_i st₁ e h
    obtain ⟨h1, h2, h3, h4, h5⟩ := hs _ _ h
    exact ⟨h1, h2, h3, h4, fun n _ => by rw [h5]⟩
  · rename_i st₁ h
    obtain ⟨h1, h2, h3, h4, h5⟩ := hs _ _ h
    obtain ⟨k1, k2, k3, k4, k5⟩ := hp st₁
    exact ⟨k1.trans h1, k2.trans h2, k3.trans h3, k4.trans h4, fun n hn => by rw [k5 n (by rwa [h3]), h5]⟩

theorem setCall_frame (eng : Engine E) (gen : List (ℕ × BasisName) → ℕ → Option PF → Except Err O) (st : NS E R O) (c : HashOrder × ℕ × NS.SetCall) :
    (st.set eng gen c).1.exprs = st.exprs ∧ (st.set eng gen c).1.cfg = st.cfg ∧ (st.set eng gen c).1.nodes = st.nodes ∧
      (st.set eng gen c).1.sw.pc.symMap = st.sw.pc.symMap ∧
      ∀ node, node ∉ st.nodes → (st.set eng gen c).1.circ.get? node = st.circ.get? node := by
  obtain ⟨ho, fuel, c⟩ := c
  have key : ∀ (pc : PC E), pc.symMap = st.sw.pc.symMap → ∀ r : NS E R O × Except Err Unit,
      r = (if pc.allParametersSet then
        match ({ st with sw := { st.sw with pc := pc } } : NS E R O).substitute eng with
        | (st, .error e) => (st, .error e)
        | (st, .ok ()) => st.prepareOperators gen
        else ({ st with sw := { st.sw with pc := pc } }, .error .assertionError)) →
      r.1.exprs = st.exprs ∧ r.1.cfg = st.cfg ∧ r.1.nodes = st.nodes ∧ r.1.sw.pc.symMap = st.sw.pc.symMap ∧
      ∀ node, node ∉ st.nodes → r.1.circ.get? node = st.circ.get? node := by
    intro pc hpc r hr
    split_ifs at hr
    · obtain ⟨h1, h2, h3, h4, h5⟩ := refresh_frame eng gen ({ st with sw := { st.sw with pc := pc } } : NS E R O)
      rw [← hr] at h1 h2 h3 h4 h5
      exact ⟨h1, h2, h3, by rw [h4]; exact hpc, h5⟩
    · subst hr; exact ⟨rfl, rfl, rfl, hpc, fun _ _ => rfl⟩
  cases c with
  | one name value =>
    have hf := (setParameterValue_frame eng ho fuel st.sw.pc name value).1
    unfold NS.set NS.setParameterValue
    dsimp only
    split
    · rename_i pc e h; rw [h] at hf; exact ⟨rfl, rfl, rfl, hf, fun _ _ => rfl⟩
    · rename_i pc h; rw [h] at hf; exact key pc hf _ rfl
  | many args =>
    have hf := (setParameterValues_frame eng ho fuel st.sw.pc args).1
    unfold NS.set NS.setParameterValues
    dsimp only
    split
    · rename_i pc e h; rw [h] at hf; exact ⟨rfl, rfl, rfl, hf, fun _ _ => rfl⟩
    · rename_i pc h; rw [h] at hf; exact key pc hf _ rfl

theorem sets_frame (eng : Engine E) (gen : List (ℕ × BasisName) → ℕ → Option PF → Except Err O) : ∀ (l : List (HashOrder × ℕ × NS.SetCall)) (st : NS E R O),
    (st.sets eng gen l).exprs = st.exprs ∧ (st.sets eng gen l).cfg = st.cfg ∧ (st.sets eng gen l).nodes = st.nodes ∧
      (st.sets eng gen l).sw.pc.symMap = st.sw.pc.symMap ∧
      ∀ node, node ∉ st.nodes → (st.sets eng gen l).circ.get? node = st.circ.get? node := by
  intro l
  induction l with
  | nil => intro st; exact ⟨rfl, rfl, rfl, rfl, fun _ _ => rfl⟩
  | cons c l ih =>
    intro st
    obtain ⟨h1, h2, h3, h4, h5⟩ := setCall_frame eng gen st c
    obtain ⟨k1, k2, k3, k4, k5⟩ := ih (st.set eng gen c).1
    exact ⟨k1.trans h1, k2.trans h2, k3.trans h3, k4.trans h4, fun n hn => (k5 n (by rwa [h3])).trans (h5 n hn)⟩

theorem symbolValues_congr {pc pc' : PC E} (hs : pc'.symMap = pc.symMap) (hv : pc'.getParameterValuesDict = pc.getParameterValuesDict) :
    pc'.getSymbolValuesDict = pc.getSymbolValuesDict := by
  have key : ∀ (p : PC E), p.getSymbolValuesDict = p.getParameterValuesDict.foldlM (fun (d : Dict Sym (Option PF)) kv =>
      match p.symMap.get? kv.1 with
      | none => .error .keyError
      | some s => .ok (d.set s kv.2)) [] := by
    intro p
    unfold PC.getSymbolValuesDict PC.getParameterValuesDict
    rw [List.foldlM_map]
    congr 1
  rw [key, key, hs, hv]

theorem value_congr {pc pc' : PC E} (hv : pc'.getParameterValuesDict = pc.getParameterValuesDict) (n : String) :
    pc'.getParameterValue n = pc.getParameterValue n := by
  have key : ∀ (d : Dict String Param), Dict.get? (d.map fun p => (p.1, p.2.getValue) : Dict String (Option PF)) n = (d.get? n).map Param.getValue := by
    intro d
    induction d with
    | nil => rfl
    | cons x d ih =>
      rw [List.map_cons, Dict.get?_cons, Dict.get?_cons]
      split_ifs
      · rfl
      · exact ih
  have h1 := congrArg (fun d => Dict.get? d n) hv
  unfold PC.getParameterValuesDict at h1
  simp only [key] at h1
  unfold PC.getParameterValue
  cases h2 : pc'.coll.get? n <;> cases h3 : pc.coll.get? n <;> rw [h2, h3] at h1 <;> simp_all

/-- **C78** The numbers and operators depend on the parameter values only, not on how they were reached: after any two sequences of calls (some of
which may have raised) that end with a successful one, if all parameters have the same values then so have the numeric attributes, the operators
and the operator vectors, and with them the Hamiltonian and every other evaluation. -/
theorem C78_path_independent (eng : Engine E) (gen : List (ℕ × BasisName) → ℕ → Option PF → Except Err O) (st : NS E R O)
    (l l' : List (HashOrder × ℕ × NS.SetCall)) (c c' : HashOrder × ℕ × NS.SetCall) (st₁ st₂ : NS E R O)
    (h₁ : (st.sets eng gen l).set eng gen c = (st₁, .ok ())) (h₂ : (st.sets eng gen l').set eng gen c' = (st₂, .ok ()))
    (hv : st₂.sw.pc.getParameterValuesDict = st₁.sw.pc.getParameterValuesDict) :
    (∀ a, st₂.num.get? a = st₁.num.get? a) ∧ (∀ node, st₂.circ.get? node = st₁.circ.get? node) ∧ st₂.vec = st₁.vec ∧
    ∀ (H P X V Q : Type) (ph : Phys O H P X V Q) (m : Method) (arg : Option (Unpacked X V)) (k : Kw), callMethod ph st₂ m arg k = callMethod ph st₁ m arg k := by
  obtain ⟨⟨d, a1, a2⟩, ⟨sh, a3, a4⟩, ⟨v, a5, a6⟩⟩ := C78_current eng gen _ _ _ h₁
  obtain ⟨⟨d', b1, b2⟩, ⟨sh', b3, b4⟩, ⟨v', b5, b6⟩⟩ := C78_current eng gen _ _ _ h₂
  have f1 := setCall_frame eng gen (st.sets eng gen l) c
  have f2 := setCall_frame eng gen (st.sets eng gen l') c'
  rw [h₁] at f1; rw [h₂] at f2
  obtain ⟨g1, g2, g3, g4, g5⟩ := sets_frame eng gen l st
  obtain ⟨k1, k2, k3, k4, k5⟩ := sets_frame eng gen l' st
  simp only [g1, g2, g3, g4, k1, k2, k3, k4] at f1 f2
  obtain ⟨e1, e2, e3, e4, e5⟩ := f1
  obtain ⟨i1, i2, i3, i4, i5⟩ := f2
  have hd : d' = d := by
    have := symbolValues_congr (i4.trans e4.symm) hv
    rw [a1, b1] at this
    exact Except.ok.inj this
  subst hd
  have hsh : sh' = sh := by
    have : st₂.shape = st₁.shape := by unfold NS.shape; rw [i2, e2, i3, e3]
    rw [a3, b3] at this
    exact Except.ok.inj this
  subst hsh
  have hnum : ∀ a, st₂.num.get? a = st₁.num.get? a := by
    intro a
    obtain ⟨xs, x1, x2⟩ := a2 a
    obtain ⟨ys, y1, y2⟩ := b2 a
    rw [x1, y1]
    rw [i1] at y2; rw [e1] at x2
    rw [x2] at y2
    rw [(List.map_injective_iff.2 (Option.some_injective _)) y2]
  have hcirc : ∀ node, st₂.circ.get? node = st₁.circ.get? node := by
    intro node
    by_cases hn : node ∈ st.nodes
    · obtain ⟨o, o1, o2⟩ := a4 node (by rwa [e3])
      obtain ⟨o', o3, o4⟩ := b4 node (by rwa [i3])
      have : st₂.opsOf gen sh' node = st₁.opsOf gen sh' node :=
        opsOf_congr (by rw [i2, e2]) (fun _ _ _ => value_congr hv _)
      rw [o1, o3] at this
      cases this
      rw [o2, o4]
    · rw [i5 node hn, e5 node hn, k5 node hn, g5 node hn]
  have hvec : st₂.vec = st₁.vec := by
    rw [a5, b5]
    congr 1
    apply List.map_injective_iff.2 (Option.some_injective _)
    rw [← a6, ← b6, i3, e3]
    exact List.map_congr_left fun node _ => hcirc node
  have hn : st₂.num.get? = st₁.num.get? := funext hnum
  have hc : st₂.circ.get? = st₁.circ.get? := funext hcirc
  have hp : st₂.sw.pc.getParameterValue = st₁.sw.pc.getParameterValue := funext fun n => value_congr hv n
  refine ⟨hnum, hcirc, hvec, ?_⟩
  intro H P X V Q ph m arg k
  unfold callMethod
  rw [hn, hc, hvec, hp]

/-- **C78** Setting one independent parameter is the same with both methods. -/
theorem C78_one_many (eng : Engine E) (ho : HashOrder) (fuel : ℕ) (gen : List (ℕ × BasisName) → ℕ → Option PF → Except Err O) (st : NS E R O)
    (name : String) (value : PyVal) (hp : ¬ Parametric st.sw.pc name) :
    st.setParameterValue eng ho fuel gen name value = st.setParameterValues eng ho fuel gen [.name name, .val value] ∧
    st.setParameterValue eng ho fuel gen name value = st.setParameterValues eng ho fuel gen [.dict [(name, value)]] := by
  have hn : st.sw.pc.parz.has name = false := by
    cases h : st.sw.pc.parz.has name with
    | false => rfl
    | true => exact absurd ((Dict.has_iff _ _).1 h) hp
  have h1 : ∀ args, parseBulk args = .ok [(some name, value)] →
      st.sw.pc.setParameterValue eng ho fuel name value = st.sw.pc.setParameterValues eng ho fuel args := by
    intro args ha
    unfold PC.setParameterValue PC.setParameterValues
    rw [ha]
    dsimp only
    unfold setPairs
    cases st.sw.pc.coll.get? name with
    | none => rfl
    | some p =>
      dsimp only
      rw [hn]
      simp only [Bool.false_eq_true, if_false]
      cases hv : p.setValue value with
      | mk p' r => cases r with
        | error e => rfl
        | ok u => simp only [setPairs]
  constructor
  · unfold NS.setParameterValue NS.setParameterValues
    rw [h1 [.name name, .val value] rfl]
    generalize st.sw.pc.setParameterValues eng ho fuel [.name name, .val value] = r
    obtain ⟨pc, _ | _⟩ := r <;> rfl
  · unfold NS.setParameterValue NS.setParameterValues
    rw [h1 [.dict [(name, value)]] rfl]
    generalize st.sw.pc.setParameterValues eng ho fuel [.dict [(name, value)]] = r
    obtain ⟨pc, _ | _⟩ := r <;> rfl

/-- Two histories on the system of C40-C42: `L = 4` at once, and through a rejected `C = 0` (`1/C` has no value), `L = 9` and back.  Both end with
a successful call and the same parameters. -/
def lcCalls : List (HashOrder × ℕ × NS.SetCall) :=
  [(.id, 10, .one "C" (.int 0)), (.id, 10, .many [.name "L", .val (.int 9)]), (.id, 10, .one "C" (.int 1))]

example : (lcNS.1.set Ast.engine lcGen (.id, 10, .one "L" (.int 4))).2 = .ok () ∧
    ((lcNS.1.sets Ast.engine lcGen lcCalls).set Ast.engine lcGen (.id, 10, .many [.dict [("L", .int 4)]])).2 = .ok () ∧
    ((lcNS.1.sets Ast.engine lcGen lcCalls).set Ast.engine lcGen (.id, 10, .many [.dict [("L", .int 4)]])).1.sw.pc.getParameterValuesDict =
      (lcNS.1.set Ast.engine lcGen (.id, 10, .one "L" (.int 4))).1.sw.pc.getParameterValuesDict ∧
    (lcNS.1.set Ast.engine lcGen (.id, 10, .one "L" (.int 4))).1.num.get? .Linv = some [.fin (1/4)] ∧
    (lcNS.1.set Ast.engine lcGen (.id, 10, .one "L" (.int 4))).1.vec = some [some (.fin 2)] := by
  decide +kernel

example : ¬ Parametric lcNS.1.sw.pc "L" := by unfold Parametric; decide +kernel

/-- **C78** A call that raises leaves the system inconsistent: after `setParameterValue("C", 0)` the parameter is 0, while the numeric attributes and
the operators are still those of the previous value, and a Hamiltonian is returned for it without complaint. -/
theorem C78_false_after_error : ∃ (st st' : NS Ast LcRes (Option PF)) (gen : List (ℕ × BasisName) → ℕ → Option PF → Except Err (Option PF)),
    Current Ast.engine gen st ∧ st.set Ast.engine gen (.id, 10, .one "C" (.int 0)) = (st', .error .typeError) ∧
    st.sw.pc.getParameterValue "C" = .ok (some (.fin 1)) ∧ st'.sw.pc.getParameterValue "C" = .ok (some (.fin 0)) ∧
    st'.num.get? .Cinv = some [.fin 1] ∧ st'.vec = st.vec ∧ ¬ Current Ast.engine gen st' := by
  have hset : lcNS₀.1.set Ast.engine lcGen (.id, 10, .many [.dict [("C", .int 1), ("L", .int 1), ("phie", .int 0)]]) = (lcNS.1, .ok ()) := by
    rw [← lc_ok.2]; rfl
  have h2 : (lcNS.1.set Ast.engine lcGen (.id, 10, .one "C" (.int 0))).2 = .error .typeError := by decide +kernel
  have h5 : (lcNS.1.set Ast.engine lcGen (.id, 10, .one "C" (.int 0))).1.num.get? .Cinv = some [.fin 1] := by decide +kernel
  refine ⟨lcNS.1, (lcNS.1.set Ast.engine lcGen (.id, 10, .one "C" (.int 0))).1, lcGen, C78_current _ _ _ _ _ hset, ?_, by decide +kernel,
    by decide +kernel, h5, by decide +kernel, ?_⟩
  · rw [← h2]
  · rintro ⟨⟨d, hd, h⟩, _, _⟩
    obtain ⟨xs, h1, h3⟩ := h .Cinv
    rw [h5] at h1
    cases h1
    have hd' : (lcNS.1.set Ast.engine lcGen (.id, 10, .one "C" (.int 0))).1.sw.pc.getSymbolValuesDict.toOption = some d := by rw [hd]; rfl
    have hc : ((lcNS.1.set Ast.engine lcGen (.id, 10, .one "C" (.int 0))).1.sw.pc.getSymbolValuesDict.toOption.map fun d =>
      ((lcNS.1.set Ast.engine lcGen (.id, 10, .one "C" (.int 0))).1.exprs .Cinv).map fun e => Ast.engine.toFloat (subsDict Ast.engine e d)) = some [none] := by
      decide +kernel
    rw [hd'] at hc
    simp only [Option.map_some, Option.some.injEq] at hc
    rw [hc] at h3
    cases h3

end Verif.Props
