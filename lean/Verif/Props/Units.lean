import Verif.Lemmas.Units

/-!
# Properties C44, C45 and C46: unit systems
-/

set_option linter.unusedVariables false

namespace Verif.Props

open Verif Verif.Units Verif.Spec

theorem uses_obj {w : World} {i : ℕ} {s : System} (hu : Uses w i s) : ∃ o, w.objs[i]? = some o := by
  have h := hu.1
  unfold getUnitPrefactor at h
  split at h
  · cases h
  · rename_i o ho; exact ⟨o, ho⟩

theorem uses_pos {w : World} (h : UInv w) {i : ℕ} {s : System} (hu : Uses w i s) : s.Pos := by
  obtain ⟨o, ho⟩ := uses_obj hu
  have hH := (uses_iff ho s).1 hu
  have hv := (h.objs i o ho).valid
  have key : ∀ u ∈ SIunits, ∀ x, factor w o.c u = some x → 0 < x := by
    intro u hu x hx
    obtain ⟨y, hy, hf⟩ := hv.c u hu
    rw [hx] at hf; cases hf; exact hy
  have key' : ∀ u ∈ outputUnits, ∀ x, factor w o.cd u = some x → 0 < x := by
    intro u hu x hx
    obtain ⟨y, hy, hf⟩ := hv.cd u hu
    rw [hx] at hf; cases hf; exact hy
  exact ⟨key _ (by simp [SIunits]) _ hH.F, key _ (by simp [SIunits]) _ hH.H, key _ (by simp [SIunits]) _ hH.Ohm,
    key _ (by simp [SIunits]) _ hH.A, key _ (by simp [SIunits]) _ hH.V, key _ (by simp [SIunits]) _ hH.Hz,
    key _ (by simp [SIunits]) _ hH.Wb, key _ (by simp [SIunits]) _ hH.C, key _ (by simp [SIunits]) _ hH.J,
    key _ (by simp [SIunits]) _ hH.K, key _ (by simp [SIunits]) _ hH.eV, key' _ (by simp [outputUnits]) _ hH.E,
    key' _ (by simp [outputUnits]) _ hH.Io, key' _ (by simp [outputUnits]) _ hH.Vo⟩

theorem uses_consistent {w : World} (h : UInv w) {i : ℕ} {s : System} (hu : Uses w i s) : Consistent w i s := by
  obtain ⟨o, ho⟩ := uses_obj hu
  exact consistent_of ho (uses_pos h hu) ((uses_iff ho s).1 hu) (h.objs i o ho).pre

/-! ### C44 -/

/-- C44 (proved part): after every history of clean calls, successful or not, every instance has a positive
factor for every unit and all sixteen prefactors equal their formulas in the current factors.  Missing: histories
with `setUnit` on a unit without prefix (`C44_false_bare_unit`) or a non-positive `setUnitPrefactor`
(`C44_false_zero_factor`). -/
theorem C44_consistent_partial (h : List UCall) (hc : ∀ c ∈ h, c.Clean) (i : ℕ) (hi : i < (runU h).objs.length) :
    ∃ s : System, s.Pos ∧ Uses (runU h) i s ∧ Consistent (runU h) i s := by
  have hinv := uinv_runU h hc
  obtain ⟨o, ho⟩ : ∃ o, (runU h).objs[i]? = some o := ⟨_, List.getElem?_eq_getElem hi⟩
  obtain ⟨s, hp, h1, h2, h3, h4, h5, h6, h7, h8, h9, h10, h11, h12, h13, h14⟩ := (hinv.objs i o ho).valid.system
  have hu : Uses (runU h) i s := (uses_iff ho s).2 ⟨h1, h2, h3, h4, h5, h6, h7, h8, h9, h10, h11, h12, h13, h14⟩
  exact ⟨s, hp, hu, uses_consistent hinv hu⟩

/-- C44 (proved part): a clean call that raises changes nothing. -/
theorem C44_failed_call_partial (h : List UCall) (hc : ∀ c ∈ h, c.Clean) (c : UCall) (hcl : c.Clean) (e : Err)
    (he : (c.run (runU h)).2 = .error e) : (c.run (runU h)).1 = runU h :=
  (step_ok (uinv_runU h hc) c hcl).fail e he

theorem get_store {w : World} {o : UObj} (hv : Valid w o) (i : ℕ) (hi : i < w.objs.length) :
    ∃ p, store w i o = ({ w with objs := w.objs.set i { o with prefactors := p } }, .ok ()) ∧
      (store w i o).1.objs[i]? = some { o with prefactors := p } := by
  obtain ⟨p, _, hs⟩ := store_spec hv i
  refine ⟨p, hs, ?_⟩
  rw [hs]
  simp [hi]

theorem gup_eq {w : World} {i : ℕ} {o : UObj} (ho : w.objs[i]? = some o) {u : String} (hu : u ∈ SIunits) {x : ℝ}
    (hx : factor w o.c u = some x) : getUnitPrefactor w i u = .ok x := by
  unfold getUnitPrefactor
  simp only [ho]
  rw [if_pos hu, hx]

theorem of_eq {w : World} {i : ℕ} {o : UObj} (ho : w.objs[i]? = some o) {u : String} :
    outFactor w i u = factor w o.cd u := by
  unfold outFactor factor; rw [ho]; rfl

theorem assignC_effect {w : World} (h : UInv w) {i : ℕ} {o : UObj} (ho : w.objs[i]? = some o) {u : String}
    (hu : u ∈ SIunits) {e : Entry} (he : 0 < e.factor) :
    (store (assignC w o u e).1 i (assignC w o u e).2).2 = .ok () ∧
    getUnitPrefactor (store (assignC w o u e).1 i (assignC w o u e).2).1 i u = .ok e.factor ∧
    (∀ v, v ≠ u → getUnitPrefactor (store (assignC w o u e).1 i (assignC w o u e).2).1 i v = getUnitPrefactor w i v) ∧
    ∀ v ∈ outputUnits, outFactor (store (assignC w o u e).1 i (assignC w o u e).2).1 i v = outFactor w i v := by
  have hv := (h.objs i o ho).valid
  obtain ⟨p, hs, hget⟩ := get_store (valid_assignC hv (u := u) he) i (List.getElem?_eq_some_iff.1 ho).1
  have hfac : ∀ d k, factor (store (assignC w o u e).1 i (assignC w o u e).2).1 d k = factor (assignC w o u e).1 d k := by
    intro d k; rw [hs]; rfl
  refine ⟨by rw [hs], ?_, ?_, ?_⟩
  · obtain ⟨x, hx, hf⟩ := hv.c u hu
    apply gup_eq hget hu
    rw [hfac]
    have := factor_assignC (e := e) (u := u) u hf
    rwa [if_pos rfl] at this
  · intro v hvu
    by_cases hm : v ∈ SIunits
    · obtain ⟨x, hx, hf⟩ := hv.c v hm
      rw [gup_eq ho hm hf]
      apply gup_eq hget hm
      rw [hfac]
      have := factor_assignC (e := e) (u := u) v hf
      rwa [if_neg hvu] at this
    · unfold getUnitPrefactor
      simp only [ho, hget]
      rw [if_neg hm, if_neg hm]
  · intro v hm
    obtain ⟨x, hx, hf⟩ := hv.cd v hm
    rw [of_eq hget, of_eq ho, hf, hfac]
    exact factor_mono (w := w) (List.prefix_append _ _) hf

theorem assignCd_effect {w : World} (h : UInv w) {i : ℕ} {o : UObj} (ho : w.objs[i]? = some o) {u : String}
    (hu : u ∈ outputUnits) {e : Entry} (he : 0 < e.factor) :
    (store (assignCd w o u e).1 i (assignCd w o u e).2).2 = .ok () ∧
    outFactor (store (assignCd w o u e).1 i (assignCd w o u e).2).1 i u = some e.factor ∧
    (∀ v ∈ outputUnits, v ≠ u → outFactor (store (assignCd w o u e).1 i (assignCd w o u e).2).1 i v = outFactor w i v) ∧
    ∀ v, getUnitPrefactor (store (assignCd w o u e).1 i (assignCd w o u e).2).1 i v = getUnitPrefactor w i v := by
  have hv := (h.objs i o ho).valid
  obtain ⟨p, hs, hget⟩ := get_store (valid_assignCd hv (u := u) he) i (List.getElem?_eq_some_iff.1 ho).1
  have hfac : ∀ d k, factor (store (assignCd w o u e).1 i (assignCd w o u e).2).1 d k = factor (assignCd w o u e).1 d k := by
    intro d k; rw [hs]; rfl
  refine ⟨by rw [hs], ?_, ?_, ?_⟩
  · obtain ⟨x, hx, hf⟩ := hv.cd u hu
    rw [of_eq hget, hfac]
    have := factor_assignCd (e := e) (u := u) u hf
    rwa [if_pos rfl] at this
  · intro v hm hvu
    obtain ⟨x, hx, hf⟩ := hv.cd v hm
    rw [of_eq hget, of_eq ho, hf, hfac]
    have := factor_assignCd (e := e) (u := u) v hf
    rwa [if_neg hvu] at this
  · intro v
    by_cases hm : v ∈ SIunits
    · obtain ⟨x, hx, hf⟩ := hv.c v hm
      rw [gup_eq ho hm hf]
      apply gup_eq hget hm
      rw [hfac]
      exact factor_mono (w := w) (List.prefix_append _ _) hf
    · unfold getUnitPrefactor
      simp only [ho, hget]
      rw [if_neg hm, if_neg hm]

theorem prefixed_not_SI {p : Char} {n : ℤ} (hp : siExponent p = some n) {u : String} (hu : u ∈ SIunits) :
    String.ofList (p :: u.toList) ∉ SIunits := by
  have h1 : ∃ x, prefixes.get? p = some x := ⟨_, by rw [prefixes_spec, hp]; rfl⟩
  obtain ⟨x, hx⟩ := h1
  have hm := Dict.mem_keys_of_get? hx
  simp only [prefixes, Dict.keys, List.map_cons, List.map_nil, List.mem_cons, List.not_mem_nil, or_false] at hm
  simp only [SIunits, List.mem_cons, List.not_mem_nil, or_false] at hu
  rcases hm with rfl | rfl | rfl | rfl | rfl | rfl | rfl | rfl | rfl | rfl | rfl | rfl | rfl | rfl | rfl | rfl | rfl <;>
    rcases hu with rfl | rfl | rfl | rfl | rfl | rfl | rfl | rfl | rfl | rfl | rfl <;> decide

/-- C44: `setUnit` on a prefix letter followed by a unit sets that unit's factor to the power of ten of the
prefix, and no other factor. -/
theorem C44_setUnit_effect (h : List UCall) (hc : ∀ c ∈ h, c.Clean) (i : ℕ) (hi : i < (runU h).objs.length)
    (p : Char) (n : ℤ) (hp : siExponent p = some n) (u : String)
    (hu : u ∈ ["F", "H", "Ohm", "A", "V", "Hz", "Wb", "C", "J", "K", "eV"]) :
    ∃ w', setUnit (runU h) i (String.ofList (p :: u.toList)) = (w', .ok ()) ∧
      getUnitPrefactor w' i u = .ok ((10 : ℝ) ^ n) ∧
      (∀ v, v ≠ u → getUnitPrefactor w' i v = getUnitPrefactor (runU h) i v) ∧
      ∀ v ∈ ["Energy", "Current", "Voltage"], outFactor w' i v = outFactor (runU h) i v := by
  have hinv := uinv_runU h hc
  obtain ⟨o, ho⟩ : ∃ o, (runU h).objs[i]? = some o := ⟨_, List.getElem?_eq_getElem hi⟩
  have hpre : prefixes.get? p = some ((10 : ℝ) ^ n) := by rw [prefixes_spec, hp]; rfl
  have hrun : setUnit (runU h) i (String.ofList (p :: u.toList)) =
      store (assignC (runU h) o u ⟨String.ofList (p :: u.toList), (10 : ℝ) ^ n⟩).1 i
        (assignC (runU h) o u ⟨String.ofList (p :: u.toList), (10 : ℝ) ^ n⟩).2 := by
    unfold setUnit
    simp only [ho]
    rw [if_neg (prefixed_not_SI hp hu), String.toList_ofList]
    simp only [String.ofList_toList]
    rw [if_pos (show u ∈ SIunits from hu), hpre]
  obtain ⟨h1, h2, h3, h4⟩ := assignC_effect hinv ho hu
    (e := ⟨String.ofList (p :: u.toList), (10 : ℝ) ^ n⟩) (by simp only; positivity)
  exact ⟨_, by rw [hrun]; exact Prod.ext rfl h1, h2, h3, h4⟩

/-- C44: `setUnitPrefactor` with a positive value sets that factor and no other. -/
theorem C44_setUnitPrefactor_effect (h : List UCall) (hc : ∀ c ∈ h, c.Clean) (i : ℕ) (hi : i < (runU h).objs.length)
    (u s : String) (hu : u ∈ ["F", "H", "Ohm", "A", "V", "Hz", "Wb", "C", "J", "K", "eV"]) (x : ℝ) (hx : 0 < x) :
    ∃ w', setUnitPrefactor (runU h) i u s x = (w', .ok ()) ∧
      getUnitPrefactor w' i u = .ok x ∧
      (∀ v, v ≠ u → getUnitPrefactor w' i v = getUnitPrefactor (runU h) i v) ∧
      ∀ v ∈ ["Energy", "Current", "Voltage"], outFactor w' i v = outFactor (runU h) i v := by
  have hinv := uinv_runU h hc
  obtain ⟨o, ho⟩ : ∃ o, (runU h).objs[i]? = some o := ⟨_, List.getElem?_eq_getElem hi⟩
  have hrun : setUnitPrefactor (runU h) i u s x =
      store (assignC (runU h) o u ⟨s, x⟩).1 i (assignC (runU h) o u ⟨s, x⟩).2 := by
    unfold setUnitPrefactor
    simp only [ho]
    exact if_pos hu
  obtain ⟨h1, h2, h3, h4⟩ := assignC_effect hinv ho hu (e := ⟨s, x⟩) hx
  exact ⟨_, by rw [hrun]; exact Prod.ext rfl h1, h2, h3, h4⟩

theorem parseOut_prefixed {p : Char} {n : ℤ} (hp : siExponent p = some n) {u : String} (hu : u ∈ SIunits) :
    parseOut (String.ofList (p :: u.toList)) = .ok (p, u) := by
  unfold parseOut
  rw [if_neg (prefixed_not_SI hp hu), String.toList_ofList]
  simp only [String.ofList_toList]
  exact if_pos hu

theorem joules_mem {u : String} {b : ℝ} (h : joules u = some b) : u ∈ SIunits := by
  unfold joules at h
  split at h <;> first | (simp [SIunits]; done) | cases h

/-- C44: `setEnergyUnit` on a prefix letter followed by an energy unit (Hz, J, K, eV): one such unit is reported
as one, i.e. the energy factor times the joules in the unit is one; nothing else changes. -/
theorem C44_setEnergyUnit_effect (h : List UCall) (hc : ∀ c ∈ h, c.Clean) (i : ℕ) (hi : i < (runU h).objs.length)
    (p : Char) (n : ℤ) (hp : siExponent p = some n) (u : String) (b : ℝ) (hb : joules u = some b) :
    ∃ w' x, setEnergyUnit (runU h) i (String.ofList (p :: u.toList)) = (w', .ok ()) ∧
      outFactor w' i "Energy" = some x ∧ x * (b * (10 : ℝ) ^ n) = 1 ∧
      outFactor w' i "Current" = outFactor (runU h) i "Current" ∧
      outFactor w' i "Voltage" = outFactor (runU h) i "Voltage" ∧
      ∀ v, getUnitPrefactor w' i v = getUnitPrefactor (runU h) i v := by
  have hinv := uinv_runU h hc
  obtain ⟨o, ho⟩ : ∃ o, (runU h).objs[i]? = some o := ⟨_, List.getElem?_eq_getElem hi⟩
  have hu := joules_mem hb
  have hpre : prefixes.get? p = some ((10 : ℝ) ^ n) := by rw [prefixes_spec, hp]; rfl
  have hbp : 0 < b := energyBase_pos (by rw [energyBase_spec]; exact hb)
  have hrun : setEnergyUnit (runU h) i (String.ofList (p :: u.toList)) =
      store (assignCd (runU h) o "Energy" ⟨String.ofList (p :: u.toList), 1 / (b * (10 : ℝ) ^ n)⟩).1 i
        (assignCd (runU h) o "Energy" ⟨String.ofList (p :: u.toList), 1 / (b * (10 : ℝ) ^ n)⟩).2 := by
    unfold setEnergyUnit
    simp only [ho, parseOut_prefixed hp hu, energyBase_spec, hb, hpre]
  have h10 : (0 : ℝ) < 10 ^ n := by positivity
  obtain ⟨h1, h2, h3, h4⟩ := assignCd_effect hinv ho (u := "Energy") (by simp [outputUnits])
    (e := ⟨String.ofList (p :: u.toList), 1 / (b * (10 : ℝ) ^ n)⟩) (by simp only; positivity)
  refine ⟨_, _, by rw [hrun]; exact Prod.ext rfl h1, h2, by simp only; field_simp, ?_, ?_, h4⟩
  · exact h3 "Current" (by simp [outputUnits]) (by decide)
  · exact h3 "Voltage" (by simp [outputUnits]) (by decide)

theorem outUnit_effect (h : List UCall) (hc : ∀ c ∈ h, c.Clean) (i : ℕ) (hi : i < (runU h).objs.length)
    (p : Char) (n : ℤ) (hp : siExponent p = some n) (key base : String) (hk : key ∈ outputUnits)
    (hb : base ∈ SIunits) :
    ∃ w' x, setOutUnit key base (runU h) i (String.ofList (p :: base.toList)) = (w', .ok ()) ∧
      outFactor w' i key = some x ∧ x * (10 : ℝ) ^ n = 1 ∧
      (∀ v ∈ outputUnits, v ≠ key → outFactor w' i v = outFactor (runU h) i v) ∧
      ∀ v, getUnitPrefactor w' i v = getUnitPrefactor (runU h) i v := by
  have hinv := uinv_runU h hc
  obtain ⟨o, ho⟩ : ∃ o, (runU h).objs[i]? = some o := ⟨_, List.getElem?_eq_getElem hi⟩
  have hpre : prefixes.get? p = some ((10 : ℝ) ^ n) := by rw [prefixes_spec, hp]; rfl
  have hrun : setOutUnit key base (runU h) i (String.ofList (p :: base.toList)) =
      store (assignCd (runU h) o key ⟨String.ofList (p :: base.toList), 1 / (10 : ℝ) ^ n⟩).1 i
        (assignCd (runU h) o key ⟨String.ofList (p :: base.toList), 1 / (10 : ℝ) ^ n⟩).2 := by
    unfold setOutUnit
    simp only [ho, parseOut_prefixed hp hb, hpre, if_true]
  have h10 : (0 : ℝ) < 10 ^ n := by positivity
  obtain ⟨h1, h2, h3, h4⟩ := assignCd_effect hinv ho hk
    (e := ⟨String.ofList (p :: base.toList), 1 / (10 : ℝ) ^ n⟩) (by simp only; positivity)
  exact ⟨_, _, by rw [hrun]; exact Prod.ext rfl h1, h2, by simp only; field_simp, h3, h4⟩

/-- C44: `setCurrentUnit` on a prefixed ampere. -/
theorem C44_setCurrentUnit_effect (h : List UCall) (hc : ∀ c ∈ h, c.Clean) (i : ℕ) (hi : i < (runU h).objs.length)
    (p : Char) (n : ℤ) (hp : siExponent p = some n) :
    ∃ w' x, setCurrentUnit (runU h) i (String.ofList [p, 'A']) = (w', .ok ()) ∧
      outFactor w' i "Current" = some x ∧ x * (10 : ℝ) ^ n = 1 ∧
      outFactor w' i "Energy" = outFactor (runU h) i "Energy" ∧
      outFactor w' i "Voltage" = outFactor (runU h) i "Voltage" ∧
      ∀ v, getUnitPrefactor w' i v = getUnitPrefactor (runU h) i v := by
  obtain ⟨w', x, h1, h2, h3, h4, h5⟩ := outUnit_effect h hc i hi p n hp "Current" "A" (by simp [outputUnits])
    (by simp [SIunits])
  exact ⟨w', x, h1, h2, h3, h4 "Energy" (by simp [outputUnits]) (by decide),
    h4 "Voltage" (by simp [outputUnits]) (by decide), h5⟩

/-- C44: `setVoltageUnit` on a prefixed volt. -/
theorem C44_setVoltageUnit_effect (h : List UCall) (hc : ∀ c ∈ h, c.Clean) (i : ℕ) (hi : i < (runU h).objs.length)
    (p : Char) (n : ℤ) (hp : siExponent p = some n) :
    ∃ w' x, setVoltageUnit (runU h) i (String.ofList [p, 'V']) = (w', .ok ()) ∧
      outFactor w' i "Voltage" = some x ∧ x * (10 : ℝ) ^ n = 1 ∧
      outFactor w' i "Energy" = outFactor (runU h) i "Energy" ∧
      outFactor w' i "Current" = outFactor (runU h) i "Current" ∧
      ∀ v, getUnitPrefactor w' i v = getUnitPrefactor (runU h) i v := by
  obtain ⟨w', x, h1, h2, h3, h4, h5⟩ := outUnit_effect h hc i hi p n hp "Voltage" "V" (by simp [outputUnits])
    (by simp [SIunits])
  exact ⟨w', x, h1, h2, h3, h4 "Energy" (by simp [outputUnits]) (by decide),
    h4 "Current" (by simp [outputUnits]) (by decide), h5⟩

/-! ### C46 -/

/-- C46: whatever clean calls were made on whatever instances, a new instance starts with the units documented
for its preset name (SI for an unknown name), and creating it never fails. -/
theorem C46_new_instance (h : List UCall) (hc : ∀ c ∈ h, c.Clean) (name : String) :
    ∃ w', Units.new (runU h) name = (w', .ok ()) ∧ w'.objs.length = (runU h).objs.length + 1 ∧
      Uses w' (runU h).objs.length (startUnits name) := by
  obtain ⟨hp, o', h1, h2, h3, h4⟩ := new_spec (uinv_runU h hc) name
  refine ⟨_, h1, by simp, ?_⟩
  rw [uses_iff (o := o') (by simp)]
  exact h3 _ rfl

/-- C46: loading a preset into an instance gives it the documented units, whatever happened before. -/
theorem C46_load_preset (h : List UCall) (hc : ∀ c ∈ h, c.Clean) (i : ℕ) (hi : i < (runU h).objs.length)
    (name : String) (hn : name = "CQED1" ∨ name = "CQED2") :
    ∃ w', Units.loadPreset (runU h) i name = (w', .ok ()) ∧ Uses w' i (startUnits name) := by
  obtain ⟨o, ho⟩ : ∃ o, (runU h).objs[i]? = some o := ⟨_, List.getElem?_eq_getElem hi⟩
  have hp : ∃ p, presetTable.get? name = some p := by
    rcases hn with rfl | rfl <;> exact ⟨_, rfl⟩
  obtain ⟨p, hp⟩ := hp
  obtain ⟨o', h1, h2, h3⟩ := loadPreset_spec (uinv_runU h hc) ho hp
  refine ⟨_, h1, ?_⟩
  rw [uses_iff (o := o') (by simp [hi])]
  exact ⟨h3.F, h3.H, h3.Ohm, h3.A, h3.V, h3.Hz, h3.Wb, h3.C, h3.J, h3.K, h3.eV, h3.E, h3.Io, h3.Vo⟩

/-- C46: a call on one instance changes neither the units nor the prefactors of another, even if both were
created from the same preset. -/
theorem C46_instances_independent (h : List UCall) (hc : ∀ c ∈ h, c.Clean) (c : UCall) (hcl : c.Clean) (j : ℕ)
    (hj : c.target ≠ some j) (s : System) (hs : Uses (runU h) j s) :
    Uses (c.run (runU h)).1 j s ∧
      ∀ name, getPrefactor (c.run (runU h)).1 j name = getPrefactor (runU h) j name := by
  obtain ⟨o, ho⟩ := uses_obj hs
  have hstep := step_ok (uinv_runU h hc) c hcl
  have ho' := hstep.frame j o hj ho
  refine ⟨(uses_iff ho' s).2 (((uses_iff ho s).1 hs).mono hstep.heap), ?_⟩
  intro name
  unfold getPrefactor
  simp only [ho, ho']

/-- C46 needs no restriction to clean calls: no history whatsoever changes the preset cells. -/
theorem C46_presets_unchanged (h : List UCall) :
    (runU h).presets = Units.init.presets ∧
      ∀ (a : ℕ) (e : Entry), Units.init.heap[a]? = some e → (runU h).heap[a]? = some e := by
  have hstore : ∀ (w : World) i o, (store w i o).1.presets = w.presets ∧ (store w i o).1.heap = w.heap := by
    intro w i o; unfold store; split <;> exact ⟨rfl, rfl⟩
  have hload : ∀ (w : World) i n, (loadPreset w i n).1.presets = w.presets ∧ (loadPreset w i n).1.heap = w.heap := by
    intro w i n; unfold loadPreset
    repeat' split
    all_goals first | exact ⟨rfl, rfl⟩ | exact hstore _ _ _
  have hall : ∀ l (w : World) d, (allocAll w d l).1.presets = w.presets ∧ w.heap <+: (allocAll w d l).1.heap := by
    intro l
    induction l with
    | nil => intro w d; exact ⟨rfl, List.prefix_refl _⟩
    | cons x l ih =>
      intro w d
      obtain ⟨k, e⟩ := x
      simp only [allocAll]
      exact ⟨(ih _ _).1, List.IsPrefix.trans (List.prefix_append w.heap [e]) (ih { w with heap := w.heap ++ [e] } _).2⟩
  have hstep : ∀ (w : World) (c : UCall), (c.run w).1.presets = w.presets ∧ w.heap <+: (c.run w).1.heap := by
    intro w c
    cases c with
    | new n =>
      simp only [UCall.run, Units.new]
      have a := hall (SIunits.map fun u => (u, (⟨u, 1.0⟩ : Entry))) w []
      have b := hall [("Energy", (⟨"J", 1.0⟩ : Entry)), ("Current", ⟨"A", 1.0⟩), ("Voltage", ⟨"V", 1.0⟩)]
        (allocAll w [] (SIunits.map fun u => (u, ⟨u, 1.0⟩))).1 []
      generalize hA : allocAll w [] (SIunits.map fun u => (u, (⟨u, 1.0⟩ : Entry))) = RA at a b ⊢
      obtain ⟨w1, c⟩ := RA
      simp only at a b ⊢
      generalize hB : allocAll w1 [] [("Energy", (⟨"J", 1.0⟩ : Entry)), ("Current", ⟨"A", 1.0⟩), ("Voltage", ⟨"V", 1.0⟩)] =
        RB at b ⊢
      obtain ⟨w2, cd⟩ := RB
      simp only at b ⊢
      have hs := hstore { w2 with objs := w2.objs ++ [⟨[], [], []⟩] } w2.objs.length ⟨c, cd, []⟩
      generalize store { w2 with objs := w2.objs ++ [⟨[], [], []⟩] } w2.objs.length ⟨c, cd, []⟩ = RS at hs ⊢
      obtain ⟨w3, r⟩ := RS
      simp only at hs
      have hw : w3.presets = w.presets ∧ w.heap <+: w3.heap := by
        rw [hs.1, hs.2]
        exact ⟨b.1.trans a.1, a.2.trans b.2⟩
      cases r with
      | error e => exact hw
      | ok _ =>
        simp only
        split_ifs
        · rw [(hload _ _ _).1, (hload _ _ _).2]; exact hw
        · exact hw
    | loadPreset i n =>
      simp only [UCall.run]; rw [(hload _ _ _).1, (hload _ _ _).2]; exact ⟨rfl, List.prefix_refl _⟩
    | setUnit i s =>
      simp only [UCall.run, setUnit]
      repeat' split
      all_goals first | exact ⟨rfl, List.prefix_refl _⟩ | exact ⟨rfl, List.prefix_append _ _⟩ |
        (rw [(hstore _ _ _).1, (hstore _ _ _).2]; exact ⟨rfl, List.prefix_append _ _⟩)
    | setUnitPrefactor i u s x =>
      simp only [UCall.run, setUnitPrefactor]
      repeat' split
      all_goals first | exact ⟨rfl, List.prefix_refl _⟩ | exact ⟨rfl, List.prefix_append _ _⟩ |
        (rw [(hstore _ _ _).1, (hstore _ _ _).2]; exact ⟨rfl, List.prefix_append _ _⟩)
    | setEnergyUnit i s =>
      simp only [UCall.run, setEnergyUnit]
      repeat' split
      all_goals first | exact ⟨rfl, List.prefix_refl _⟩ | exact ⟨rfl, List.prefix_append _ _⟩ |
        (rw [(hstore _ _ _).1, (hstore _ _ _).2]; exact ⟨rfl, List.prefix_append _ _⟩)
    | setCurrentUnit i s =>
      simp only [UCall.run, setCurrentUnit, setOutUnit]
      repeat' split
      all_goals first | exact ⟨rfl, List.prefix_refl _⟩ | exact ⟨rfl, List.prefix_append _ _⟩ |
        (rw [(hstore _ _ _).1, (hstore _ _ _).2]; exact ⟨rfl, List.prefix_append _ _⟩)
    | setVoltageUnit i s =>
      simp only [UCall.run, setVoltageUnit, setOutUnit]
      repeat' split
      all_goals first | exact ⟨rfl, List.prefix_refl _⟩ | exact ⟨rfl, List.prefix_append _ _⟩ |
        (rw [(hstore _ _ _).1, (hstore _ _ _).2]; exact ⟨rfl, List.prefix_append _ _⟩)
  have hrun : ∀ (h : List UCall) (w : World), (h.foldl (fun w c => (c.run w).1) w).presets = w.presets ∧
      w.heap <+: (h.foldl (fun w c => (c.run w).1) w).heap := by
    intro h
    induction h with
    | nil => intro w; exact ⟨rfl, List.prefix_refl _⟩
    | cons c h ih =>
      intro w
      exact ⟨(ih _).1.trans (hstep w c).1, (hstep w c).2.trans (ih _).2⟩
  refine ⟨(hrun h _).1, fun a e he => getElem?_prefix (hrun h Units.init).2 he⟩

/-! ### C45 -/

/-- C45 (proved part): the physical meaning of every prefactor, for every reachable choice of units.  A value `x`
given in units with factor `u` is the SI value `x * u`; an SI energy `e` is reported as `e * E`.  Missing: the
Josephson and phase-slip prefactors use the factors of Wb and C where the physical formula has the flux quantum
and the Cooper-pair charge, so they are right only in units where these agree. -/
theorem C45_physical_partial (h : List UCall) (hc : ∀ c ∈ h, c.Clean) (i : ℕ) (s : System) (hs : Uses (runU h) i s) :
    ∃ Ec El Ej Ep Freq Impe FlxOsc ChgOsc Vop IopL IopJ Cpl : ℝ,
      (getPrefactor (runU h) i "Ec" = .ok Ec ∧
        ∀ q c, c ≠ 0 → Ec * (q ^ 2 / c) = ((q * s.C) ^ 2 / (c * s.F)) * s.E) ∧
      (getPrefactor (runU h) i "El" = .ok El ∧
        ∀ f l, l ≠ 0 → El * (f ^ 2 / l) = ((f * s.Wb) ^ 2 / (l * s.H)) * s.E) ∧
      (getPrefactor (runU h) i "Ej" = .ok Ej ∧
        (s.Wb = pc_phi0 → ∀ ic, Ej * ic = ((ic * s.A) * pc_phi0 / (2 * Real.pi)) * s.E)) ∧
      (getPrefactor (runU h) i "Ep" = .ok Ep ∧
        (s.C = 2 * pc_e → ∀ vc, Ep * vc = ((vc * s.V) * (2 * pc_e) / (2 * Real.pi)) * s.E)) ∧
      (getPrefactor (runU h) i "Freq" = .ok Freq ∧
        ∀ l c, 0 < l → 0 < c → Freq * (1 / Real.sqrt (l * c)) * s.Hz =
          1 / (2 * Real.pi * Real.sqrt ((l * s.H) * (c * s.F)))) ∧
      (getPrefactor (runU h) i "Impe" = .ok Impe ∧
        ∀ l c, 0 < l → 0 < c → Impe * Real.sqrt (l / c) = Real.sqrt ((l * s.H) / (c * s.F))) ∧
      (getPrefactor (runU h) i "FlxOsc" = .ok FlxOsc ∧
        ∀ Z, 0 ≤ Z → (Real.sqrt (Z / 2) * FlxOsc) * s.Wb = Real.sqrt (pc_hbar * Z / 2)) ∧
      (getPrefactor (runU h) i "ChgOsc" = .ok ChgOsc ∧
        ∀ Z, 0 < Z → (Real.sqrt (1 / (2 * Z)) * ChgOsc) * s.C = Real.sqrt (pc_hbar / (2 * Z))) ∧
      (getPrefactor (runU h) i "Vop" = .ok Vop ∧
        ∀ q c, c ≠ 0 → Vop * (q / c) = ((q * s.C) / (c * s.F)) * s.Vo) ∧
      (getPrefactor (runU h) i "IopL" = .ok IopL ∧
        ∀ f l, l ≠ 0 → IopL * (f / l) = ((f * s.Wb) / (l * s.H)) * s.Io) ∧
      (getPrefactor (runU h) i "IopJ" = .ok IopJ ∧ ∀ ic, IopJ * ic = (ic * s.A) * s.Io) ∧
      (getPrefactor (runU h) i "ChgOscCpl" = .ok Cpl ∧
        ∀ q c z, 0 < c → 0 < z → Cpl * (q / (c * Real.sqrt z)) =
          (Real.sqrt pc_hbar * (q * s.C) / ((c * s.F) * Real.sqrt (z * Real.sqrt (s.H / s.F)))) * s.E) := by
  have hinv := uinv_runU h hc
  obtain ⟨pF, pH, pOhm, pA, pV, pHz, pWb, pC, pJ, pK, peV, pE, pIo, pVo⟩ := uses_pos hinv hs
  obtain ⟨h1, h2, h3, h4, h5, h6, h7, h8, h9, h10, h11, h12, h13, h14, h15, h16⟩ := uses_consistent hinv hs
  have hpi := Real.pi_pos
  refine ⟨_, _, _, _, _, _, _, _, _, _, _, _, ⟨h1, ?_⟩, ⟨h2, ?_⟩, ⟨h3, ?_⟩, ⟨h4, ?_⟩, ⟨h5, ?_⟩, ⟨h6, ?_⟩, ⟨h7, ?_⟩,
    ⟨h8, ?_⟩, ⟨h9, ?_⟩, ⟨h10, ?_⟩, ⟨h11, ?_⟩, ⟨h15, ?_⟩⟩
  · intro q c hc0; field_simp
  · intro f l hl; field_simp
  · intro hW ic; rw [hW]; ring
  · intro hC vc; rw [hC]; ring
  · intro l c hl hc0
    have e1 : Real.sqrt ((l * s.H) * (c * s.F)) = Real.sqrt (l * c) * Real.sqrt (s.F * s.H) := by
      rw [← Real.sqrt_mul (by positivity)]; congr 1; ring
    have : 0 < Real.sqrt (l * c) := Real.sqrt_pos.2 (by positivity)
    have : 0 < Real.sqrt (s.F * s.H) := Real.sqrt_pos.2 (by positivity)
    rw [e1]; field_simp
  · intro l c hl hc0
    rw [← Real.sqrt_mul (by positivity)]
    congr 1; field_simp
  · intro Z hZ
    rw [show pc_hbar * Z / 2 = (Z / 2) * pc_hbar by ring, Real.sqrt_mul (by positivity)]
    field_simp
  · intro Z hZ
    rw [show pc_hbar / (2 * Z) = (1 / (2 * Z)) * pc_hbar by ring, Real.sqrt_mul (by positivity)]
    field_simp
  · intro q c hc0; field_simp
  · intro f l hl; field_simp
  · intro ic; ring
  · intro q c z hc0 hz
    have e1 : Real.sqrt (z * Real.sqrt (s.H / s.F)) = Real.sqrt z * (s.H / s.F) ^ (1 / 4 : ℝ) := by
      rw [Real.sqrt_mul hz.le]
      congr 1
      rw [Real.sqrt_eq_rpow, Real.sqrt_eq_rpow, ← Real.rpow_mul (by positivity)]
      norm_num
    have : 0 < (s.H / s.F) ^ (1 / 4 : ℝ) := Real.rpow_pos_of_pos (by positivity) _
    have : 0 < Real.sqrt z := Real.sqrt_pos.2 hz
    rw [e1]; field_simp

/-- C45 (proved part): the same charge on the same capacitor, described in the units of any two instances, has the
same energy in joule; likewise a flux in an inductor, and a critical current if both use the same flux unit. -/
theorem C45_energies_agree_partial (h : List UCall) (hc : ∀ c ∈ h, c.Clean) (i j : ℕ) (s t : System)
    (hs : Uses (runU h) i s) (ht : Uses (runU h) j t) :
    (∀ q q' c c' Ec Ec', c ≠ 0 → q * s.C = q' * t.C → c * s.F = c' * t.F →
      getPrefactor (runU h) i "Ec" = .ok Ec → getPrefactor (runU h) j "Ec" = .ok Ec' →
      Ec * (q ^ 2 / c) / s.E = Ec' * (q' ^ 2 / c') / t.E) ∧
    (∀ f f' l l' El El', l ≠ 0 → f * s.Wb = f' * t.Wb → l * s.H = l' * t.H →
      getPrefactor (runU h) i "El" = .ok El → getPrefactor (runU h) j "El" = .ok El' →
      El * (f ^ 2 / l) / s.E = El' * (f' ^ 2 / l') / t.E) ∧
    (∀ ic ic' Ej Ej', s.Wb = t.Wb → ic * s.A = ic' * t.A →
      getPrefactor (runU h) i "Ej" = .ok Ej → getPrefactor (runU h) j "Ej" = .ok Ej' →
      Ej * ic / s.E = Ej' * ic' / t.E) := by
  have hinv := uinv_runU h hc
  obtain ⟨pF, pH, pOhm, pA, pV, pHz, pWb, pC, pJ, pK, peV, pE, pIo, pVo⟩ := uses_pos hinv hs
  obtain ⟨pF', pH', _, _, _, _, pWb', _, _, _, _, pE', _, _⟩ := uses_pos hinv ht
  obtain ⟨h1, h2, h3, _⟩ := uses_consistent hinv hs
  obtain ⟨k1, k2, k3, _⟩ := uses_consistent hinv ht
  refine ⟨?_, ?_, ?_⟩
  · intro q q' c c' Ec Ec' hc0 hq hcc e1 e2
    rw [h1] at e1; rw [k1] at e2; cases e1; cases e2
    have hc1 : c' ≠ 0 := by
      rintro rfl
      exact (mul_ne_zero hc0 pF.ne') (by rw [hcc]; simp)
    have a : s.E * s.C ^ 2 / s.F * (q ^ 2 / c) / s.E = (q * s.C) ^ 2 / (c * s.F) := by field_simp
    have b : t.E * t.C ^ 2 / t.F * (q' ^ 2 / c') / t.E = (q' * t.C) ^ 2 / (c' * t.F) := by field_simp
    rw [a, b, hq, hcc]
  · intro f f' l l' El El' hl hq hll e1 e2
    rw [h2] at e1; rw [k2] at e2; cases e1; cases e2
    have hc1 : l' ≠ 0 := by
      rintro rfl
      exact (mul_ne_zero hl pH.ne') (by rw [hll]; simp)
    have a : s.E * s.Wb ^ 2 / s.H * (f ^ 2 / l) / s.E = (f * s.Wb) ^ 2 / (l * s.H) := by field_simp
    have b : t.E * t.Wb ^ 2 / t.H * (f' ^ 2 / l') / t.E = (f' * t.Wb) ^ 2 / (l' * t.H) := by field_simp
    rw [a, b, hq, hll]
  · intro ic ic' Ej Ej' hW hi e1 e2
    rw [h3] at e1; rw [k3] at e2; cases e1; cases e2
    have a : s.E * s.Wb * s.A / (2 * Real.pi) * ic / s.E = (ic * s.A) * s.Wb / (2 * Real.pi) := by field_simp
    have b : t.E * t.Wb * t.A / (2 * Real.pi) * ic' / t.E = (ic' * t.A) * t.Wb / (2 * Real.pi) := by field_simp
    rw [a, b, hW, hi]

/-! ### Concrete histories and the false readings -/

/-- Two instances of the same preset; one gets micro-henries and a new energy unit, with a failing call between. -/
noncomputable def demoU : List UCall :=
  [.new "CQED1", .new "CQED1", .setUnit 0 "uH", .setUnit 0 "parsec", .setEnergyUnit 0 "meV", .setUnitPrefactor 1 "Wb" "Wb" 1]

theorem demoU_clean : ∀ c ∈ demoU, c.Clean := by
  intro c hc
  simp only [demoU, List.mem_cons, List.not_mem_nil, or_false] at hc
  rcases hc with rfl | rfl | rfl | rfl | rfl | rfl <;> simp [UCall.Clean]

theorem new_length {h : List UCall} (hc : ∀ c ∈ h, c.Clean) (name : String) :
    (runU (h ++ [.new name])).objs.length = (runU h).objs.length + 1 := by
  obtain ⟨w', h1, h2, _⟩ := C46_new_instance h hc name
  have : runU (h ++ [.new name]) = w' := by
    have e : runU (h ++ [.new name]) = (Units.new (runU h) name).1 := by
      unfold runU
      rw [List.foldl_append]; rfl
    rw [e, h1]
  rw [this, h2]

/-- The two-instance history creates instances 0 and 1. -/
example : (runU [.new "CQED1", .new "CQED1"]).objs.length = 2 ∧
    Uses (runU [.new "CQED1", .new "CQED1"]) 1 CQED1 := by
  have h1 : (runU ([] ++ [.new "CQED1"])).objs.length = 1 := by
    rw [new_length (by simp)]; simp [runU, Units.init]
  have hcl : ∀ c ∈ [UCall.new "CQED1"], c.Clean := by simp [UCall.Clean]
  obtain ⟨w', h2, h3, h4⟩ := C46_new_instance [.new "CQED1"] hcl "CQED1"
  have : runU [.new "CQED1", .new "CQED1"] = w' := by
    unfold runU at *
    simp only [List.foldl_cons, List.foldl_nil, UCall.run] at *
    rw [h2]
  rw [this]
  simp only [List.nil_append] at h1
  rw [h1] at h3 h4
  exact ⟨h3, by simpa [startUnits] using h4⟩

/-- The failing call of `demoU` fails, because no unit is called "arsec". -/
example (w : World) : (setUnit w 0 "parsec").2 ≠ .ok () := by
  unfold setUnit
  cases w.objs[0]? with
  | none => simp
  | some o =>
    simp only
    rw [if_neg (by decide)]
    have : ("parsec" : String).toList = 'p' :: "arsec".toList := by decide
    rw [this]
    simp only
    rw [if_neg (by decide)]
    simp

/-- After `new`, the state of the only instance is known. -/
theorem one_instance (name : String) :
    ∃ w o, runU [.new name] = w ∧ UInv w ∧ w.objs = [o] ∧ Holds w o (startUnits name) ∧ ObjInv w o := by
  obtain ⟨hp, o', h1, h2, h3, h4⟩ := new_spec uinv_init name
  refine ⟨_, o', ?_, h4, by simp [Units.init], h3 _ rfl, h4.objs 0 o' (by simp [Units.init])⟩
  unfold runU
  simp only [List.foldl_cons, List.foldl_nil, UCall.run]
  rw [h1]

/-- C44 is false for units without prefix: `setUnit("F")` raises, but has changed the unit and left all
prefactors as they were. -/
theorem C44_false_bare_unit :
    ∃ w' : World, setUnit (runU [.new "CQED1"]) 0 "F" = (w', .error .attributeError) ∧
      getUnitPrefactor (runU [.new "CQED1"]) 0 "F" = .ok 1e-15 ∧
      getUnitPrefactor w' 0 "F" = .ok 1 ∧
      (∀ name, getPrefactor w' 0 name = getPrefactor (runU [.new "CQED1"]) 0 name) ∧
      ∀ s, Uses w' 0 s → ¬ Consistent w' 0 s := by
  obtain ⟨w, o, hw, hinv, hobj, hH, ho⟩ := one_instance "CQED1"
  rw [hw]
  have ho0 : w.objs[0]? = some o := by rw [hobj]; rfl
  have hcons := uses_consistent hinv ((uses_iff ho0 _).2 hH)
  have hrun : setUnit w 0 "F" = ({ (assignC w o "F" ⟨"F", 1.0⟩).1 with objs := w.objs.set 0 (assignC w o "F" ⟨"F", 1.0⟩).2 },
      .error .attributeError) := by
    unfold setUnit
    simp only [ho0]
    rw [if_pos (by simp [SIunits])]
    rfl
  have hget : ({ (assignC w o "F" ⟨"F", 1.0⟩).1 with objs := w.objs.set 0 (assignC w o "F" ⟨"F", 1.0⟩).2 } : World).objs[0]? =
      some (assignC w o "F" ⟨"F", 1.0⟩).2 := by simp [hobj]
  have hF : getUnitPrefactor { (assignC w o "F" ⟨"F", 1.0⟩).1 with objs := w.objs.set 0 (assignC w o "F" ⟨"F", 1.0⟩).2 } 0 "F" = .ok 1 := by
    apply gup_eq hget (by simp [SIunits])
    have := factor_assignC (e := ⟨"F", 1.0⟩) (u := "F") "F" hH.F
    rw [if_pos rfl] at this
    refine Eq.trans this ?_
    norm_num
  have hC : getUnitPrefactor { (assignC w o "F" ⟨"F", 1.0⟩).1 with objs := w.objs.set 0 (assignC w o "F" ⟨"F", 1.0⟩).2 } 0 "C" = .ok CQED1.C := by
    apply gup_eq hget (by simp [SIunits])
    have := factor_assignC (e := ⟨"F", 1.0⟩) (u := "F") "C" hH.C
    rw [if_neg (by decide)] at this
    simp only [startUnits, if_true] at this
    exact this
  have hE : outFactor { (assignC w o "F" ⟨"F", 1.0⟩).1 with objs := w.objs.set 0 (assignC w o "F" ⟨"F", 1.0⟩).2 } 0 "Energy" = some CQED1.E := by
    rw [of_eq hget]
    have := factor_mono (w := w) (w' := (assignC w o "F" ⟨"F", 1.0⟩).1) (List.prefix_append _ _) hH.E
    simp only [startUnits, if_true] at this
    exact this
  have hpre : ∀ name, getPrefactor { (assignC w o "F" ⟨"F", 1.0⟩).1 with objs := w.objs.set 0 (assignC w o "F" ⟨"F", 1.0⟩).2 } 0 name =
      getPrefactor w 0 name := by
    intro name
    unfold getPrefactor
    simp only [hget, ho0]
    rfl
  refine ⟨_, hrun, ?_, hF, hpre, ?_⟩
  · rw [gup_eq ho0 (by simp [SIunits]) hH.F]; simp [startUnits, CQED1]
  · intro s hs hcs
    have h1 := hcs.1
    rw [hpre, hcons.1] at h1
    have e1 : s.F = 1 := by have := hs.1; rw [hF] at this; injection this with this; exact this.symm
    have e2 : s.C = CQED1.C := by
      have := hs.2.2.2.2.2.2.2.1; rw [hC] at this; injection this with this; exact this.symm
    have e3 : s.E = CQED1.E := by
      have := hs.2.2.2.2.2.2.2.2.2.2.2.1; rw [hE] at this; injection this with this; exact this.symm
    rw [e1, e2, e3] at h1
    injection h1 with h1
    have hp := cqed1_pos
    have pC : 0 < CQED1.C := hp.2.2.2.2.2.2.2.1
    have pE : 0 < CQED1.E := hp.2.2.2.2.2.2.2.2.2.2.2.1
    have pp : 0 < CQED1.E * CQED1.C ^ 2 := by positivity
    have hf : (startUnits "CQED1") = CQED1 := by simp [startUnits]
    rw [hf] at h1
    have hFv : CQED1.F = 1e-15 := rfl
    rw [hFv] at h1
    have h2 : CQED1.E * CQED1.C ^ 2 * (1e15 - 1) = 0 := by
      have : CQED1.E * CQED1.C ^ 2 / 1e-15 = CQED1.E * CQED1.C ^ 2 * 1e15 := by
        rw [div_eq_mul_inv]; norm_num
      rw [this] at h1
      linear_combination h1
    rcases mul_eq_zero.1 h2 with h3 | h3
    · exact pp.ne' h3
    · norm_num at h3

/-- C44 is false for a zero factor: `setUnitPrefactor("F", …, 0)` raises, but has changed the unit. -/
theorem C44_false_zero_factor :
    ∃ w' : World, setUnitPrefactor (runU [.new "CQED1"]) 0 "F" "zF" 0 = (w', .error .zeroDivision) ∧
      getUnitPrefactor (runU [.new "CQED1"]) 0 "F" = .ok 1e-15 ∧ getUnitPrefactor w' 0 "F" = .ok 0 := by
  obtain ⟨w, o, hw, hinv, hobj, hH, ho⟩ := one_instance "CQED1"
  rw [hw]
  have ho0 : w.objs[0]? = some o := by rw [hobj]; rfl
  have hF0 : factor (assignC w o "F" ⟨"zF", 0⟩).1 (assignC w o "F" ⟨"zF", 0⟩).2.c "F" = some 0 := by
    have := factor_assignC (e := ⟨"zF", 0⟩) (u := "F") "F" hH.F
    rwa [if_pos rfl] at this
  have hkeep : ∀ u x, u ≠ "F" → factor w o.c u = some x →
      factor (assignC w o "F" ⟨"zF", 0⟩).1 (assignC w o "F" ⟨"zF", 0⟩).2.c u = some x := by
    intro u x hu hx
    have := factor_assignC (e := ⟨"zF", 0⟩) (u := "F") u hx
    rwa [if_neg hu] at this
  have hkeep' : ∀ u x, factor w o.cd u = some x →
      factor (assignC w o "F" ⟨"zF", 0⟩).1 (assignC w o "F" ⟨"zF", 0⟩).2.cd u = some x :=
    fun u x hx => factor_mono (w := w) (List.prefix_append _ _) hx
  have hcomp : computePrefactors (assignC w o "F" ⟨"zF", 0⟩).1 (assignC w o "F" ⟨"zF", 0⟩).2 = .error .zeroDivision := by
    unfold computePrefactors
    rw [hF0, hkeep "H" _ (by decide) hH.H, hkeep "A" _ (by decide) hH.A, hkeep "V" _ (by decide) hH.V,
      hkeep "Hz" _ (by decide) hH.Hz, hkeep "Wb" _ (by decide) hH.Wb, hkeep "C" _ (by decide) hH.C,
      hkeep' _ _ hH.E, hkeep' _ _ hH.Io, hkeep' _ _ hH.Vo]
    simp
  refine ⟨{ (assignC w o "F" ⟨"zF", 0⟩).1 with objs := w.objs.set 0 (assignC w o "F" ⟨"zF", 0⟩).2 }, ?_, ?_, ?_⟩
  · unfold setUnitPrefactor
    simp only [ho0]
    rw [if_pos (by simp [SIunits])]
    unfold store
    rw [hcomp]
    rfl
  · rw [gup_eq ho0 (by simp [SIunits]) hH.F]; simp [startUnits, CQED1]
  · exact gup_eq (o := (assignC w o "F" ⟨"zF", 0⟩).2) (by simp [hobj]) (by simp [SIunits]) hF0

/-- C45 is false for Josephson energies: in SI units (the default of an unnamed instance) the energy of a
junction with critical current `ic` ampere comes out as `ic / 2π` joule, instead of `ic * phi0 / 2π`. -/
theorem C45_false_josephson :
    ∃ Ej, Uses (runU [.new "SI"]) 0 SI ∧ getPrefactor (runU [.new "SI"]) 0 "Ej" = .ok Ej ∧
      ∀ ic : ℝ, 0 < ic → Ej * ic = ic / (2 * Real.pi) * SI.E ∧ Ej * ic ≠ (ic * SI.A) * pc_phi0 / (2 * Real.pi) * SI.E := by
  obtain ⟨w, o, hw, hinv, hobj, hH, ho⟩ := one_instance "SI"
  rw [hw]
  have ho0 : w.objs[0]? = some o := by rw [hobj]; rfl
  have hst : startUnits "SI" = SI := by simp [startUnits]
  rw [hst] at hH
  have hu := (uses_iff ho0 _).2 hH
  have hcons := uses_consistent hinv hu
  refine ⟨_, hu, hcons.2.2.1, ?_⟩
  intro ic hic
  have hpi := Real.pi_pos
  constructor
  · simp only [SI]; field_simp
  · simp only [SI]
    intro h
    have h1 : (1 - pc_phi0) * ic = 0 := by field_simp at h; rw [← h]; ring
    rcases mul_eq_zero.1 h1 with h2 | h2
    · unfold pc_phi0 at h2; norm_num at h2
    · exact hic.ne' h2

end Verif.Props
