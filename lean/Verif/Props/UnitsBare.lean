import Verif.Props.Units

/-!
# C44: output units without a prefix, and which output units are accepted
-/

namespace Verif.Props

open Verif Verif.Units Verif.Spec

theorem parseOut_bare {u : String} (hu : u ∈ SIunits) : parseOut u = .ok ('0', u) := by
  unfold parseOut
  exact if_pos hu

theorem parseOut_ok {s : String} {p : Char} {u : String} (h : parseOut s = .ok (p, u)) : (s = u ∧ p = '0' ∧ u ∈ SIunits) ∨ (s = String.ofList (p :: u.toList) ∧ u ∈ SIunits) := by
  unfold parseOut at h
  split at h
  · cases h
    exact Or.inl ⟨rfl, rfl, by assumption⟩
  · split at h
    · cases h
    · rename_i q rest hs
      split at h
      · cases h
        right
        refine ⟨?_, by assumption⟩
        rw [String.toList_ofList, ← hs, String.ofList_toList]
      · cases h

theorem zero_prefix : prefixes.get? '0' = some 1 := by
  rw [prefixes_spec]
  simp [siExponent]

/-- **C44** `setEnergyUnit` on an energy unit without a prefix: one such unit is reported as one; nothing else changes. -/
theorem C44_setEnergyUnit_bare (h : List UCall) (hc : ∀ c ∈ h, c.Clean) (i : ℕ) (hi : i < (runU h).objs.length) (u : String) (b : ℝ) (hb : joules u = some b) :
    ∃ w' x, setEnergyUnit (runU h) i u = (w', .ok ()) ∧ outFactor w' i "Energy" = some x ∧ x * b = 1 ∧
      outFactor w' i "Current" = outFactor (runU h) i "Current" ∧ outFactor w' i "Voltage" = outFactor (runU h) i "Voltage" ∧
      ∀ v, getUnitPrefactor w' i v = getUnitPrefactor (runU h) i v := by
  have hinv := uinv_runU h hc
  obtain ⟨o, ho⟩ : ∃ o, (runU h).objs[i]? = some o := ⟨_, List.getElem?_eq_getElem hi⟩
  have hbp : 0 < b := energyBase_pos (by rw [energyBase_spec]; exact hb)
  have hrun : setEnergyUnit (runU h) i u = store (assignCd (runU h) o "Energy" ⟨u, 1 / (b * 1)⟩).1 i (assignCd (runU h) o "Energy" ⟨u, 1 / (b * 1)⟩).2 := by
    unfold setEnergyUnit
    simp only [ho, parseOut_bare (joules_mem hb), energyBase_spec, hb, zero_prefix]
  obtain ⟨h1, h2, h3, h4⟩ := assignCd_effect hinv ho (u := "Energy") (by simp [outputUnits]) (e := ⟨u, 1 / (b * 1)⟩) (by simp only; positivity)
  refine ⟨_, _, by rw [hrun]; exact Prod.ext rfl h1, h2, by simp only; field_simp, ?_, ?_, h4⟩
  · exact h3 "Current" (by simp [outputUnits]) (by decide)
  · exact h3 "Voltage" (by simp [outputUnits]) (by decide)

theorem outUnit_bare (h : List UCall) (hc : ∀ c ∈ h, c.Clean) (i : ℕ) (hi : i < (runU h).objs.length) (key base : String) (hk : key ∈ outputUnits) (hb : base ∈ SIunits) :
    ∃ w', setOutUnit key base (runU h) i base = (w', .ok ()) ∧ outFactor w' i key = some 1 ∧
      (∀ v ∈ outputUnits, v ≠ key → outFactor w' i v = outFactor (runU h) i v) ∧ ∀ v, getUnitPrefactor w' i v = getUnitPrefactor (runU h) i v := by
  have hinv := uinv_runU h hc
  obtain ⟨o, ho⟩ : ∃ o, (runU h).objs[i]? = some o := ⟨_, List.getElem?_eq_getElem hi⟩
  have hrun : setOutUnit key base (runU h) i base = store (assignCd (runU h) o key ⟨base, 1 / 1⟩).1 i (assignCd (runU h) o key ⟨base, 1 / 1⟩).2 := by
    unfold setOutUnit
    simp only [ho, parseOut_bare hb, zero_prefix, if_true]
  obtain ⟨h1, h2, h3, h4⟩ := assignCd_effect hinv ho hk (e := ⟨base, 1 / 1⟩) (by norm_num)
  exact ⟨_, by rw [hrun]; exact Prod.ext rfl h1, by rw [h2]; norm_num, h3, h4⟩

/-- **C44** `setCurrentUnit("A")` and `setVoltageUnit("V")`: amperes and volts are reported as they are; nothing else changes. -/
theorem C44_current_voltage_bare (h : List UCall) (hc : ∀ c ∈ h, c.Clean) (i : ℕ) (hi : i < (runU h).objs.length) :
    (∃ w', setCurrentUnit (runU h) i "A" = (w', .ok ()) ∧ outFactor w' i "Current" = some 1 ∧ outFactor w' i "Energy" = outFactor (runU h) i "Energy" ∧
      outFactor w' i "Voltage" = outFactor (runU h) i "Voltage" ∧ ∀ v, getUnitPrefactor w' i v = getUnitPrefactor (runU h) i v) ∧
    ∃ w', setVoltageUnit (runU h) i "V" = (w', .ok ()) ∧ outFactor w' i "Voltage" = some 1 ∧ outFactor w' i "Energy" = outFactor (runU h) i "Energy" ∧
      outFactor w' i "Current" = outFactor (runU h) i "Current" ∧ ∀ v, getUnitPrefactor w' i v = getUnitPrefactor (runU h) i v := by
  obtain ⟨w1, a1, a2, a3, a4⟩ := outUnit_bare h hc i hi "Current" "A" (by simp [outputUnits]) (by simp [SIunits])
  obtain ⟨w2, b1, b2, b3, b4⟩ := outUnit_bare h hc i hi "Voltage" "V" (by simp [outputUnits]) (by simp [SIunits])
  exact ⟨⟨w1, a1, a2, a3 "Energy" (by simp [outputUnits]) (by decide), a3 "Voltage" (by simp [outputUnits]) (by decide), a4⟩,
    ⟨w2, b1, b2, b3 "Energy" (by simp [outputUnits]) (by decide), b3 "Current" (by simp [outputUnits]) (by decide), b4⟩⟩

/-- **C44** `setEnergyUnit` accepts exactly the energy units, alone or after one prefix letter; any other text is refused and changes nothing. -/
theorem C44_setEnergyUnit_accepts (h : List UCall) (hc : ∀ c ∈ h, c.Clean) (i : ℕ) (hi : i < (runU h).objs.length) (s : String) :
    ((setEnergyUnit (runU h) i s).2 = .ok () ↔ ∃ u b, joules u = some b ∧ (s = u ∨ ∃ p n, siExponent p = some n ∧ s = String.ofList (p :: u.toList))) ∧
    ((setEnergyUnit (runU h) i s).2 ≠ .ok () → (setEnergyUnit (runU h) i s).1 = runU h) := by
  have key : (setEnergyUnit (runU h) i s).2 = .ok () ∨ (setEnergyUnit (runU h) i s).1 = runU h := by
    cases hr : (setEnergyUnit (runU h) i s).2 with
    | ok u => exact Or.inl rfl
    | error e => exact Or.inr (C44_failed_call_partial h hc (.setEnergyUnit i s) trivial e hr)
  refine ⟨⟨?_, ?_⟩, fun hne => key.resolve_left hne⟩
  · intro hok
    obtain ⟨o, ho⟩ : ∃ o, (runU h).objs[i]? = some o := ⟨_, List.getElem?_eq_getElem hi⟩
    unfold setEnergyUnit at hok
    simp only [ho] at hok
    split at hok
    · cases hok
    rename_i p u hp
    split at hok
    · cases hok
    rename_i b hb
    split at hok
    · cases hok
    rename_i x hx
    rw [energyBase_spec] at hb
    refine ⟨u, b, hb, ?_⟩
    rcases parseOut_ok hp with ⟨rfl, _, _⟩ | ⟨rfl, _⟩
    · exact Or.inl rfl
    · rw [prefixes_spec] at hx
      cases hn : siExponent p with
      | none => rw [hn] at hx; cases hx
      | some n => exact Or.inr ⟨p, n, hn, rfl⟩
  · rintro ⟨u, b, hb, rfl | ⟨p, n, hp, rfl⟩⟩
    · obtain ⟨w', x, h1, _⟩ := C44_setEnergyUnit_bare h hc i hi s b hb
      rw [h1]
    · obtain ⟨w', x, h1, _⟩ := C44_setEnergyUnit_effect h hc i hi p n hp u b hb
      rw [h1]

/-- Kelvin and GHz are accepted, farad and an empty text are not. -/
example : joules "K" = some pc_kB ∧ joules "Hz" = some pc_h ∧ siExponent 'G' = some 9 ∧ "GHz" = String.ofList ('G' :: "Hz".toList) ∧ joules "F" = none :=
  ⟨rfl, rfl, rfl, by decide, rfl⟩

end Verif.Props
