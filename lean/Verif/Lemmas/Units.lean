import Verif.Spec.Units
import Mathlib.Tactic

/-!
# Lemmas on unit systems
-/

namespace Verif.Units

open Verif Verif.Spec

theorem getElem?_prefix {α : Type} {l l' : List α} (h : l <+: l') {a : ℕ} {x : α} (hx : l[a]? = some x) :
    l'[a]? = some x := by
  obtain ⟨t, rfl⟩ := h
  rw [List.getElem?_append_left (List.getElem?_eq_some_iff.1 hx).1]; exact hx

theorem factor_mono {w w' : World} (h : w.heap <+: w'.heap) {d : Dict String ℕ} {k : String} {x : ℝ}
    (hx : factor w d k = some x) : factor w' d k = some x := by
  unfold factor at *
  cases hd : d.get? k with
  | none => rw [hd] at hx; cases hx
  | some a =>
    rw [hd] at hx
    simp only [Option.bind_some, Option.map_eq_some_iff] at hx ⊢
    obtain ⟨e, he, hf⟩ := hx
    exact ⟨e, getElem?_prefix h he, hf⟩

theorem factor_congr {w : World} {d d' : Dict String ℕ} {k : String} (h : d.get? k = d'.get? k) :
    factor w d k = factor w d' k := by unfold factor; rw [h]

/-- Every unit has a positive factor. -/
structure Valid (w : World) (o : UObj) : Prop where
  c : ∀ u ∈ SIunits, ∃ x, 0 < x ∧ factor w o.c u = some x
  cd : ∀ u ∈ outputUnits, ∃ x, 0 < x ∧ factor w o.cd u = some x

theorem Valid.mono {w w' : World} {o : UObj} (h : w.heap <+: w'.heap) (hv : Valid w o) : Valid w' o :=
  ⟨fun u hu => let ⟨x, hx, hf⟩ := hv.c u hu; ⟨x, hx, factor_mono h hf⟩,
   fun u hu => let ⟨x, hx, hf⟩ := hv.cd u hu; ⟨x, hx, factor_mono h hf⟩⟩

/-- The factors of an instance, as a unit system. -/
theorem Valid.system {w : World} {o : UObj} (hv : Valid w o) : ∃ s : System, s.Pos ∧
    factor w o.c "F" = some s.F ∧ factor w o.c "H" = some s.H ∧ factor w o.c "Ohm" = some s.Ohm ∧
    factor w o.c "A" = some s.A ∧ factor w o.c "V" = some s.V ∧ factor w o.c "Hz" = some s.Hz ∧
    factor w o.c "Wb" = some s.Wb ∧ factor w o.c "C" = some s.C ∧ factor w o.c "J" = some s.J ∧
    factor w o.c "K" = some s.K ∧ factor w o.c "eV" = some s.eV ∧ factor w o.cd "Energy" = some s.E ∧
    factor w o.cd "Current" = some s.Io ∧ factor w o.cd "Voltage" = some s.Vo := by
  obtain ⟨F, pF, hF⟩ := hv.c "F" (by simp [SIunits])
  obtain ⟨H, pH, hH⟩ := hv.c "H" (by simp [SIunits])
  obtain ⟨Ohm, pOhm, hOhm⟩ := hv.c "Ohm" (by simp [SIunits])
  obtain ⟨A, pA, hA⟩ := hv.c "A" (by simp [SIunits])
  obtain ⟨V, pV, hV⟩ := hv.c "V" (by simp [SIunits])
  obtain ⟨Hz, pHz, hHz⟩ := hv.c "Hz" (by simp [SIunits])
  obtain ⟨Wb, pWb, hWb⟩ := hv.c "Wb" (by simp [SIunits])
  obtain ⟨C, pC, hC⟩ := hv.c "C" (by simp [SIunits])
  obtain ⟨J, pJ, hJ⟩ := hv.c "J" (by simp [SIunits])
  obtain ⟨K, pK, hK⟩ := hv.c "K" (by simp [SIunits])
  obtain ⟨eV, peV, heV⟩ := hv.c "eV" (by simp [SIunits])
  obtain ⟨E, pE, hE⟩ := hv.cd "Energy" (by simp [outputUnits])
  obtain ⟨Io, pIo, hIo⟩ := hv.cd "Current" (by simp [outputUnits])
  obtain ⟨Vo, pVo, hVo⟩ := hv.cd "Voltage" (by simp [outputUnits])
  exact ⟨⟨F, H, Ohm, A, V, Hz, Wb, C, J, K, eV, E, Io, Vo⟩,
    ⟨pF, pH, pOhm, pA, pV, pHz, pWb, pC, pJ, pK, peV, pE, pIo, pVo⟩,
    hF, hH, hOhm, hA, hV, hHz, hWb, hC, hJ, hK, heV, hE, hIo, hVo⟩

/-- With positive factors the prefactors can be computed. -/
theorem Valid.compute {w : World} {o : UObj} (hv : Valid w o) : ∃ p, computePrefactors w o = .ok p := by
  obtain ⟨s, hp, hF, hH, _, hA, hV, hHz, hWb, hC, _, _, _, hE, hIo, hVo⟩ := hv.system
  unfold computePrefactors
  rw [hF, hH, hA, hV, hHz, hWb, hC, hE, hIo, hVo]
  simp only
  rw [if_neg (by rintro (h | h) <;> [exact hp.1.ne' h; exact hp.2.1.ne' h])]
  exact ⟨_, rfl⟩

theorem computePrefactors_congr {w w' : World} {o o' : UObj} (hv : Valid w o)
    (hc : ∀ u ∈ SIunits, factor w' o'.c u = factor w o.c u)
    (hcd : ∀ u ∈ outputUnits, factor w' o'.cd u = factor w o.cd u) :
    computePrefactors w' o' = computePrefactors w o := by
  unfold computePrefactors
  rw [hc "F" (by simp [SIunits]), hc "H" (by simp [SIunits]), hc "A" (by simp [SIunits]), hc "V" (by simp [SIunits]),
    hc "Hz" (by simp [SIunits]), hc "Wb" (by simp [SIunits]), hc "C" (by simp [SIunits]),
    hcd "Energy" (by simp [outputUnits]), hcd "Current" (by simp [outputUnits]), hcd "Voltage" (by simp [outputUnits])]

/-- What holds of an instance after every clean history. -/
structure ObjInv (w : World) (o : UObj) : Prop where
  valid : Valid w o
  pre : computePrefactors w o = .ok o.prefactors

theorem ObjInv.mono {w w' : World} {o : UObj} (h : w.heap <+: w'.heap) (hv : ObjInv w o) : ObjInv w' o := by
  refine ⟨hv.valid.mono h, ?_⟩
  rw [← hv.pre]
  apply computePrefactors_congr hv.valid
  · intro u hu
    obtain ⟨x, _, hx⟩ := hv.valid.c u hu
    rw [hx, factor_mono h hx]
  · intro u hu
    obtain ⟨x, _, hx⟩ := hv.valid.cd u hu
    rw [hx, factor_mono h hx]

/-- What holds after every clean history. -/
structure UInv (w : World) : Prop where
  presets : w.presets = presetTable
  cells : presetCells <+: w.heap
  objs : ∀ (i : ℕ) (o : UObj), w.objs[i]? = some o → ObjInv w o

theorem store_spec {w : World} {o : UObj} (hv : Valid w o) (i : ℕ) :
    ∃ p, computePrefactors w o = .ok p ∧
      store w i o = ({ w with objs := w.objs.set i { o with prefactors := p } }, .ok ()) := by
  obtain ⟨p, hp⟩ := hv.compute
  exact ⟨p, hp, by unfold store; rw [hp]⟩

theorem compute_setpre (w : World) (o : UObj) (p : Dict String ℝ) :
    computePrefactors w { o with prefactors := p } = computePrefactors w o := rfl

/-- Storing a valid instance over a grown heap keeps the invariant. -/
theorem inv_store {w w' : World} (h : UInv w) (hh : w.heap <+: w'.heap) (hp : w'.presets = w.presets)
    (ho : ∀ (j : ℕ) (o : UObj), w'.objs[j]? = some o → w.objs[j]? = some o) {o : UObj} (hv : Valid w' o) (i : ℕ) :
    UInv (store w' i o).1 := by
  obtain ⟨p, hc, hs⟩ := store_spec hv i
  rw [hs]
  refine ⟨by simp only; rw [hp, h.presets], h.cells.trans hh, ?_⟩
  intro j o' hj
  simp only at hj
  rw [List.getElem?_set] at hj
  split_ifs at hj with h1 h2
  · cases hj
    exact ⟨⟨hv.c, hv.cd⟩, hc⟩
  · exact (h.objs j o' (ho j o' hj)).mono hh

theorem factor_assignC {w : World} {o : UObj} {u : String} {e : Entry} (k : String) {x : ℝ}
    (hk : factor w o.c k = some x) :
    factor (assignC w o u e).1 (assignC w o u e).2.c k = some (if k = u then e.factor else x) := by
  unfold assignC
  simp only
  by_cases h : k = u
  · subst h
    rw [if_pos rfl]
    unfold factor
    rw [Dict.get?_set_self]
    simp
  · rw [if_neg h]
    apply factor_mono (w := w) (List.prefix_append _ _)
    rw [← hk]
    exact factor_congr (Dict.get?_set_ne _ _ (fun e => h e.symm))

theorem factor_assignCd {w : World} {o : UObj} {u : String} {e : Entry} (k : String) {x : ℝ}
    (hk : factor w o.cd k = some x) :
    factor (assignCd w o u e).1 (assignCd w o u e).2.cd k = some (if k = u then e.factor else x) := by
  unfold assignCd
  simp only
  by_cases h : k = u
  · subst h
    rw [if_pos rfl]
    unfold factor
    rw [Dict.get?_set_self]
    simp
  · rw [if_neg h]
    apply factor_mono (w := w) (List.prefix_append _ _)
    rw [← hk]
    exact factor_congr (Dict.get?_set_ne _ _ (fun e => h e.symm))

theorem valid_assignC {w : World} {o : UObj} (hv : Valid w o) {u : String} {e : Entry} (he : 0 < e.factor) :
    Valid (assignC w o u e).1 (assignC w o u e).2 := by
  constructor
  · intro k hk
    obtain ⟨x, hx, hf⟩ := hv.c k hk
    refine ⟨_, ?_, factor_assignC k hf⟩
    split_ifs <;> assumption
  · intro k hk
    obtain ⟨x, hx, hf⟩ := hv.cd k hk
    exact ⟨x, hx, factor_mono (w := w) (List.prefix_append _ _) hf⟩

theorem valid_assignCd {w : World} {o : UObj} (hv : Valid w o) {u : String} {e : Entry} (he : 0 < e.factor) :
    Valid (assignCd w o u e).1 (assignCd w o u e).2 := by
  constructor
  · intro k hk
    obtain ⟨x, hx, hf⟩ := hv.c k hk
    exact ⟨x, hx, factor_mono (w := w) (List.prefix_append _ _) hf⟩
  · intro k hk
    obtain ⟨x, hx, hf⟩ := hv.cd k hk
    refine ⟨_, ?_, factor_assignCd k hf⟩
    split_ifs <;> assumption

theorem prefixes_spec (p : Char) : prefixes.get? p = (siExponent p).map (fun n => (10 : ℝ) ^ n) := by
  by_cases h : p ∈ (prefixes.map Prod.fst)
  · simp only [prefixes, List.map_cons, List.map_nil, List.mem_cons, List.not_mem_nil, or_false] at h
    rcases h with h | h | h | h | h | h | h | h | h | h | h | h | h | h | h | h | h <;> subst h <;>
      simp [prefixes, siExponent] <;> norm_num
  · have h1 : prefixes.get? p = none := by
      rw [Dict.get?_eq_none_iff]; exact h
    rw [h1]
    simp only [prefixes, List.map_cons, List.map_nil, List.mem_cons, List.not_mem_nil, or_false, not_or] at h
    unfold siExponent
    split <;> simp_all

theorem prefixes_pos {p : Char} {x : ℝ} (h : prefixes.get? p = some x) : 0 < x := by
  rw [prefixes_spec] at h
  obtain ⟨n, _, rfl⟩ := Option.map_eq_some_iff.1 h
  positivity

theorem pc_pos : 0 < pc_e ∧ 0 < pc_h ∧ 0 < pc_hbar ∧ 0 < pc_kB ∧ 0 < pc_phi0 := by
  unfold pc_e pc_h pc_hbar pc_kB pc_phi0; norm_num

theorem energyBase_spec (u : String) : energyBase u = joules u := by
  unfold energyBase joules
  split_ifs with h1 h2 h3 h4
  · subst h1; rfl
  · subst h2; rfl
  · subst h3; rfl
  · subst h4; rfl
  · split <;> simp_all

theorem energyBase_pos {u : String} {x : ℝ} (h : energyBase u = some x) : 0 < x := by
  unfold energyBase at h
  split_ifs at h <;> cases h
  · exact pc_pos.2.1
  · norm_num
  · exact pc_pos.2.2.2.1
  · exact pc_pos.1

theorem loadKeys_spec (p : Dict String ℕ) : ∀ (l : List String) (d d' : Dict String ℕ), loadKeys p d l = some d' →
    ∀ k, d'.get? k = if k ∈ l then p.get? k else d.get? k := by
  intro l
  induction l with
  | nil => intro d d' h k; cases h; simp
  | cons a l ih =>
    intro d d' h k
    unfold loadKeys at h
    cases hp : p.get? a with
    | none => rw [hp] at h; cases h
    | some x =>
      rw [hp] at h
      rw [ih _ _ h k, Dict.get?_set]
      by_cases h1 : k ∈ l
      · simp [h1]
      · by_cases h2 : a = k
        · subst h2; simp [h1, hp]
        · have : k ≠ a := fun e => h2 e.symm
          simp [h1, h2, this]

theorem loadKeys_some (p : Dict String ℕ) : ∀ (l : List String) (d : Dict String ℕ), (∀ k ∈ l, (p.get? k).isSome) →
    ∃ d', loadKeys p d l = some d' := by
  intro l
  induction l with
  | nil => intro d _; exact ⟨d, rfl⟩
  | cons a l ih =>
    intro d h
    obtain ⟨x, hx⟩ := Option.isSome_iff_exists.1 (h a (by simp))
    obtain ⟨d', hd'⟩ := ih (d.set a x) (fun k hk => h k (by simp [hk]))
    exact ⟨d', by unfold loadKeys; rw [hx]; exact hd'⟩

theorem allocAll_spec : ∀ (l : List (String × Entry)) (w : World) (d : Dict String ℕ), (l.map Prod.fst).Nodup →
    w.heap <+: (allocAll w d l).1.heap ∧ (allocAll w d l).1.presets = w.presets ∧ (allocAll w d l).1.objs = w.objs ∧
    (∀ k, k ∉ l.map Prod.fst → (allocAll w d l).2.get? k = d.get? k) ∧
    ∀ k e, (k, e) ∈ l → factor (allocAll w d l).1 (allocAll w d l).2 k = some e.factor := by
  intro l
  induction l with
  | nil => intro w d _; exact ⟨List.prefix_refl _, rfl, rfl, fun k _ => rfl, by simp⟩
  | cons x l ih =>
    intro w d hn
    obtain ⟨k₀, e₀⟩ := x
    simp only [List.map_cons, List.nodup_cons] at hn
    obtain ⟨h1, h2, h3, h4, h5⟩ := ih { w with heap := w.heap ++ [e₀] } (d.set k₀ w.heap.length) hn.2
    simp only [allocAll]
    refine ⟨(List.prefix_append _ _).trans h1, h2, h3, ?_, ?_⟩
    · intro k hk
      simp only [List.map_cons, List.mem_cons, not_or] at hk
      rw [h4 k hk.2, Dict.get?_set_ne _ _ (fun e => hk.1 e.symm)]
    · intro k e he
      rcases List.mem_cons.1 he with he | he
      · cases he
        unfold factor
        rw [h4 k₀ hn.1, Dict.get?_set_self]
        simp only [Option.bind_some]
        rw [getElem?_prefix h1 (x := e₀) (by simp)]
        rfl
      · exact h5 k e he

/-- The instance uses the units `s`, in terms of its cells. -/
structure Holds (w : World) (o : UObj) (s : System) : Prop where
  F : factor w o.c "F" = some s.F
  H : factor w o.c "H" = some s.H
  Ohm : factor w o.c "Ohm" = some s.Ohm
  A : factor w o.c "A" = some s.A
  V : factor w o.c "V" = some s.V
  Hz : factor w o.c "Hz" = some s.Hz
  Wb : factor w o.c "Wb" = some s.Wb
  C : factor w o.c "C" = some s.C
  J : factor w o.c "J" = some s.J
  K : factor w o.c "K" = some s.K
  eV : factor w o.c "eV" = some s.eV
  E : factor w o.cd "Energy" = some s.E
  Io : factor w o.cd "Current" = some s.Io
  Vo : factor w o.cd "Voltage" = some s.Vo

theorem Holds.valid {w : World} {o : UObj} {s : System} (h : Holds w o s) (hp : s.Pos) : Valid w o := by
  obtain ⟨pF, pH, pOhm, pA, pV, pHz, pWb, pC, pJ, pK, peV, pE, pIo, pVo⟩ := hp
  constructor
  · intro u hu
    simp only [SIunits, List.mem_cons, List.not_mem_nil, or_false] at hu
    rcases hu with rfl | rfl | rfl | rfl | rfl | rfl | rfl | rfl | rfl | rfl | rfl
    exacts [⟨_, pF, h.F⟩, ⟨_, pH, h.H⟩, ⟨_, pOhm, h.Ohm⟩, ⟨_, pA, h.A⟩, ⟨_, pV, h.V⟩, ⟨_, pHz, h.Hz⟩, ⟨_, pWb, h.Wb⟩,
      ⟨_, pC, h.C⟩, ⟨_, pJ, h.J⟩, ⟨_, pK, h.K⟩, ⟨_, peV, h.eV⟩]
  · intro u hu
    simp only [outputUnits, List.mem_cons, List.not_mem_nil, or_false] at hu
    rcases hu with rfl | rfl | rfl
    exacts [⟨_, pE, h.E⟩, ⟨_, pIo, h.Io⟩, ⟨_, pVo, h.Vo⟩]

theorem Holds.mono {w w' : World} {o : UObj} {s : System} (hh : w.heap <+: w'.heap) (h : Holds w o s) :
    Holds w' o s := by
  constructor <;> apply factor_mono hh
  exacts [h.F, h.H, h.Ohm, h.A, h.V, h.Hz, h.Wb, h.C, h.J, h.K, h.eV, h.E, h.Io, h.Vo]

theorem uses_iff {w : World} {i : ℕ} {o : UObj} (ho : w.objs[i]? = some o) (s : System) :
    Uses w i s ↔ Holds w o s := by
  have key : ∀ u ∈ SIunits, ∀ x, getUnitPrefactor w i u = .ok x ↔ factor w o.c u = some x := by
    intro u hu x
    unfold getUnitPrefactor
    simp only [ho]
    rw [if_pos hu]
    cases factor w o.c u <;> simp
  have key' : ∀ u x, outFactor w i u = some x ↔ factor w o.cd u = some x := by
    intro u x
    unfold outFactor factor
    rw [ho]; rfl
  unfold Uses
  rw [key _ (by simp [SIunits]), key _ (by simp [SIunits]), key _ (by simp [SIunits]), key _ (by simp [SIunits]),
    key _ (by simp [SIunits]), key _ (by simp [SIunits]), key _ (by simp [SIunits]), key _ (by simp [SIunits]),
    key _ (by simp [SIunits]), key _ (by simp [SIunits]), key _ (by simp [SIunits]), key', key', key']
  constructor
  · rintro ⟨h1, h2, h3, h4, h5, h6, h7, h8, h9, h10, h11, h12, h13, h14⟩
    exact ⟨h1, h2, h3, h4, h5, h6, h7, h8, h9, h10, h11, h12, h13, h14⟩
  · rintro ⟨h1, h2, h3, h4, h5, h6, h7, h8, h9, h10, h11, h12, h13, h14⟩
    exact ⟨h1, h2, h3, h4, h5, h6, h7, h8, h9, h10, h11, h12, h13, h14⟩

theorem consistent_of {w : World} {i : ℕ} {o : UObj} (ho : w.objs[i]? = some o) {s : System} (hp : s.Pos)
    (h : Holds w o s) (hc : computePrefactors w o = .ok o.prefactors) : Consistent w i s := by
  unfold computePrefactors at hc
  rw [h.F, h.H, h.A, h.V, h.Hz, h.Wb, h.C, h.E, h.Io, h.Vo] at hc
  simp only at hc
  rw [if_neg (by rintro (h | h) <;> [exact hp.1.ne' h; exact hp.2.1.ne' h])] at hc
  injection hc with hc
  have hq : (0.25 : ℝ) = 1 / 4 := by norm_num
  unfold Consistent getPrefactor
  simp only [ho, ← hc, hq]
  simp

theorem cqed1_pos : CQED1.Pos := by
  have := pc_pos
  unfold System.Pos CQED1
  refine ⟨?_, ?_, ?_, ?_, ?_, ?_, this.2.2.2.2, ?_, ?_, ?_, ?_, ?_, ?_, ?_⟩ <;>
    first | (norm_num; done) | (have := this.1; have := pc_pos.2.1; positivity)

theorem cqed2_pos : CQED2.Pos := by
  obtain ⟨h1, h2, h3, h4, h5, h6, h7, h8, h9, h10, h11, h12, h13, h14⟩ := cqed1_pos
  refine ⟨h1, h2, h3, ?_, ?_, h6, h7, h8, h9, h10, h11, h12, ?_, ?_⟩ <;> simp only [CQED2] <;> norm_num

theorem si_pos : SI.Pos := by unfold System.Pos SI; norm_num

theorem startUnits_pos (name : String) : (startUnits name).Pos := by
  unfold startUnits
  split_ifs
  · exact cqed1_pos
  · exact cqed2_pos
  · exact si_pos

theorem presetTable_get {name : String} {p : Dict String ℕ} (h : presetTable.get? name = some p) :
    (name = "CQED1" ∧ p = [("Energy", 0), ("Current", 1), ("Voltage", 2), ("F", 3), ("H", 4), ("Ohm", 5), ("A", 6),
      ("V", 7), ("Hz", 8), ("Wb", 9), ("C", 10), ("J", 11), ("K", 12), ("eV", 13)]) ∨
    (name = "CQED2" ∧ p = [("Energy", 14), ("Current", 15), ("Voltage", 16), ("F", 17), ("H", 18), ("Ohm", 19),
      ("A", 20), ("V", 21), ("Hz", 22), ("Wb", 23), ("C", 24), ("J", 25), ("K", 26), ("eV", 27)]) := by
  have h' := h
  unfold presetTable at h'
  rw [Dict.get?_cons] at h'
  split_ifs at h' with h1
  · cases h'; exact Or.inl ⟨h1.symm, rfl⟩
  · rw [Dict.get?_cons] at h'
    split_ifs at h' with h2
    · cases h'; exact Or.inr ⟨h2.symm, rfl⟩
    · cases h'

theorem preset_holds {w : World} (hw : presetCells <+: w.heap) {name : String} {p : Dict String ℕ}
    (h : presetTable.get? name = some p) (o : UObj) :
    ∃ cd c, loadKeys p o.cd outputUnits = some cd ∧ loadKeys p o.c SIunits = some c ∧
      Holds w { o with cd := cd, c := c } (startUnits name) := by
  have hcell : ∀ (a : ℕ) (e : Entry), presetCells[a]? = some e → w.heap[a]? = some e :=
    fun a e he => getElem?_prefix hw he
  obtain ⟨cd, hcd⟩ := loadKeys_some p outputUnits o.cd (by
      intro k hk
      simp only [outputUnits, List.mem_cons, List.not_mem_nil, or_false] at hk
      rcases presetTable_get h with ⟨rfl, rfl⟩ | ⟨rfl, rfl⟩ <;>
      rcases hk with rfl | rfl | rfl <;> decide)
  obtain ⟨c, hc⟩ := loadKeys_some p SIunits o.c (by
      intro k hk
      simp only [SIunits, List.mem_cons, List.not_mem_nil, or_false] at hk
      rcases presetTable_get h with ⟨rfl, rfl⟩ | ⟨rfl, rfl⟩ <;>
      rcases hk with rfl | rfl | rfl | rfl | rfl | rfl | rfl | rfl | rfl | rfl | rfl <;> decide)
  rcases presetTable_get h with ⟨rfl, rfl⟩ | ⟨rfl, rfl⟩
  all_goals
    refine ⟨cd, c, hcd, hc, ?_⟩
    have kcd := loadKeys_spec _ _ _ _ hcd
    have kc := loadKeys_spec _ _ _ _ hc
    constructor <;> unfold factor <;> simp only [kcd, kc]
    all_goals
      simp only [SIunits, outputUnits, List.mem_cons, List.not_mem_nil, or_false, String.reduceEq, or_true, true_or,
        if_true, Dict.get?_cons, if_false, Option.bind_some]
      rw [hcell _ _ rfl]
      simp [startUnits, CQED1, CQED2]
  all_goals norm_num

/-- What every clean call guarantees. -/
structure StepOK (w : World) (r : World × Except Err Unit) (t : Option ℕ) : Prop where
  inv : UInv r.1
  fail : ∀ e, r.2 = .error e → r.1 = w
  heap : w.heap <+: r.1.heap
  frame : ∀ (j : ℕ) (o : UObj), t ≠ some j → w.objs[j]? = some o → r.1.objs[j]? = some o

theorem stepOK_refl {w : World} (h : UInv w) (e : Err) (t : Option ℕ) : StepOK w (w, .error e) t :=
  ⟨h, fun _ _ => rfl, List.prefix_refl _, fun _ _ _ ho => ho⟩

theorem stepOK_store {w w' : World} (h : UInv w) (hh : w.heap <+: w'.heap) (hp : w'.presets = w.presets)
    (ho : w'.objs = w.objs) {o : UObj} (hv : Valid w' o) (i : ℕ) : StepOK w (store w' i o) (some i) := by
  have hinv := inv_store h hh hp (fun j o hj => by rw [← ho]; exact hj) hv i
  obtain ⟨p, _, hs⟩ := store_spec hv i
  rw [hs] at hinv ⊢
  refine ⟨hinv, by simp, hh, ?_⟩
  intro j o' hj ho'
  simp only
  rw [List.getElem?_set_ne (fun e => hj (by rw [e])), ho]; exact ho'

theorem stepOK_assignC {w : World} (h : UInv w) {i : ℕ} {o : UObj} (ho : w.objs[i]? = some o) (u : String) {e : Entry}
    (he : 0 < e.factor) : StepOK w (store (assignC w o u e).1 i (assignC w o u e).2) (some i) :=
  stepOK_store (w' := (assignC w o u e).1) h (List.prefix_append _ _) rfl rfl (valid_assignC (h.objs i o ho).valid he) i

theorem stepOK_assignCd {w : World} (h : UInv w) {i : ℕ} {o : UObj} (ho : w.objs[i]? = some o) (u : String) {e : Entry}
    (he : 0 < e.factor) : StepOK w (store (assignCd w o u e).1 i (assignCd w o u e).2) (some i) :=
  stepOK_store (w' := (assignCd w o u e).1) h (List.prefix_append _ _) rfl rfl (valid_assignCd (h.objs i o ho).valid he) i

theorem loadPreset_spec {w : World} (h : UInv w) {i : ℕ} {o : UObj} (ho : w.objs[i]? = some o) {name : String}
    {p : Dict String ℕ} (hp : presetTable.get? name = some p) :
    ∃ o', loadPreset w i name = ({ w with objs := w.objs.set i o' }, .ok ()) ∧ ObjInv w o' ∧
      Holds w o' (startUnits name) := by
  obtain ⟨cd, c, hcd, hc, hH⟩ := preset_holds h.cells hp o
  obtain ⟨pre, hpre, hs⟩ := store_spec (hH.valid (startUnits_pos name)) i
  refine ⟨⟨c, cd, pre⟩, ?_, ⟨⟨(hH.valid (startUnits_pos name)).c, (hH.valid (startUnits_pos name)).cd⟩, hpre⟩,
    ⟨hH.F, hH.H, hH.Ohm, hH.A, hH.V, hH.Hz, hH.Wb, hH.C, hH.J, hH.K, hH.eV, hH.E, hH.Io, hH.Vo⟩⟩
  unfold loadPreset
  simp only [ho, h.presets, hp, hcd, hc]
  rw [hs, h.presets]

theorem inv_setobj {w : World} (h : UInv w) {o' : UObj} (ho : ObjInv w o') (i : ℕ) :
    UInv { w with objs := w.objs.set i o' } := by
  refine ⟨h.presets, h.cells, ?_⟩
  intro j o hj
  simp only at hj
  rw [List.getElem?_set] at hj
  split_ifs at hj
  · cases hj; exact ⟨⟨ho.valid.c, ho.valid.cd⟩, ho.pre⟩
  · exact ⟨⟨(h.objs j o hj).valid.c, (h.objs j o hj).valid.cd⟩, (h.objs j o hj).pre⟩

theorem new_spec {w : World} (h : UInv w) (name : String) :
    ∃ hp o', new w name = ({ w with heap := hp, objs := w.objs ++ [o'] }, .ok ()) ∧ w.heap <+: hp ∧
      (∀ w' : World, w'.heap = hp → Holds w' o' (startUnits name)) ∧
      UInv { w with heap := hp, objs := w.objs ++ [o'] } := by
  obtain ⟨a1, a2, a3, _, a5⟩ := allocAll_spec (SIunits.map fun u => (u, (⟨u, 1.0⟩ : Entry))) w [] (by decide)
  obtain ⟨b1, b2, b3, _, b5⟩ := allocAll_spec [("Energy", (⟨"J", 1.0⟩ : Entry)), ("Current", ⟨"A", 1.0⟩), ("Voltage", ⟨"V", 1.0⟩)]
    (allocAll w [] (SIunits.map fun u => (u, ⟨u, 1.0⟩))).1 [] (by simp)
  unfold new
  generalize hA : allocAll w [] (SIunits.map fun u => (u, (⟨u, 1.0⟩ : Entry))) = RA at a1 a2 a3 a5 b1 b2 b3 b5 ⊢
  obtain ⟨w1, c⟩ := RA
  simp only at a1 a2 a3 a5 b1 b2 b3 b5 ⊢
  generalize hB : allocAll w1 [] [("Energy", (⟨"J", 1.0⟩ : Entry)), ("Current", ⟨"A", 1.0⟩), ("Voltage", ⟨"V", 1.0⟩)] = RB at b1 b2 b3 b5 ⊢
  obtain ⟨w2, cd⟩ := RB
  simp only at b1 b2 b3 b5 ⊢
  have hH : Holds w2 ⟨c, cd, []⟩ SI := by
    have ha : ∀ u ∈ SIunits, factor w2 c u = some 1 := by
      intro u hu
      have := factor_mono b1 (a5 u ⟨u, 1.0⟩ (List.mem_map.2 ⟨u, hu, rfl⟩))
      rw [this]; norm_num
    have h10 : ((1.0 : ℝ)) = 1 := by norm_num
    constructor <;> simp only [SI] <;> first
      | exact ha _ (by simp [SIunits])
      | (have := b5 "Energy" ⟨"J", 1.0⟩ (by simp); rw [this]; simp [h10]; done)
      | (have := b5 "Current" ⟨"A", 1.0⟩ (by simp); rw [this]; simp [h10]; done)
      | (have := b5 "Voltage" ⟨"V", 1.0⟩ (by simp); rw [this]; simp [h10]; done)
  have hpre : w.heap <+: w2.heap := a1.trans b1
  obtain ⟨pre, hpe, hs⟩ := store_spec (w := { w2 with objs := w2.objs ++ [⟨[], [], []⟩] }) (o := ⟨c, cd, []⟩)
    ⟨(hH.valid si_pos).c, (hH.valid si_pos).cd⟩ w2.objs.length
  rw [hs]
  simp only
  have hset : (w2.objs ++ [(⟨[], [], []⟩ : UObj)]).set w2.objs.length ⟨c, cd, pre⟩ = w.objs ++ [⟨c, cd, pre⟩] := by
    rw [b3, a3, List.set_append_right _ _ (le_refl _)]; simp
  have hinv : ∀ o' : UObj, ObjInv w2 o' → UInv { w2 with objs := w.objs ++ [o'] } := by
    intro o' ho'
    refine ⟨by simp only; rw [b2, a2, h.presets], h.cells.trans hpre, ?_⟩
    intro j o hj
    simp only at hj
    rw [List.getElem?_append] at hj
    split_ifs at hj
    · exact (h.objs j o hj).mono hpre
    · rw [List.getElem?_singleton] at hj
      split_ifs at hj
      cases hj
      exact ⟨⟨ho'.valid.c, ho'.valid.cd⟩, ho'.pre⟩
  have hobj : ObjInv w2 ⟨c, cd, pre⟩ := ⟨⟨(hH.valid si_pos).c, (hH.valid si_pos).cd⟩, hpe⟩
  have hw2 : w2 = { w with heap := w2.heap, objs := w2.objs } := by
    cases w2; simp only at b2 a2 ⊢; rw [b2, a2]
  by_cases hn : w2.presets.has name = true
  · rw [if_pos hn]
    rw [hset]
    have hi := hinv _ hobj
    rw [Dict.has_iff, b2, a2, h.presets, Dict.mem_keys_iff] at hn
    obtain ⟨p, hp⟩ := Option.isSome_iff_exists.1 hn
    obtain ⟨o', h1, h2, h3⟩ := loadPreset_spec (i := w2.objs.length) hi (o := ⟨c, cd, pre⟩)
      (by simp only; rw [b3, a3]; simp) hp
    refine ⟨w2.heap, o', ?_, hpre, ?_, ?_⟩
    · rw [h1]
      simp only
      have : (w.objs ++ [(⟨c, cd, pre⟩ : UObj)]).set w2.objs.length o' = w.objs ++ [o'] := by
        rw [b3, a3, List.set_append_right _ _ (le_refl _)]; simp
      rw [this, b2, a2]
    · intro w' hw'
      exact h3.mono (by rw [hw'])
    · have := hinv o' ⟨⟨h2.valid.c, h2.valid.cd⟩, h2.pre⟩
      rw [b2, a2] at this
      exact this
  · rw [if_neg hn, hset]
    have hne : startUnits name = SI := by
      rw [Dict.has_iff, b2, a2, h.presets] at hn
      unfold startUnits
      have h1 : name ≠ "CQED1" := by rintro rfl; exact hn (by decide)
      have h2 : name ≠ "CQED2" := by rintro rfl; exact hn (by decide)
      rw [if_neg h1, if_neg h2]
    refine ⟨w2.heap, ⟨c, cd, pre⟩, by rw [b2, a2], hpre, ?_, ?_⟩
    · intro w' hw'
      rw [hne]
      exact Holds.mono (w := w2) (by rw [hw']) ⟨hH.F, hH.H, hH.Ohm, hH.A, hH.V, hH.Hz, hH.Wb, hH.C, hH.J, hH.K, hH.eV, hH.E, hH.Io, hH.Vo⟩
    · have := hinv _ hobj
      rw [b2, a2] at this
      exact this

/-- Every clean call keeps the invariant, leaves other instances alone, and changes nothing if it raises. -/
theorem step_ok {w : World} (h : UInv w) (c : UCall) (hc : c.Clean) : StepOK w (c.run w) c.target := by
  cases c with
  | new name =>
    obtain ⟨hp, o', h1, h2, h3, h4⟩ := new_spec h name
    simp only [UCall.run]
    rw [h1]
    refine ⟨h4, by simp, h2, ?_⟩
    intro j o _ ho
    simp only
    rw [List.getElem?_append_left (List.getElem?_eq_some_iff.1 ho).1]; exact ho
  | loadPreset i name =>
    simp only [UCall.run, UCall.target]
    cases ho : w.objs[i]? with
    | none => unfold loadPreset; simp only [ho]; exact stepOK_refl h _ _
    | some o =>
      cases hp : presetTable.get? name with
      | none => unfold loadPreset; simp only [ho, h.presets, hp]; exact stepOK_refl h _ _
      | some p =>
        obtain ⟨o', h1, h2, h3⟩ := loadPreset_spec h ho hp
        rw [h1]
        refine ⟨inv_setobj h h2 i, by simp, List.prefix_refl _, ?_⟩
        intro j o'' hj ho''
        simp only
        rw [List.getElem?_set_ne (fun e => hj (by rw [e]))]; exact ho''
  | setUnit i s =>
    simp only [UCall.run, UCall.target]
    unfold setUnit
    split
    · exact stepOK_refl h _ _
    · rename_i o ho
      have hs : s ∉ SIunits := hc
      rw [if_neg hs]
      split
      · exact stepOK_refl h _ _
      · split_ifs
        · split
          · exact stepOK_refl h _ _
          · rename_i x hx
            exact stepOK_assignC h ho _ (prefixes_pos hx)
        · exact stepOK_refl h _ _
  | setUnitPrefactor i u s x =>
    simp only [UCall.run, UCall.target]
    unfold setUnitPrefactor
    split
    · exact stepOK_refl h _ _
    · rename_i o ho
      split_ifs
      · exact stepOK_assignC h ho _ hc
      · exact stepOK_refl h _ _
  | setEnergyUnit i s =>
    simp only [UCall.run, UCall.target]
    unfold setEnergyUnit
    split
    · exact stepOK_refl h _ _
    · rename_i o ho
      split
      · exact stepOK_refl h _ _
      · split
        · exact stepOK_refl h _ _
        · rename_i b hb
          split
          · exact stepOK_refl h _ _
          · rename_i x hx
            refine stepOK_assignCd h ho _ ?_
            have := energyBase_pos hb
            have := prefixes_pos hx
            simp only
            positivity
  | setCurrentUnit i s =>
    simp only [UCall.run, UCall.target]
    unfold setCurrentUnit setOutUnit
    split
    · exact stepOK_refl h _ _
    · rename_i o ho
      split
      · exact stepOK_refl h _ _
      · split_ifs
        · split
          · exact stepOK_refl h _ _
          · rename_i x hx
            refine stepOK_assignCd h ho _ ?_
            have := prefixes_pos hx
            simp only
            positivity
        · exact stepOK_refl h _ _
  | setVoltageUnit i s =>
    simp only [UCall.run, UCall.target]
    unfold setVoltageUnit setOutUnit
    split
    · exact stepOK_refl h _ _
    · rename_i o ho
      split
      · exact stepOK_refl h _ _
      · split_ifs
        · split
          · exact stepOK_refl h _ _
          · rename_i x hx
            refine stepOK_assignCd h ho _ ?_
            have := prefixes_pos hx
            simp only
            positivity
        · exact stepOK_refl h _ _

theorem uinv_init : UInv Units.init :=
  ⟨rfl, List.prefix_refl _, by intro i o ho; simp [Units.init] at ho⟩

theorem uinv_runU (h : List UCall) (hc : ∀ c ∈ h, c.Clean) : UInv (runU h) := by
  unfold runU
  have : ∀ (h : List UCall) (w : World), (∀ c ∈ h, c.Clean) → UInv w →
      UInv (h.foldl (fun w c => (c.run w).1) w) := by
    intro h
    induction h with
    | nil => intro w _ hw; exact hw
    | cons c h ih =>
      intro w hc hw
      exact ih _ (fun c' hc' => hc c' (by simp [hc'])) (step_ok hw c (hc c (by simp))).inv
  exact this h _ hc uinv_init

end Verif.Units
