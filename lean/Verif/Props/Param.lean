import Verif.Spec.Param
import Mathlib.Tactic

/-!
# Properties C01 and C02: `Param`
-/

namespace Verif.Props

open Verif Verif.Spec

/-! ## The model's comparisons are the order of the extended rationals -/

theorem ext_isSome {x : PF} (h : x ≠ .nan) : ∃ a, ext x = some a := by
  cases x <;> simp_all [ext]

theorem lt_iff_ext {x y : PF} {a b} (hx : ext x = some a) (hy : ext y = some b) :
    PF.lt x y = true ↔ a < b := by
  cases x <;> cases y <;> simp only [ext, Option.some.injEq, reduceCtorEq] at hx hy <;> subst hx <;>
    subst hy <;> simp [PF.lt, WithBot.coe_lt_coe, WithTop.coe_lt_coe]
  exact WithBot.coe_lt_coe.2 (WithTop.coe_lt_top _)

theorem le_iff_ext {x y : PF} {a b} (hx : ext x = some a) (hy : ext y = some b) :
    PF.le x y = true ↔ a ≤ b := by
  cases x <;> cases y <;> simp only [ext, Option.some.injEq, reduceCtorEq] at hx hy <;> subst hx <;>
    subst hy <;> simp [PF.le, WithBot.coe_le_coe, WithTop.coe_le_coe]

theorem le_nan_right (x : PF) : PF.le x .nan = false := by cases x <;> rfl
theorem le_nan_left (x : PF) : PF.le .nan x = false := by cases x <;> rfl

/-! ## C01 -/

/-- C01, one call: `setValue` accepts a number of an accepted type exactly when it is strictly
between the bounds (all three being ordinary numbers or infinities), and then stores that number and
nothing else. -/
theorem C01_setValue_accepts_iff (p : Param) (v : PyVal) (f : PF) (hv : v.toFloat? = some f)
    (hf : f ≠ .nan) (hlo : p.lo ≠ .nan) (hhi : p.hi ≠ .nan) :
    (p.setValue v).2 = .ok () ↔ StrictlyBetween p.lo f p.hi := by
  obtain ⟨x, hx⟩ := ext_isSome hf
  obtain ⟨l, hl⟩ := ext_isSome hlo
  obtain ⟨u, hu⟩ := ext_isSome hhi
  have h1 := le_iff_ext hu hx
  have h2 := le_iff_ext hx hl
  unfold Param.setValue StrictlyBetween
  simp only [hv, hx, hl, hu, Option.some.injEq]
  constructor
  · intro h
    refine ⟨l, x, u, rfl, rfl, rfl, ?_, ?_⟩
    · by_contra hc; rw [not_lt, ← h2] at hc; simp [hc] at h
    · by_contra hc; rw [not_lt, ← h1] at hc; simp [hc] at h
  · rintro ⟨_, _, _, rfl, rfl, rfl, ha, hb⟩
    have e1 : PF.le p.hi f = false := by
      rw [Bool.eq_false_iff, ne_eq, h1]; exact not_le.2 hb
    have e2 : PF.le f p.lo = false := by
      rw [Bool.eq_false_iff, ne_eq, h2]; exact not_le.2 ha
    simp [e1, e2]

/-- C01, effect of an accepted `setValue`: the value read back is the number given, and bounds and
sweep are unchanged. -/
theorem C01_setValue_stores (p : Param) (v : PyVal) (h : (p.setValue v).2 = .ok ()) :
    ∃ f, v.toFloat? = some f ∧ (p.setValue v).1 = { p with value := some f } := by
  unfold Param.setValue at h ⊢
  cases hv : v.toFloat? with
  | none => simp [hv] at h
  | some f =>
    simp only [hv] at h ⊢
    split_ifs at h ⊢ with h1 h2
    exact ⟨f, rfl, rfl⟩

/-- C01, failure atomicity: a call that raises leaves the parameter exactly as it was. -/
theorem C01_rejected_call_changes_nothing (p : Param) (c : ParamCall) (h : c.raises p) :
    c.after p = p := by
  cases c with
  | setValue v =>
    obtain ⟨e, he⟩ := h
    simp only [ParamCall.after, Param.setValue] at he ⊢
    cases hv : v.toFloat? with
    | none => simp
    | some f =>
      simp only [hv] at he ⊢
      split_ifs at he ⊢ <;> simp_all
  | setBounds b =>
    obtain ⟨e, he⟩ := h
    simp only [ParamCall.after, Param.setBounds] at he ⊢
    cases hv : Param.checkBounds .valueError b with
    | error e => simp
    | ok q => simp [hv] at he
  | linearSweep a b n =>
    obtain ⟨e, he⟩ := h
    simp only [ParamCall.after, Param.linearSweep] at he ⊢
    cases ha : a.toFloat? with
    | none => simp
    | some x =>
      cases hb : b.toFloat? with
      | none => simp
      | some y =>
        cases n with
        | other => simp
        | int z =>
          simp only [ha, hb] at he ⊢
          split_ifs at he ⊢ <;> simp_all

/-- C01 over histories: start from a parameter constructed without a value and make any calls, failing
or not.  If a value is stored at the end, it was stored by some `setValue` call of the history, which
was the last accepted one, and if the value and the bounds in force at that call are not NaN, the value
was strictly between them. -/
theorem C01_stored_value_was_inside_bounds (name : String) (b : BoundsArg) (u : PyVal) (p₀ : Param)
    (hnew : Param.new name none b u = .ok p₀) (h : List ParamCall) (f : PF)
    (hval : (runParam p₀ h).getValue = some f) :
    ∃ h₁ v h₂, h = h₁ ++ ParamCall.setValue v :: h₂ ∧ v.toFloat? = some f ∧
      (f ≠ .nan → (runParam p₀ h₁).lo ≠ .nan → (runParam p₀ h₁).hi ≠ .nan →
        StrictlyBetween (runParam p₀ h₁).lo f (runParam p₀ h₁).hi) ∧
      (∀ k₁ w k₂, h₂ = k₁ ++ ParamCall.setValue w :: k₂ →
        (ParamCall.setValue w).raises (runParam p₀ (h₁ ++ ParamCall.setValue v :: k₁))) := by
  have h0 : p₀.value = none := by
    unfold Param.new at hnew
    split_ifs at hnew
    simp only at hnew
    split at hnew <;> try contradiction
    split at hnew <;> try contradiction
    split_ifs at hnew
    split at hnew <;> try contradiction
    simp only [Except.ok.injEq] at hnew
    subst hnew
    rfl
  clear hnew
  induction h using List.reverseRecOn generalizing f with
  | nil => simp [runParam, Param.getValue, h0] at hval
  | append_singleton h c ih =>
    have hrun : runParam p₀ (h ++ [c]) = c.after (runParam p₀ h) := by simp [runParam]
    -- if the call left the stored value alone, extend the decomposition of the shorter history
    have keep : (c.after (runParam p₀ h)).value = (runParam p₀ h).value →
        (∀ w, c = ParamCall.setValue w → c.raises (runParam p₀ h)) →
        ∃ h₁ v h₂, h ++ [c] = h₁ ++ ParamCall.setValue v :: h₂ ∧ v.toFloat? = some f ∧
          (f ≠ .nan → (runParam p₀ h₁).lo ≠ .nan → (runParam p₀ h₁).hi ≠ .nan →
            StrictlyBetween (runParam p₀ h₁).lo f (runParam p₀ h₁).hi) ∧
          (∀ k₁ w k₂, h₂ = k₁ ++ ParamCall.setValue w :: k₂ →
            (ParamCall.setValue w).raises (runParam p₀ (h₁ ++ ParamCall.setValue v :: k₁))) := by
      intro hk hr
      have hv : (runParam p₀ h).getValue = some f := by
        rw [hrun] at hval; simpa [Param.getValue, hk] using hval
      obtain ⟨h₁, v, h₂, e, h3, h4, h5⟩ := ih f hv
      refine ⟨h₁, v, h₂ ++ [c], by simp [e], h3, h4, ?_⟩
      intro k₁ w k₂ hk2
      rcases List.eq_nil_or_concat k₂ with rfl | ⟨k₃, d, rfl⟩
      · have := List.append_inj' hk2 rfl
        obtain ⟨e1, e2⟩ := this
        simp only [List.cons.injEq, and_true] at e2
        subst e1
        rw [← e]
        have := hr w e2
        rwa [e2] at this
      · have : h₂ ++ [c] = (k₁ ++ ParamCall.setValue w :: k₃) ++ [d] := by simp [hk2]
        obtain ⟨e1, e2⟩ := List.append_inj' this rfl
        exact h5 k₁ w k₃ e1
    cases c with
    | setBounds b =>
      apply keep
      · simp only [ParamCall.after, Param.setBounds]
        cases Param.checkBounds .valueError b <;> simp
      · intro w hw; cases hw
    | linearSweep a b n =>
      apply keep
      · simp only [ParamCall.after, Param.linearSweep]
        cases a.toFloat? with
        | none => simp
        | some x =>
          cases b.toFloat? with
          | none => simp
          | some y =>
            cases n with
            | other => simp
            | int z => simp only; split_ifs <;> simp
      · intro w hw; cases hw
    | setValue v =>
      cases hres : ((runParam p₀ h).setValue v).2 with
      | error e =>
        apply keep
        · rw [C01_rejected_call_changes_nothing _ (ParamCall.setValue v) ⟨e, hres⟩]
        · intro w _; exact ⟨e, hres⟩
      | ok r =>
        obtain ⟨g, hg, hst⟩ := C01_setValue_stores _ _ hres
        have : g = f := by
          rw [hrun] at hval
          simp only [ParamCall.after, hst, Param.getValue] at hval
          simpa using hval
        subst this
        refine ⟨h, v, [], by simp, hg, ?_, ?_⟩
        · intro a1 a2 a3
          exact (C01_setValue_accepts_iff _ v g hg a1 a2 a3).1 hres
        · intro k₁ w k₂ hk; simp at hk

/-- Non-vacuity of `C01_stored_value_was_inside_bounds`: bounds [0, 10], set 12 (rejected), set 3,
sweep, tighten the bounds to [5, 10]: the value 3 is still stored. -/
example : ∃ p₀, Param.new "Ej" none (.list [.float (.fin 0), .float (.fin 10)]) (.float (.fin 1)) = .ok p₀ ∧
    (runParam p₀ [.setValue (.int 12), .setValue (.float (.fin 3)),
      .linearSweep (.int 1) (.int 2) (.int 5), .setBounds (.list [.int 5, .int 10])]).getValue
      = some (.fin 3) := by
  refine ⟨_, rfl, ?_⟩
  decide +kernel

/-- The stronger reading "the stored value is always inside the current bounds" is false:
`setBounds` does not look at the stored value. -/
theorem C01_false_current_bounds :
    ∃ p₀ h f, Param.new "x" = .ok p₀ ∧ (runParam p₀ h).getValue = some f ∧
      ¬ Between (runParam p₀ h).lo f (runParam p₀ h).hi := by
  refine ⟨_, [.setValue (.int 3), .setBounds (.list [.int 5, .int 10])], .fin 3, rfl, by decide +kernel, ?_⟩
  rintro ⟨l, x, h, h1, h2, _, h4, _⟩
  have e1 : ext (PF.fin 5) = some l := h1
  have e2 : ext (PF.fin 3) = some x := h2
  have := (le_iff_ext e1 e2).2 h4
  revert this
  decide +kernel

/-- The documented check of the initial value ("raises if the initial value is out of bounds") does
not exist. -/
theorem C01_false_initial_value_checked :
    ∃ p₀, Param.new "x" (some (.int 7)) (.list [.int 0, .int 1]) = .ok p₀ ∧
      p₀.getValue = some (.fin 7) ∧ p₀.getBounds = (.fin 0, .fin 1) := by
  refine ⟨_, rfl, ?_, ?_⟩ <;> decide +kernel

/-- NaN is accepted by `setValue` whatever the bounds. -/
theorem C01_nan_always_accepted (p : Param) : (p.setValue (.float .nan)).2 = .ok () := by
  simp [Param.setValue, PyVal.toFloat?, le_nan_left, le_nan_right]

/-- Consequently bounds are an ordered pair whenever they are numbers: construction and `setBounds`
accept exactly two floats or two ints in order. -/
theorem C01_setBounds_accepts_iff (p : Param) (b : BoundsArg) (lo hi : PF)
    (hlo : lo ≠ .nan) (hhi : hi ≠ .nan) :
    ((p.setBounds b).2 = .ok () ∧ (p.setBounds b).1.getBounds = (lo, hi)) ↔
      ((b = .list [.float lo, .float hi] ∨
        ∃ m n : ℤ, b = .list [.int m, .int n] ∧ lo = .fin m ∧ hi = .fin n) ∧
       ∃ l h, ext lo = some l ∧ ext hi = some h ∧ l ≤ h) := by
  obtain ⟨l, hl⟩ := ext_isSome hlo
  obtain ⟨u, hu⟩ := ext_isSome hhi
  have key := lt_iff_ext hu hl
  have key2 : PF.lt hi lo = false ↔ l ≤ u := by
    rw [Bool.eq_false_iff, ne_eq, key, not_lt]
  constructor
  · rintro ⟨h1, h2⟩
    unfold Param.setBounds Param.checkBounds at h1 h2
    split at h1
    · simp at h1
    · rename_i lo' hi' heq
      rw [heq] at h2
      simp only [Param.getBounds, Prod.mk.injEq] at h2
      obtain ⟨rfl, rfl⟩ := h2
      split at heq
      · cases heq
      · rename_i a b
        split at heq
        · cases heq
        · rename_i a' b' hp
          split_ifs at heq with hlt
          simp only [Except.ok.injEq, Prod.mk.injEq] at heq
          obtain ⟨rfl, rfl⟩ := heq
          refine ⟨?_, l, u, hl, hu, key2.1 (by simpa using hlt)⟩
          cases a <;> cases b <;> simp_all [Param.boundPair]
      · cases heq
  · rintro ⟨h1, l', u', e1, e2, hle⟩
    rw [hl] at e1; rw [hu] at e2
    cases e1; cases e2
    have hlt := key2.2 hle
    rcases h1 with rfl | ⟨m, n, rfl, rfl, rfl⟩
    · simp [Param.setBounds, Param.checkBounds, Param.boundPair, hlt, Param.getBounds]
    · simp [Param.setBounds, Param.checkBounds, Param.boundPair, hlt, Param.getBounds]

example : ((Param.setBounds ⟨"x", "x_{}", none, .ninf, .pinf, .fin 1, [], 0⟩
    (.list [.int 0, .int 5])).2 = .ok ()) := by decide +kernel

/-! ## C02 -/

/-- C02: for finite end points, a successful `linearSweep` stores and returns exactly `N` points, the
`i`-th of which is `start + i (end - start)/(N - 1)` (`start` when `N = 1`); the first is `start`, the
last is `end`, every point is within the bounds. -/
theorem C02_linear_sweep (p : Param) (a b : PyVal) (n : CountArg) (x y : ℚ) (s : List PF)
    (ha : a.toFloat? = some (.fin x)) (hb : b.toFloat? = some (.fin y))
    (hlo : p.lo ≠ .nan) (hhi : p.hi ≠ .nan)
    (h : (p.linearSweep a b n).2 = .ok s) :
    ∃ N : ℕ, n = .int N ∧ s.length = N ∧
      (p.linearSweep a b n).1.sweep = s ∧ (p.linearSweep a b n).1.N = N ∧
      (∀ i < N, s[i]? = some (.fin (if N = 1 then x else x + i * (y - x) / (N - 1)))) ∧
      (1 ≤ N → s.head? = some (.fin x)) ∧
      (2 ≤ N → s.getLast? = some (.fin y)) ∧
      (∀ v ∈ s, Between p.lo v p.hi) := by
  obtain ⟨l, hl⟩ := ext_isSome hlo
  obtain ⟨u, hu⟩ := ext_isSome hhi
  unfold Param.linearSweep at h ⊢
  simp only [ha, hb] at h ⊢
  cases n with
  | other => simp at h
  | int z =>
    simp only at h ⊢
    split_ifs at h ⊢ with h1 h2 h3 h4 h5
    simp only [Except.ok.injEq] at h
    obtain ⟨N, rfl⟩ := Int.eq_ofNat_of_zero_le (not_lt.1 h5)
    simp only [Int.toNat_natCast] at h
    subst h
    have hpt : ∀ i < N, (Param.linspace (.fin x) (.fin y) N)[i]? =
        some (.fin (if N = 1 then x else x + i * (y - x) / (N - 1))) := by
      intro i hi
      simp only [Param.linspace, List.getElem?_map, List.getElem?_range hi, Option.map_some,
        Option.some.injEq]
      by_cases h1N : 1 < N
      · have hN : (N : ℚ) - 1 ≠ 0 := by
          have : (1 : ℚ) < N := by exact_mod_cast h1N
          linarith
        have hne : N ≠ 1 := by omega
        by_cases hlast : i = N - 1
        · simp only [h1N, hlast, and_self, if_true, hne, if_false, PF.fin.injEq]
          have : ((N - 1 : ℕ) : ℚ) = (N : ℚ) - 1 := by
            rw [Nat.cast_sub h1N.le]; simp
          rw [this]; field_simp; ring
        · simp only [h1N, hlast, and_false, if_false, if_true, hne, PF.sub, PF.neg, PF.add, PF.smul,
            PF.fin.injEq]
          field_simp; ring
      · have : N = 1 := by omega
        subst this
        have : i = 0 := by omega
        subst this
        simp [PF.sub, PF.neg, PF.add, PF.smul]
    have hlen : (Param.linspace (.fin x) (.fin y) N).length = N := by simp [Param.linspace]
    have hbx : l ≤ ((x : WithTop ℚ) : WithBot (WithTop ℚ)) ∧ ((x : WithTop ℚ) : WithBot (WithTop ℚ)) ≤ u := by
      have e : ext (PF.fin x) = some ((x : WithTop ℚ) : WithBot (WithTop ℚ)) := rfl
      constructor
      · by_contra hc; exact h2 ((lt_iff_ext e hl).2 (not_le.1 hc))
      · by_contra hc; exact h1 ((lt_iff_ext hu e).2 (not_le.1 hc))
    have hby : l ≤ ((y : WithTop ℚ) : WithBot (WithTop ℚ)) ∧ ((y : WithTop ℚ) : WithBot (WithTop ℚ)) ≤ u := by
      have e : ext (PF.fin y) = some ((y : WithTop ℚ) : WithBot (WithTop ℚ)) := rfl
      constructor
      · by_contra hc; exact h4 ((lt_iff_ext e hl).2 (not_le.1 hc))
      · by_contra hc; exact h3 ((lt_iff_ext hu e).2 (not_le.1 hc))
    refine ⟨N, rfl, hlen, ?_, ?_, hpt, ?_, ?_, ?_⟩
    · rfl
    · rfl
    · intro hN
      rw [List.head?_eq_getElem?, hpt 0 (by omega)]
      split_ifs <;> simp
    · intro hN
      rw [List.getLast?_eq_getElem?, hlen, hpt (N - 1) (by omega)]
      have hne : N ≠ 1 := by omega
      simp only [hne, if_false, Option.some.injEq, PF.fin.injEq]
      have hc : ((N - 1 : ℕ) : ℚ) = (N : ℚ) - 1 := by
        rw [Nat.cast_sub (by omega)]; simp
      have : (N : ℚ) - 1 ≠ 0 := by
        have : (2 : ℚ) ≤ N := by exact_mod_cast hN
        linarith
      rw [hc]; field_simp; ring
    · intro v hv
      obtain ⟨i, hi, rfl⟩ := List.mem_iff_getElem.1 hv
      have hiN : i < N := by rw [hlen] at hi; exact hi
      have hget := hpt i hiN
      rw [List.getElem?_eq_getElem hi, Option.some.injEq] at hget
      rw [hget]
      -- every point is a convex combination of the end points
      obtain ⟨q, hq⟩ : ∃ q, q = (if N = 1 then x else x + i * (y - x) / (N - 1)) := ⟨_, rfl⟩
      have hconv : min x y ≤ q ∧ q ≤ max x y := by
        by_cases hN1 : N = 1
        · simp [hq, hN1]
        · simp only [hN1, if_false] at hq
          have hN2 : (1 : ℚ) < N := by
            have : 1 < N := by omega
            exact_mod_cast this
          have hiq : (i : ℚ) ≤ N - 1 := by
            have : (i : ℚ) + 1 ≤ N := by exact_mod_cast hiN
            linarith
          have hpos : (0 : ℚ) < N - 1 := by linarith
          have ht0 : 0 ≤ (i : ℚ) / (N - 1) := by positivity
          have ht1 : (i : ℚ) / (N - 1) ≤ 1 := by rw [div_le_one hpos]; exact hiq
          have hq' : q = (1 - (i : ℚ) / (N - 1)) * x + (i : ℚ) / (N - 1) * y := by
            rw [hq]; field_simp; ring
          set t := (i : ℚ) / (N - 1)
          rw [hq']
          constructor
          · nlinarith [min_le_left x y, min_le_right x y]
          · nlinarith [le_max_left x y, le_max_right x y]
      rw [← hq]
      refine ⟨l, _, u, hl, rfl, hu, ?_, ?_⟩
      · have : (((min x y : ℚ) : WithTop ℚ) : WithBot (WithTop ℚ)) ≤ ((q : WithTop ℚ) : WithBot (WithTop ℚ)) := by
          rw [WithBot.coe_le_coe, WithTop.coe_le_coe]; exact hconv.1
        refine le_trans ?_ this
        rcases min_choice x y with e | e <;> rw [e]
        exacts [hbx.1, hby.1]
      · have : ((q : WithTop ℚ) : WithBot (WithTop ℚ)) ≤ (((max x y : ℚ) : WithTop ℚ) : WithBot (WithTop ℚ)) := by
          rw [WithBot.coe_le_coe, WithTop.coe_le_coe]; exact hconv.2
        refine le_trans this ?_
        rcases max_choice x y with e | e <;> rw [e]
        exacts [hbx.2, hby.2]

/-- C02, acceptance: with finite end points and bounds that are not NaN, `linearSweep` succeeds exactly
when both end points are within the bounds (inclusively) and `N` is a non-negative int. -/
theorem C02_linear_sweep_accepts_iff (p : Param) (a b : PyVal) (n : CountArg) (x y : ℚ)
    (ha : a.toFloat? = some (.fin x)) (hb : b.toFloat? = some (.fin y))
    (hlo : p.lo ≠ .nan) (hhi : p.hi ≠ .nan) :
    (∃ s, (p.linearSweep a b n).2 = .ok s) ↔
      (Between p.lo (.fin x) p.hi ∧ Between p.lo (.fin y) p.hi ∧ ∃ N : ℕ, n = .int N) := by
  obtain ⟨l, hl⟩ := ext_isSome hlo
  obtain ⟨u, hu⟩ := ext_isSome hhi
  have ex : ext (PF.fin x) = some ((x : WithTop ℚ) : WithBot (WithTop ℚ)) := rfl
  have ey : ext (PF.fin y) = some ((y : WithTop ℚ) : WithBot (WithTop ℚ)) := rfl
  have hB : ∀ q : ℚ, Between p.lo (.fin q) p.hi ↔
      (PF.lt p.hi (.fin q) = false ∧ PF.lt (.fin q) p.lo = false) := by
    intro q
    have eq : ext (PF.fin q) = some ((q : WithTop ℚ) : WithBot (WithTop ℚ)) := rfl
    have k1 := lt_iff_ext hu eq
    have k2 := lt_iff_ext eq hl
    constructor
    · rintro ⟨l', v', u', e1, e2, e3, h1, h2⟩
      rw [hl] at e1; rw [eq] at e2; rw [hu] at e3
      cases e1; cases e2; cases e3
      rw [Bool.eq_false_iff, Bool.eq_false_iff, ne_eq, ne_eq, k1, k2]
      exact ⟨not_lt.2 h2, not_lt.2 h1⟩
    · rintro ⟨h1, h2⟩
      rw [Bool.eq_false_iff, ne_eq, k1, not_lt] at h1
      rw [Bool.eq_false_iff, ne_eq, k2, not_lt] at h2
      exact ⟨_, _, _, hl, eq, hu, h2, h1⟩
  rw [hB, hB]
  unfold Param.linearSweep
  simp only [ha, hb]
  cases n with
  | other => simp
  | int z =>
    simp only
    constructor
    · rintro ⟨s, h⟩
      split_ifs at h with h1 h2 h3 h4 h5
      refine ⟨⟨by simpa using h1, by simpa using h2⟩, ⟨by simpa using h3, by simpa using h4⟩, z.toNat, ?_⟩
      rw [Int.toNat_of_nonneg (not_lt.1 h5)]
    · rintro ⟨⟨h1, h2⟩, ⟨h3, h4⟩, N, hN⟩
      cases hN
      have hN0 : ¬ ((N : ℤ) < 0) := by omega
      simp [h1, h2, h3, h4, hN0]

/-- Non-vacuity of C02: a 5 point sweep of a bounded parameter. -/
example : ((Param.linearSweep ⟨"x", "x_{}", none, .fin 0, .fin 4, .fin 1, [], 0⟩
    (.int 1) (.float (.fin 3)) (.int 5)).2
      = .ok [.fin 1, .fin (3/2), .fin 2, .fin (5/2), .fin 3]) := by decide +kernel

/-- Without the finiteness hypothesis C02 fails: an infinite end point within the (default) bounds is
accepted and fills the sweep with NaN. -/
theorem C02_false_infinite_end :
    ∃ p s, Param.new "x" = .ok p ∧
      (p.linearSweep (.int 0) (.float .pinf) (.int 3)).2 = .ok s ∧ s.head? = some .nan := by
  refine ⟨_, [.nan, .pinf, .pinf], rfl, ?_, ?_⟩ <;> decide +kernel

end Verif.Props
