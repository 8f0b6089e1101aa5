import Verif.Props.CircuitBias
import Verif.Model.Symbolic

/-!
# C26: the charge bias vector follows the calls of `addChargeBias`
-/

namespace Verif.Props

open Verif Verif.Circuit Verif.Sym Verif.Spec

variable {K : Type}

/-- Looking up in a dictionary with one entry more. -/
theorem get?_append_new {V : Type} (d : Dict Node V) (n : ℕ) (v : V) (h : n ∉ Dict.keys d) (x : ℕ) :
    Dict.get? (d ++ [(n, v)] : Dict Node V) x = if x = n then some v else d.get? x := by
  induction d with
  | nil => simp [Dict.get?_cons, Dict.get?, eq_comm]
  | cons p d ih =>
    obtain ⟨k, w⟩ := p
    have hk : k ≠ n := by rintro rfl; exact h (by simp [Dict.keys])
    have ih := ih (fun hm => h (by simp only [Dict.keys, List.map_cons, List.mem_cons]; exact Or.inr hm))
    have e : ((k, w) :: d ++ [(n, v)] : Dict Node V) = (k, w) :: (d ++ [(n, v)]) := rfl
    rw [e, Dict.get?_cons, Dict.get?_cons, ih]
    by_cases hx : k = x
    · subst hx; simp [hk]
    · simp [hx]

/-- **C26** A new circuit has no charge biases: without a call of `addChargeBias` the charge bias vector is zero. -/
theorem C26_vector_zero [Zero K] (q : String → K) (l : List Call) (h : ∀ x ∈ l, ∀ n s m, x ≠ .addChargeBias n s m) (i : ℕ) :
    chargeBiasVector q (run {} l) i = 0 := by
  have key : (∀ n s m, Call.addChargeBias n s m ∉ l) → (run {} l).chargeBias = [] := by
    intro hno
    have aux : ∀ (l : List Call) (g : CG), (∀ n s m, Call.addChargeBias n s m ∉ l) → g.chargeBias = [] → (run g l).chargeBias = [] := by
      intro l
      induction l with
      | nil => intro g _ hg; exact hg
      | cons c l ih =>
        intro g hno hg
        refine ih (step g c).1 (fun n s m hm => hno n s m (List.mem_cons_of_mem _ hm)) ?_
        cases c with
        | addBranch o a b c => simp only [step]; rw [addBranch_frame.1]; exact hg
        | coupleBranches a b m => simp only [step]; rw [coupleBranches_frame]; exact hg
        | coupleResonator n c => simp only [step]; rw [coupleResonator_frame]; exact hg
        | removeAllResonators => exact hg
        | addFluxBias c s m => simp only [step]; rw [addFluxBias_frame]; exact hg
        | addChargeBias n s m => exact absurd (List.mem_cons_self ..) (hno n s m)
    exact aux l {} hno rfl
  have hc := key (fun n s m hm => h _ hm n s m rfl)
  unfold chargeBiasVector
  cases (nodes (run {} l))[i]? with
  | none => rfl
  | some n => simp [hc, Dict.get?]

/-- **C26** A successful `addChargeBias` makes the entry of its node, until then zero, the charge with the suffix given, and leaves the other entries. -/
theorem C26_vector [Zero K] (q : String → K) (l : List Call) (n : ℕ) (s m : Option String) (h : (addChargeBias (run {} l) n s m).2 = .ok ()) (i k : ℕ)
    (hi : (nodes (run {} l))[i]? = some k) :
    (nodes (addChargeBias (run {} l) n s m).1)[i]? = some k ∧
    (k = n → chargeBiasVector q (run {} l) i = 0 ∧ ∃ s', s = some s' ∧ chargeBiasVector q (addChargeBias (run {} l) n s m).1 i = q s') ∧
    (k ≠ n → chargeBiasVector q (addChargeBias (run {} l) n s m).1 i = chargeBiasVector q (run {} l) i) := by
  obtain ⟨s', h1, h2, h3, h4, h5, h6, h7⟩ := addChargeBias_ok h
  have hn : nodes (addChargeBias (run {} l) n s m).1 = nodes (run {} l) := by rw [h7]; rfl
  have hget : ∀ x, Dict.get? (addChargeBias (run {} l) n s m).1.chargeBias x = if x = n then some ⟨m, s'⟩ else Dict.get? (run {} l).chargeBias x := by
    intro x
    rw [h7]
    exact get?_append_new _ _ _ h5 x
  refine ⟨hn ▸ hi, ?_, ?_⟩
  · rintro rfl
    refine ⟨?_, s', h1, ?_⟩
    · unfold chargeBiasVector
      simp only [hi, (Dict.get?_eq_none_iff _ _).2 h5]
    · unfold chargeBiasVector
      rw [hn, hi]
      simp only [hget, if_true]
  · intro hk
    unfold chargeBiasVector
    rw [hn, hi]
    simp only [hget, if_neg hk]

/-- **C26** Every other call leaves the charge bias of a node, wherever the node now stands in the vector. -/
theorem C26_vector_kept [Zero K] (q : String → K) (g : CG) (c : Call) (hc : ∀ n s m, c ≠ .addChargeBias n s m) (i j k : ℕ)
    (hi : (nodes g)[i]? = some k) (hj : (nodes (step g c).1)[j]? = some k) : chargeBiasVector q (step g c).1 j = chargeBiasVector q g i := by
  have hb : (step g c).1.chargeBias = g.chargeBias := by
    cases c with
    | addBranch o a b c => simp only [step]; rw [addBranch_frame.1]
    | coupleBranches a b m => simp only [step]; rw [coupleBranches_frame]
    | coupleResonator n c => simp only [step]; rw [coupleResonator_frame]
    | removeAllResonators => rfl
    | addFluxBias c s m => simp only [step]; rw [addFluxBias_frame]
    | addChargeBias n s m => exact absurd rfl (hc n s m)
  unfold chargeBiasVector
  rw [hi, hj, hb]

/-- The hypotheses of the three theorems are met. -/
example : (∀ x ∈ ringCalls, ∀ n s m, x ≠ .addChargeBias n s m) ∧
    (addChargeBias (run {} ringCalls) 1 (some "g") (some "Cg")).2 = .ok () ∧ (nodes (run {} ringCalls))[0]? = some 1 ∧
    chargeBiasVector (K := ℤ) (fun s => if s = "g" then 3 else 0) (addChargeBias (run {} ringCalls) 1 (some "g") (some "Cg")).1 0 = 3 ∧
    (nodes (step (run {} ringCalls) (.addBranch Orc.id 0 2 "C1")).1)[0]? = some 1 := by
  refine ⟨?_, by decide +kernel, by decide +kernel, by decide +kernel, by decide +kernel⟩
  intro x hx n s m
  fin_cases hx <;> simp

end Verif.Props
