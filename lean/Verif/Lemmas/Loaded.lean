import Verif.Model.Loaded
import Verif.Props.SymbolicInd
import Verif.Props.CircuitBias

/-!
# Lemmas for circuits whose resonators are written out as branches
-/

namespace Verif.Props

open Verif Verif.Circuit Verif.Sym Verif.Spec

/-! ### The extended circuit as a history -/

/-- The calls that add the branches. -/
def branchCalls (o : Orc) (bs : List (ℕ × ℕ × String)) : List Call := bs.map fun b => Call.addBranch o b.1 b.2.1 b.2.2

theorem branches_append (h h' : List Call) : branches (h ++ h') = branches h ++ branches h' := by
  unfold branches; rw [List.filterMap_append]

theorem build_facts {o : Orc} (ho : o.OK) : ∀ (bs : List (ℕ × ℕ × String)) (h : List Call) (g' : CG), Settled h (run {} h) →
    build o (run {} h) bs = (g', .ok ()) → (∀ n, ((run {} h).resonators.get? n).join = none) →
    Settled (h ++ branchCalls o bs) g' ∧ g' = run {} (h ++ branchCalls o bs) ∧ branches (h ++ branchCalls o bs) = branches h ++ bs ∧
      g'.chargeBias = (run {} h).chargeBias ∧ g'.coupled = (run {} h).coupled ∧ ∀ n, (g'.resonators.get? n).join = none := by
  intro bs
  induction bs with
  | nil =>
    intro h g' hs hb hr
    unfold build at hb
    injection hb with h1 _
    subst h1
    simp only [branchCalls, List.map_nil, List.append_nil]
    exact ⟨hs, trivial, trivial, trivial, trivial, hr⟩
  | cons b bs ih =>
    intro h g' hs hb hr
    obtain ⟨a, c, x⟩ := b
    unfold build at hb
    cases hx : (addBranch o (run {} h) a c x).2 with
    | error e => simp only [hx] at hb; injection hb with _ h2; cases h2
    | ok u =>
      simp only [hx] at hb
      have hrun : (addBranch o (run {} h) a c x).1 = run {} (h ++ [Call.addBranch o a c x]) := by rw [run_append]; rfl
      rw [hrun] at hb
      have hok : ∀ y ∈ h, y.OK := by
        obtain ⟨l, o', a', b', c', l', he, h1, _⟩ := hs
        exact h1
      have hs' : Settled (h ++ [Call.addBranch o a c x]) (run {} (h ++ [Call.addBranch o a c x])) := by
        refine ⟨h, o, a, c, x, [], rfl, ?_, hx, by simp, rfl⟩
        intro y hy
        rcases List.mem_append.1 hy with hy | hy
        · exact hok y hy
        · rw [List.mem_singleton.1 hy]; exact ho
      have hr' : ∀ n, ((run {} (h ++ [Call.addBranch o a c x])).resonators.get? n).join = none := by
        intro n
        rw [← hrun, addBranch_resonators hx]
        cases hg : (updateCouplings (run {} h).resonators a c).get? n with
        | none => rfl
        | some r =>
          rcases updateCouplings_get? _ _ _ _ _ hg with h1 | ⟨h1, _⟩
          · have := hr n; rw [h1] at this; exact this
          · rw [h1]; rfl
      obtain ⟨q1, q2, q3, q4, q5, q6⟩ := ih _ _ hs' hb hr'
      have hc : h ++ branchCalls o ((a, c, x) :: bs) = h ++ [Call.addBranch o a c x] ++ branchCalls o bs := by simp [branchCalls]
      rw [hc]
      refine ⟨q1, q2, ?_, ?_, ?_, q6⟩
      · rw [q3, branches_append]
        have hv : validName x = true := by rw [← okPrefix_eq]; exact addBranch_okPrefix hx
        simp [branches, branchOf, hv]
      · rw [q4, ← hrun]; exact addBranch_frame.1
      · rw [q5, ← hrun]; exact addBranch_frame.2.2.1

/-- The history of the extended circuit. -/
def loadedCalls (o : Orc) (h : List Call) (g : CG) : List Call :=
  h ++ [Call.removeAllResonators] ++ branchCalls o ((loads g.resonators (nextNode g)).flatMap loadBranches)

theorem loaded_facts {o : Orc} (ho : o.OK) {h : List Call} {g g' : CG} (hs : Settled h g) (hl : loadedCircuit o g = (g', .ok ())) :
    Settled (loadedCalls o h g) g' ∧ branches (loadedCalls o h g) = branches h ++ (loads g.resonators (nextNode g)).flatMap loadBranches ∧
      g'.chargeBias = g.chargeBias ∧ g'.coupled = g.coupled ∧ ∀ n, (g'.resonators.get? n).join = none := by
  obtain ⟨l, o', a, b, c, l', he, h1, h2, h3, rfl⟩ := hs
  have hrun : removeAllResonators (run {} h) = run {} (h ++ [Call.removeAllResonators]) := by rw [run_append]; rfl
  unfold loadedCircuit at hl
  rw [hrun] at hl
  have hs' : Settled (h ++ [Call.removeAllResonators]) (run {} (h ++ [Call.removeAllResonators])) := by
    refine ⟨l, o', a, b, c, l' ++ [Call.removeAllResonators], by rw [he]; simp, ?_, h2, ?_, rfl⟩
    · intro y hy
      rcases List.mem_append.1 hy with hy | hy
      · exact h1 y hy
      · rw [List.mem_singleton.1 hy]; trivial
    · intro y hy
      rcases List.mem_append.1 hy with hy | hy
      · exact h3 y hy
      · rw [List.mem_singleton.1 hy]; intro o a b c hh; cases hh
  have hr' : ∀ n, ((run {} (h ++ [Call.removeAllResonators])).resonators.get? n).join = none := by
    intro n
    rw [← hrun]
    cases hg : (removeAllResonators (run {} h)).resonators.get? n with
    | none => rfl
    | some r => rw [(C28_remove h h1).1 n r hg]; rfl
  obtain ⟨q1, _, q3, q4, q5, q6⟩ := build_facts ho _ _ _ hs' hl hr'
  refine ⟨q1, ?_, ?_, ?_, q6⟩
  · rw [loadedCalls, q3, branches_append]
    simp [branches, branchOf]
  · rw [q4, ← hrun]; rfl
  · rw [q5, ← hrun]; rfl

/-! ### The new nodes -/

theorem loads_mem : ∀ (l : List (Node × Option Resonator)) (k : ℕ) (t : Node × Node × Resonator), t ∈ loads l k →
    (t.1, some t.2.2) ∈ l ∧ k ≤ t.2.1 := by
  intro l
  induction l with
  | nil => intro k t ht; cases ht
  | cons p l ih =>
    intro k t ht
    obtain ⟨n, r⟩ := p
    cases r with
    | none => obtain ⟨h1, h2⟩ := ih k t ht; exact ⟨List.mem_cons_of_mem _ h1, h2⟩
    | some r =>
      rcases List.mem_cons.1 ht with rfl | ht
      · exact ⟨List.mem_cons_self, le_refl _⟩
      · obtain ⟨h1, h2⟩ := ih (k + 1) t ht
        exact ⟨List.mem_cons_of_mem _ h1, by omega⟩

theorem loads_nodup : ∀ (l : List (Node × Option Resonator)) (k : ℕ), ((loads l k).map fun t => t.2.1).Nodup := by
  intro l
  induction l with
  | nil => intro k; simp [loads]
  | cons p l ih =>
    intro k
    obtain ⟨n, r⟩ := p
    cases r with
    | none => exact ih k
    | some r =>
      simp only [loads, List.map_cons, List.nodup_cons]
      refine ⟨fun hm => ?_, ih (k + 1)⟩
      obtain ⟨t, ht, he⟩ := List.mem_map.1 hm
      have := (loads_mem _ _ _ ht).2
      have he' : (t.2.1 : ℕ) = k := he
      rw [he'] at this
      exact Nat.not_succ_le_self _ this

/-- What a resonator, if there is one, contributes to a sum. -/
def perRes (f : Node → Resonator → ℝ) (p : Node × Option Resonator) : ℝ :=
  match p.2 with | some r => f p.1 r | none => 0

theorem loads_sum (l : List (Node × Option Resonator)) (f : Node → Resonator → ℝ) : ∀ k,
    ((loads l k).map fun t => f t.1 t.2.2).sum = (l.map (perRes f)).sum := by
  induction l with
  | nil => intro k; rfl
  | cons p l ih =>
    intro k
    obtain ⟨n, r⟩ := p
    cases r with
    | none => simp only [loads, List.map_cons, List.sum_cons, ih k, perRes, zero_add]
    | some r => simp only [loads, List.map_cons, List.sum_cons, ih (k + 1), perRes]

theorem le_next {g : CG} {n : ℕ} (hn : n ∈ nodes g) : n < nextNode g := by
  unfold nextNode
  have : ∀ l : List ℕ, n ∈ l → n ≤ l.foldr max 0 := by
    intro l
    induction l with
    | nil => intro h; cases h
    | cons a l ih =>
      intro h
      rw [List.foldr_cons]
      rcases List.mem_cons.1 h with rfl | h
      · exact le_max_left _ _
      · exact (ih h).trans (le_max_right _ _)
  have := this _ hn
  omega

end Verif.Props
