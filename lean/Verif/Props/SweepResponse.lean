import Verif.Props.Elements
import Verif.Props.NumericalExamples

/-!
# C42: which resonator responses a sweep stores
-/

namespace Verif.Props

open Verif Verif.PC Verif.Num Verif.Spec

variable {E O H P X V R Q : Type}

/-- **C42** (response) In a sweep of several evaluations that ends normally, the resonator response stored for a point is the one of the coupling node that was given, computed
from the operators, the parameters and the eigenvalues and eigenvectors of the Hamiltonian of that point. -/
theorem C42_response (eng : Engine E) (ho : HashOrder) (fuel : ℕ) (ph : Phys O H P X V R) (gv : Bool) (st st₁ st' : NS E Q O) (sw : SW E Q)
    (pts : List (Dict String PF)) (files : List (SW.Pickled (Res X V R))) (hsw : st.sw.ndSweep st.specs = (sw, .ok ()))
    (hpre : ({ st with sw := sw, evals := evaluations st } : NS E Q O).presub eng ho = (st₁, .ok ())) (hpts : gridPoints sw = .ok pts)
    (hreq : ∀ e ∈ st.evals, Requested e) (hrun : paramSweep eng ho fuel ph gv st = (st', files, .ok ()))
    (l₁ : List Entry) (e : Entry) (l₂ : List Entry) (hl : st.evals = l₁ ++ e :: l₂) (hlast : ∀ e' ∈ l₂, e'.eval ≠ e.eval)
    (he : e.depends ≠ none) (hm : e.eval = .getResonatorResponse) (node : ℕ) (hnode : e.kwargs.cpl_node = some node) :
    ∀ (i : ℕ) (p : Dict String PF), pts[i]? = some p → ∃ sti f h es vs r,
      visit eng ho fuel ph.gen (pts.take i ++ [p]) st₁ = (sti, .ok ()) ∧ files[i]? = some f ∧
      ph.ham sti.num.get? sti.circ.get? sti.vec = .ok h ∧ ph.solve h = .ok (es, vs) ∧
      ph.resp sti.num.get? sti.vec sti.sw.pc.getParameterValue node e.kwargs.nmax es vs = .ok r ∧ stored f e.eval = some (.number r) := by
  intro i p hp
  obtain ⟨sti, f, h, es, vs, v, g1, g2, g3, g4, g5, g6⟩ := C42_same_point eng ho fuel ph gv st st₁ st' sw pts files hsw hpre hpts hreq hrun l₁ e l₂ hl hlast he
    (Or.inr (Or.inr ⟨hm, by rw [hnode]; simp⟩)) i p hp
  unfold evalEntry at g5
  rw [hm] at g5
  simp only [callMethod, hnode] at g5
  cases hr : ph.resp sti.num.get? sti.vec sti.sw.pc.getParameterValue node e.kwargs.nmax es vs with
  | error err => rw [hr] at g5; cases g5
  | ok r =>
  rw [hr] at g5
  simp only at g5
  split at g5
  · cases g5
  cases g5
  exact ⟨sti, f, h, es, vs, r, g1, g2, g3, g4, hr, g6⟩

/-- **C42** (response without a node) In a sweep that ends normally, the resonator response without a coupling node is stored as None. -/
theorem C42_response_none (eng : Engine E) (ho : HashOrder) (fuel : ℕ) (ph : Phys O H P X V R) (gv : Bool) (st st₁ st' : NS E Q O) (sw : SW E Q)
    (pts : List (Dict String PF)) (files : List (SW.Pickled (Res X V R))) (hsw : st.sw.ndSweep st.specs = (sw, .ok ()))
    (hpre : ({ st with sw := sw, evals := evaluations st } : NS E Q O).presub eng ho = (st₁, .ok ())) (hpts : gridPoints sw = .ok pts)
    (hreq : ∀ e ∈ st.evals, Requested e) (hrun : paramSweep eng ho fuel ph gv st = (st', files, .ok ()))
    (l₁ : List Entry) (e : Entry) (l₂ : List Entry) (hl : st.evals = l₁ ++ e :: l₂) (hlast : ∀ e' ∈ l₂, e'.eval ≠ e.eval)
    (he : e.depends ≠ none) (hm : e.eval = .getResonatorResponse) (hnode : e.kwargs.cpl_node = none) :
    ∀ (i : ℕ) (p : Dict String PF), pts[i]? = some p → ∃ f, files[i]? = some f ∧ stored f e.eval = some .none := by
  have hne : evaluations st = st.evals := by unfold evaluations; rw [if_neg (by rw [hl]; simp)]
  rw [paramSweep_eq eng ho fuel ph gv st st₁ sw pts hsw hpre hpts, hne] at hrun
  cases hx : evaluate eng ho fuel ph gv st.evals pts st₁ with
  | mk st2 q =>
  obtain ⟨files', r⟩ := q
  rw [hx] at hrun
  cases r with
  | error e => simp at hrun
  | ok u =>
  simp only [Prod.mk.injEq, and_true] at hrun
  obtain ⟨_, rfl⟩ := hrun
  intro i p hp
  unfold evaluate at hx
  split at hx
  · rename_i e₀ heq
    exfalso
    have hee : e = e₀ := by
      rw [hl] at heq
      cases l₁ with
      | nil => simp at heq; exact heq.1
      | cons x l => simp at heq
    subst hee
    obtain ⟨sti, v, _, g2, _⟩ := (singleLoop_files eng ho fuel ph gv e pts st₁ st2 files' hx).2 i p hp
    unfold evalEntry at g2
    rw [hm] at g2
    cases g2
  · obtain ⟨h1, h2⟩ := multiLoop_files eng ho fuel ph gv st.evals hreq pts st₁ st2 _ files'
      (Or.inr (fun r hr => init_unpack _ r hr)) hx
    obtain ⟨sti, f, g1, g2, g3⟩ := h2 i p hp
    obtain ⟨v, v1, v2⟩ := g3 l₁ e l₂ hl hlast
    refine ⟨f, g2, ?_⟩
    unfold valueAt at v1
    cases hd : e.depends with
    | none => exact absurd hd he
    | some m =>
      rw [hd] at v1
      simp only at v1
      split at v1
      · cases v1
      split at v1
      · cases v1
      unfold evalEntry at v1
      rw [hm] at v1
      simp only [callMethod, hnode] at v1
      split at v1
      · cases v1
      cases v1
      exact v2

/-- The hypotheses of `C42_response` and `C42_response_none` are met by sweeps of three points, which end normally. -/
example : ∀ k ∈ [({ cpl_node := some 1 } : Kw), {}],
    (lcBefore sweepPhi [hamEntry, ⟨.getResonatorResponse, false, some .getHamiltonian, k⟩]).sw.ndSweep sweepPhi = ((lcNS.1.sw.ndSweep sweepPhi).1, .ok ()) ∧
    Requested ⟨.getResonatorResponse, false, some .getHamiltonian, k⟩ ∧
    gridPoints (lcNS.1.sw.ndSweep sweepPhi).1 = .ok [at1 "phie" 0, at1 "phie" (1/2), at1 "phie" 1] ∧
    (paramSweep Ast.engine .id 10 lcPhys true (lcBefore sweepPhi [hamEntry, ⟨.getResonatorResponse, false, some .getHamiltonian, k⟩])).2.2 = .ok () := by
  have h : ∀ k ∈ [({ cpl_node := some 1 } : Kw), {}],
      (paramSweep Ast.engine .id 10 lcPhys true (lcBefore sweepPhi [hamEntry, ⟨.getResonatorResponse, false, some .getHamiltonian, k⟩])).2.2 = .ok () := by decide +kernel
  intro k hk
  exact ⟨Prod.ext rfl (by change (lcNS.1.sw.ndSweep sweepPhi).2 = .ok (); decide +kernel), ⟨"Resonator", _, k, rfl, rfl⟩, by decide +kernel, h k hk⟩

end Verif.Props
