import Verif.Spec.NetlistMutual
import Verif.Spec.NetlistLoaded
import Verif.Props.NetlistOp

/-!
# Lemmas about circuits with mutual inductances
-/

namespace Verif.Props

open Verif Verif.Circuit Verif.Sym Verif.Num Verif.Spec Complex Matrix

/-! ### Quadratic forms of operators -/

section forms

variable {A : Type} [Ring A] (r : ℝ →+* A) (hr : ∀ x a, r x * a = a * r x)

theorem quadOp_dot {n : ℕ} (M : Matrix (Fin n) (Fin n) ℝ) (x : Fin n → A) : quadOp r M x = x ⬝ᵥ (M.map r) *ᵥ x := rfl

include hr in
theorem vecMul_central {n m : ℕ} (M : Matrix (Fin n) (Fin m) ℝ) (x : Fin n → A) : x ᵥ* (M.map r) = (Mᵀ.map r) *ᵥ x := by
  funext j
  simp only [Matrix.vecMul, Matrix.mulVec, dotProduct, Matrix.map_apply, Matrix.transpose_apply]
  apply Finset.sum_congr rfl
  intro i _
  rw [hr]

include hr in
theorem quadOp_conj {n m : ℕ} (R : Matrix (Fin n) (Fin m) ℝ) (B : Matrix (Fin m) (Fin m) ℝ) (x : Fin n → A) :
    quadOp r (R * B * Rᵀ) x = quadOp r B ((Rᵀ.map r) *ᵥ x) := by
  rw [quadOp_dot, quadOp_dot, Matrix.map_mul, Matrix.map_mul, ← mulVec_mulVec, ← mulVec_mulVec, dotProduct_mulVec, vecMul_central r hr]

include hr in
theorem quadOp_pinv {n : ℕ} {M B : Matrix (Fin n) (Fin n) ℝ} (hM : Mᵀ = M) (hB : IsPinv M B) (I z : Fin n → A) (hz : (M.map r) *ᵥ z = 0) :
    quadOp r B ((M.map r) *ᵥ I + z) = I ⬝ᵥ (M.map r) *ᵥ I := by
  have hsym := pinv_symm hM hB
  have hB2 : B = B * (Bᵀ * M) := by
    have h1 : (M * B)ᵀ = Bᵀ * M := by rw [transpose_mul, hM]
    rw [← h1, hB.ab, ← Matrix.mul_assoc, hB.bab]
  have hBz : (B.map r) *ᵥ z = 0 := by
    rw [hB2, Matrix.map_mul, Matrix.map_mul, ← mulVec_mulVec, ← mulVec_mulVec, hz, mulVec_zero, mulVec_zero]
  rw [quadOp_dot, mulVec_add, hBz, add_zero, add_dotProduct]
  have h1 : z ⬝ᵥ (B.map r) *ᵥ ((M.map r) *ᵥ I) = 0 := by
    rw [dotProduct_mulVec, vecMul_central r hr, hsym, hBz, zero_dotProduct]
  rw [h1, add_zero]
  have h2 : (M.map r) *ᵥ I = I ᵥ* (M.map r) := by rw [vecMul_central r hr, hM]
  calc (M.map r) *ᵥ I ⬝ᵥ (B.map r) *ᵥ ((M.map r) *ᵥ I)
      = (I ᵥ* (M.map r)) ⬝ᵥ (B.map r) *ᵥ ((M.map r) *ᵥ I) := by rw [← h2]
    _ = I ⬝ᵥ (M.map r) *ᵥ ((B.map r) *ᵥ ((M.map r) *ᵥ I)) := by rw [← dotProduct_mulVec]
    _ = I ⬝ᵥ ((M * B * M).map r) *ᵥ I := by rw [Matrix.map_mul, Matrix.map_mul, ← mulVec_mulVec, ← mulVec_mulVec]
    _ = _ := by rw [hB.aba]

end forms

/-! ### The couplings after a history -/

theorem coupled_frame {h : List Call} (hn : CoupledNetlist h) : ∀ n r, (run {} h).resonators.get? n ≠ some (some r) := by
  apply run_inv (P := fun g => ∀ n r, g.resonators.get? n ≠ some (some r))
  · exact fun n r h => by cases h
  · intro g c hc h2
    rcases hn.calls c hc with ⟨o, a, b, c, rfl⟩ | ⟨c, s, m, rfl, -⟩ | ⟨n, s, c, rfl⟩ | ⟨c, c', m, rfl, -⟩
    · simp only [step]
      rcases (addBranch_frame (o := o) (g := g) (a := a) (b := b) (c := c)).2.2.2 with hr | ⟨-, hr⟩
      · rw [hr]; exact h2
      · rw [hr]
        have key : ∀ (d : Dict Node (Option Resonator)) (a : Node), (∀ n r, d.get? n ≠ some (some r)) →
            ∀ n r, (if d.has a then d else d.set a none).get? n ≠ some (some r) := by
          intro d a hd n r
          split_ifs
          · exact hd n r
          · rw [Dict.get?_set]
            split_ifs
            · simp
            · exact hd n r
        unfold updateCouplings
        exact key _ _ (key _ _ h2)
    · simp only [step]; rw [addFluxBias_frame]; exact h2
    · simp only [step]; rw [addChargeBias_frame]; exact h2
    · simp only [step]; rw [coupleBranches_frame]; exact h2

/-- Without resonators. -/
theorem coupled_loaded {h : List Call} (hn : CoupledNetlist h) : LoadedNetlist h := by
  refine ⟨fun c s m hx hL => ?_, fun c c' m hx => ?_, hn.after, hn.ends, hn.ground⟩
  · rcases hn.calls _ hx with ⟨o, a, b, c, hh⟩ | ⟨c, s, m', hh, hl⟩ | ⟨n, s, c, hh⟩ | ⟨c, c', m, hh, -⟩
    · cases hh
    · cases hh; exact hl hL
    · cases hh
    · cases hh
  · rcases hn.calls _ hx with ⟨_, _, _, _, e⟩ | ⟨_, _, _, e, _⟩ | ⟨_, _, _, e⟩ | ⟨_, _, _, e, hne⟩
    · cases e
    · cases e
    · cases e
    · cases e; exact hne

/-- The oriented edge of a component. -/
def edgeOf (g : CG) (c : String) : Edge := (g.wc.find? fun e => g.cmap.get? e = some c).getD (0, 0, 0)

theorem edgeOf_eq {h : List Call} {g : CG} (hs : Settled h g) {e : Edge} (he : e ∈ g.wc) {c : String} (hc : g.cmap.get? e = some c) :
    edgeOf g c = e := by
  unfold edgeOf
  cases hf : g.wc.find? fun e => g.cmap.get? e = some c with
  | none =>
    rw [List.find?_eq_none] at hf
    exact absurd (by simpa using hc) (hf e he)
  | some e' =>
    have h1 := List.find?_some hf
    have h2 := List.mem_of_find?_eq_some hf
    simp only [decide_eq_true_eq] at h1
    exact wc_name_inj hs h2 he h1 hc

/-- The dictionary of couplings lists the couplings of the calls, each with the oriented edges of its inductors; every pair is there once. -/
theorem couplings_run {h : List Call} (hs : Settled h (run {} h)) (ha : AllOk h) (hn : LoadedNetlist h) :
    (run {} h).coupled = (couplings h).map (fun k => (k.2.2, edgeOf (run {} h) k.1, edgeOf (run {} h) k.2.1)) ∧
    (∀ q ∈ (run {} h).coupled, q.2.1 ∈ (run {} h).wc ∧ q.2.2 ∈ (run {} h).wc) ∧
    (∀ k ∈ couplings h, ∃ e1 ∈ (run {} h).wc, ∃ e2 ∈ (run {} h).wc, (run {} h).cmap.get? e1 = some k.1 ∧ (run {} h).cmap.get? e2 = some k.2.1 ∧ k.1 ≠ k.2.1) ∧
    ((run {} h).coupled.Pairwise fun q q' => ¬ ((q.2.1 = q'.2.1 ∧ q.2.2 = q'.2.2) ∨ (q.2.1 = q'.2.2 ∧ q.2.2 = q'.2.1))) := by
  have hs0 := hs
  obtain ⟨l, o, a, b, c, l', hh, hok, hadd, hnb, -⟩ := hs
  have hno := hn.after l o a b c l' hh
  have hz : (run {} (l ++ [Call.addBranch o a b c])).coupled = [] := by
    apply run_inv (P := fun g => g.coupled = []) rfl
    intro g x hx h
    cases x with
    | addBranch o a b c => simp only [step]; rw [addBranch_frame.2.2.1]; exact h
    | addFluxBias a b m => simp only [step]; rw [addFluxBias_frame]; exact h
    | coupleResonator n c => simp only [step]; rw [coupleResonator_frame]; exact h
    | removeAllResonators => exact h
    | addChargeBias n s m => simp only [step]; rw [addChargeBias_frame]; exact h
    | coupleBranches c s m =>
      rcases List.mem_append.1 hx with hx | hx
      · exact absurd hx (hno c s m)
      · simp at hx
  set l0 := l ++ [Call.addBranch o a b c] with hl0
  have hsplit : h = l0 ++ l' := by rw [hh, hl0]; simp
  have hc0 : couplings l0 = [] := by
    unfold couplings
    rw [List.filterMap_eq_nil_iff]
    intro x hx
    cases x with
    | coupleBranches c s m =>
      rcases List.mem_append.1 hx with hx | hx
      · exact absurd hx (hno c s m)
      · simp at hx
    | _ => rfl
  -- the calls after the last branch
  have key : ∀ (l1 : List Call), (∀ l2, l' = l1 ++ l2 → SameCircuit (run {} l0) (run {} (l0 ++ l1)) ∧
      (run {} (l0 ++ l1)).coupled = (couplings (l0 ++ l1)).map (fun k => (k.2.2, edgeOf (run {} h) k.1, edgeOf (run {} h) k.2.1)) ∧
      (∀ q ∈ (run {} (l0 ++ l1)).coupled, q.2.1 ∈ (run {} h).wc ∧ q.2.2 ∈ (run {} h).wc) ∧
      (∀ k ∈ couplings (l0 ++ l1), ∃ e1 ∈ (run {} h).wc, ∃ e2 ∈ (run {} h).wc, (run {} h).cmap.get? e1 = some k.1 ∧ (run {} h).cmap.get? e2 = some k.2.1 ∧ k.1 ≠ k.2.1) ∧
      ((run {} (l0 ++ l1)).coupled.Pairwise fun q q' => ¬ ((q.2.1 = q'.2.1 ∧ q.2.2 = q'.2.2) ∨ (q.2.1 = q'.2.2 ∧ q.2.2 = q'.2.1)))) := by
    intro l1
    induction l1 using List.reverseRecOn with
    | nil =>
      intro l2 _
      rw [List.append_nil, hz, hc0]
      exact ⟨⟨rfl, rfl, rfl, rfl, rfl, rfl, rfl, rfl, rfl⟩, by simp, by simp, by simp, by simp⟩
    | append_singleton l1 x ih =>
      intro l2 hl2
      obtain ⟨i1, i2, i3, i4, i5⟩ := ih (x :: l2) (by rw [hl2]; simp)
      have hx : x ∈ l' := by rw [hl2]; simp
      have hxb : x.isBranch = false := by
        cases x with
        | addBranch o a b c => exact absurd rfl (hnb _ hx o a b c)
        | _ => rfl
      have hst := step_same (g := run {} (l0 ++ l1)) hxb
      have hxok : (step (run {} (l0 ++ l1)) x).2 = .ok () := ha (l0 ++ l1) x l2 (by rw [hsplit, hl2]; simp)
      have hrun : run {} (l0 ++ (l1 ++ [x])) = (step (run {} (l0 ++ l1)) x).1 := by rw [← List.append_assoc, run_snoc]
      have hcpl : couplings (l0 ++ (l1 ++ [x])) = couplings (l0 ++ l1) ++ couplings [x] := by
        unfold couplings; rw [← List.append_assoc, List.filterMap_append]
      rw [hrun, hcpl]
      refine ⟨i1.trans hst, ?_⟩
      have same : (step (run {} (l0 ++ l1)) x).1.coupled = (run {} (l0 ++ l1)).coupled → couplings [x] = [] →
          ((step (run {} (l0 ++ l1)) x).1.coupled = (couplings (l0 ++ l1) ++ couplings [x]).map (fun k => (k.2.2, edgeOf (run {} h) k.1, edgeOf (run {} h) k.2.1)) ∧
          (∀ q ∈ (step (run {} (l0 ++ l1)) x).1.coupled, q.2.1 ∈ (run {} h).wc ∧ q.2.2 ∈ (run {} h).wc) ∧
          (∀ k ∈ couplings (l0 ++ l1) ++ couplings [x], ∃ e1 ∈ (run {} h).wc, ∃ e2 ∈ (run {} h).wc, (run {} h).cmap.get? e1 = some k.1 ∧ (run {} h).cmap.get? e2 = some k.2.1 ∧ k.1 ≠ k.2.1) ∧
          ((step (run {} (l0 ++ l1)) x).1.coupled.Pairwise fun q q' => ¬ ((q.2.1 = q'.2.1 ∧ q.2.2 = q'.2.2) ∨ (q.2.1 = q'.2.2 ∧ q.2.2 = q'.2.1)))) := by
        intro e1 e2
        rw [e1, e2, List.append_nil]
        exact ⟨i2, i3, i4, i5⟩
      cases x with
      | addBranch o a b c => cases hxb
      | addFluxBias a b m => exact same (by simp only [step]; rw [addFluxBias_frame]) rfl
      | coupleResonator n c => exact same (by simp only [step]; rw [coupleResonator_frame]) rfl
      | removeAllResonators => exact same rfl rfl
      | addChargeBias n s m => exact same (by simp only [step]; rw [addChargeBias_frame]) rfl
      | coupleBranches a b m =>
        have hab : a ≠ b := hn.mutuals _ _ _ (by rw [hsplit]; exact List.mem_append_right _ hx)
        simp only [step] at hxok ⊢
        obtain ⟨e1, e2, k1, k2, k3, k4, k5, k6, k7, k8, k9, k10⟩ := coupleBranches_ok hxok
        have hfin : SameCircuit (run {} l0) (run {} h) := by
          rw [hsplit, run_append {} l0 l']
          have : ∀ (l' : List Call), (∀ x ∈ l', ∀ o a b c, x ≠ Call.addBranch o a b c) → ∀ g, SameCircuit (run {} l0) g →
              SameCircuit (run {} l0) (run g l') := by
            intro l'
            induction l' with
            | nil => intro _ g hg; exact hg
            | cons x l' ih =>
              intro hl g hg
              have hx : x.isBranch = false := by
                cases x with
                | addBranch o a b c => exact absurd rfl (hl _ (by simp) o a b c)
                | _ => rfl
              exact ih (fun y hy => hl y (by simp [hy])) _ (hg.trans (step_same hx))
          exact this l' hnb _ ⟨rfl, rfl, rfl, rfl, rfl, rfl, rfl, rfl, rfl⟩
        rw [i1.wc, ← hfin.wc] at k7 k8
        rw [i1.cmap, ← hfin.cmap] at k3 k4
        have hk : couplings [Call.coupleBranches a b m] = [(a, b, m)] := rfl
        rw [k10, hk]
        refine ⟨?_, ?_, ?_, ?_⟩
        · rw [List.map_append, ← i2]
          simp only [List.map_cons, List.map_nil]
          rw [edgeOf_eq hs0 k7 k3, edgeOf_eq hs0 k8 k4]
        · intro q hq
          rcases List.mem_append.1 hq with hq | hq
          · exact i3 q hq
          · rw [List.mem_singleton.1 hq]; exact ⟨k7, k8⟩
        · intro k hk
          rcases List.mem_append.1 hk with hk | hk
          · exact i4 k hk
          · rw [List.mem_singleton.1 hk]; exact ⟨e1, k7, e2, k8, k3, k4, hab⟩
        · refine List.pairwise_append.2 ⟨i5, by simp, ?_⟩
          intro q hq q' hq'
          rw [List.mem_singleton.1 hq']
          exact k9 q hq
  have := (key l' [] (by simp)).2
  rw [← hsplit] at this
  exact this

/-- The entries of the branch inductance matrix between two inductors are those of the netlist. -/
theorem branch_entry {h : List Call} {g : CG} (hs : Settled h g) (ha : AllOk h) (hn : LoadedNetlist h) (val : String → ℝ) {M : Mat ℝ}
    (hM : branchInductance val g = .ok M) (i j : Fin (edges g).length) {c c' : String} (hc : g.cmap.get? ((edges g).get i) = some c)
    (hc' : g.cmap.get? ((edges g).get j) = some c') (hL : startsWith c 'L' = true) :
    M i j = if c = c' then val c else mutualOf val h c c' := by
  obtain ⟨rfl, hok⟩ := settled_run hs
  obtain ⟨r1, r2, r3, r4⟩ := couplings_run hs ha hn
  obtain ⟨-, -, b3, b4⟩ := C30_branch_matrix h _ hs val M hM i j
  generalize he : (edges (run {} h)).get i = e at hc b3 b4
  generalize he' : (edges (run {} h)).get j = e' at hc' b3 b4
  have hew : e ∈ (run {} h).wc := by rw [← he]; exact List.get_mem _ _
  have hew' : e' ∈ (run {} h).wc := by rw [← he']; exact List.get_mem _ _
  have hnd : (edges (run {} h)).Nodup := wc_nodup hs
  have hij : i = j ↔ c = c' := by
    constructor
    · rintro rfl
      rw [he] at he'
      subst he'
      exact Option.some.inj (hc.symm.trans hc')
    · rintro rfl
      have : e = e' := wc_name_inj hs hew hew' hc hc'
      rw [← he, ← he'] at this
      exact Fin.ext ((List.Nodup.getElem_inj_iff hnd).1 this)
  -- a coupling joins the two edges exactly if its call names the two inductors
  have hiff : ∀ k ∈ couplings h, (Couples (k.2.2, edgeOf (run {} h) k.1, edgeOf (run {} h) k.2.1) e e' ↔
      (k.1 = c ∧ k.2.1 = c') ∨ (k.1 = c' ∧ k.2.1 = c)) := by
    intro k hk
    obtain ⟨e1, w1, e2, w2, n1, n2, -⟩ := r3 k hk
    rw [edgeOf_eq hs w1 n1, edgeOf_eq hs w2 n2]
    have t : ∀ {x y : Edge} {p q : String}, x ∈ (run {} h).wc → y ∈ (run {} h).wc → (run {} h).cmap.get? x = some p →
        (run {} h).cmap.get? y = some q → (x = y ↔ p = q) := by
      intro x y p q hx hy hp hq
      constructor
      · rintro rfl; exact Option.some.inj (hp.symm.trans hq)
      · rintro rfl; exact wc_name_inj hs hx hy hp hq
    unfold Couples
    simp only
    rw [t hew w1 hc n1, t hew' w2 hc' n2, t hew w2 hc n2, t hew' w1 hc' n1]
    constructor
    · rintro (⟨rfl, rfl⟩ | ⟨rfl, rfl⟩)
      · exact Or.inl ⟨rfl, rfl⟩
      · exact Or.inr ⟨rfl, rfl⟩
    · rintro (⟨rfl, rfl⟩ | ⟨rfl, rfl⟩)
      · exact Or.inl ⟨rfl, rfl⟩
      · exact Or.inr ⟨rfl, rfl⟩
  by_cases hcc : c = c'
  · rw [if_pos hcc]
    refine (b3 ?_).2 c (hij.2 hcc) hc hL
    intro q hq hcq
    rw [r1] at hq
    obtain ⟨k, hk, rfl⟩ := List.mem_map.1 hq
    obtain ⟨-, -, -, -, -, -, hne⟩ := r3 k hk
    rcases (hiff k hk).1 hcq with ⟨h1, h2⟩ | ⟨h1, h2⟩
    · exact hne (h1.trans (hcc.trans h2.symm))
    · exact hne (h1.trans (hcc.symm.trans h2.symm))
  · rw [if_neg hcc]
    by_cases hex : ∃ q ∈ (run {} h).coupled, Couples q e e'
    · obtain ⟨q, hq, hqc, hMq⟩ := b4 hex
      rw [r1] at hq
      obtain ⟨k, hk, rfl⟩ := List.mem_map.1 hq
      rw [hMq]
      unfold mutualOf
      have hfil : (couplings h).filter (fun k => (k.1 = c ∧ k.2.1 = c') ∨ (k.1 = c' ∧ k.2.1 = c)) = [k] := by
        have hp : (couplings h).Pairwise fun k k' => ¬ (((k.1 = c ∧ k.2.1 = c') ∨ (k.1 = c' ∧ k.2.1 = c)) ∧
            ((k'.1 = c ∧ k'.2.1 = c') ∨ (k'.1 = c' ∧ k'.2.1 = c))) := by
          rw [r1, List.pairwise_map] at r4
          refine List.Pairwise.imp_of_mem ?_ r4
          rintro k1 k2 m1 m2 hnot ⟨c1, c2⟩
          apply hnot
          rcases c1 with ⟨a1, a2⟩ | ⟨a1, a2⟩ <;> rcases c2 with ⟨d1, d2⟩ | ⟨d1, d2⟩ <;> rw [a1, a2, d1, d2] <;> simp
        have hmem : k ∈ (couplings h).filter (fun k => (k.1 = c ∧ k.2.1 = c') ∨ (k.1 = c' ∧ k.2.1 = c)) :=
          List.mem_filter.2 ⟨hk, by simpa using (hiff k hk).1 hqc⟩
        have hp2 := hp.filter (fun k => decide ((k.1 = c ∧ k.2.1 = c') ∨ (k.1 = c' ∧ k.2.1 = c)))
        revert hmem hp2
        have hall : ∀ x ∈ (couplings h).filter (fun k => (k.1 = c ∧ k.2.1 = c') ∨ (k.1 = c' ∧ k.2.1 = c)),
            (x.1 = c ∧ x.2.1 = c') ∨ (x.1 = c' ∧ x.2.1 = c) := by
          intro x hx; simpa using (List.mem_filter.1 hx).2
        revert hall
        generalize (couplings h).filter (fun k => (k.1 = c ∧ k.2.1 = c') ∨ (k.1 = c' ∧ k.2.1 = c)) = fl
        intro hall hmem hp2
        match fl, hall, hmem, hp2 with
        | [x], _, hmem, _ => rw [List.mem_singleton.1 hmem]
        | x :: y :: t, hall, _, hp2 =>
          rw [List.pairwise_cons] at hp2
          exact absurd ⟨hall x (by simp), hall y (by simp)⟩ (hp2.1 y (by simp))
      rw [hfil]
      simp
    · push Not at hex
      rw [(b3 hex).1 fun h => hcc (hij.1 h)]
      unfold mutualOf
      have : (couplings h).filter (fun k => (k.1 = c ∧ k.2.1 = c') ∨ (k.1 = c' ∧ k.2.1 = c)) = [] := by
        rw [List.filter_eq_nil_iff]
        intro k hk hd
        have hd' := by simpa using hd
        refine hex _ ?_ ((hiff k hk).2 hd')
        rw [r1]
        exact List.mem_map.2 ⟨k, hk, rfl⟩
      rw [this]; rfl

end Verif.Props
