import Verif.Lemmas.SymbolicInd
import Verif.Props.SymbolicCap

/-!
# C30, C31: the inverse inductance matrix and Kirchhoff's law
-/

set_option linter.unusedVariables false

namespace Verif.Props

open Verif Verif.Spec Verif.Circuit Verif.Sym Matrix

variable {K : Type}

/-- The branch carries an inductor. -/
def IsInductor (g : CG) (e : ℕ × ℕ × ℕ) : Prop := ∃ c, g.cmap.get? e = some c ∧ startsWith c 'L' = true

theorem isInductor_iff {g : CG} {val : String → K} {e : Edge} : IsInductor g e ↔ (indVal val g e).isSome := by
  unfold IsInductor indVal
  cases g.cmap.get? e with
  | none => simp
  | some c =>
    simp only [Option.some.injEq, exists_eq_left', startsWith_iff]
    by_cases h : pre c = some 'L' <;> simp [h]

/-- A coupling names two branches. -/
def Couples (q : String × (Edge × Edge)) (e e' : Edge) : Prop := (e = q.2.1 ∧ e' = q.2.2) ∨ (e = q.2.2 ∧ e' = q.2.1)

theorem pairs_iff {h : List Call} {g : CG} (hs : Settled h g) {q : String × (Edge × Edge)} (h1 : q.2.1 ∈ edges g) (h2 : q.2.2 ∈ edges g)
    (i j : Fin (edges g).length) : pairs g q i j ↔ Couples q ((edges g).get i) ((edges g).get j) := by
  have hnd : (edges g).Nodup := wc_nodup hs
  have key : ∀ (i : Fin (edges g).length) (e : Edge), e ∈ edges g → ((i : ℕ) = (edges g).idxOf e ↔ (edges g).get i = e) := by
    intro i e he
    constructor
    · intro hi
      have : (edges g)[(i : ℕ)]'i.2 = e := by
        have := List.getElem_idxOf (List.idxOf_lt_length_iff.2 he)
        simp only [← hi] at this
        exact this
      exact this
    · rintro rfl
      exact (hnd.idxOf_getElem i i.2).symm
  unfold pairs Couples
  rw [key i _ h1, key j _ h2, key i _ h2, key j _ h1]

theorem coupled_inductors {h : List Call} {g : CG} (hs : Settled h g) {q : String × (Edge × Edge)} (hq : q ∈ g.coupled)
    {e : Edge} (he : e = q.2.1 ∨ e = q.2.2) {c : String} (hc : g.cmap.get? e = some c) : startsWith c 'L' = true := by
  have hg : g = run {} h := by obtain ⟨_, _, _, _, _, _, _, _, _, _, rfl⟩ := hs; rfl
  have hok : ∀ x ∈ h, x.OK := by obtain ⟨_, _, _, _, _, _, _, h, _⟩ := hs; exact h
  subst hg
  obtain ⟨c1, c2, n1, n2, s1, s2, _⟩ := (C27_history h hok).2 q hq
  rcases he with rfl | rfl
  · rw [n1.2.1 c hc]; exact s1
  · rw [n2.2.1 c hc]; exact s2

/-- **C30** The branch inductance matrix: symmetric, with the inductance of each inductor on the diagonal (unless the inductor is
coupled to itself), the mutual inductance where two branches are coupled, and 0 elsewhere; the rows of other branches are 0. -/
theorem C30_branch_matrix [Field K] (h : List Call) (g : CG) (hs : Settled h g) (val : String → K) (M : Mat K)
    (hM : branchInductance val g = .ok M) (i j : Fin (edges g).length) :
    M i j = M j i ∧
    (¬ IsInductor g ((edges g).get i) → M i j = 0) ∧
    ((∀ q ∈ g.coupled, ¬ Couples q ((edges g).get i) ((edges g).get j)) →
      (i ≠ j → M i j = 0) ∧ ∀ c, i = j → g.cmap.get? ((edges g).get i) = some c → startsWith c 'L' = true → M i j = val c) ∧
    ((∃ q ∈ g.coupled, Couples q ((edges g).get i) ((edges g).get j)) →
      ∃ q ∈ g.coupled, Couples q ((edges g).get i) ((edges g).get j) ∧ M i j = val q.1) := by
  obtain ⟨h1, h2, h3⟩ := branchInductance_ok hM
  have hp : ∀ q ∈ g.coupled, (pairs g q i j ↔ Couples q ((edges g).get i) ((edges g).get j)) :=
    fun q hq => pairs_iff hs (h1 q hq).1 (h1 q hq).2 i j
  refine ⟨h3 i j, ?_, ?_, ?_⟩
  · intro hni
    rcases h2 i j with ⟨_, he⟩ | ⟨q, hq, hpq, _⟩
    · rw [he]
      split_ifs with hij
      · rw [List.getElem?_eq_getElem i.2, Option.bind_some]
        have : indVal val g ((edges g).get i) = none := by
          rw [isInductor_iff (val := val)] at hni
          simpa using hni
        change (indVal val g ((edges g).get i)).getD 0 = 0
        rw [this]; rfl
      · rfl
    · exfalso
      apply hni
      obtain ⟨b, _, _, hc⟩ := wc_branch hs (e := (edges g).get i) (List.get_mem _ _)
      refine ⟨_, hc, coupled_inductors hs hq ?_ hc⟩
      rcases (hp q hq).1 hpq with ⟨a, _⟩ | ⟨a, _⟩
      · exact Or.inl a
      · exact Or.inr a
  · intro hnone
    rcases h2 i j with ⟨_, he⟩ | ⟨q, hq, hpq, _⟩
    · rw [he]
      refine ⟨fun hij => if_neg fun h => hij (Fin.ext h), ?_⟩
      rintro c rfl hc hL
      rw [if_pos rfl, List.getElem?_eq_getElem i.2, Option.bind_some]
      change (indVal val g ((edges g).get i)).getD 0 = _
      unfold indVal
      rw [hc]
      simp only [(startsWith_iff _ _).1 hL, if_true, Option.getD_some]
    · exact absurd ((hp q hq).1 hpq) (hnone q hq)
  · rintro ⟨q, hq, hc⟩
    rcases h2 i j with ⟨hn, _⟩ | ⟨q', hq', hpq, he⟩
    · exact absurd ((hp q hq).2 hc) (hn q hq)
    · exact ⟨q', hq', (hp q' hq').1 hpq, he⟩

theorem inverseInductance_ok [Field K] {val : String → K} {g : CG}
    {pinv : Matrix (Fin (edges g).length) (Fin (edges g).length) K → Matrix (Fin (edges g).length) (Fin (edges g).length) K}
    {L : Matrix (Fin (nodes g).length) (Fin (nodes g).length) K} (h : inverseInductance val g pinv = .ok L) :
    ∃ M, branchInductance val g = .ok M ∧ L = toNodes g (pinv (M.block _ _)) := by
  unfold inverseInductance at h
  cases hb : branchInductance val g with
  | error x => rw [hb] at h; cases h
  | ok M => rw [hb] at h; exact ⟨M, rfl, (Except.ok.inj h).symm⟩

/-- **C30** The inverse inductance matrix is symmetric. -/
theorem C30_symmetric [Field K] (val : String → K) (g : CG)
    (pinv : Matrix (Fin (edges g).length) (Fin (edges g).length) K → Matrix (Fin (edges g).length) (Fin (edges g).length) K)
    (hp : ∀ M, branchInductance val g = .ok M → IsPinv (M.block _ _) (pinv (M.block _ _))) (L : Matrix (Fin (nodes g).length) (Fin (nodes g).length) K)
    (h : inverseInductance val g pinv = .ok L) : Lᵀ = L := by
  obtain ⟨M, hM, rfl⟩ := inverseInductance_ok h
  obtain ⟨_, _, h3⟩ := branchInductance_ok hM
  have hsym : (M.block (edges g).length (edges g).length)ᵀ = M.block (edges g).length (edges g).length := by
    ext i j; exact h3 _ _
  have hB := pinv_symm hsym (hp _ hM)
  unfold toNodes
  rw [transpose_mul, transpose_mul, transpose_transpose, hB, Matrix.mul_assoc]

theorem toNodes_form [Field K] (g : CG) (B : Matrix (Fin (edges g).length) (Fin (edges g).length) K) (x : Fin (nodes g).length → K) :
    x ⬝ᵥ (toNodes g B).mulVec x = branchFluxes g x ⬝ᵥ B.mulVec (branchFluxes g x) := by
  unfold toNodes branchFluxes
  rw [← mulVec_mulVec, ← mulVec_mulVec, dotProduct_mulVec, mulVec_transpose]

/-- **C30** The form of the inverse inductance matrix is the magnetic energy: if branch currents, flowing in the inductors only,
produce in every inductor (through the self and mutual inductances) the flux difference of its ends, the form at the node
fluxes is the sum of current times flux over the inductors. -/
theorem C30_energy [Field K] (h : List Call) (g : CG) (hs : Settled h g) (val : String → K) (M : Mat K)
    (hM : branchInductance val g = .ok M)
    (pinv : Matrix (Fin (edges g).length) (Fin (edges g).length) K → Matrix (Fin (edges g).length) (Fin (edges g).length) K)
    (hp : ∀ M, branchInductance val g = .ok M → IsPinv (M.block _ _) (pinv (M.block _ _))) (L : Matrix (Fin (nodes g).length) (Fin (nodes g).length) K)
    (hL : inverseInductance val g pinv = .ok L) (φ : ℕ → K) (h0 : φ 0 = 0) (I : Fin (edges g).length → K)
    (hI0 : ∀ j, ¬ IsInductor g ((edges g).get j) → I j = 0)
    (hI : ∀ j, IsInductor g ((edges g).get j) → ∑ k : Fin (edges g).length, M j k * I k = φ ((edges g).get j).1 - φ ((edges g).get j).2.1) :
    atNodes g φ ⬝ᵥ L.mulVec (atNodes g φ) = ∑ j, I j * (φ ((edges g).get j).1 - φ ((edges g).get j).2.1) := by
  obtain ⟨M', hM', rfl⟩ := inverseInductance_ok hL
  obtain rfl : M' = M := Except.ok.inj (hM'.symm.trans hM)
  rw [toNodes_form]
  obtain ⟨_, _, h3⟩ := branchInductance_ok hM
  have hsym : (M'.block (edges g).length (edges g).length)ᵀ = M'.block (edges g).length (edges g).length := by
    ext i j; exact h3 _ _
  set A := M'.block (edges g).length (edges g).length with hA
  set y := branchFluxes g (atNodes g φ) with hy
  have hyj : ∀ j, y j = φ ((edges g).get j).1 - φ ((edges g).get j).2.1 := fun j => branchFluxes_eq hs φ h0 j
  have hAI : ∀ j, IsInductor g ((edges g).get j) → A.mulVec I j = y j := by
    intro j hj
    rw [hyj, ← hI j hj]
    rfl
  let z := y - A.mulVec I
  have hz : A.mulVec z = 0 := by
    funext i
    simp only [Matrix.mulVec, dotProduct, Pi.zero_apply]
    apply Finset.sum_eq_zero
    intro j _
    by_cases hj : IsInductor g ((edges g).get j)
    · have : z j = 0 := by simp only [z, Pi.sub_apply]; rw [hAI j hj, sub_self]
      rw [this, mul_zero]
    · have : A i j = 0 := by
        have h1 := C30_branch_matrix h g hs val M' hM j i
        have h2 := h1.2.1 hj
        change M' i j = 0
        rw [← h1.1, h2]
      rw [this, zero_mul]
  have hyz : y = A.mulVec I + z := by simp [z]
  rw [hyz, pinv_form hsym (hp _ hM) I z hz]
  apply Finset.sum_congr rfl
  intro j _
  by_cases hj : IsInductor g ((edges g).get j)
  · rw [hAI j hj, hyj]
  · rw [hI0 j hj]; ring

/-- **C30** For uncoupled inductors the form at node fluxes `φ` is the sum over all inductors of (flux difference)² / L. -/
theorem C30_uncoupled [Field K] (h : List Call) (g : CG) (hs : Settled h g) (hc : g.coupled = []) (val : String → K)
    (hval : ∀ b ∈ branchesOf 'L' (branches h), val b.2.2 ≠ 0)
    (pinv : Matrix (Fin (edges g).length) (Fin (edges g).length) K → Matrix (Fin (edges g).length) (Fin (edges g).length) K)
    (hp : ∀ M, branchInductance val g = .ok M → IsPinv (M.block _ _) (pinv (M.block _ _))) (L : Matrix (Fin (nodes g).length) (Fin (nodes g).length) K)
    (hL : inverseInductance val g pinv = .ok L) (φ : ℕ → K) (h0 : φ 0 = 0) :
    atNodes g φ ⬝ᵥ L.mulVec (atNodes g φ) = inductorForm val (branches h) φ := by
  obtain ⟨M, hM, _⟩ := inverseInductance_ok hL
  let cur : Edge → K := fun e => match g.cmap.get? e with
    | some c => if startsWith c 'L' = true then (φ e.1 - φ e.2.1) / val c else 0
    | none => 0
  rw [C30_energy h g hs val M hM pinv hp L hL φ h0 (fun j => cur ((edges g).get j))]
  · have e1 : ∑ j : Fin (edges g).length, cur ((edges g).get j) * (φ ((edges g).get j).1 - φ ((edges g).get j).2.1) =
        ((edges g).map fun e => cur e * (φ e.1 - φ e.2.1)).sum :=
      Fin.sum_univ_fun_getElem (edges g) fun e => cur e * (φ e.1 - φ e.2.1)
    rw [e1]
    have e2 := sum_wc hs (fun b => if startsWith b.2.2 'L' = true then (φ b.1 - φ b.2.1) ^ 2 / val b.2.2 else 0)
      (by intro a b c; simp only; split_ifs <;> ring) (by intro a c; simp)
    have e3 : ((edges g).map fun e => cur e * (φ e.1 - φ e.2.1)) =
        g.wc.map fun e => match g.cmap.get? e with
          | some c => (fun b : ℕ × ℕ × String => if startsWith b.2.2 'L' = true then (φ b.1 - φ b.2.1) ^ 2 / val b.2.2 else 0) (e.1, e.2.1, c)
          | none => 0 := by
      unfold edges
      apply List.map_congr_left
      intro e _
      simp only [cur]
      cases g.cmap.get? e with
      | none => simp
      | some c =>
        simp only
        split_ifs
        · ring
        · ring
    refine (congrArg List.sum e3).trans (e2.trans ?_)
    unfold inductorForm branchesOf conductors
    rw [sum_filter_map, sum_filter_map]
    congr 1
    apply List.map_congr_left
    intro b _
    by_cases hb : startsWith b.2.2 'L' = true
    · have : startsWith b.2.2 'C' = false := by
        cases hb' : startsWith b.2.2 'C' with
        | false => rfl
        | true =>
          have h1 := (startsWith_iff _ _).1 hb
          have h2 := (startsWith_iff _ _).1 hb'
          rw [h1] at h2; cases h2
      simp [hb, this]
    · simp [hb]
  · intro j hj
    simp only [cur]
    cases hcm : g.cmap.get? ((edges g).get j) with
    | none => rfl
    | some c =>
      simp only
      rw [if_neg fun hL => hj ⟨c, hcm, hL⟩]
  · rintro j ⟨c, hcm, hcL⟩
    rw [Finset.sum_eq_single j]
    · have h1 := (C30_branch_matrix h g hs val M hM j j).2.2.1 (by rw [hc]; simp)
      rw [h1.2 c rfl hcm hcL]
      simp only [cur, hcm, hcL, if_true]
      have : val c ≠ 0 := by
        obtain ⟨b, hb, _, hb'⟩ := wc_branch hs (e := (edges g).get j) (List.get_mem _ _)
        obtain rfl : b.2.2 = c := Option.some.inj (hb'.symm.trans hcm)
        exact hval b (List.mem_filter.2 ⟨(List.mem_filter.1 hb).1, hcL⟩)
      field_simp
    · intro k _ hk
      have h1 := (C30_branch_matrix h g hs val M hM j k).2.2.1 (by rw [hc]; simp)
      rw [h1.1 (Ne.symm hk), zero_mul]
    · intro hn; exact absurd (Finset.mem_univ _) hn

/-- **C30** When the matrix exists: no inductor has a flux bias with a mutual inductance, and every coupled branch is still listed in
the direction in which it was coupled. -/
theorem C30_defined [Field K] (h : List Call) (g : CG) (hs : Settled h g) (val : String → K) :
    (∃ M, branchInductance val g = .ok M) ↔
      (∀ e ∈ g.wc, IsInductor g e → ∀ b, g.fluxBias.get? e = some b → b.comp = none) ∧
      ∀ q ∈ g.coupled, q.2.1 ∈ g.wc ∧ q.2.2 ∈ g.wc := by
  have hdiag : ∀ (l : List (Edge × ℕ)) (M : Mat K), (∀ p ∈ l, p.1 ∈ g.wc) →
      ((∃ M', l.foldlM (indDiag val g) M = .ok M') ↔
        ∀ p ∈ l, IsInductor g p.1 → ∀ b, g.fluxBias.get? p.1 = some b → b.comp = none) := by
    intro l
    induction l with
    | nil => intro M _; simp; exact ⟨M, rfl⟩
    | cons p l ih =>
      intro M hl
      obtain ⟨b0, _, _, hc⟩ := wc_branch hs (hl p (by simp))
      rw [List.foldlM_cons]
      have hone : (∃ M', indDiag val g M p = .ok M') ↔ (IsInductor g p.1 → ∀ b, g.fluxBias.get? p.1 = some b → b.comp = none) := by
        unfold indDiag IsInductor
        rw [hc]
        simp only [Option.some.injEq, exists_eq_left', startsWith_iff]
        by_cases hp : pre b0.2.2 = some 'L'
        · rw [if_pos hp]
          cases hb : g.fluxBias.get? p.1 with
          | none => simp
          | some b =>
            cases hm : b.comp with
            | none => simp [hm]
            | some m => simp [hm, hp]
        · rw [if_neg hp]; simp [hp]
      cases hd : indDiag val g M p with
      | error x =>
        constructor
        · rintro ⟨M', h⟩; cases h
        · intro hall
          obtain ⟨M', hM'⟩ := hone.2 (hall p (by simp))
          rw [hd] at hM'; cases hM'
      | ok M1 =>
        have h1 := hone.1 ⟨M1, hd⟩
        have h2 := ih M1 fun p hp => hl p (List.mem_cons_of_mem _ hp)
        constructor
        · intro hex p' hp'
          rcases List.mem_cons.1 hp' with rfl | hp'
          · exact h1
          · exact h2.1 hex p' hp'
        · intro hall
          exact h2.2 fun p' hp' => hall p' (List.mem_cons_of_mem _ hp')
  have hoff : ∀ (l : List (String × (Edge × Edge))) (M : Mat K),
      (∃ M', l.foldlM (indOff val g) M = .ok M') ↔ ∀ q ∈ l, q.2.1 ∈ g.wc ∧ q.2.2 ∈ g.wc := by
    intro l
    induction l with
    | nil => intro M; simp; exact ⟨M, rfl⟩
    | cons q l ih =>
      intro M
      rw [List.foldlM_cons]
      unfold indOff
      by_cases hq : q.2.1 ∉ edges g ∨ q.2.2 ∉ edges g
      · rw [if_pos hq]
        constructor
        · rintro ⟨M', h⟩; cases h
        · intro hall
          obtain ⟨a, b⟩ := hall q (by simp)
          rcases hq with hq | hq
          · exact absurd a hq
          · exact absurd b hq
      · rw [if_neg hq]
        push Not at hq
        constructor
        · intro hex q' hq'
          rcases List.mem_cons.1 hq' with rfl | hq'
          · exact hq
          · exact (ih _).1 hex q' hq'
        · intro hall
          exact (ih _).2 fun q' hq' => hall q' (List.mem_cons_of_mem _ hq')
  have hz : ∀ e, (∃ i, (e, i) ∈ (edges g).zipIdx) ↔ e ∈ g.wc := by
    intro e
    constructor
    · rintro ⟨i, hi⟩
      obtain ⟨h1, h2⟩ := List.mem_zipIdx' hi
      rw [h2]; exact List.getElem_mem _
    · intro he
      exact ⟨(edges g).idxOf e, by
        have he : e ∈ edges g := he
        rw [List.mem_zipIdx_iff_getElem?]
        simp only
        rw [List.getElem?_eq_getElem (List.idxOf_lt_length_iff.2 he), List.getElem_idxOf]⟩
  unfold branchInductance
  have hd := hdiag (edges g).zipIdx (fun _ _ => 0) (fun p hp => (hz p.1).1 ⟨p.2, hp⟩)
  have hd' : (∀ p ∈ (edges g).zipIdx, IsInductor g p.1 → ∀ b, g.fluxBias.get? p.1 = some b → b.comp = none) ↔
      ∀ e ∈ g.wc, IsInductor g e → ∀ b, g.fluxBias.get? e = some b → b.comp = none := by
    constructor
    · intro hall e he
      obtain ⟨i, hi⟩ := (hz e).2 he
      exact hall _ hi
    · intro hall p hp
      exact hall p.1 ((hz p.1).1 ⟨p.2, hp⟩)
  rw [hd'] at hd
  cases hf : (edges g).zipIdx.foldlM (indDiag val g) (fun _ _ => 0) with
  | error x =>
    rw [hf] at hd
    constructor
    · rintro ⟨M, h⟩; cases h
    · intro hall
      obtain ⟨M', h⟩ := hd.2 hall.1
      cases h
  | ok M0 =>
    rw [hf] at hd
    simp only
    rw [hoff]
    constructor
    · intro h2; exact ⟨hd.1 ⟨M0, rfl⟩, h2⟩
    · intro h2; exact h2.2

/-! ### Witnesses for C30 -/

/-- Inductances for the ring. -/
def ringVal (c : String) : ℚ := if c = "L1" then 2 else if c = "L2" then 4 else 1

/-- The pseudo-inverse of the branch inductance matrix of the ring. -/
def ringPinv : Matrix (Fin 3) (Fin 3) ℚ := !![1/2, 0, 0; 0, 1/4, 0; 0, 0, 0]

-- the hypotheses of the C30 theorems hold for the ring: no couplings, nonzero inductances, the matrix exists and has a pseudo-inverse
example : (run {} ringCalls).coupled = [] ∧ (∀ b ∈ branchesOf 'L' (branches ringCalls), ringVal b.2.2 ≠ 0) ∧
    (edges (run {} ringCalls)).length = 3 := by decide +kernel

example : ∃ M, branchInductance ringVal (run {} ringCalls) = .ok M ∧ IsPinv (M.block 3 3) ringPinv := by
  refine ⟨_, rfl, ?_, ?_, ?_, ?_⟩ <;> decide +kernel

-- … and the form is (φ₁)²/2 + (φ₁ - φ₂)²/4
example : inductorForm ringVal (branches ringCalls) (fun n => if n = 1 then 3 else if n = 2 then 1 else 0) = 9/2 + 1 := by decide +kernel

/-- **C30 is false** in these points: a flux bias with a mutual inductance on an inductor makes the matrix a `TypeError`; a
branch added after a coupling can make it a `ValueError`; and an inductor coupled to itself loses its self-inductance. -/
theorem C30_defined_false :
    (∃ l : List Call, Settled l (run {} l) ∧ AllOk l ∧ branchInductance ringVal (run {} l) = .error .typeError) ∧
    (∃ l : List Call, Settled l (run {} l) ∧ AllOk l ∧ branchInductance ringVal (run {} l) = .error .valueError) ∧
    (∃ (l : List Call) (M : Mat ℚ), Settled l (run {} l) ∧ AllOk l ∧ branchInductance ringVal (run {} l) = .ok M ∧
      (edges (run {} l))[0]? = some (0, 1, 0) ∧ (run {} l).cmap.get? (0, 1, 0) = some "L1" ∧ M 0 0 ≠ ringVal "L1") := by
  have ok : ∀ l : List Call, (∀ k < l.length, (step (run {} (l.take k)) (l.getD k .removeAllResonators)).2 = .ok ()) → AllOk l := by
    intro l h l1 c l2 he
    have := h l1.length (by rw [he]; simp)
    rw [he] at this
    simpa using this
  have call : ∀ c : Call, c.isBranch = false → ∀ l, Settled l (run {} l) → c.OK → Settled (l ++ [c]) (run {} (l ++ [c])) := by
    rintro c hc l ⟨l1, o, a, b, x, l2, rfl, h1, h2, h3, _⟩ hok
    refine ⟨l1, o, a, b, x, l2 ++ [c], by simp, ?_, h2, ?_, rfl⟩
    · intro y hy
      rcases List.mem_append.1 hy with hy | hy
      · exact h1 y hy
      · rw [List.mem_singleton.1 hy]; exact hok
    · intro y hy
      rcases List.mem_append.1 hy with hy | hy
      · exact h3 y hy
      · rw [List.mem_singleton.1 hy]
        intro o a b c' he
        rw [he] at hc; cases hc
  refine ⟨⟨ringCalls ++ [.addFluxBias "L2" (some "z") (some "M1")],
      call (.addFluxBias "L2" (some "z") (some "M1")) rfl _ ring_settled trivial, ok _ (by decide +kernel), by rfl⟩,
    ⟨ringCalls ++ [.coupleBranches "L1" "L2" "M1"] ++ [.addBranch Orc.id 0 2 "L3"], ?_, ok _ (by decide +kernel), by rfl⟩,
    ⟨ringCalls ++ [.coupleBranches "L1" "L1" "M1"], _, call (.coupleBranches "L1" "L1" "M1") rfl _ ring_settled trivial,
      ok _ (by decide +kernel), rfl, by decide +kernel⟩⟩
  refine ⟨_, Orc.id, 0, 2, "L3", [], rfl, ?_, by decide +kernel, by simp, rfl⟩
  intro x hx
  rcases List.mem_append.1 hx with hx | hx
  · rcases List.mem_append.1 hx with hx | hx
    · exact ring_ok x hx
    · rw [List.mem_singleton.1 hx]; trivial
  · rw [List.mem_singleton.1 hx]; exact orcId_ok

/-! ### C31 -/

/-- The branch flux that the code computes for an edge of the oriented circuit. -/
noncomputable def fluxOf [CommRing K] (g : CG) (φ : ℕ → K) (e : ℕ × ℕ × ℕ) : K :=
  if h : (edges g).idxOf e < (edges g).length then branchFluxes g (atNodes g φ) ⟨(edges g).idxOf e, h⟩ else 0

/-- The bias that the code adds to the phase of a Josephson branch or to the flux of an inductive branch. -/
def offsetOf [CommRing K] (phi : String → K) (g : CG) (b : Biases) (e : ℕ × ℕ × ℕ) : K :=
  fluxBiasVector phi g b ((edges g).idxOf e) + fluxBiasVectorInd phi g b ((edges g).idxOf e)

/-- **C31** Every branch flux is the difference of the fluxes of its ends. -/
theorem C31_difference [CommRing K] (h : List Call) (g : CG) (hs : Settled h g) (φ : ℕ → K) (h0 : φ 0 = 0) (e : ℕ × ℕ × ℕ) (he : e ∈ g.wc) :
    fluxOf g φ e = φ e.1 - φ e.2.1 := by
  have hlt : (edges g).idxOf e < (edges g).length := List.idxOf_lt_length_iff.2 he
  unfold fluxOf
  rw [dif_pos hlt]
  have := branchFluxes_eq hs φ h0 ⟨(edges g).idxOf e, hlt⟩
  rw [show atNodes g φ = fun i => φ ((nodes g).get i) from rfl, this]
  have hget : (edges g).get ⟨(edges g).idxOf e, hlt⟩ = e := List.getElem_idxOf hlt
  rw [hget]

/-- **C31** Kirchhoff's law: along every closed walk through the oriented circuit, in whatever directions, the signed branch
fluxes sum to 0; with the offsets added, the sum is the signed sum of the offsets. -/
theorem C31_kirchhoff [CommRing K] (h : List Call) (g : CG) (hs : Settled h g) (φ : ℕ → K) (h0 : φ 0 = 0) (u : ℕ)
    (w : List ((ℕ × ℕ × ℕ) × Bool)) (hw : SignedWalk g.wc u w u) (phi : String → K) (b : Biases) :
    signedSum (fluxOf g φ) w = 0 ∧
    signedSum (fun e => fluxOf g φ e + offsetOf phi g b e) w = signedSum (offsetOf phi g b) w := by
  have tele : ∀ {u v : ℕ} {w : List ((ℕ × ℕ × ℕ) × Bool)}, SignedWalk g.wc u w v → signedSum (fluxOf g φ) w = φ u - φ v := by
    intro u v w hw
    induction hw with
    | nil u => simp [signedSum]
    | fwd he _ ih =>
      simp only [signedSum, List.map_cons, List.sum_cons, if_true] at ih ⊢
      rw [ih, C31_difference h g hs φ h0 _ he]; ring
    | bwd he _ ih =>
      simp only [signedSum, List.map_cons, List.sum_cons] at ih ⊢
      rw [ih, C31_difference h g hs φ h0 _ he]; simp
  have h1 : signedSum (fluxOf g φ) w = 0 := by rw [tele hw, sub_self]
  refine ⟨h1, ?_⟩
  have h2 : signedSum (fun e => fluxOf g φ e + offsetOf phi g b e) w = signedSum (fluxOf g φ) w + signedSum (offsetOf phi g b) w := by
    unfold signedSum
    rw [← List.sum_map_add]
    congr 1
    apply List.map_congr_left
    intro p _
    cases p.2 <;> simp
    ring
  rw [h2, h1, zero_add]

/-- **C31** The offset of a branch is its flux bias if the branch is a junction or an inductor. -/
theorem C31_offset [CommRing K] (h : List Call) (g : CG) (hs : Settled h g) (phi : String → K) (b : Biases) (e : ℕ × ℕ × ℕ) (he : e ∈ g.wc)
    (c : String) (hc : g.cmap.get? e = some c) :
    offsetOf phi g b e = if startsWith c 'I' ∨ startsWith c 'L' then biasVal phi b.flux e else 0 := by
  have hlt : (edges g).idxOf e < (edges g).length := List.idxOf_lt_length_iff.2 he
  have hget : (edges g)[(edges g).idxOf e]? = some e := by rw [List.getElem?_eq_getElem hlt, List.getElem_idxOf]
  unfold offsetOf fluxBiasVector fluxBiasVectorInd
  rw [hget]
  have hk : ∀ p : Char, isEdgeOf g p e = .ok true ↔ startsWith c p = true := by
    intro p
    unfold isEdgeOf
    rw [hc]
    simp [startsWith_iff]
  simp only [hk]
  by_cases h1 : startsWith c 'I' = true
  · have h2 : ¬ startsWith c 'L' = true := by
      rw [startsWith_iff] at h1 ⊢; rw [h1]; decide
    simp [h1, h2]
  · by_cases h2 : startsWith c 'L' = true <;> simp [h1, h2]

theorem diWalk_signed {es es' : List (ℕ × ℕ × ℕ)} (hsub : ∀ e ∈ es, e ∈ es') {u v : ℕ} {p : List (ℕ × ℕ × ℕ)} (w : DiWalk es u p v)
    {r : List ((ℕ × ℕ × ℕ) × Bool)} {x : ℕ} (hr : SignedWalk es' v r x) :
    SignedWalk es' u (p.map (fun e => (e, true)) ++ r) x := by
  induction w with
  | nil u => exact hr
  | cons he _ ih => exact SignedWalk.fwd (hsub _ he) (ih hr)

theorem diWalk_back {es es' : List (ℕ × ℕ × ℕ)} (hsub : ∀ e ∈ es, e ∈ es') {u v : ℕ} {p : List (ℕ × ℕ × ℕ)} (w : DiWalk es u p v)
    {r : List ((ℕ × ℕ × ℕ) × Bool)} {x : ℕ} (hr : SignedWalk es' u r x) :
    SignedWalk es' v ((p.reverse.map fun e => (e, false)) ++ r) x := by
  induction w generalizing r with
  | nil u => exact hr
  | cons he _ ih =>
    rw [List.reverse_cons, List.map_append, List.append_assoc]
    exact ih (SignedWalk.bwd (hsub _ he) hr)

theorem diWalk_ends {es : List (ℕ × ℕ × ℕ)} {u v : ℕ} {p : List (ℕ × ℕ × ℕ)} (w : DiWalk es u p v) :
    ∀ e ∈ p, e ∈ es ∧ e.2.1 ∈ visited u p := by
  induction w with
  | nil u => intro e he; cases he
  | cons he _ ih =>
    intro e he'
    rcases List.mem_cons.1 he' with rfl | he'
    · exact ⟨he, by simp [visited]⟩
    · obtain ⟨h1, h2⟩ := ih e he'
      exact ⟨h1, List.mem_cons_of_mem _ (by simpa [visited] using Or.inr ⟨e.1, e.2.2, he'⟩)⟩

/-- **C31 (partial)** Every superconducting loop that the circuit lists is a closed walk that passes exactly the branches of the
loop, each once; so the laws of `C31_kirchhoff` hold around it.  Missing: circuits that are not grown along conductive
branches, or other set orders, where the listed loops need not be cycles (C23). -/
theorem C31_listed_loops_partial [CommRing K] (h : List Call) (g : CG) (hs : Settled h g) (hord : ∀ x ∈ h, KeepsOrder x)
    (hg : Grown (branches h)) (i : ℕ) (hi : i < g.closures.length) (φ : ℕ → K) (h0 : φ 0 = 0) (phi : String → K) (b : Biases) :
    ∃ loop w, g.loops.get? i = some loop ∧ SignedWalk g.wc (g.closures[i]).1 w (g.closures[i]).1 ∧ (w.map Prod.fst).Nodup ∧
      (∀ e, e ∈ loop ↔ e ∈ w.map Prod.fst) ∧ signedSum (fluxOf g φ) w = 0 ∧
      signedSum (fun e => fluxOf g φ e + offsetOf phi g b e) w = signedSum (offsetOf phi g b) w := by
  obtain ⟨loop, hl, m, p, q, hp, hq, np, nq, hpq, hmem⟩ := C23_loops_are_cycles_partial hs hord hg i hi
  obtain ⟨o, f⟩ := settled_facts hs
  have hsub : ∀ e ∈ g.tree, e ∈ g.wc := by intro e he; rw [f.synced.wc]; exact List.mem_append_left _ he
  have hcl : g.closures[i] ∈ g.wc := by rw [f.synced.wc]; exact List.mem_append_right _ (List.getElem_mem _)
  have hclt : g.closures[i] ∉ g.tree := ((C22_closures hs).2.1 _ (List.getElem_mem _)).1
  generalize g.closures[i] = cl at hp hq hmem hcl hclt ⊢
  have hw : SignedWalk g.wc cl.1 ((cl, true) :: ((q.reverse.map fun e => (e, false)) ++ (p.map (fun e => (e, true)) ++ []))) cl.1 :=
    SignedWalk.fwd hcl (diWalk_back hsub hq (diWalk_signed hsub hp (SignedWalk.nil _)))
  refine ⟨loop, _, hl, hw, ?_, ?_, C31_kirchhoff h g hs φ h0 _ _ hw phi b⟩
  · have e1 : (((cl, true) :: ((q.reverse.map fun e => (e, false)) ++ (p.map (fun e => (e, true)) ++ []))) : List ((ℕ × ℕ × ℕ) × Bool)).map Prod.fst =
        cl :: (q.reverse ++ p) := by simp [Function.comp_def]
    rw [e1]
    have nodupEdges : ∀ {m : ℕ} {p : List (ℕ × ℕ × ℕ)}, (visited m p).Nodup → p.Nodup := by
      intro m p hn
      exact List.Nodup.of_map _ (List.nodup_cons.1 hn).2
    refine List.nodup_cons.2 ⟨?_, List.nodup_append.2 ⟨List.nodup_reverse.2 (nodupEdges nq), nodupEdges np, ?_⟩⟩
    · intro hin
      rcases List.mem_append.1 hin with hin | hin
      · exact hclt ((diWalk_ends hq cl (List.mem_reverse.1 hin)).1)
      · exact hclt ((diWalk_ends hp cl hin).1)
    · intro a ha c hc hac
      subst hac
      have ha := List.mem_reverse.1 ha
      have := hpq _ (diWalk_ends hp a hc).2 (diWalk_ends hq a ha).2
      exact (List.nodup_cons.1 np).1 (this ▸ List.mem_map.2 ⟨a, hc, rfl⟩)
  · intro e
    rw [hmem]
    simp [Function.comp_def]
    tauto

-- the ring is such a circuit, with the loop 1 → 2 → 1 through L2 and I1
example : ∃ w, SignedWalk (run {} ringCalls).wc 2 w 2 ∧ w.length = 2 :=
  ⟨[((2, 1, 1), true), ((1, 2, 0), true)],
    SignedWalk.fwd (e := (2, 1, 1)) (by decide +kernel) (SignedWalk.fwd (e := (1, 2, 0)) (by decide +kernel) (SignedWalk.nil _)), rfl⟩

/-- A loop of an inductor and a phase-slip wire, with a flux bias on the wire. -/
def wireCalls : List Call := [.addBranch Orc.id 0 1 "L1", .addBranch Orc.id 0 1 "V1", .addFluxBias "V1" (some "z") none]

/-- **C31 is false** for phase-slip wires: a flux bias placed on one is accepted but enters no equation: both bias vectors are 0. -/
theorem C31_phase_slip_bias_false :
    (∀ k < wireCalls.length, (step (run {} (wireCalls.take k)) (wireCalls.getD k .removeAllResonators)).2 = .ok ()) ∧
    Dict.keys (run {} wireCalls).fluxBias = [(1, 0, 1)] ∧ (1, 0, 1) ∈ (run {} wireCalls).wc ∧
    ∃ b, createFluxBiases (run {} wireCalls) = .ok b ∧ biasVal (fun _ => (1 : ℚ)) b.flux (1, 0, 1) = 1 ∧
      ∀ i, fluxBiasVector (fun _ => (1 : ℚ)) (run {} wireCalls) b i = 0 ∧ fluxBiasVectorInd (fun _ => (1 : ℚ)) (run {} wireCalls) b i = 0 := by
  have hlt : ∀ b, createFluxBiases (run {} wireCalls) = .ok b → ∀ i < 2,
      fluxBiasVector (fun _ => (1 : ℚ)) (run {} wireCalls) b i = 0 ∧ fluxBiasVectorInd (fun _ => (1 : ℚ)) (run {} wireCalls) b i = 0 := by
    intro b hb
    have hb' : b = ⟨_, _⟩ := (Except.ok.inj hb).symm
    subst hb'
    decide +kernel
  refine ⟨by decide +kernel, by decide +kernel, by decide +kernel, _, rfl, by decide +kernel, ?_⟩
  intro i
  have hl : (edges (run {} wireCalls)).length = 2 := by decide +kernel
  by_cases hi : i < 2
  · exact hlt _ rfl i hi
  · have : (edges (run {} wireCalls))[i]? = none := List.getElem?_eq_none (by omega)
    unfold fluxBiasVector fluxBiasVectorInd
    rw [this]; exact ⟨rfl, rfl⟩

end Verif.Props
