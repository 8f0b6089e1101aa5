import Verif.Props.SymbolicInd

/-!
# Properties of the flux biases of a `SymbolicSystem`: C32 and C59
-/

namespace Verif.Props

open Verif Verif.Circuit Verif.Spec Verif.Sym Matrix

variable {K : Type}

/-! ### C32 -/

/-- The biases after a list of `moveFluxBias` calls, failed ones included. -/
def moves (g : CG) (b : Biases) : List (Edge × Edge) → Biases
  | [] => b
  | m :: ms => moves g (moveFluxBias g b m.1 m.2).1 ms

/-- Entries for all branches, in both dictionaries the same. -/
def BiasInv (g : CG) (b : Biases) : Prop := b.red = b.flux ∧ ∀ e, e ∈ edges g ↔ (b.flux.get? e).isSome

theorem addBiases_inv {g : CG} : ∀ (l : List (Edge × Bias)) (b b' : Biases), BiasInv g b → addBiases l b = .ok b' → BiasInv g b' := by
  intro l
  induction l with
  | nil => intro b b' h h'; cases h'; exact h
  | cons p l ih =>
    intro b b' h h'
    unfold addBiases at h'
    split_ifs at h' with hh
    refine ih _ _ ⟨?_, ?_⟩ h'
    · simp only; rw [h.1]
    · intro e
      simp only
      rw [Dict.get?_set, h.2 e]
      split_ifs with he
      · subst he
        simp only [Option.isSome_some, iff_true]
        rw [Dict.has_iff, Dict.mem_keys_iff] at hh
        exact hh
      · rfl

theorem create_inv {g : CG} {b : Biases} (h : createFluxBiases g = .ok b) : BiasInv g b := by
  refine addBiases_inv _ _ _ ⟨rfl, ?_⟩ h
  intro e
  rw [← Dict.mem_keys_iff]
  simp [Dict.keys, Function.comp_def]

theorem move_inv {g : CG} {b : Biases} (h : BiasInv g b) (e e' : Edge) : BiasInv g (moveFluxBias g b e e').1 := by
  unfold moveFluxBias
  by_cases h1 : e ∉ edges g
  · rw [if_pos h1]; exact h
  rw [if_neg h1]
  by_cases h2 : e' ∉ edges g
  · rw [if_pos h2]; exact h
  rw [if_neg h2]
  · rw [h.1]
    cases hx : b.flux.get? e with
    | none => exact h
    | some s =>
      cases s with
      | none => exact h
      | some s =>
        refine ⟨rfl, ?_⟩
        intro x
        simp only
        rw [Dict.get?_set, Dict.get?_set, h.2 x]
        push Not at h1 h2
        by_cases hx1 : e' = x
        · subst hx1; simpa using (h.2 e').1 h2
        · rw [if_neg hx1]
          by_cases hx2 : e = x
          · subst hx2; simp [hx]
          · rw [if_neg hx2]

theorem moves_inv {g : CG} {b : Biases} (h : BiasInv g b) (ms : List (Edge × Edge)) : BiasInv g (moves g b ms) := by
  induction ms generalizing b with
  | nil => exact h
  | cons m ms ih => exact ih (move_inv h _ _)

/-- **C32 (partial)** After any calls, moving the bias of branch `e` to branch `e'` succeeds exactly when both are branches of the
oriented circuit and `e` has a bias.  Then `e'` has that bias, `e` has none (unless `e = e'`) and no other branch changes, for the
flux as for the phase; if the call fails nothing changes.  Missing: the refusal when the two are in no common loop
(`C32_no_loop_check_false`). -/
theorem C32_move_partial (g : CG) (b0 : Biases) (h0 : createFluxBiases g = .ok b0) (ms : List (Edge × Edge)) (e e' : Edge) :
    let b := moves g b0 ms
    let r := moveFluxBias g b e e'
    b.red = b.flux ∧ r.1.red = r.1.flux ∧
    (r.2 = .ok () ↔ e ∈ g.wc ∧ e' ∈ g.wc ∧ ∃ s, b.flux.get? e = some (some s)) ∧
    (∀ x, r.2 = .error x → r.1 = b ∧ x = .userError) ∧
    (r.2 = .ok () → r.1.flux.get? e' = b.flux.get? e ∧ (e ≠ e' → r.1.flux.get? e = some none) ∧
      ∀ x, x ≠ e → x ≠ e' → r.1.flux.get? x = b.flux.get? x) := by
  intro b r
  have hb : BiasInv g b := moves_inv (create_inv h0) ms
  have hr : BiasInv g r.1 := move_inv hb e e'
  refine ⟨hb.1, hr.1, ?_⟩
  clear_value b
  simp only [r]
  clear hr r
  unfold moveFluxBias
  by_cases h1 : e ∉ edges g
  · rw [if_pos h1]
    refine ⟨⟨fun h => (by cases h), fun h => absurd h.1 h1⟩, ?_, fun h => (by cases h)⟩
    intro x hx; cases hx; exact ⟨rfl, rfl⟩
  rw [if_neg h1]
  by_cases h2 : e' ∉ edges g
  · rw [if_pos h2]
    refine ⟨⟨fun h => (by cases h), fun h => absurd h.2.1 h2⟩, ?_, fun h => (by cases h)⟩
    intro x hx; cases hx; exact ⟨rfl, rfl⟩
  rw [if_neg h2]
  · push Not at h1 h2
    rw [hb.1]
    have hsome := (hb.2 e).1 h1
    cases hx : b.flux.get? e with
    | none => rw [hx] at hsome; cases hsome
    | some s =>
      cases s with
      | none =>
        refine ⟨⟨fun h => (by cases h), ?_⟩, ?_, fun h => (by cases h)⟩
        · rintro ⟨_, _, s, hs⟩; simp at hs
        · intro x hx; cases hx; exact ⟨rfl, rfl⟩
      | some s =>
        refine ⟨⟨fun _ => ⟨h1, h2, s, rfl⟩, fun _ => rfl⟩, ?_, ?_⟩
        · intro x hx; cases hx
        · intro _
          refine ⟨by simp [Dict.get?_set], ?_, ?_⟩
          · intro hne; simp [Dict.get?_set, Ne.symm hne]
          · intro x hx1 hx2; simp [Dict.get?_set, Ne.symm hx1, Ne.symm hx2]

theorem signedSum_two [CommRing K] (f f' : Edge → K) (e e' : Edge) (hne : e ≠ e') (d : Bool) :
    ∀ w : List (Edge × Bool), (w.map Prod.fst).Nodup → (e, d) ∈ w → (e', d) ∈ w → (∀ x, x ≠ e → x ≠ e' → f' x = f x) →
      f' e + f' e' = f e + f e' → signedSum f' w = signedSum f w := by
  intro w hn h1 h2 hf hsum
  -- the differences of the terms
  have key : ∀ w : List (Edge × Bool), (w.map Prod.fst).Nodup →
      signedSum f' w - signedSum f w = (if (e, true) ∈ w then f' e - f e else 0) - (if (e, false) ∈ w then f' e - f e else 0) +
        ((if (e', true) ∈ w then f' e' - f e' else 0) - (if (e', false) ∈ w then f' e' - f e' else 0)) := by
    intro w hn
    induction w with
    | nil => simp [signedSum]
    | cons p w ih =>
      obtain ⟨x, s⟩ := p
      have hn' := (List.nodup_cons.1 (by simpa using hn : (x :: w.map Prod.fst).Nodup))
      have ih := ih hn'.2
      have hno : ∀ t, (x, t) ∉ w := fun t ht => hn'.1 (List.mem_map.2 ⟨_, ht, rfl⟩)
      have hs : ∀ f : Edge → K, signedSum f ((x, s) :: w) = (if s then f x else - f x) + signedSum f w := by
        intro f; simp [signedSum]
      rw [hs, hs, show ∀ a b c d : K, a + b - (c + d) = (a - c) + (b - d) from fun a b c d => by ring, ih]
      by_cases hx1 : x = e
      · subst hx1
        have := hno true; have := hno false
        cases s <;> simp [*, Ne.symm hne] <;> ring
      · by_cases hx2 : x = e'
        · subst hx2
          have := hno true; have := hno false
          cases s <;> simp [*] <;> ring
        · rw [hf x hx1 hx2]
          have a1 : ∀ t, ((e, t) ∈ (x, s) :: w) ↔ (e, t) ∈ w := by
            intro t; simp only [List.mem_cons, Prod.mk.injEq]
            constructor
            · rintro (⟨h, _⟩ | h)
              · exact absurd h.symm hx1
              · exact h
            · exact Or.inr
          have a2 : ∀ t, ((e', t) ∈ (x, s) :: w) ↔ (e', t) ∈ w := by
            intro t; simp only [List.mem_cons, Prod.mk.injEq]
            constructor
            · rintro (⟨h, _⟩ | h)
              · exact absurd h.symm hx2
              · exact h
            · exact Or.inr
          simp only [a1, a2]
          cases s <;> simp
  have hk := key w hn
  have other : ∀ x : Edge, (x, d) ∈ w → (x, !d) ∉ w := by
    intro x hx hx'
    have := (List.inj_on_of_nodup_map hn) hx hx' rfl
    simp at this
  have o1 := other e h1
  have o2 := other e' h2
  have hz : signedSum f' w - signedSum f w = 0 := by
    rw [hk]
    cases d
    · simp only [Bool.not_false] at o1 o2
      rw [if_neg o1, if_pos h1, if_neg o2, if_pos h2]
      linear_combination -hsum
    · simp only [Bool.not_true] at o1 o2
      rw [if_pos h1, if_neg o1, if_pos h2, if_neg o2]
      linear_combination hsum
  exact sub_eq_zero.1 hz

/-- **C32 (partial)** Moving a bias is a choice of gauge: around a closed walk that passes both branches in their own direction (or both
against it), the signed sum of the offsets is the same before and after the move.  Missing: a second branch that already has a bias, is
passed the other way, or is a phase-slip wire (`C32_gauge_false`). -/
theorem C32_gauge_partial [CommRing K] (h : List Call) (g : CG) (hs : Settled h g) (b : Biases)
    (e e' : Edge) (hne : e ≠ e') (hok : (moveFluxBias g b e e').2 = .ok ()) (hfree : b.flux.get? e' = some none) (c c' : String)
    (hc : g.cmap.get? e = some c) (hc' : g.cmap.get? e' = some c') (hk : startsWith c 'I' ∨ startsWith c 'L')
    (hk' : startsWith c' 'I' ∨ startsWith c' 'L')
    (w : List (Edge × Bool)) (hn : (w.map Prod.fst).Nodup) (hw : ∀ p ∈ w, p.1 ∈ g.wc) (d : Bool) (he : (e, d) ∈ w) (he' : (e', d) ∈ w) (phi : String → K) :
    signedSum (offsetOf phi g (moveFluxBias g b e e').1) w = signedSum (offsetOf phi g b) w := by
  have off : ∀ (b : Biases) (x : Edge) (cx : String), x ∈ g.wc → g.cmap.get? x = some cx → (startsWith cx 'I' ∨ startsWith cx 'L') →
      offsetOf phi g b x = biasVal phi b.flux x := by
    intro b x cx hx hcx hkx
    rw [C31_offset h g hs phi b x hx cx hcx, if_pos hkx]
  have hew := hw _ he
  have hew' := hw _ he'
  unfold moveFluxBias at hok ⊢
  rw [if_neg (not_not.2 (show e ∈ edges g from hew)), if_neg (not_not.2 (show e' ∈ edges g from hew'))] at hok ⊢
  cases hx : b.flux.get? e with
  | none => simp [hx] at hok
  | some s =>
    cases s with
    | none => simp [hx] at hok
    | some s =>
      rw [hx] at hok
      cases hr : b.red.get? e with
      | none => simp [hr] at hok
      | some r =>
        simp only
        refine signedSum_two _ _ e e' hne d w hn he he' ?_ ?_
        · intro x hx1 hx2
          unfold offsetOf fluxBiasVector fluxBiasVectorInd biasVal
          cases hxe : (edges g)[(edges g).idxOf x]? with
          | none => rfl
          | some y =>
            have hy : y = x := by
              have hlt := (List.getElem?_eq_some_iff.1 hxe).1
              rw [List.getElem?_eq_getElem hlt, List.getElem_idxOf] at hxe
              exact (Option.some.inj hxe).symm
            subst hy
            simp [Dict.get?_set, Ne.symm hx1, Ne.symm hx2]
        · rw [off _ e c hew hc hk, off _ e' c' hew' hc' hk', off _ e c hew hc hk, off _ e' c' hew' hc' hk']
          unfold biasVal
          simp [Dict.get?_set, Ne.symm hne, hx, hfree]

/-- Two separate rf-SQUIDs. -/
def squids : List (ℕ × ℕ × String) := [(0, 1, "L1"), (0, 1, "I1"), (0, 2, "L2")]

def squidCalls : List Call :=
  (squids.map fun b => Call.addBranch Orc.id b.1 b.2.1 b.2.2) ++ [Call.addBranch Orc.id 0 2 "I2"]

theorem squid_settled : Settled squidCalls (run {} squidCalls) := settled_of_list orcId_ok squids (0, 2, "I2") (by decide +kernel)

/-- The values of the bias symbols in the witnesses. -/
def biasNum (s : String) : ℚ := if s = "z" then 1 else 5

/-- **C32 is false**: a bias can be moved to a branch that is in no common loop; the flux through the first loop is then 0 instead
of 1 and that through the second 1 instead of 0. -/
theorem C32_no_loop_check_false :
    let g := (step (run {} squidCalls) (.addFluxBias "I1" (some "z") none)).1
    let w1 : List (Edge × Bool) := [((0, 1, 0), true), ((1, 0, 1), true)]
    let w2 : List (Edge × Bool) := [((0, 2, 0), true), ((2, 0, 1), true)]
    SignedWalk g.wc 0 w1 0 ∧ SignedWalk g.wc 0 w2 0 ∧ (∀ l ∈ g.loops.values, ¬ ((1, 0, 1) ∈ l ∧ (2, 0, 1) ∈ l)) ∧
    ∃ b, createFluxBiases g = .ok b ∧ (moveFluxBias g b (1, 0, 1) (2, 0, 1)).2 = .ok () ∧
      signedSum (offsetOf biasNum g b) w1 = 1 ∧ signedSum (offsetOf biasNum g (moveFluxBias g b (1, 0, 1) (2, 0, 1)).1) w1 = 0 ∧
      signedSum (offsetOf biasNum g b) w2 = 0 ∧ signedSum (offsetOf biasNum g (moveFluxBias g b (1, 0, 1) (2, 0, 1)).1) w2 = 1 := by
  refine ⟨SignedWalk.fwd (e := (0, 1, 0)) (by decide +kernel) (SignedWalk.fwd (e := (1, 0, 1)) (by decide +kernel) (SignedWalk.nil _)),
    SignedWalk.fwd (e := (0, 2, 0)) (by decide +kernel) (SignedWalk.fwd (e := (2, 0, 1)) (by decide +kernel) (SignedWalk.nil _)),
    by decide +kernel, _, rfl, ?_⟩
  decide +kernel

/-- A loop of three branches, two of which leave the ground. -/
def triangle : List Call := [.addBranch Orc.id 0 1 "L1", .addBranch Orc.id 0 2 "L2", .addBranch Orc.id 1 2 "I1"]

/-- **C32 is false** as a gauge choice: within one loop, the flux changes when the target branch is passed the other way, when it has a
bias already (which is lost), and when it is a phase-slip wire. -/
theorem C32_gauge_false :
    (∃ (g : CG) (b : Biases) (e e' : Edge) (w : List (Edge × Bool)), g = run {} (triangle ++ [.addFluxBias "I1" (some "z") none]) ∧
      createFluxBiases g = .ok b ∧ SignedWalk g.wc e.1 w e.1 ∧ e ∈ w.map Prod.fst ∧ e' ∈ w.map Prod.fst ∧
      b.flux.get? e' = some none ∧ (moveFluxBias g b e e').2 = .ok () ∧
      signedSum (offsetOf biasNum g (moveFluxBias g b e e').1) w = - signedSum (offsetOf biasNum g b) w ∧
      signedSum (offsetOf biasNum g b) w ≠ 0) ∧
    (∃ (g : CG) (b : Biases) (e e' : Edge) (w : List (Edge × Bool)),
      g = run {} (ringCalls ++ [.addFluxBias "I1" (some "z") none, .addFluxBias "L2" (some "y") none]) ∧
      createFluxBiases g = .ok b ∧ SignedWalk g.wc e.1 w e.1 ∧ (e, true) ∈ w ∧ (e', true) ∈ w ∧ (moveFluxBias g b e e').2 = .ok () ∧
      signedSum (offsetOf biasNum g b) w = 6 ∧ signedSum (offsetOf biasNum g (moveFluxBias g b e e').1) w = 1) ∧
    (∃ (g : CG) (b : Biases) (e e' : Edge) (w : List (Edge × Bool)),
      g = run {} [.addBranch Orc.id 0 1 "L1", .addBranch Orc.id 0 1 "V1", .addFluxBias "L1" (some "z") none] ∧
      createFluxBiases g = .ok b ∧ SignedWalk g.wc e.1 w e.1 ∧ (e, true) ∈ w ∧ (e', true) ∈ w ∧ (moveFluxBias g b e e').2 = .ok () ∧
      signedSum (offsetOf biasNum g b) w = 1 ∧ signedSum (offsetOf biasNum g (moveFluxBias g b e e').1) w = 0) := by
  refine ⟨⟨_, _, (2, 1, 0), (0, 1, 0), [((2, 1, 0), true), ((0, 1, 0), false), ((0, 2, 0), true)], rfl, rfl, ?_, ?_⟩,
    ⟨_, _, (2, 1, 1), (1, 2, 0), [((2, 1, 1), true), ((1, 2, 0), true)], rfl, rfl, ?_, ?_⟩,
    ⟨_, _, (0, 1, 0), (1, 0, 1), [((0, 1, 0), true), ((1, 0, 1), true)], rfl, rfl, ?_, ?_⟩⟩
  · exact SignedWalk.fwd (e := (2, 1, 0)) (by decide +kernel) (SignedWalk.bwd (e := (0, 1, 0)) (by decide +kernel)
      (SignedWalk.fwd (e := (0, 2, 0)) (by decide +kernel) (SignedWalk.nil _)))
  · decide +kernel
  · exact SignedWalk.fwd (e := (2, 1, 1)) (by decide +kernel) (SignedWalk.fwd (e := (1, 2, 0)) (by decide +kernel) (SignedWalk.nil _))
  · decide +kernel
  · exact SignedWalk.fwd (e := (0, 1, 0)) (by decide +kernel) (SignedWalk.fwd (e := (1, 0, 1)) (by decide +kernel) (SignedWalk.nil _))
  · decide +kernel

-- the hypotheses of `C32_gauge_partial` hold for the first SQUID: the bias moves from the junction to the inductor
example : let g := (step (run {} squidCalls) (.addFluxBias "I1" (some "z") none)).1
    ∃ b, createFluxBiases g = .ok b ∧ (moveFluxBias g b (1, 0, 1) (0, 1, 0)).2 = .ok () ∧ b.flux.get? (0, 1, 0) = some none := by
  refine ⟨_, rfl, ?_⟩
  decide +kernel

/-! ### C59 -/

/-- The energy of the inductors with the bias of each branch added to its own flux: the sum of `(φ_a - φ_b + bias)² / L`. -/
def biasedForm [Field K] (val phi : String → K) (g : CG) (b : Biases) (φ : ℕ → K) : K :=
  (g.wc.map fun e => match g.cmap.get? e with
    | some c => if startsWith c 'L' = true then (φ e.1 - φ e.2.1 + biasVal phi b.flux e) ^ 2 / val c else 0
    | none => 0).sum

/-- The bias that `getFluxEnergies` adds at a node: the sum of the biases of the inductors at the node, signed by their directions. -/
def nodeShift [CommRing K] (phi : String → K) (g : CG) (b : Biases) (n : ℕ) : K :=
  if n = 0 then 0 else (g.wc.map fun e => ((if e.1 = n then 1 else 0) - (if e.2.1 = n then 1 else 0)) *
    (match g.cmap.get? e with | some c => if startsWith c 'L' = true then biasVal phi b.flux e else 0 | none => 0)).sum

theorem fluxBiasVectorInd_get [CommRing K] {h : List Call} {g : CG} (hs : Settled h g) (phi : String → K) (b : Biases) (j : Fin (edges g).length) :
    fluxBiasVectorInd phi g b j =
      match g.cmap.get? ((edges g).get j) with | some c => if startsWith c 'L' = true then biasVal phi b.flux ((edges g).get j) else 0 | none => 0 := by
  unfold fluxBiasVectorInd
  rw [List.getElem?_eq_getElem j.2]
  obtain ⟨x, _, _, hc⟩ := wc_branch hs (e := (edges g).get j) (List.get_mem _ _)
  simp only [List.get_eq_getElem] at hc ⊢
  rw [hc]
  unfold isEdgeOf
  rw [hc]
  simp [startsWith_iff]

theorem fluxBiasNodes_eq [CommRing K] {h : List Call} {g : CG} (hs : Settled h g) (phi : String → K) (b : Biases) :
    fluxBiasNodes phi g b = atNodes g (nodeShift phi g b) := by
  funext i
  unfold fluxBiasNodes
  simp only [Matrix.mulVec, dotProduct]
  have hn0 : (nodes g).get i ≠ 0 := by
    obtain ⟨o, f⟩ := settled_facts hs
    intro h0
    have hm : (nodes g).get i ∈ nodes g := List.get_mem _ _
    rw [h0] at hm
    exact ((mem_nodes f.inv.toWF _).1 hm).2 rfl
  change _ = nodeShift phi g b ((nodes g).get i)
  unfold nodeShift
  rw [if_neg hn0]
  rw [← Fin.sum_univ_fun_getElem]
  apply Finset.sum_congr rfl
  intro j _
  rw [incidence_eq, fluxBiasVectorInd_get hs]
  rfl

/-- **C59 (partial)** What `getFluxEnergies` computes in general: half the inductive energy at node fluxes that are shifted, each by the
signed biases of the inductors at the node. -/
theorem C59_computed_partial [Field K] (h : List Call) (g : CG) (hs : Settled h g) (hc : g.coupled = []) (val phi : String → K)
    (hval : ∀ x ∈ branchesOf 'L' (branches h), val x.2.2 ≠ 0)
    (pinv : Matrix (Fin (edges g).length) (Fin (edges g).length) K → Matrix (Fin (edges g).length) (Fin (edges g).length) K)
    (hp : ∀ M, branchInductance val g = .ok M → IsPinv (M.block _ _) (pinv (M.block _ _))) (L : Matrix (Fin (nodes g).length) (Fin (nodes g).length) K)
    (hL : inverseInductance val g pinv = .ok L) (b : Biases) (φ : ℕ → K) (h0 : φ 0 = 0) :
    quadEnergy L (atNodes g φ) (fluxBiasNodes phi g b) = (1 / 2) * inductorForm val (branches h) (fun n => φ n + nodeShift phi g b n) := by
  unfold quadEnergy
  rw [fluxBiasNodes_eq hs]
  rw [← C30_uncoupled h g hs hc val hval pinv hp L hL (fun n => φ n + nodeShift phi g b n) (by simp [nodeShift, h0])]
  rfl

/-- The form over the branches of the oriented circuit. -/
theorem inductorForm_wc [Field K] {h : List Call} {g : CG} (hs : Settled h g) (val : String → K) (φ : ℕ → K) :
    inductorForm val (branches h) φ =
      (g.wc.map fun e => match g.cmap.get? e with
        | some c => if startsWith c 'L' = true then (φ e.1 - φ e.2.1) ^ 2 / val c else 0
        | none => 0).sum := by
  have e2 := sum_wc hs (fun b => if startsWith b.2.2 'L' = true then (φ b.1 - φ b.2.1) ^ 2 / val b.2.2 else 0)
    (by intro a b c; simp only; split_ifs <;> ring) (by intro a c; simp)
  refine Eq.trans ?_ e2.symm
  unfold inductorForm branchesOf conductors
  rw [sum_filter_map, sum_filter_map]
  congr 1
  apply List.map_congr_left
  intro b _
  by_cases hb : startsWith b.2.2 'L' = true
  · have : startsWith b.2.2 'C' = false := by
      cases hb' : startsWith b.2.2 'C' with
      | false => rfl
      | true =>
        have h1 := (startsWith_iff _ _).1 hb
        have h2 := (startsWith_iff _ _).1 hb'
        rw [h1] at h2; cases h2
    simp [hb, this]
  · simp [hb]

theorem sum_single {α : Type} [AddCommMonoid K] {l : List α} (hn : l.Nodup) {x : α} (hx : x ∈ l) (f : α → K)
    (h : ∀ y ∈ l, y ≠ x → f y = 0) : (l.map f).sum = f x := by
  induction l with
  | nil => cases hx
  | cons y l ih =>
    rw [List.map_cons, List.sum_cons]
    obtain ⟨h1, h2⟩ := List.nodup_cons.1 hn
    rcases List.mem_cons.1 hx with rfl | hx
    · rw [List.sum_eq_zero, add_zero]
      intro z hz
      obtain ⟨w, hw, rfl⟩ := List.mem_map.1 hz
      exact h w (List.mem_cons_of_mem _ hw) fun he => h1 (he ▸ hw)
    · rw [h y (by simp) fun he => h1 (he ▸ hx), zero_add]
      exact ih h2 hx fun z hz => h z (List.mem_cons_of_mem _ hz)

/-- The shifts of the two ends of an inductor differ by its bias, if every biased inductor goes from the ground to a node without other inductors. -/
theorem nodeShift_diff [Field K] {h : List Call} {g : CG} (hs : Settled h g) (phi : String → K) (b : Biases)
    (hgood : ∀ e ∈ g.wc, IsInductor g e → biasVal phi b.flux e ≠ 0 →
      (e.1 = 0 ∧ e.2.1 ≠ 0 ∧ ∀ e' ∈ g.wc, IsInductor g e' → e' ≠ e → e'.1 ≠ e.2.1 ∧ e'.2.1 ≠ e.2.1) ∨
      (e.2.1 = 0 ∧ e.1 ≠ 0 ∧ ∀ e' ∈ g.wc, IsInductor g e' → e' ≠ e → e'.1 ≠ e.1 ∧ e'.2.1 ≠ e.1))
    {e : Edge} (he : e ∈ g.wc) (hind : IsInductor g e) : nodeShift phi g b e.1 - nodeShift phi g b e.2.1 = biasVal phi b.flux e := by
  obtain ⟨c, hce, hcL⟩ := hind
  have hind : IsInductor g e := ⟨c, hce, hcL⟩
  -- the shift at a node that only unbiased inductors touch
  have none_at : ∀ n, (∀ e' ∈ g.wc, IsInductor g e' → biasVal phi b.flux e' ≠ 0 → n ≠ 0 → e'.1 ≠ n ∧ e'.2.1 ≠ n) → nodeShift phi g b n = 0 := by
    intro n hn
    unfold nodeShift
    split_ifs with hn0
    · rfl
    · apply List.sum_eq_zero
      intro x hx
      obtain ⟨e', he', rfl⟩ := List.mem_map.1 hx
      cases hc' : g.cmap.get? e' with
      | none => simp
      | some c' =>
        by_cases hL' : startsWith c' 'L' = true
        · by_cases hb : biasVal phi b.flux e' = 0
          · simp [hb]
          · obtain ⟨a1, a2⟩ := hn e' he' ⟨c', hc', hL'⟩ hb hn0
            simp [a1, a2]
        · simp [hL']
  have only_at : ∀ n, n ≠ 0 → (∀ e' ∈ g.wc, IsInductor g e' → e' ≠ e → e'.1 ≠ n ∧ e'.2.1 ≠ n) →
      nodeShift phi g b n = ((if e.1 = n then 1 else 0) - (if e.2.1 = n then 1 else 0)) * biasVal phi b.flux e := by
    intro n hn0 hn
    unfold nodeShift
    rw [if_neg hn0]
    have hrow : ∀ e' ∈ g.wc, e' ≠ e → ((if e'.1 = n then 1 else 0) - (if e'.2.1 = n then 1 else 0)) *
        (match g.cmap.get? e' with | some c => if startsWith c 'L' = true then biasVal phi b.flux e' else 0 | none => 0) = (0 : K) := by
      intro e' he' hne
      cases hc' : g.cmap.get? e' with
      | none => simp
      | some c' =>
        by_cases hL' : startsWith c' 'L' = true
        · obtain ⟨a1, a2⟩ := hn e' he' ⟨c', hc', hL'⟩ hne
          simp [a1, a2]
        · simp [hL']
    rw [sum_single (wc_nodup hs) he _ hrow, hce]
    simp only [hcL, if_true]
  have hz : nodeShift phi g b 0 = 0 := by simp [nodeShift]
  by_cases hb : biasVal phi b.flux e = 0
  · -- no biased inductor touches an end of this one
    have free : ∀ n, (n = e.1 ∨ n = e.2.1) → nodeShift phi g b n = 0 := by
      intro n hn
      apply none_at
      intro e' he' hi' hb' hn0
      have hne : e ≠ e' := fun hee => hb' (hee ▸ hb)
      rcases hgood e' he' hi' hb' with ⟨g1, g2, g3⟩ | ⟨g1, g2, g3⟩
      · obtain ⟨a1, a2⟩ := g3 e he hind hne
        refine ⟨fun hh => hn0 (hh ▸ g1), fun hh => ?_⟩
        rcases hn with rfl | rfl
        · exact a1 hh.symm
        · exact a2 hh.symm
      · obtain ⟨a1, a2⟩ := g3 e he hind hne
        refine ⟨fun hh => ?_, fun hh => hn0 (hh ▸ g1)⟩
        rcases hn with rfl | rfl
        · exact a1 hh.symm
        · exact a2 hh.symm
    rw [free _ (Or.inl rfl), free _ (Or.inr rfl), hb, sub_zero]
  · rcases hgood e he hind hb with ⟨g1, g2, g3⟩ | ⟨g1, g2, g3⟩
    · rw [only_at _ g2 g3, g1, hz, if_neg (Ne.symm g2), if_pos rfl]; ring
    · rw [only_at _ g2 g3, g1, hz, if_pos rfl, if_neg (Ne.symm g2)]; ring

/-- **C59 (partial)** The flux energy is half the sum over the inductors of `(φ_a - φ_b + bias)² / L`, if every biased inductor joins
the ground to a node without another inductor.  Missing: all other biased inductors (`C59_false`). -/
theorem C59_energy_partial [Field K] (h : List Call) (g : CG) (hs : Settled h g) (hc : g.coupled = []) (val phi : String → K)
    (hval : ∀ x ∈ branchesOf 'L' (branches h), val x.2.2 ≠ 0)
    (pinv : Matrix (Fin (edges g).length) (Fin (edges g).length) K → Matrix (Fin (edges g).length) (Fin (edges g).length) K)
    (hp : ∀ M, branchInductance val g = .ok M → IsPinv (M.block _ _) (pinv (M.block _ _))) (L : Matrix (Fin (nodes g).length) (Fin (nodes g).length) K)
    (hL : inverseInductance val g pinv = .ok L) (b : Biases) (φ : ℕ → K) (h0 : φ 0 = 0)
    (hgood : ∀ e ∈ g.wc, IsInductor g e → biasVal phi b.flux e ≠ 0 →
      (e.1 = 0 ∧ e.2.1 ≠ 0 ∧ ∀ e' ∈ g.wc, IsInductor g e' → e' ≠ e → e'.1 ≠ e.2.1 ∧ e'.2.1 ≠ e.2.1) ∨
      (e.2.1 = 0 ∧ e.1 ≠ 0 ∧ ∀ e' ∈ g.wc, IsInductor g e' → e' ≠ e → e'.1 ≠ e.1 ∧ e'.2.1 ≠ e.1)) :
    quadEnergy L (atNodes g φ) (fluxBiasNodes phi g b) = (1 / 2) * biasedForm val phi g b φ := by
  rw [C59_computed_partial h g hs hc val phi hval pinv hp L hL b φ h0, inductorForm_wc hs]
  congr 1
  unfold biasedForm
  congr 1
  apply List.map_congr_left
  intro e he
  cases hce : g.cmap.get? e with
  | none => rfl
  | some c =>
    by_cases hcL : startsWith c 'L' = true
    swap
    · simp only [hcL]; rfl
    have hind : IsInductor g e := ⟨c, hce, hcL⟩
    simp only [hcL, if_true]
    have key := nodeShift_diff hs phi b hgood he hind
    rw [show φ e.1 + nodeShift phi g b e.1 - (φ e.2.1 + nodeShift phi g b e.2.1) =
      φ e.1 - φ e.2.1 + (nodeShift phi g b e.1 - nodeShift phi g b e.2.1) by ring, key]

/-- The ring with a flux bias on the inductor between the nodes 1 and 2. -/
def ringBiased : List Call := ringCalls ++ [.addFluxBias "L2" (some "z") none]

theorem ringBiased_settled : Settled ringBiased (run {} ringBiased) := by
  obtain ⟨l1, o, a, b, x, l2, he, h1, h2, h3, _⟩ := ring_settled
  refine ⟨l1, o, a, b, x, l2 ++ [.addFluxBias "L2" (some "z") none], by unfold ringBiased; rw [he]; simp, ?_, h2, ?_, rfl⟩
  · intro y hy
    rcases List.mem_append.1 hy with hy | hy
    · exact h1 y hy
    · rw [List.mem_singleton.1 hy]; trivial
  · intro y hy
    rcases List.mem_append.1 hy with hy | hy
    · exact h3 y hy
    · rw [List.mem_singleton.1 hy]; intro o a b c hh; cases hh

/-- **C59 is false** in general: for an inductor between two nodes that are not the ground the bias acts twice, and it acts on the other
inductors at these nodes: at zero node fluxes the ring has the energy 1/2·(1²/2 + 2²/4) = 3/4 instead of 1/2·1²/4 = 1/8. -/
theorem C59_false :
    ∃ b, createFluxBiases (run {} ringBiased) = .ok b ∧ biasVal biasNum b.flux (1, 2, 0) = 1 ∧
    (∃ L, inverseInductance ringVal (run {} ringBiased) (fun _ => ringPinv) = .ok L) ∧
    (∀ M, branchInductance ringVal (run {} ringBiased) = .ok M → IsPinv (M.block 3 3) ringPinv) ∧
    (∀ L, inverseInductance ringVal (run {} ringBiased) (fun _ => ringPinv) = .ok L →
      quadEnergy L (atNodes (run {} ringBiased) fun _ => 0) (fluxBiasNodes biasNum (run {} ringBiased) b) = 3 / 4) ∧
    (1 / 2) * biasedForm ringVal biasNum (run {} ringBiased) b (fun _ => 0) = 1 / 8 := by
  have hpinv : ∀ M, branchInductance ringVal (run {} ringBiased) = .ok M → IsPinv (M.block 3 3) ringPinv := by
    intro M hM
    have : branchInductance ringVal (run {} ringBiased) = .ok _ := rfl
    obtain rfl := Except.ok.inj (hM.symm.trans this)
    refine ⟨?_, ?_, ?_, ?_⟩ <;> decide +kernel
  refine ⟨_, rfl, by decide +kernel, ⟨_, rfl⟩, hpinv, ?_, by decide +kernel⟩
  intro L hL
  rw [C59_computed_partial ringBiased _ ringBiased_settled (by decide +kernel) ringVal biasNum (by decide +kernel) (fun _ => ringPinv) hpinv L hL _ (fun _ => 0) rfl]
  decide +kernel

-- the hypothesis of `C59_energy_partial` on the biases holds for an rf-SQUID with the bias on its inductor
example : let g := (step (run {} squidCalls) (.addFluxBias "L1" (some "z") none)).1
    ∃ b, createFluxBiases g = .ok b ∧ biasVal biasNum b.flux (0, 1, 0) ≠ 0 ∧
    ∀ e ∈ g.wc, (g.cmap.get? e = some "L1" ∨ g.cmap.get? e = some "L2") → biasVal biasNum b.flux e ≠ 0 →
      (e.1 = 0 ∧ e.2.1 ≠ 0 ∧ ∀ e' ∈ g.wc, (g.cmap.get? e' = some "L1" ∨ g.cmap.get? e' = some "L2") → e' ≠ e → e'.1 ≠ e.2.1 ∧ e'.2.1 ≠ e.2.1) := by
  refine ⟨_, rfl, ?_⟩
  decide +kernel

end Verif.Props
