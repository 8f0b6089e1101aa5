import Verif.Props.CooperPairSym
import Verif.Props.Observables
import Verif.Lemmas.LevelCount

/-!
# C85: larger truncations
-/

namespace Verif.Props

open Verif Verif.Sym Verif.Num Verif.Spec Complex Matrix

/-- **C85** The Hamiltonian of a circuit of capacitors and junctions in the charge basis is Hermitian. -/
theorem C85_hermitian (h : List Circuit.Call) (g : Circuit.CG) (tr : Fin (nodes g).length → ℕ)
    (N : Fin (nodes g).length → BigNode fun i => NodeCfg.mk (tr i) .charge) (s : Sys PUnit (nodes g).length (edges g).length)
    (hc : PairCircuit h g tr N s) (H : BigOp fun i => NodeCfg.mk (tr i) .charge) (hH : hamiltonian (s.withNodes N) = some H) : H.IsHermitian := by
  classical
  have two : (starRingEnd ℂ) 2 = 2 := Complex.conj_ofNat 2
  ext x y
  rw [conjTranspose_apply, C81_charge_hamiltonian h g tr N s hc H hH, C81_charge_hamiltonian h g tr N s hc H hH]
  unfold textbook
  dsimp only
  rw [star_sub, star_sum]
  congr 1
  · by_cases hxy : x = y
    · rw [if_pos hxy.symm, if_pos hxy, hxy]; exact Complex.conj_ofReal _
    · rw [if_neg (Ne.symm hxy), if_neg hxy, star_zero]
  · apply Finset.sum_congr rfl
    intro k _
    have e1 : star (exp (2 * Real.pi * (s.Pb k : ℂ) * I)) = exp (-(2 * Real.pi * (s.Pb k : ℂ) * I)) := by
      rw [Complex.star_def, ← Complex.exp_conj]; congr 1; simp [two]
    have e2 : star (exp (-(2 * Real.pi * (s.Pb k : ℂ) * I))) = exp (2 * Real.pi * (s.Pb k : ℂ) * I) := by
      rw [← e1, star_star]
    have e3 : star (((s.J k * s.u.Ej : ℝ) : ℂ) / 2) = ((s.J k * s.u.Ej : ℝ) : ℂ) / 2 := by
      rw [Complex.star_def]; simp [two]
    rw [star_mul', e3, star_add, add_comm]
    congr 2
    · by_cases hh : Crossed (nodes g) ((edges g).get k) x y
      · rw [if_pos hh, if_pos hh, e2]
      · rw [if_neg hh, if_neg hh, star_zero]
    · by_cases hh : Crossed (nodes g) ((edges g).get k) y x
      · rw [if_pos hh, if_pos hh, e1]
      · rw [if_neg hh, if_neg hh, star_zero]

/-- **C85** The matrix element between two charge states does not depend on how many further states are kept. -/
theorem C85_elements (h : List Circuit.Call) (g : Circuit.CG) (tr tr' : Fin (nodes g).length → ℕ)
    (N : Fin (nodes g).length → BigNode fun i => NodeCfg.mk (tr i) .charge) (N' : Fin (nodes g).length → BigNode fun i => NodeCfg.mk (tr' i) .charge)
    (s : Sys PUnit (nodes g).length (edges g).length) (hc : PairCircuit h g tr N s) (hc' : PairCircuit h g tr' N' s)
    (H : BigOp fun i => NodeCfg.mk (tr i) .charge) (hH : hamiltonian (s.withNodes N) = some H)
    (H' : BigOp fun i => NodeCfg.mk (tr' i) .charge) (hH' : hamiltonian (s.withNodes N') = some H')
    (x y : ChargeState tr) (x' y' : ChargeState tr') (hx : ∀ i, excess x i = excess x' i) (hy : ∀ i, excess y i = excess y' i) :
    H x y = H' x' y' := by
  classical
  rw [C81_charge_hamiltonian h g tr N s hc H hH, C81_charge_hamiltonian h g tr' N' s hc' H' hH']
  unfold textbook
  dsimp only
  have hinj : x = y ↔ x' = y' := by
    constructor
    · rintro rfl
      funext i
      have := (hx i).symm.trans (hy i)
      unfold excess at this
      exact Fin.ext (by omega)
    · rintro rfl
      funext i
      have := (hx i).trans (hy i).symm
      unfold excess at this
      exact Fin.ext (by omega)
  have c1 : ∀ k, Crossed (nodes g) ((edges g).get k) x y ↔ Crossed (nodes g) ((edges g).get k) x' y' := by
    intro k; unfold Crossed; simp only [hx, hy]
  have c2 : ∀ k, Crossed (nodes g) ((edges g).get k) y x ↔ Crossed (nodes g) ((edges g).get k) y' x' := by
    intro k; unfold Crossed; simp only [hx, hy]
  simp only [hx, hinj, c1, c2]

/-- **C85** Keeping more charge states never raises a level: for every `k`, the `k`-th lowest level with the larger truncations lies at or below
the one with the smaller truncations. -/
theorem C85_levels (h : List Circuit.Call) (g : Circuit.CG) (tr tr' : Fin (nodes g).length → ℕ) (hle : ∀ i, tr i ≤ tr' i)
    (N : Fin (nodes g).length → BigNode fun i => NodeCfg.mk (tr i) .charge) (N' : Fin (nodes g).length → BigNode fun i => NodeCfg.mk (tr' i) .charge)
    (s : Sys PUnit (nodes g).length (edges g).length) (hc : PairCircuit h g tr N s) (hc' : PairCircuit h g tr' N' s)
    (H : BigOp fun i => NodeCfg.mk (tr i) .charge) (hH : hamiltonian (s.withNodes N) = some H)
    (H' : BigOp fun i => NodeCfg.mk (tr' i) .charge) (hH' : hamiltonian (s.withNodes N') = some H') (k : ℕ) (E : ℝ)
    (hE : LevelsUpTo H k E) : LevelsUpTo H' k E := by
  let f : ChargeState tr → ChargeState tr' := fun x i => ⟨(x i : ℕ) + (tr' i - tr i), by
    have h1 : (x i : ℕ) < 2 * tr i + 1 := (x i).2
    have h2 := hle i
    show _ < 2 * tr' i + 1
    omega⟩
  have hf : ∀ x i, excess x i = excess (f x) i := by
    intro x i
    have h2 := hle i
    show (tr i : ℤ) - ((x i : ℕ) : ℤ) = (tr' i : ℤ) - (((x i : ℕ) + (tr' i - tr i) : ℕ) : ℤ)
    omega
  refine levelsUpTo_submatrix (C85_hermitian h g tr' N' s hc' H' hH') f (fun x y hxy => ?_)
    (fun x y => C85_elements h g tr tr' N N' s hc hc' H hH H' hH' x y (f x) (f y) (hf x) (hf y)) k E hE
  funext i
  have := hf x i
  rw [hxy, ← hf y i] at this
  unfold excess at this
  exact Fin.ext (by omega)

/-- For the SQUID, all junctions, gate charges and flux biases and all truncations `t ≤ t'`: the hypotheses of `C85_levels` are met, and so is
`LevelsUpTo` for `k = 1` and some energy. -/
example (t t' : ℕ) (J1 J2 ng φ : ℝ) (u : Prefs) (g : Circuit.CG) (hg : g = Circuit.run {} dcSquid) :
    ∃ (N : Fin (nodes g).length → BigNode fun _ => NodeCfg.mk t .charge) (N' : Fin (nodes g).length → BigNode fun _ => NodeCfg.mk t' .charge)
      (s : Sys PUnit (nodes g).length (edges g).length) (H : BigOp fun _ => NodeCfg.mk t .charge) (H' : BigOp fun _ => NodeCfg.mk t' .charge),
      PairCircuit dcSquid g (fun _ => t) N s ∧ PairCircuit dcSquid g (fun _ => t') N' s ∧ (∀ i, s.Qb i = ng) ∧ (∀ k, s.Pb k = φ) ∧
      (∀ k, s.J k = if ((edges g).get k).2.2 = 1 then J1 else J2) ∧
      hamiltonian (s.withNodes N) = some H ∧ hamiltonian (s.withNodes N') = some H' ∧ ∃ E, LevelsUpTo H 1 E := by
  have hs : Settled dcSquid g := hg ▸ dcSquid_settled
  have he : edges g = [(0, 1, 1), (1, 0, 2)] := by subst hg; decide +kernel
  obtain ⟨N, s, H, hc, e1, e2, e3, e4, e5, hH⟩ := pair_circuit_exists dcSquid g hs (fun _ => t) 1
    (fun k => if ((edges g).get k).2.2 = 1 then J1 else J2) (fun _ => φ) (fun _ => ng) u (fun k _ => by
      have hm : ∀ e ∈ edges g, e.1 ≠ e.2.1 := by rw [he]; decide
      exact hm _ (List.get_mem _ _))
  obtain ⟨N', hN'⟩ := charge_nodes_exist (n := (nodes g).length) fun _ => t'
  have h1 : (hamiltonian (s.withNodes N)).isSome := by rw [hH]; rfl
  have h2 : (hamiltonian (s.withNodes N')).isSome := by
    rw [C66_defined] at h1 ⊢
    exact h1
  obtain ⟨H', hH'⟩ := Option.isSome_iff_exists.1 h2
  refine ⟨N, N', s, H, H', hc, ⟨hc.1, hN', hc.3, hc.4, hc.5⟩, fun i => by rw [e4], fun k => by rw [e3], fun k => by rw [e2], hH, hH', ?_⟩
  have hherm := C85_hermitian dcSquid g _ N s hc H hH
  let x0 : ChargeState (fun _ : Fin (nodes g).length => t) := fun _ => ⟨0, Nat.succ_pos _⟩
  refine ⟨hherm.eigenvalues x0, (levelsUpTo_hermitian hherm 1 _).2 (Finset.card_pos.2 ⟨x0, ?_⟩)⟩
  exact Finset.mem_filter.2 ⟨Finset.mem_univ _, le_rfl⟩

/-- **C85** is false of the oscillator basis: for every LC oscillator, in every unit system, and every number of states kept, there is a `k` such
that the `k`-th lowest level rises when one more state is kept. -/
theorem C85_false_oscillator (w : List UCall) (hw : ∀ c ∈ w, c.Clean) (i : ℕ) (hi : i < (runU w).objs.length) (n : ℕ) (c l : ℝ) (c0 : 0 < c)
    (l0 : 0 < l) : ∃ s s' H H', lcOf (runU w) i (n + 1) c l = .ok s ∧ lcOf (runU w) i (n + 2) c l = .ok s' ∧ hamiltonian s = some H ∧
    hamiltonian s' = some H' ∧ ∃ k E, LevelsUpTo H k E ∧ ¬ LevelsUpTo H' k E := by
  obtain ⟨u, hp, hu, hcons⟩ := C44_consistent_partial w hw i hi
  have hcons' := hcons
  obtain ⟨g1, g2, -, -, -, g3, g5, g4, -⟩ := hcons'
  refine ⟨_, _, _, _, ?_, ?_, lc_hamiltonian (runU w) i u hcons hp (n + 1) c l c0 l0 _ _ _ _ _ g1 g2 g3 g4 g5,
    lc_hamiltonian (runU w) i u hcons hp (n + 2) c l c0 l0 _ _ _ _ _ g1 g2 g3 g4 g5, ?_⟩
  · unfold lcOf
    rw [g1, g2, g3, g4, g5]
    rfl
  · unfold lcOf
    rw [g1, g2, g3, g4, g5]
    rfl
  obtain ⟨pF, pH, -, -, -, -, -, -, -, -, -, pE, -, -⟩ := hp
  have h0 : (0 : ℝ) < Units.pc_hbar := by unfold Units.pc_hbar; norm_num
  set a := u.E * Units.pc_hbar / Real.sqrt ((c * u.F) * (l * u.H)) with ha
  have hpos : 0 < a := by
    have h5 : 0 < Real.sqrt ((c * u.F) * (l * u.H)) := Real.sqrt_pos.2 (by positivity)
    positivity
  let d : Fin (n + 1) → ℝ := fun k => a * (if (k : ℕ) = n + 1 - 1 then (k : ℝ) / 2 else (k : ℝ) + 1 / 2)
  let d' : Fin (n + 2) → ℝ := fun k => a * (if (k : ℕ) = n + 2 - 1 then (k : ℝ) / 2 else (k : ℝ) + 1 / 2)
  refine ⟨(Finset.univ.filter fun k => d k ≤ a * (n / 2)).card, a * (n / 2), (levelsUpTo_diagonal d _ _).2 le_rfl,
    fun hcon => absurd ((levelsUpTo_diagonal d' _ _).1 hcon) (Nat.not_le.2 ?_)⟩
  have hlow : ∀ k : Fin (n + 2), d' k ≤ a * (n / 2) → (k : ℕ) < n := by
    intro k hk
    have h1 := le_of_mul_le_mul_left hk hpos
    by_contra hkn
    have h2 : (n : ℝ) ≤ (k : ℕ) := by exact_mod_cast not_lt.1 hkn
    by_cases hlast : (k : ℕ) = n + 2 - 1
    · rw [if_pos hlast] at h1
      have h3 : ((k : ℕ) : ℝ) = n + 1 := by rw [hlast]; push_cast; ring
      rw [h3] at h1; linarith
    · rw [if_neg hlast] at h1
      have := (Nat.cast_nonneg n : (0 : ℝ) ≤ n)
      linarith
  have hsub : (Finset.univ.filter fun k => d' k ≤ a * (n / 2)).card ≤ ((Finset.univ.filter fun k => d k ≤ a * (n / 2)).erase (Fin.last n)).card := by
    refine Finset.card_le_card_of_injOn (fun k => if hk : (k : ℕ) < n + 1 then ⟨k, hk⟩ else 0) (fun k hk => ?_) ?_
    · have hk' := (Finset.mem_filter.1 hk).2
      have hkn := hlow k hk'
      simp only [Finset.coe_erase, Set.mem_diff, Finset.mem_coe, Set.mem_singleton_iff]
      rw [dif_pos (by omega)]
      refine ⟨Finset.mem_filter.2 ⟨Finset.mem_univ _, ?_⟩, fun h => ?_⟩
      · have e : d ⟨k, by omega⟩ = d' k := by
          show a * (if (k : ℕ) = n + 1 - 1 then ((k : ℕ) : ℝ) / 2 else ((k : ℕ) : ℝ) + 1 / 2) = a * (if (k : ℕ) = n + 2 - 1 then ((k : ℕ) : ℝ) / 2 else ((k : ℕ) : ℝ) + 1 / 2)
          rw [if_neg (by omega), if_neg (by omega)]
        rw [e]; exact hk'
      · have := congrArg Fin.val h
        simp at this
        omega
    · intro x hx y hy hxy
      have h1 := hlow x (Finset.mem_filter.1 hx).2
      have h2 := hlow y (Finset.mem_filter.1 hy).2
      simp only at hxy
      rw [dif_pos (by omega), dif_pos (by omega)] at hxy
      exact Fin.ext (by simpa using congrArg Fin.val hxy)
  have hlast : Fin.last n ∈ Finset.univ.filter fun k => d k ≤ a * (n / 2) := by
    refine Finset.mem_filter.2 ⟨Finset.mem_univ _, le_of_eq ?_⟩
    show a * (if ((Fin.last n : Fin (n + 1)) : ℕ) = n + 1 - 1 then (((Fin.last n : Fin (n + 1)) : ℕ) : ℝ) / 2 else _) = _
    rw [if_pos (by simp)]; simp
  exact lt_of_le_of_lt hsub (Finset.card_erase_lt_of_mem hlast)

/-- An instance of `Units` with SI units meets the hypotheses of `C85_false_oscillator`. -/
example : (∀ c ∈ [UCall.new "SI"], c.Clean) ∧ 0 < (runU [UCall.new "SI"]).objs.length := by
  obtain ⟨w, o, hw, -, ho, -⟩ := one_instance "SI"
  refine ⟨by simp [UCall.Clean], ?_⟩
  rw [hw, ho]; simp

end Verif.Props
