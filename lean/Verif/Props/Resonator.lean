import Verif.Model.Resonator
import Mathlib.Data.List.Sort
import Mathlib.LinearAlgebra.Matrix.Charpoly.Basic

/-!
# Properties of the resonator response: C43
-/

namespace Verif.Props

open Verif.Num Matrix

/-- The rotating-wave Hamiltonian of a circuit with levels `E` and a resonator of frequency `w`: matrix elements between states with
level `i` and `m` photons.  A photon is created when the circuit goes down one level, and the other way round. -/
noncomputable def rwa {T : ℕ} (w : ℝ) (E : Fin T → ℝ) (g : ℕ → ℝ) (a b : Fin T × ℕ) : ℝ :=
  if a = b then a.2 * w + E a.1
  else if (b.1 : ℕ) = a.1 + 1 ∧ a.2 = b.2 + 1 then g a.1 * Real.sqrt a.2
  else if (a.1 : ℕ) = b.1 + 1 ∧ b.2 = a.2 + 1 then g b.1 * Real.sqrt b.2
  else 0

/-- **C43** Every strip is symmetric, so its eigenvalues are real. -/
theorem C43_hermitian {T : ℕ} (w : ℝ) (E : Fin T → ℝ) (g : ℕ → ℝ) (n : ℕ) : (strip w E g n).IsHermitian := by
  ext i j
  rw [conjTranspose_apply]
  simp only [strip, Matrix.add_apply, Matrix.of_apply, star_trivial]
  by_cases hij : i = j
  · subst hij; simp
  · rw [diagonal_apply_ne _ hij, diagonal_apply_ne _ (Ne.symm hij)]
    ring

/-- **C43** On the states that exist (no more excitations in the circuit than in total) the strip `n` is the rotating-wave Hamiltonian
restricted to `n` excitations: level `i` comes with `n - i` photons. -/
theorem C43_strip {T : ℕ} (w : ℝ) (E : Fin T → ℝ) (g : ℕ → ℝ) (n : ℕ) (i j : Fin T) (hi : (i : ℕ) ≤ n) (hj : (j : ℕ) ≤ n) :
    strip w E g n i j = rwa w E g (i, n - i) (j, n - j) := by
  unfold strip rwa
  rw [Matrix.add_apply, Matrix.add_apply, Matrix.of_apply, Matrix.of_apply]
  by_cases hij : i = j
  · subst hij
    rw [diagonal_apply_eq, if_pos (rfl : ((i, n - (i : ℕ)) : Fin T × ℕ) = _), if_neg (by omega)]
    unfold stripDiagonal
    rw [Nat.cast_sub hi]; ring
  · have hne : ((i, n - (i : ℕ)) : Fin T × ℕ) ≠ (j, n - (j : ℕ)) := fun hh => hij (congrArg Prod.fst hh)
    rw [diagonal_apply_ne _ hij, if_neg hne]
    simp only
    by_cases h1 : (j : ℕ) = i + 1
    · have h2 : ¬ (i : ℕ) = j + 1 := by omega
      have h3 : (j : ℕ) = i + 1 ∧ n - (i : ℕ) = n - (j : ℕ) + 1 := by omega
      rw [if_pos h1, if_neg h2, if_pos h3]
      unfold stripCoupling
      rw [if_pos (by omega), Nat.cast_sub hi]; simp
    · have h3 : ¬ ((j : ℕ) = i + 1 ∧ n - (i : ℕ) = n - (j : ℕ) + 1) := fun hh => h1 hh.1
      rw [if_neg h1, if_neg h3]
      by_cases h2 : (i : ℕ) = j + 1
      · have h4 : (i : ℕ) = j + 1 ∧ n - (j : ℕ) = n - (i : ℕ) + 1 := by omega
        rw [if_pos h2, if_pos h4]
        unfold stripCoupling
        rw [if_pos (by omega), Nat.cast_sub hj]; simp
      · have h4 : ¬ ((i : ℕ) = j + 1 ∧ n - (j : ℕ) = n - (i : ℕ) + 1) := fun hh => h2 hh.1
        rw [if_neg h2, if_neg h4]; simp

/-- **C43** The rotating-wave Hamiltonian joins only states with equally many excitations (so the strips are all of it). -/
theorem C43_conserves {T : ℕ} (w : ℝ) (E : Fin T → ℝ) (g : ℕ → ℝ) (a b : Fin T × ℕ) (h : rwa w E g a b ≠ 0) :
    (a.1 : ℕ) + a.2 = b.1 + b.2 := by
  unfold rwa at h
  split_ifs at h with h1 h2 h3
  · rw [h1]
  · omega
  · omega
  · exact absurd rfl h

/-- **C43** Levels that would need a negative number of photons are not coupled to anything; in particular the strip without
excitations is diagonal. -/
theorem C43_unphysical {T : ℕ} (w : ℝ) (E : Fin T → ℝ) (g : ℕ → ℝ) (n : ℕ) (i j : Fin T) (hij : i ≠ j) (h : n < (i : ℕ) ∨ n < (j : ℕ)) :
    strip w E g n i j = 0 := by
  unfold strip
  rw [Matrix.add_apply, Matrix.add_apply, Matrix.of_apply, Matrix.of_apply, diagonal_apply_ne _ hij]
  unfold stripCoupling
  have z : ∀ a : ℕ, n ≤ a → g a * Real.sqrt (((n : ℝ) - a) * if a < n then 1 else 0) = 0 := by
    intro a ha
    rw [if_neg (by omega)]; simp
  by_cases h1 : (j : ℕ) = i + 1
  · rw [if_pos h1, if_neg (by omega), z _ (by omega)]; simp
  · by_cases h2 : (i : ℕ) = j + 1
    · rw [if_neg h1, if_pos h2, z _ (by omega)]; simp
    · rw [if_neg h1, if_neg h2]; simp

theorem C43_zero_strip {T : ℕ} (w : ℝ) (E : Fin T → ℝ) (g : ℕ → ℝ) : strip w E g 0 = diagonal fun i => E i - (i : ℕ) * w := by
  ext i j
  by_cases hij : i = j
  · subst hij
    rw [diagonal_apply_eq]
    unfold strip
    rw [Matrix.add_apply, Matrix.add_apply, Matrix.of_apply, Matrix.of_apply, diagonal_apply_eq, if_neg (by omega)]
    unfold stripDiagonal
    push_cast; ring
  · rw [diagonal_apply_ne _ hij]
    by_cases h : 0 < (i : ℕ)
    · exact C43_unphysical w E g 0 i j hij (Or.inl h)
    · refine C43_unphysical w E g 0 i j hij (Or.inr ?_)
      by_contra hj
      exact hij (Fin.ext (by omega))

/-- **C43** The coupling between the two lowest levels is the derived coupling, if these are coupled at all. -/
theorem C43_first_coupling (gC : ℝ) (x : ℕ → ℂ) (h : x 0 ≠ 0) : couplings gC x 0 = gC := by
  unfold couplings
  rw [div_self h]; simp

theorem eigvals_diagonal {T : ℕ} (d e : Fin T → ℝ) (h : IsEigvals (diagonal d) e) : Finset.univ.val.map e = Finset.univ.val.map d := by
  rw [h.spec, Matrix.charpoly_diagonal, Polynomial.roots_prod _ _ (Finset.prod_ne_zero_iff.mpr fun i _ => Polynomial.X_sub_C_ne_zero _)]
  simp only [Polynomial.roots_X_sub_C, Multiset.bind_singleton]

theorem monotone_unique {T : ℕ} {f g : Fin T → ℝ} (hf : Monotone f) (hg : Monotone g) (h : Finset.univ.val.map f = Finset.univ.val.map g) :
    f = g := by
  have e : ∀ k : Fin T → ℝ, Finset.univ.val.map k = ↑(List.ofFn k) := by
    intro k
    rw [Fin.univ_val_map]
  rw [e, e, Multiset.coe_eq_coe] at h
  refine List.ofFn_injective (h.eq_of_pairwise' (r := (· ≤ ·)) ?_ ?_)
  · exact List.pairwise_ofFn.mpr fun i j hij => hf hij.le
  · exact List.pairwise_ofFn.mpr fun i j hij => hg hij.le

/-- **C43** Without coupling the response is that of the bare circuit and resonator: level `i` of row `n` has the energy of level `i`
and `n - i` photons, however the eigenvalues are ordered. -/
theorem C43_uncoupled {T : ℕ} (w : ℝ) (E : Fin T → ℝ) (e0 : Fin T → ℝ) (e : ℕ → Fin T → ℝ) (h0 : IsEigvals (diagonal (bare w E)) e0)
    (he : ∀ n, IsEigvals (strip w E (fun _ => 0) n) (e n)) (n : ℕ) (i : Fin T) :
    response e0 e (bare w E) n i = some (((n : ℝ) - (i : ℕ)) * w + E i) := by
  have m0 := eigvals_diagonal _ _ h0
  have hs : strip w E (fun _ => 0) n = diagonal (stripDiagonal w E n) := by
    ext a b
    unfold strip
    rw [Matrix.add_apply, Matrix.add_apply, Matrix.of_apply, Matrix.of_apply]
    simp [stripCoupling]
  have hen := he n
  rw [hs] at hen
  have mn := eigvals_diagonal _ _ hen
  have hd : stripDiagonal w E n = fun a => bare w E a + n * w := by
    funext a
    unfold stripDiagonal bare
    ring
  have key : e n = fun a => e0 a + n * w := by
    refine monotone_unique hen.sorted (fun a b hab => by have := h0.sorted hab; simpa using this) ?_
    rw [mn, hd]
    have := congrArg (Multiset.map fun x : ℝ => x + n * w) m0
    rw [Multiset.map_map, Multiset.map_map] at this
    exact this.symm
  have hex : ∃ k, e0 k = bare w E i := by
    have : bare w E i ∈ Finset.univ.val.map e0 := by
      rw [m0]; exact Multiset.mem_map_of_mem _ (Finset.mem_univ_val i)
    obtain ⟨k, -, hk⟩ := Multiset.mem_map.mp this
    exact ⟨k, hk⟩
  obtain ⟨k, hk⟩ := hex
  unfold response levelIndex
  cases hf : (List.finRange T).find? fun k => decide (e0 k = bare w E i) with
  | none =>
    have := List.find?_eq_none.mp hf k (List.mem_finRange k)
    simp [hk] at this
  | some k' =>
    have hk' := List.find?_some hf
    simp only [decide_eq_true_eq] at hk'
    rw [Option.map_some, key]
    simp only
    rw [hk']
    unfold bare
    congr 1
    ring

/-- The hypotheses of `C43_uncoupled` can be met: a two-level circuit below the resonator. -/
example : response (fun i : Fin 2 => if i = 0 then -2 else 0) (fun n i => (if i = 0 then -2 else 0) + n * 5) (bare 5 (fun i : Fin 2 => if i = 0 then 0 else 3)) 4 1
    = some (((4 : ℕ) - ((1 : Fin 2) : ℕ) : ℝ) * 5 + 3) := by
  have m : ∀ c : ℝ, Monotone fun i : Fin 2 => (if i = 0 then -2 else 0) + c := by
    intro c a b hab
    fin_cases a <;> fin_cases b <;> simp at hab ⊢
  have roots : ∀ d : Fin 2 → ℝ, (diagonal d).charpoly.roots = Finset.univ.val.map d := by
    intro d
    rw [Matrix.charpoly_diagonal, Polynomial.roots_prod _ _ (Finset.prod_ne_zero_iff.mpr fun i _ => Polynomial.X_sub_C_ne_zero _)]
    simp only [Polynomial.roots_X_sub_C, Multiset.bind_singleton]
  have sw : ∀ a b : Fin 2 → ℝ, a 0 = b 1 → a 1 = b 0 → Finset.univ.val.map a = Finset.univ.val.map b := by
    intro a b h1 h2
    rw [Fin.univ_val_map, Fin.univ_val_map, Multiset.coe_eq_coe]
    simp only [List.ofFn_succ, List.ofFn_zero]
    show List.Perm [a 0, a 1] [b 0, b 1]
    rw [h1, h2]
    exact List.Perm.swap _ _ _
  have := C43_uncoupled (T := 2) 5 (fun i => if i = 0 then 0 else 3) (fun i => if i = 0 then -2 else 0)
    (fun n i => (if i = 0 then -2 else 0) + n * 5) ⟨by simpa using m 0, ?_⟩ (fun n => ⟨m _, ?_⟩) 4 1
  · simpa using this
  · rw [roots]
    refine sw _ _ ?_ ?_ <;> norm_num [bare]
  · have hs : strip (T := 2) 5 (fun i => if i = 0 then 0 else 3) (fun _ => 0) n = diagonal (stripDiagonal 5 (fun i => if i = 0 then 0 else 3) n) := by
      ext a b
      unfold strip
      rw [Matrix.add_apply, Matrix.add_apply, Matrix.of_apply, Matrix.of_apply]
      simp [stripCoupling]
    rw [hs, roots]
    refine sw _ _ ?_ ?_ <;> norm_num [stripDiagonal]
    ring

theorem levelIndex_some {T : ℕ} {e : Fin T → ℝ} {b : ℝ} (h : ∃ k, e k = b) : ∃ k, levelIndex e b = some k ∧ e k = b := by
  obtain ⟨k, hk⟩ := h
  unfold levelIndex
  cases hf : (List.finRange T).find? fun k => decide (e k = b) with
  | none =>
    have := List.find?_eq_none.mp hf k (List.mem_finRange k)
    simp [hk] at this
  | some k' =>
    have hk' := List.find?_some hf
    simp only [decide_eq_true_eq] at hk'
    exact ⟨k', rfl, hk'⟩

/-- **C69** (part) If the bare energies are all different, every row of the response is the whole spectrum of its strip, each eigenvalue
at the position of exactly one level, and the assignment is the same for all rows. -/
theorem C69_whole_spectrum_partial {T : ℕ} (w : ℝ) (E : Fin T → ℝ) (e0 : Fin T → ℝ) (e : ℕ → Fin T → ℝ)
    (h0 : IsEigvals (diagonal (bare w E)) e0) (hd : Function.Injective (bare w E)) :
    ∃ σ : Equiv.Perm (Fin T), ∀ n i, response e0 e (bare w E) n i = some (e n (σ i)) := by
  have m0 := eigvals_diagonal _ _ h0
  have hex : ∀ i, ∃ k, levelIndex e0 (bare w E i) = some k ∧ e0 k = bare w E i := by
    intro i
    apply levelIndex_some
    have : bare w E i ∈ Finset.univ.val.map e0 := by
      rw [m0]; exact Multiset.mem_map_of_mem _ (Finset.mem_univ_val i)
    obtain ⟨k, -, hk⟩ := Multiset.mem_map.mp this
    exact ⟨k, hk⟩
  choose σ hσ hb using hex
  have inj : Function.Injective σ := fun a b hab => hd (by rw [← hb a, ← hb b, hab])
  refine ⟨Equiv.ofBijective σ ⟨inj, Finite.injective_iff_surjective.mp inj⟩, fun n i => ?_⟩
  unfold response
  rw [hσ i]
  rfl

/-- The spectrum of a two-level strip. -/
theorem roots_two (M : Matrix (Fin 2) (Fin 2) ℝ) (a b : ℝ) (ht : M.trace = a + b) (hdet : M.det = a * b) :
    M.charpoly.roots = ({a, b} : Multiset ℝ) := by
  have : M.charpoly = (Polynomial.X - Polynomial.C a) * (Polynomial.X - Polynomial.C b) := by
    rw [Matrix.charpoly_fin_two, ht, hdet]
    simp only [Polynomial.C_add, Polynomial.C_mul]
    ring
  rw [this, Polynomial.roots_mul (mul_ne_zero (Polynomial.X_sub_C_ne_zero _) (Polynomial.X_sub_C_ne_zero _)), Polynomial.roots_X_sub_C,
    Polynomial.roots_X_sub_C]
  rfl

/-- **C69** (negation) A resonator in resonance with the circuit: the strip with one excitation has the eigenvalues 0 and 2, but the
response gives 0 for both levels - the avoided crossing is missing. -/
theorem C69_resonance_false : ∃ (w : ℝ) (E : Fin 2 → ℝ) (g : ℕ → ℝ) (e0 : Fin 2 → ℝ) (e : ℕ → Fin 2 → ℝ),
    IsEigvals (diagonal (bare w E)) e0 ∧ IsEigvals (strip w E g 1) (e 1) ∧ e 1 0 = 0 ∧ e 1 1 = 2 ∧
      response e0 e (bare w E) 1 0 = some 0 ∧ response e0 e (bare w E) 1 1 = some 0 := by
  have hb : bare (T := 2) 1 (fun i => (i : ℕ)) = fun _ => 0 := by
    funext i; unfold bare; ring
  have hl : levelIndex (fun _ : Fin 2 => (0 : ℝ)) 0 = some 0 := by
    unfold levelIndex
    simp [List.finRange_succ]
  refine ⟨1, fun i => (i : ℕ), fun _ => 1, fun _ => 0, fun _ i => 2 * (i : ℕ), ⟨fun _ _ _ => le_rfl, ?_⟩, ⟨?_, ?_⟩, ?_, ?_, ?_, ?_⟩
  · rw [hb, roots_two _ 0 0 (by simp [Matrix.trace]) (by simp)]
    rfl
  · intro a b hab
    have : ((a : ℕ) : ℝ) ≤ (b : ℕ) := by exact_mod_cast hab
    simpa using this
  · rw [roots_two _ 0 2]
    · rw [Fin.univ_val_map]
      simp [List.ofFn_succ]
      rfl
    · simp [Matrix.trace, strip, stripDiagonal]
    · rw [Matrix.det_fin_two]
      simp [strip, stripDiagonal, stripCoupling]
  · simp
  · simp
  · unfold response; rw [hb, hl]; simp
  · unfold response; rw [hb, hl]; simp

/-- The hypotheses of `C69_whole_spectrum_partial` can be met: a detuned two-level circuit, whose level order is reversed. -/
example : IsEigvals (diagonal (bare (T := 2) 5 (fun i => 3 * (i : ℕ)))) (fun i => 2 * (i : ℕ) - 2) ∧ Function.Injective (bare (T := 2) 5 (fun i => 3 * (i : ℕ))) := by
  refine ⟨⟨fun a b hab => ?_, ?_⟩, fun a b hab => ?_⟩
  · have : ((a : ℕ) : ℝ) ≤ (b : ℕ) := by exact_mod_cast hab
    simpa using this
  · rw [roots_two _ (-2) 0 (by simp [Matrix.trace, bare]; norm_num) (by simp [bare])]
    rw [Fin.univ_val_map]
    simp [List.ofFn_succ]
    rfl
  · unfold bare at hab
    have : ((a : ℕ) : ℝ) = (b : ℕ) := by linarith
    exact Fin.ext (by exact_mod_cast this)

end Verif.Props
