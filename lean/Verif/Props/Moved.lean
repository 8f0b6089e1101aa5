import Verif.Props.Parallel
import Verif.Lemmas.Gauge
import Verif.Spec.Moved

/-!
# C92: It does not matter which junction of a loop carries the flux bias
-/

namespace Verif.Props

open Verif Verif.Spec Verif.Circuit Verif.Sym Verif.Num Verif.Units Matrix Complex

/-- **C92** A flux bias can be attached to either of two junctions in series: two descriptions of one circuit, with a bias of the same flux (or the opposite one) on the junction `x` or on
the junction `y`, have the same levels with the same multiplicities. -/
theorem C92_moved (h h' : List Call) (g g' : CG) (hs : Settled h g) (hs' : Settled h' g') (ha : AllOk h) (ha' : AllOk h')
    (hn : JosephsonNetlist h) (hn' : JosephsonNetlist h') (b b' : Biases) (hb : createFluxBiases g = .ok b) (hb' : createFluxBiases g' = .ok b')
    (w : List UCall) (hw : ∀ c ∈ w, c.Clean) (i : ℕ) (U : Spec.System) (hU : Uses (runU w) i U) (h2e : U.C = 2 * Units.pc_e) (hphi : U.Wb = Units.pc_phi0)
    (u : Prefs) (hEc : Units.getPrefactor (runU w) i "Ec" = .ok u.Ec) (hEj : Units.getPrefactor (runU w) i "Ej" = .ok u.Ej)
    (val phi q : String → ℝ) (hv : NonnegCaps val h) (hconn : ∀ n ∈ nodesOf (branches h), Conn (capacitiveNet val h) n 0)
    (hsame : SameButFlux h h') (S : Set ℕ) (x y : String) (hxy : x ≠ y) (hser : InSeries h S x y)
    (hfx : ∀ d, d ≠ x → fluxOn phi h d = 0) (hfy : ∀ d, d ≠ y → fluxOn phi h' d = 0) (hval : fluxOn phi h' y = fluxOn phi h x ∨ fluxOn phi h' y = - fluxOn phi h x)
    (pinv : Matrix (Fin (edges g).length) (Fin (edges g).length) ℝ → Matrix (Fin (edges g).length) (Fin (edges g).length) ℝ)
    (hp : ∀ M, IsPinv M (pinv M))
    (pinv' : Matrix (Fin (edges g').length) (Fin (edges g').length) ℝ → Matrix (Fin (edges g').length) (Fin (edges g').length) ℝ)
    (hp' : ∀ M, IsPinv M (pinv' M)) (tr : ℕ → ℕ)
    (N : Fin (nodes g).length → BigNode fun i => NodeCfg.mk (tr ((nodes g).get i)) .charge) (hN : ChargeNodes (fun i => tr ((nodes g).get i)) N)
    (N' : Fin (nodes g').length → BigNode fun i => NodeCfg.mk (tr ((nodes g').get i)) .charge) (hN' : ChargeNodes (fun i => tr ((nodes g').get i)) N') :
    ∃ s H s' H', assemble g b val phi q ⟨false, 1⟩ pinv u = .ok s ∧ hamiltonian (s.withNodes N) = some H ∧
      assemble g' b' val phi q ⟨false, 1⟩ pinv' u = .ok s' ∧ hamiltonian (s'.withNodes N') = some H' ∧
      ∀ k E, LevelsUpTo H k E ↔ LevelsUpTo H' k E := by
  have hnodes := nodesOf_perm hsame.branches
  have hv' : NonnegCaps val h' := by
    refine ⟨fun d hd => hv.1 d ((branchesOf_perm 'C' hsame.branches).subset hd), fun n hn => ?_⟩
    rw [hsame.caps]
    exact hv.2 n (hnodes ▸ hn)
  have hform : ∀ v : ℕ → ℝ, v 0 = 0 → electrostaticForm val h' v = electrostaticForm val h v := by
    intro v _
    unfold electrostaticForm
    rw [capacitorForm_perm val hsame.branches, hnodes]
    congr 1
    exact Finset.sum_congr rfl fun n _ => by rw [hsame.caps]
  refine equivalent_levels h h' g g' hs hs' ha ha' hn hn' b b' hb hb' w hw i U hU h2e hphi u hEc hEj val val phi q hv hv' hconn hnodes
    (hsame.charge q) hform tr ?_ pinv hp pinv' hp' N hN N' hN'
  intro sgn sgn' hsgn hsgn'
  classical
  obtain ⟨hnd, hmem⟩ := C29_rows h g hs
  obtain ⟨hnames, -, -⟩ := C21_names hs
  -- the directions in which the junctions leave the part
  let δ : ℕ × ℕ × String → ℝ := fun d => (if d.1 ∈ S then 1 else 0) - (if d.2.1 ∈ S then 1 else 0)
  have hin : ∀ d ∈ branchesOf 'I' (branches h), ∀ n, n = d.1 ∨ n = d.2.1 → n ∈ S → n ∈ nodes g := by
    intro d hd n hn hS
    refine (hmem n).2 ⟨?_, fun h0 => hser.ground (h0 ▸ hS)⟩
    simp only [nodesOf, List.mem_toFinset, List.mem_flatMap]
    exact ⟨d, (List.mem_filter.1 hd).1, by simpa using hn⟩
  have hδ0 : ∀ d ∈ branchesOf 'I' (branches h), d.2.2 ≠ x → d.2.2 ≠ y → δ d = 0 := by
    intro d hd h1 h2
    have := (hser.between d hd).2 ⟨h1, h2⟩
    simp only [δ, this, sub_self]
  have hδ1 : ∀ d ∈ branchesOf 'I' (branches h), d.2.2 = x ∨ d.2.2 = y → δ d = 1 ∨ δ d = -1 := by
    intro d hd h1
    have h2 : ¬ (d.1 ∈ S ↔ d.2.1 ∈ S) := fun hc => by
      have := (hser.between d hd).1 hc
      rcases h1 with h1 | h1
      · exact this.1 h1
      · exact this.2 h1
    by_cases ha : d.1 ∈ S <;> by_cases hb : d.2.1 ∈ S
    · exact absurd (iff_of_true ha hb) h2
    · left; simp [δ, ha, hb]
    · right; simp [δ, ha, hb]
    · exact absurd (iff_of_false ha hb) h2
  have huniq : ∀ d ∈ branchesOf 'I' (branches h), ∀ d' ∈ branchesOf 'I' (branches h), d.2.2 = d'.2.2 → d = d' := fun d hd d' hd' he =>
    List.inj_on_of_nodup_map hnames (List.mem_filter.1 hd).1 (List.mem_filter.1 hd').1 he
  -- a potential that is constant on the part takes the flux off `x`
  obtain ⟨dx, hdx, hdx'⟩ := hser.first
  obtain ⟨dy, hdy, hdy'⟩ := hser.second
  obtain ⟨t, ht⟩ : ∃ t, t = -(sgn x * fluxOn phi h x) * δ dx := ⟨_, rfl⟩
  have hsq : δ dx * δ dx = 1 := by rcases hδ1 dx hdx (.inl hdx') with h1 | h1 <;> rw [h1] <;> norm_num
  have hy : sgn' y * fluxOn phi h' y = t * δ dy ∨ -(sgn' y * fluxOn phi h' y) = t * δ dy := by
    rw [ht]
    rcases hδ1 dx hdx (.inl hdx') with h1 | h1 <;> rcases hδ1 dy hdy (.inr hdy') with h2 | h2 <;> rcases hsgn x with h3 | h3 <;> rcases hsgn' y with h4 | h4 <;>
      rcases hval with h5 | h5 <;> rw [h1, h2, h3, h4, h5] <;> simp
  have hdiff : ∀ e : ℝ, e * (sgn' y * fluxOn phi h' y) = t * δ dy → ∀ d ∈ branchesOf 'I' (branches h), e * (sgn' d.2.2 * fluxOn phi h' d.2.2) =
      sgn d.2.2 * fluxOn phi h d.2.2 + ((if d.1 ∈ S then t else 0) - (if d.2.1 ∈ S then t else 0)) := by
    intro e he d hd
    have hsplit : ((if d.1 ∈ S then t else 0) - (if d.2.1 ∈ S then t else 0)) = t * δ d := by
      simp only [δ, mul_sub, mul_ite, mul_one, mul_zero]
    rw [hsplit]
    by_cases h1 : d.2.2 = x
    · rw [huniq d hd dx hdx (h1.trans hdx'.symm), hdx', hfy x hxy, ht]
      linear_combination (sgn x * fluxOn phi h x) * hsq
    · by_cases h2 : d.2.2 = y
      · rw [huniq d hd dy hdy (h2.trans hdy'.symm), hdy', hfx y (Ne.symm hxy), he]
        ring
      · rw [hδ0 d hd h1 h2, hfx _ h1, hfy _ h2]
        ring
  have hends : ∀ d ∈ branchesOf 'I' (branches h), (d.1 ∈ nodes g ∨ (if d.1 ∈ S then t else 0) = 0) ∧ (d.2.1 ∈ nodes g ∨ (if d.2.1 ∈ S then t else 0) = 0) := by
    intro d hd
    refine ⟨?_, ?_⟩
    · by_cases hS : d.1 ∈ S
      · exact .inl (hin d hd _ (.inl rfl) hS)
      · exact .inr (if_neg hS)
    · by_cases hS : d.2.1 ∈ S
      · exact .inl (hin d hd _ (.inr rfl) hS)
      · exact .inr (if_neg hS)
  rcases hy with hy | hy
  · obtain ⟨p, hp1, hp2⟩ := transfer_potential hnd (branchesOf 'I' (branches h)) (fun n => if n ∈ S then t else 0) hends (tr := fun i => tr ((nodes g).get i))
      (fun c => Units.pc_phi0 * (val c * U.A) / (2 * Real.pi)) (fun c => sgn c * fluxOn phi h c) (fun c => 1 * (sgn' c * fluxOn phi h' c)) (hdiff 1 (by rw [one_mul, hy]))
    refine ⟨p, hp1, .inl fun m m' => ?_⟩
    rw [← hp2, transfer_perm (branchesOf_perm 'I' hsame.branches)]
    exact transfer_congr (fun _ _ => rfl) (fun d _ => by rw [one_mul]) m m'
  · obtain ⟨p, hp1, hp2⟩ := transfer_potential hnd (branchesOf 'I' (branches h)) (fun n => if n ∈ S then t else 0) hends (tr := fun i => tr ((nodes g).get i))
      (fun c => Units.pc_phi0 * (val c * U.A) / (2 * Real.pi)) (fun c => sgn c * fluxOn phi h c) (fun c => -1 * (sgn' c * fluxOn phi h' c)) (hdiff (-1) (by rw [neg_one_mul, hy]))
    refine ⟨p, hp1, .inr fun m m' => ?_⟩
    rw [← hp2, transfer_perm (branchesOf_perm 'I' hsame.branches), ← transfer_conj]
    exact transfer_congr (fun _ _ => rfl) (fun d _ => by ring) m m'

/-! ### The hypotheses are met -/

/-- The biased SQUID with the bias on the other junction. -/
def otherSquid : List Call :=
  [.addBranch Orc.id 0 1 "C1", .addBranch Orc.id 0 1 "I2", .addBranch Orc.id 0 1 "I1", .addFluxBias "I1" (some "z") none, .addChargeBias 1 (some "g") (some "Cg")]

example (phi : String → ℝ) : Settled otherSquid (run {} otherSquid) ∧ AllOk otherSquid ∧ JosephsonNetlist otherSquid ∧ (∃ b, createFluxBiases (run {} otherSquid) = .ok b) ∧
    SameButFlux biasedSquid otherSquid ∧ InSeries biasedSquid {1} "I2" "I1" ∧ (∀ d, d ≠ "I2" → fluxOn phi biasedSquid d = 0) ∧
    (∀ d, d ≠ "I1" → fluxOn phi otherSquid d = 0) ∧ fluxOn phi otherSquid "I1" = fluxOn phi biasedSquid "I2" ∧ fluxOn phi biasedSquid "I2" = phi "z" := by
  have hb : branches biasedSquid = [(0, 1, "C1"), (0, 1, "I1"), (0, 1, "I2")] := by decide +kernel
  have hb' : branches otherSquid = [(0, 1, "C1"), (0, 1, "I2"), (0, 1, "I1")] := by decide +kernel
  have hI : branchesOf 'I' [(0, 1, "C1"), (0, 1, "I1"), (0, 1, "I2")] = [(0, 1, "I1"), (0, 1, "I2")] := by decide +kernel
  refine ⟨⟨[.addBranch Orc.id 0 1 "C1", .addBranch Orc.id 0 1 "I2"], Orc.id, 0, 1, "I1", [.addFluxBias "I1" (some "z") none, .addChargeBias 1 (some "g") (some "Cg")], rfl,
      by simp [otherSquid, Call.OK, orcId_ok], by decide +kernel, by simp, rfl⟩, ?_, ?_, ?_, ⟨?_, fun q n => ?_, fun val n => ?_⟩, ⟨by simp, ?_, ?_, ?_⟩, fun d hd => ?_, fun d hd => ?_, ?_, ?_⟩
  · apply allOk_of_prefixes; decide +kernel
  · refine ⟨by simp [otherSquid], ?_, ?_, ?_⟩ <;> rw [hb'] <;> decide +kernel
  · have : (createFluxBiases (run {} otherSquid)).toOption.isSome = true := by decide +kernel
    cases hc : createFluxBiases (run {} otherSquid) with
    | ok b => exact ⟨b, rfl⟩
    | error e => rw [hc] at this; cases this
  · rw [hb, hb']; decide +kernel
  · by_cases hn : 1 = n <;> simp [gateCharge, biasedSquid, otherSquid, hn]
  · by_cases hn : 1 = n <;> simp [Spec.gateCap, biasedSquid, otherSquid, hn]
  · rw [hb, hI]; exact ⟨(0, 1, "I2"), by simp, rfl⟩
  · rw [hb, hI]; exact ⟨(0, 1, "I1"), by simp, rfl⟩
  · rw [hb, hI]
    simp
  · simp [fluxOn, biasedSquid, Ne.symm hd]
  · simp [fluxOn, otherSquid, Ne.symm hd]
  · simp [fluxOn, biasedSquid, otherSquid]
  · simp [fluxOn, biasedSquid]

end Verif.Props
