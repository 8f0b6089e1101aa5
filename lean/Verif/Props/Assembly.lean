import Verif.Model.Assembly
import Verif.Lemmas.Netlist
import Verif.Props.CooperPair
import Mathlib.Analysis.Matrix.Order
import Verif.Lemmas.Pinv

/-!
# C86: from the calls that describe a Josephson circuit to its Hamiltonian
-/

namespace Verif.Props

open Verif Verif.Circuit Verif.Sym Verif.Num Verif.Spec Complex Matrix

/-! ### What a netlist of capacitors and junctions does not contain -/

theorem settled_run {h : List Call} {g : CG} (hs : Settled h g) : g = run {} h ∧ ∀ x ∈ h, x.OK := by
  obtain ⟨_, _, _, _, _, _, _, hok, _, _, rfl⟩ := hs; exact ⟨rfl, hok⟩

theorem netlist_edge {h : List Call} {g : CG} (hs : Settled h g) (hn : JosephsonNetlist h) {e : Edge} (he : e ∈ edges g) :
    ∃ b ∈ branches h, IsBranch e b ∧ g.cmap.get? e = some b.2.2 ∧ startsWith b.2.2 'I' = true ∧ e.1 ≠ e.2.1 := by
  obtain ⟨b, hb, hbr, hc⟩ := wc_branch hs he
  obtain ⟨hb1, hb2⟩ := List.mem_filter.1 hb
  refine ⟨b, hb1, hbr, hc, ?_, ?_⟩
  · rcases hn.letters b hb1 with h | h
    · rw [h] at hb2; cases hb2
    · exact h
  · have := hn.ends b hb1
    rcases hbr with ⟨h1, h2⟩ | ⟨h1, h2⟩ <;> rw [h1, h2]
    · exact this
    · exact this.symm

theorem startsWith_unique {c : String} {p p' : Char} (h : startsWith c p = true) (h' : startsWith c p' = true) : p = p' := by
  have h1 := (startsWith_iff _ _).1 h
  have h2 := (startsWith_iff _ _).1 h'
  rw [h1] at h2; injection h2

theorem netlist_no_inductor {h : List Call} {g : CG} (hs : Settled h g) (hn : JosephsonNetlist h) : ∀ e ∈ edges g, ¬ IsInductor g e := by
  rintro e he ⟨c, hc, hL⟩
  obtain ⟨b, -, -, hc', hI, -⟩ := netlist_edge hs hn he
  rw [hc] at hc'
  cases hc'
  exact absurd (startsWith_unique hL hI) (by decide)

theorem netlist_frame {h : List Call} (hn : ∀ x ∈ h, (∃ o a b c, x = .addBranch o a b c) ∨ (∃ c s m, x = .addFluxBias c s m) ∨ ∃ n s c, x = .addChargeBias n s c) :
    (run {} h).coupled = [] ∧ ∀ n r, (run {} h).resonators.get? n ≠ some (some r) := by
  apply run_inv (P := fun g => g.coupled = [] ∧ ∀ n r, g.resonators.get? n ≠ some (some r))
  · exact ⟨rfl, fun n r h => by cases h⟩
  · intro g c hc ⟨h1, h2⟩
    rcases hn c hc with ⟨o, a, b, c, rfl⟩ | ⟨c, s, m, rfl⟩ | ⟨n, s, c, rfl⟩
    · simp only [step]
      refine ⟨by rw [addBranch_frame.2.2.1]; exact h1, ?_⟩
      rcases (addBranch_frame (o := o) (g := g) (a := a) (b := b) (c := c)).2.2.2 with hr | ⟨-, hr⟩
      · rw [hr]; exact h2
      · rw [hr]
        have key : ∀ (d : Dict Node (Option Resonator)) (a : Node), (∀ n r, d.get? n ≠ some (some r)) →
            ∀ n r, (if d.has a then d else d.set a none).get? n ≠ some (some r) := by
          intro d a hd n r
          split_ifs
          · exact hd n r
          · rw [Dict.get?_set]
            split_ifs
            · simp
            · exact hd n r
        unfold updateCouplings
        exact key _ _ (key _ _ h2)
    · simp only [step]; rw [addFluxBias_frame]; exact ⟨h1, h2⟩
    · simp only [step]; rw [addChargeBias_frame]; exact ⟨h1, h2⟩

theorem netlist_load {h : List Call} (hn : JosephsonNetlist h) (val : String → ℝ) (n : ℕ) : resonatorLoad val (run {} h) n = 0 := by
  have := (netlist_frame hn.calls).2 n
  unfold resonatorLoad
  cases hr : (run {} h).resonators.get? n with
  | none => rfl
  | some r => cases r with
    | none => rfl
    | some r => exact absurd hr (this r)

/-- The capacitance matrix of a netlist: it is computed, it is symmetric and its form is the energy of the capacitors. -/
theorem netlist_capacitance {h : List Call} {g : CG} (hs : Settled h g) (ha : AllOk h) (hn : JosephsonNetlist h) (val : String → ℝ) :
    ∃ M, capacitance val (resonatorCap val) g = .ok M ∧ (M.block (nodes g).length (nodes g).length).transpose = M.block _ _ ∧
      ∀ v : ℕ → ℝ, v 0 = 0 → atNodes g v ⬝ᵥ (M.block (nodes g).length (nodes g).length).mulVec (atNodes g v) = electrostaticForm val h v := by
  obtain ⟨M, hM⟩ := C29_defined h g hs ha hn.ground val
  refine ⟨M, hM, C29_symmetric val g M hM, fun v hv => ?_⟩
  obtain ⟨rfl, hok⟩ := settled_run hs
  rw [C29_quadratic_form_partial h _ hs val M hM (fun b hb => hn.ends b (List.mem_filter.1 hb).1) v hv]
  unfold electrostaticForm
  congr 1
  apply Finset.sum_congr rfl
  intro n _
  rw [netlist_load hn, add_zero, gateCap_stored hok ha]

/-! ### Which circuits can be quantised -/

theorem atNodes_surj {h : List Call} {g : CG} (hs : Settled h g) (x : Fin (nodes g).length → ℝ) : ∃ v : ℕ → ℝ, v 0 = 0 ∧ x = atNodes g v := by
  obtain ⟨hnd, hmem⟩ := C29_rows h g hs
  refine ⟨fun n => if hn : (nodes g).idxOf n < (nodes g).length then x ⟨(nodes g).idxOf n, hn⟩ else 0, ?_, ?_⟩
  · have : ¬ (nodes g).idxOf 0 < (nodes g).length := by
      rw [List.idxOf_lt_length_iff, hmem]; tauto
    simp only [this, dif_neg, not_false_iff]
  · funext i
    simp only [atNodes, List.get_eq_getElem, hnd.idxOf_getElem, i.2, dif_pos]

theorem electrostatic_nonneg {val : String → ℝ} {h : List Call} (hv : NonnegCaps val h) (v : ℕ → ℝ) : 0 ≤ electrostaticForm val h v := by
  unfold electrostaticForm capacitorForm
  refine add_nonneg (sum_nonneg_list _ _ fun b hb => mul_nonneg (hv.1 b hb) (sq_nonneg _)) (Finset.sum_nonneg fun n hn => mul_nonneg (hv.2 n hn) (sq_nonneg _))

/-- The energy vanishes only if the voltage is the same along all capacitors. -/
theorem electrostatic_zero {val : String → ℝ} {h : List Call} (hv : NonnegCaps val h) (v : ℕ → ℝ) (h0 : v 0 = 0) :
    electrostaticForm val h v = 0 ↔ ∀ e ∈ capacitiveNet val h, v e.1 = v e.2.1 := by
  have n1 : ∀ b ∈ branchesOf 'C' (branches h), 0 ≤ val b.2.2 * (v b.1 - v b.2.1) ^ 2 := fun b hb => mul_nonneg (hv.1 b hb) (sq_nonneg _)
  have n2 : ∀ n ∈ nodesOf (branches h), 0 ≤ gateCap val h n * v n ^ 2 := fun n hn => mul_nonneg (hv.2 n hn) (sq_nonneg _)
  unfold electrostaticForm capacitorForm
  constructor
  · intro hz
    have p1 := sum_nonneg_list _ _ n1
    have p2 := Finset.sum_nonneg n2
    have z1 := sum_eq_zero_list _ _ n1 (by linarith)
    have z2 := (Finset.sum_eq_zero_iff_of_nonneg n2).1 (by linarith)
    intro e he
    unfold capacitiveNet at he
    rcases List.mem_append.1 he with he | he
    · unfold wires at he
      obtain ⟨b, hb, rfl⟩ := List.mem_map.1 he
      obtain ⟨hb, hne⟩ := List.mem_filter.1 hb
      have := z1 b hb
      rcases mul_eq_zero.1 this with h | h
      · simp [h] at hne
      · have := pow_eq_zero_iff (two_ne_zero) |>.1 h
        simp only; linarith
    · obtain ⟨n, hn, rfl⟩ := List.mem_map.1 he
      obtain ⟨hn, hne⟩ := List.mem_filter.1 hn
      have := z2 n (Finset.mem_toList.1 hn)
      rcases mul_eq_zero.1 this with h | h
      · simp [h] at hne
      · have := pow_eq_zero_iff (two_ne_zero) |>.1 h
        simp only; rw [this, h0]
  · intro hc
    have z1 : ((branchesOf 'C' (branches h)).map fun b => val b.2.2 * (v b.1 - v b.2.1) ^ 2).sum = 0 := by
      apply List.sum_eq_zero
      intro y hy
      obtain ⟨b, hb, rfl⟩ := List.mem_map.1 hy
      by_cases hz : val b.2.2 = 0
      · rw [hz, zero_mul]
      · have := hc (b.1, b.2.1, 0) (List.mem_append_left _ (List.mem_map.2 ⟨b, List.mem_filter.2 ⟨hb, by simpa using hz⟩, rfl⟩))
        simp only at this
        rw [this]; ring
    have z2 : ∑ n ∈ nodesOf (branches h), gateCap val h n * v n ^ 2 = 0 := by
      apply Finset.sum_eq_zero
      intro n hn
      by_cases hz : gateCap val h n = 0
      · rw [hz, zero_mul]
      · have := hc (n, 0, 0) (List.mem_append_right _ (List.mem_map.2 ⟨n, List.mem_filter.2 ⟨Finset.mem_toList.2 hn, by simpa using hz⟩, rfl⟩))
        simp only at this
        rw [this, h0]; ring
    rw [z1, z2, add_zero]

theorem netlist_det {h : List Call} {g : CG} (hs : Settled h g) (val : String → ℝ) (hv : NonnegCaps val h)
    (C : Matrix (Fin (nodes g).length) (Fin (nodes g).length) ℝ) (hsym : C.transpose = C)
    (hform : ∀ v : ℕ → ℝ, v 0 = 0 → atNodes g v ⬝ᵥ C.mulVec (atNodes g v) = electrostaticForm val h v) :
    C.det ≠ 0 ↔ ∀ n ∈ nodesOf (branches h), Conn (capacitiveNet val h) n 0 := by
  have hps : C.PosSemidef := by
    refine Matrix.PosSemidef.of_dotProduct_mulVec_nonneg ?_ fun x => ?_
    · rw [Matrix.IsHermitian, conjTranspose_eq_transpose_of_trivial, hsym]
    · obtain ⟨v, h0, rfl⟩ := atNodes_surj hs x
      rw [star_trivial, hform v h0]
      exact electrostatic_nonneg hv v
  obtain ⟨hnd, hmem⟩ := C29_rows h g hs
  constructor
  · intro hdet n hn
    by_contra hcon
    classical
    let v : ℕ → ℝ := fun m => if Conn (capacitiveNet val h) m 0 then 0 else 1
    have h0 : v 0 = 0 := by simp only [v]; rw [if_pos (Conn.refl _ 0)]
    have hz : electrostaticForm val h v = 0 := by
      rw [electrostatic_zero hv v h0]
      intro e he
      have hce : Conn (capacitiveNet val h) e.1 e.2.1 := Conn.edge he
      have : Conn (capacitiveNet val h) e.1 0 ↔ Conn (capacitiveNet val h) e.2.1 0 :=
        ⟨fun h => hce.symm.trans h, fun h => hce.trans h⟩
      simp only [v, this]
    have hk := hform v h0
    rw [hz] at hk
    have hk' : C.mulVec (atNodes g v) = 0 := by
      rw [← hps.dotProduct_mulVec_zero_iff, star_trivial]; exact hk
    apply hdet
    rw [← Matrix.exists_mulVec_eq_zero_iff]
    refine ⟨_, ?_, hk'⟩
    intro hzero
    have hn0 : n ≠ 0 := by rintro rfl; exact hcon (Conn.refl _ 0)
    obtain ⟨i, hi⟩ := List.get_of_mem ((hmem n).2 ⟨hn, hn0⟩)
    have := congrFun hzero i
    simp only [atNodes, hi, v, if_neg hcon, Pi.zero_apply] at this
    exact one_ne_zero this
  · intro hconn hdet
    obtain ⟨x, hx, hk⟩ := Matrix.exists_mulVec_eq_zero_iff.2 hdet
    obtain ⟨v, h0, rfl⟩ := atNodes_surj hs x
    have hz := hform v h0
    rw [hk, dotProduct_zero] at hz
    have hw := (electrostatic_zero hv v h0).1 hz.symm
    apply hx
    funext i
    have := const_of_conn hw (hconn _ ((hmem _).1 (List.get_mem (nodes g) i)).1)
    simp only [atNodes, this, h0, Pi.zero_apply]

/-! ### The sum over the junctions -/

/-- The direction in which the oriented circuit lists the component `c`: `1` from `a` to `b`, `-1` from `b` to `a`. -/
noncomputable def direction (g : CG) (a b : ℕ) (c : String) : ℝ :=
  open Classical in
  if ∃ e ∈ g.wc, g.cmap.get? e = some c ∧ e.1 = a ∧ e.2.1 = b then 1
  else if ∃ e ∈ g.wc, g.cmap.get? e = some c ∧ e.1 = b ∧ e.2.1 = a then -1 else 0

theorem direction_edge {g : CG} {e : Edge} (he : e ∈ g.wc) {c : String} (hc : g.cmap.get? e = some c) : direction g e.1 e.2.1 c = 1 := by
  unfold direction
  rw [if_pos ⟨e, he, hc, rfl, rfl⟩]

theorem direction_rev {h : List Call} {g : CG} (hs : Settled h g) {a b : ℕ} (hab : a ≠ b) (c : String) : direction g b a c = - direction g a b c := by
  unfold direction
  by_cases h1 : ∃ e ∈ g.wc, g.cmap.get? e = some c ∧ e.1 = a ∧ e.2.1 = b
  · by_cases h2 : ∃ e ∈ g.wc, g.cmap.get? e = some c ∧ e.1 = b ∧ e.2.1 = a
    · obtain ⟨e, he, hc, h3, h4⟩ := h1
      obtain ⟨e', he', hc', h3', h4'⟩ := h2
      have := wc_name_inj hs he he' hc hc'
      subst this
      exact absurd (h3.symm.trans h3') hab
    · rw [if_neg h2, if_pos h1, if_pos h1]
  · by_cases h2 : ∃ e ∈ g.wc, g.cmap.get? e = some c ∧ e.1 = b ∧ e.2.1 = a
    · rw [if_pos h2, if_neg h1, if_pos h2]; ring
    · rw [if_neg h2, if_neg h1, if_neg h1, if_neg h2]; ring

theorem crossed_flip (nodes : List ℕ) {tr : Fin nodes.length → ℕ} (a b k k' : ℕ) (x y : ChargeState tr) :
    Crossed nodes (b, a, k) x y ↔ Crossed nodes (a, b, k') y x := by
  unfold Crossed gains
  constructor <;> intro h i <;> have := h i <;> simp only at this ⊢ <;> omega

/-- The sign with which a bias given to a component counts from its first to its second node. -/
noncomputable def biasSign (h : List Call) (g : CG) (c : String) : ℝ :=
  open Classical in
  if ∃ b ∈ branches h, b.2.2 = c ∧ direction g b.1 b.2.1 c = 1 then 1 else -1

theorem biasSign_edge {h : List Call} {g : CG} (hs : Settled h g) (hn : JosephsonNetlist h) {b : ℕ × ℕ × String} (hb : b ∈ branches h)
    {e : Edge} (he : e ∈ edges g) (hc : g.cmap.get? e = some b.2.2) : biasSign h g b.2.2 = 1 ↔ e.1 = b.1 := by
  have hne := hn.ends b hb
  obtain ⟨hnames, -, -⟩ := C21_names hs
  obtain ⟨b', hb'', hbr, hc'⟩ := wc_branch hs he
  have : b' = b := List.inj_on_of_nodup_map hnames (List.mem_filter.1 hb'').1 hb (Option.some.inj (hc'.symm.trans hc))
  subst this
  have h1 := direction_edge he hc
  have h2 : biasSign h g b'.2.2 = 1 ↔ direction g b'.1 b'.2.1 b'.2.2 = 1 := by
    unfold biasSign
    constructor
    · intro hif
      by_contra hd
      rw [if_neg] at hif
      · norm_num at hif
      · rintro ⟨d, hd1, hd2, hd3⟩
        obtain rfl : d = b' := List.inj_on_of_nodup_map hnames hd1 hb hd2
        exact hd hd3
    · intro hd
      rw [if_pos ⟨b', hb, rfl, hd⟩]
  rw [h2]
  rcases hbr with ⟨h3, h4⟩ | ⟨h3, h4⟩
  · rw [h3, h4] at h1
    simp [h1, h3]
  · rw [h3, h4] at h1
    have := direction_rev hs hne b'.2.2
    rw [h1] at this
    constructor
    · intro h5; rw [h5] at this; norm_num at this
    · intro h5; exact absurd (h5.symm.trans h3) hne

open Classical in
/-- The sum over the branches of the oriented circuit is the sum over the junctions of the netlist. -/
theorem junction_sum {h : List Call} {g : CG} (hs : Settled h g) (hn : JosephsonNetlist h) {tr : Fin (nodes g).length → ℕ}
    (EJ f : String → ℝ) (x y : ChargeState tr) :
    (g.wc.map fun e => match g.cmap.get? e with
      | some c => (EJ c / 2 : ℂ) * ((if Crossed (nodes g) e x y then exp (2 * Real.pi * f c * I) else 0) +
          (if Crossed (nodes g) e y x then exp (-(2 * Real.pi * f c * I)) else 0))
      | none => 0).sum =
    ((branchesOf 'I' (branches h)).map fun b => (EJ b.2.2 / 2 : ℂ) *
      ((if Crossed (nodes g) (b.1, b.2.1, 0) x y then exp (2 * Real.pi * ((biasSign h g b.2.2 * f b.2.2 : ℝ) : ℂ) * I) else 0) +
        (if Crossed (nodes g) (b.1, b.2.1, 0) y x then exp (-(2 * Real.pi * ((biasSign h g b.2.2 * f b.2.2 : ℝ) : ℂ) * I)) else 0))).sum := by
  let F : ℕ × ℕ × String → ℂ := fun b => if b.1 = b.2.1 then 0 else (EJ b.2.2 / 2 : ℂ) *
      ((if Crossed (nodes g) (b.1, b.2.1, 0) x y then exp (2 * Real.pi * ((direction g b.1 b.2.1 b.2.2 * f b.2.2 : ℝ) : ℂ) * I) else 0) +
        (if Crossed (nodes g) (b.1, b.2.1, 0) y x then exp (-(2 * Real.pi * ((direction g b.1 b.2.1 b.2.2 * f b.2.2 : ℝ) : ℂ) * I)) else 0))
  have key := sum_wc hs F (by
    intro a b c
    simp only [F]
    by_cases hab : a = b
    · subst hab; rfl
    · rw [if_neg hab, if_neg (Ne.symm hab), direction_rev hs hab]
      simp only [crossed_flip (nodes g) a b 0 0]
      rw [add_comm]
      push_cast
      simp only [neg_mul, mul_neg, neg_neg]) (by intro a c; simp [F])
  have e1 : (g.wc.map fun e => match g.cmap.get? e with
      | some c => (EJ c / 2 : ℂ) * ((if Crossed (nodes g) e x y then exp (2 * Real.pi * f c * I) else 0) +
          (if Crossed (nodes g) e y x then exp (-(2 * Real.pi * f c * I)) else 0))
      | none => 0) = g.wc.map fun e => match g.cmap.get? e with | some c => F (e.1, e.2.1, c) | none => 0 := by
    apply List.map_congr_left
    intro e he
    obtain ⟨b, -, -, hc, -, hne⟩ := netlist_edge hs hn he
    simp only [hc, F]
    rw [if_neg hne, direction_edge he hc, one_mul]
    rfl
  rw [e1]
  refine key.trans ?_
  have e2 : conductors (branches h) = branchesOf 'I' (branches h) := by
    unfold conductors branchesOf
    apply List.filter_congr
    intro b hb
    rcases hn.letters b hb with h | h
    · rw [h]
      cases hI : startsWith b.2.2 'I' with
      | false => rfl
      | true => exact absurd (startsWith_unique h hI) (by decide)
    · rw [h]
      cases hC : startsWith b.2.2 'C' with
      | false => rfl
      | true => exact absurd (startsWith_unique h hC) (by decide)
  rw [e2]
  congr 1
  apply List.map_congr_left
  intro b hb
  have hb' : b ∈ conductors (branches h) := e2 ▸ hb
  have hbb := (List.mem_filter.1 hb).1
  have hne := hn.ends b hbb
  obtain ⟨hnames, -, -⟩ := C21_names hs
  have hdir : direction g b.1 b.2.1 b.2.2 = biasSign h g b.2.2 := by
    unfold biasSign
    by_cases hd : direction g b.1 b.2.1 b.2.2 = 1
    · rw [if_pos ⟨b, hbb, rfl, hd⟩, hd]
    · rw [if_neg]
      · obtain ⟨e, he, hc⟩ := conductor_in_wc_ne hs hb' hne
        obtain ⟨b', hb'', hbr, hc'⟩ := wc_branch hs he
        have : b' = b := List.inj_on_of_nodup_map hnames (List.mem_filter.1 hb'').1 hbb (Option.some.inj (hc'.symm.trans hc))
        subst this
        have h1 := direction_edge he hc
        rcases hbr with ⟨h3, h4⟩ | ⟨h3, h4⟩
        · rw [h3, h4] at h1; exact absurd h1 hd
        · rw [h3, h4] at h1
          have := direction_rev hs hne b'.2.2
          rw [h1] at this
          linarith
      · rintro ⟨b', hb'', hbc, hd'⟩
        have : b' = b := List.inj_on_of_nodup_map hnames hb'' hbb hbc
        subst this
        exact hd hd'
  simp only [F]
  rw [if_neg hne, hdir]

/-! ### The assembled system -/

theorem identity_terms {h : List Call} {g : CG} (hs : Settled h g) (R : Matrix (Fin (nodes g).length) (Fin (nodes g).length) ℝ) (hR : R = 1)
    {e : Edge} (he : e ∈ edges g) :
    branchTerms g (fun a j => if h : a < (nodes g).length ∧ j < (nodes g).length then R⁻¹ ⟨a, h.1⟩ ⟨j, h.2⟩ else 0) e =
      branchTerms g (fun i j => if i = j then 1 else 0) e := by
  have hw : g.graph.WF := by obtain ⟨o, f⟩ := Circuit.settled_facts hs; exact f.inv.toWF
  obtain ⟨w1, w2⟩ := wc_ends hs he
  have key : ∀ v ∈ g.graph.nodes, ∀ j ∈ List.range (nodes g).length, (if v = 0 then (0 : ℝ) else
      if h : (nodes g).idxOf v < (nodes g).length ∧ j < (nodes g).length then R⁻¹ ⟨(nodes g).idxOf v, h.1⟩ ⟨j, h.2⟩ else 0) =
      if v = 0 then 0 else if (nodes g).idxOf v = j then 1 else 0 := by
    intro v hv j hj
    by_cases hv0 : v = 0
    · rw [if_pos hv0, if_pos hv0]
    · have hlt : (nodes g).idxOf v < (nodes g).length := List.idxOf_lt_length_iff.2 ((mem_nodes hw v).2 ⟨hv, hv0⟩)
      rw [if_neg hv0, if_neg hv0, dif_pos ⟨hlt, List.mem_range.1 hj⟩, hR, inv_one, Matrix.one_apply]
      simp only [Fin.mk.injEq]
  unfold branchTerms
  congr 1
  apply List.map_congr_left
  intro j hj
  rw [key _ w1 j hj, key _ w2 j hj]

theorem assemble_eq {h : List Call} {g : CG} (hs : Settled h g) (hn : JosephsonNetlist h) (b : Biases) (val phi q : String → ℝ)
    (t : Transform ℝ (nodes g).length)
    (pinv : Matrix (Fin (edges g).length) (Fin (edges g).length) ℝ → Matrix (Fin (edges g).length) (Fin (edges g).length) ℝ) (u : Prefs)
    {C : Mat ℝ} (hC : capacitance val (resonatorCap val) g = .ok C) :
    (∃ s, assemble g b val phi q t pinv u = .ok s) ↔ (C.block (nodes g).length (nodes g).length).det ≠ 0 := by
  have hM : ∃ M, branchInductance val g = .ok M := by
    rw [C30_defined h g hs val]
    refine ⟨fun e he hL => absurd hL (netlist_no_inductor hs hn e he), ?_⟩
    obtain ⟨rfl, -⟩ := settled_run hs
    rw [(netlist_frame hn.calls).1]
    simp
  obtain ⟨M, hM⟩ := hM
  unfold assemble
  simp only [hC, hM]
  unfold inverseCapacitance
  by_cases hd : (C.block (nodes g).length (nodes g).length).det = 0
  · simp [hd]
  · simp [hd]

/-- **C86** Which circuits can be quantised: for every netlist of capacitors and junctions, all non-negative capacitances and all other values,
the numbers of the Hamiltonian are computed if and only if every node is connected to the ground through non-zero capacitances; otherwise
the inversion of the capacitance matrix raises. -/
theorem C86_quantisable (h : List Call) (g : CG) (hs : Settled h g) (ha : AllOk h) (hn : JosephsonNetlist h) (b : Biases) (val phi q : String → ℝ)
    (hv : NonnegCaps val h) (t : Transform ℝ (nodes g).length)
    (pinv : Matrix (Fin (edges g).length) (Fin (edges g).length) ℝ → Matrix (Fin (edges g).length) (Fin (edges g).length) ℝ) (u : Prefs) :
    ((∃ s, assemble g b val phi q t pinv u = .ok s) ↔ ∀ n ∈ nodesOf (branches h), Conn (capacitiveNet val h) n 0) ∧
    ((∀ s, assemble g b val phi q t pinv u ≠ .ok s) → assemble g b val phi q t pinv u = .error .valueError) := by
  obtain ⟨C, hC, hsym, hform⟩ := netlist_capacitance hs ha hn val
  have h1 := assemble_eq hs hn b val phi q t pinv u hC
  refine ⟨h1.trans (netlist_det hs val hv _ hsym hform), fun hno => ?_⟩
  have hd : (C.block (nodes g).length (nodes g).length).det = 0 := by
    by_contra hd
    obtain ⟨s, hs'⟩ := h1.2 hd
    exact hno s hs'
  unfold assemble
  simp only [hC]
  unfold inverseCapacitance
  simp [hd]

/-- **C86** From the calls to the Hamiltonian: take any netlist of capacitors and junctions between different nodes, built by successful
calls, with flux and charge biases, without a transform, in units that count charges in Cooper pairs and fluxes in flux quanta.  Give the
components any values (capacitances not negative, every node connected to the ground through capacitors) and the biases any values, and put
all nodes into the charge basis with any truncations.  Then the Hamiltonian exists, and its matrix elements are the physical ones read off
the netlist: the electrostatic energy of the pairs and gate charges in the capacitances of the netlist, and for every junction of the
netlist the tunnelling of one pair with the energy `Φ0 Ic / 4π` and the phase of the flux bias given to it.  A bias counts in the
direction in which the oriented circuit graph lists its junction. -/
theorem C86_hamiltonian (h : List Call) (g : CG) (hs : Settled h g) (ha : AllOk h) (hn : JosephsonNetlist h) (b : Biases)
    (hb : createFluxBiases g = .ok b) :
    ∃ sgn : String → ℝ, (∀ c, sgn c = 1 ∨ sgn c = -1) ∧
    (∀ br ∈ branches h, ∀ e ∈ edges g, g.cmap.get? e = some br.2.2 → (sgn br.2.2 = 1 ↔ e.1 = br.1)) ∧
    ∀ (w : List UCall) (_ : ∀ c ∈ w, c.Clean) (i : ℕ) (U : Spec.System) (_ : Uses (runU w) i U) (_ : U.C = 2 * Units.pc_e) (_ : U.Wb = Units.pc_phi0)
      (u : Prefs) (_ : Units.getPrefactor (runU w) i "Ec" = .ok u.Ec) (_ : Units.getPrefactor (runU w) i "Ej" = .ok u.Ej)
      (val phi q : String → ℝ) (_ : NonnegCaps val h) (_ : ∀ n ∈ nodesOf (branches h), Conn (capacitiveNet val h) n 0)
      (pinv : Matrix (Fin (edges g).length) (Fin (edges g).length) ℝ → Matrix (Fin (edges g).length) (Fin (edges g).length) ℝ)
      (_ : ∀ M, IsPinv M (pinv M)) (tr : Fin (nodes g).length → ℕ) (N : Fin (nodes g).length → BigNode fun i => NodeCfg.mk (tr i) .charge)
      (_ : ChargeNodes tr N),
    ∃ s H C, assemble g b val phi q ⟨false, 1⟩ pinv u = .ok s ∧ hamiltonian (s.withNodes N) = some H ∧
      C.transpose = C ∧ C.det ≠ 0 ∧
      (∀ v : ℕ → ℝ, v 0 = 0 → atNodes g v ⬝ᵥ C.mulVec (atNodes g v) = electrostaticForm (fun c => val c * U.F) h v) ∧
      ∀ x y : ChargeState tr, H x y = U.E * netlistElement (nodes g) h (2 * Units.pc_e) C (gateCharge q h)
        (fun c => Units.pc_phi0 * (val c * U.A) / (2 * Real.pi)) (fun c => sgn c * fluxOn phi h c) x y := by
  refine ⟨biasSign h g, fun c => by unfold biasSign; split_ifs <;> simp, fun br hbr e he hc => biasSign_edge hs hn hbr he hc, ?_⟩
  intro w hw i U hU h2e hphi u hEc hEj val phi q hv hconn pinv hp tr N hN
  obtain ⟨C, hC, hsym, hform⟩ := netlist_capacitance hs ha hn val
  have hdet := (netlist_det hs val hv _ hsym hform).2 hconn
  obtain ⟨s, hsok⟩ := (assemble_eq hs hn b val phi q ⟨false, 1⟩ pinv u hC).2 hdet
  have hsok' := hsok
  unfold assemble at hsok
  simp only [hC] at hsok
  unfold inverseCapacitance at hsok
  rw [if_neg hdet] at hsok
  simp only at hsok
  cases hM : branchInductance val g with
  | error e => rw [hM] at hsok; cases hsok
  | ok M =>
  rw [hM] at hsok
  have hseq := (Except.ok.inj hsok).symm
  have hF : 0 < U.F := (uses_pos (Units.uinv_runU w hw) hU).1
  have hno := netlist_no_inductor hs hn
  have hL : s.Linv = 0 := by
    rw [hseq]
    exact C81_no_inductors h g hs hno val pinv (fun M _ => hp _) _ (by unfold inverseInductance; rw [hM]; rfl)
  have hP : ∀ k, s.Ps k = 0 := by
    intro k
    rw [hseq]
    show phaseSlipVector val g k = 0
    unfold phaseSlipVector
    rw [List.getElem?_eq_getElem k.2]
    obtain ⟨b', -, -, hc, hI, -⟩ := netlist_edge hs hn (List.getElem_mem k.2)
    simp only [hc]
    rw [if_neg]
    intro hV
    rw [(startsWith_iff _ _).1 hI] at hV
    cases hV
  have ht : ∀ k, s.terms k = branchTerms g (fun i j => if i = j then 1 else 0) ((edges g).get k) := by
    intro k
    rw [hseq]
    exact identity_terms hs 1 rfl (List.get_mem _ _)
  have hpc : PairCircuit h g tr N s := ⟨hs, hN, hL, hP, ht⟩
  have hdef : (hamiltonian (s.withNodes N)).isSome := by
    rw [C66_defined]
    rintro k (hk | hk)
    · show s.terms k ≠ []
      rw [ht]
      obtain ⟨b', -, -, -, -, hne⟩ := netlist_edge hs hn (List.get_mem (edges g) k)
      exact terms_nonempty hs k hne
    · exact absurd (hP k) hk
  obtain ⟨H, hH⟩ := Option.isSome_iff_exists.1 hdef
  refine ⟨s, H, U.F • C.block _ _, hsok', hH, ?_, ?_, ?_, ?_⟩
  · rw [Matrix.transpose_smul, hsym]
  · rw [Matrix.det_smul]
    exact mul_ne_zero (pow_ne_zero _ hF.ne') hdet
  · intro v h0
    rw [Matrix.smul_mulVec, dotProduct_smul, hform v h0]
    obtain ⟨rfl, hok⟩ := settled_run hs
    unfold electrostaticForm capacitorForm
    rw [smul_eq_mul, mul_add, ← List.sum_map_mul_left, Finset.mul_sum]
    congr 1
    · congr 1
      apply List.map_congr_left
      intro b' _
      ring
    · apply Finset.sum_congr rfl
      intro n _
      rw [gateCap_stored hok ha, gateCap_stored hok ha]
      unfold gateCapacitance
      cases ((run {} h).chargeBias.get? n).bind Bias.comp with
      | none => simp
      | some c => simp only; ring
  · intro x y
    have hu : s.u = u := by rw [hseq]
    rw [C81_units w hw i U hU h2e hphi h g tr N s hpc (by rw [hu]; exact hEc) (by rw [hu]; exact hEj) H hH x y]
    congr 1
    unfold textbook netlistElement
    dsimp only
    congr 1
    · congr 2
      congr 1
      apply Finset.sum_congr rfl; intro i _
      apply Finset.sum_congr rfl; intro j _
      have hq : ∀ i : Fin (nodes g).length, s.Qb i = gateCharge q h ((nodes g).get i) := by
        intro i
        rw [hseq]
        show chargeBiasVector q g i = _
        obtain ⟨rfl, hok⟩ := settled_run hs
        rw [gateCharge_eq hok ha]
        unfold chargeBiasVector
        rw [List.getElem?_eq_getElem i.2]
        rfl
      rw [hq, hq]
      have hi : (U.F • C.block (nodes g).length (nodes g).length)⁻¹ i j = s.Cinv i j / U.F := by
        have h1 : s.Cinv = (C.block (nodes g).length (nodes g).length)⁻¹ := by rw [hseq]; rfl
        have h2 : (U.F • C.block (nodes g).length (nodes g).length)⁻¹ = U.F⁻¹ • (C.block (nodes g).length (nodes g).length)⁻¹ := by
          apply Matrix.inv_eq_right_inv
          rw [Matrix.smul_mul, Matrix.mul_smul, Matrix.mul_nonsing_inv _ (isUnit_iff_ne_zero.2 hdet), smul_smul, mul_inv_cancel₀ hF.ne', one_smul]
        rw [h2, h1, Matrix.smul_apply, smul_eq_mul]
        ring
      rw [hi]
    · have hsum := junction_sum hs hn (fun c => Units.pc_phi0 * (val c * U.A) / (2 * Real.pi)) (fluxOn phi h) x y
      refine Eq.trans ?_ hsum
      rw [← Fin.sum_univ_fun_getElem]
      apply Finset.sum_congr rfl
      intro k _
      obtain ⟨b', -, -, hc, hI, -⟩ := netlist_edge hs hn (List.getElem_mem k.2)
      have hJ : s.J k = val b'.2.2 := by
        rw [hseq]
        show josephsonVector val g k = _
        unfold josephsonVector
        rw [List.getElem?_eq_getElem k.2]
        simp only [hc]
        rw [if_pos ((startsWith_iff _ _).1 hI)]
      have hPb : s.Pb k = fluxOn phi h b'.2.2 := by
        rw [hseq]
        show fluxBiasVector phi g b k = _
        unfold fluxBiasVector
        rw [List.getElem?_eq_getElem k.2]
        simp only
        rw [if_pos, biasVal_eq hs ha hb phi (List.getElem_mem k.2) hc]
        unfold isEdgeOf
        rw [hc]
        simp [(startsWith_iff _ _).1 hI]
      rw [hJ, hPb]
      have hk : (k : ℕ) < g.wc.length := k.2
      have hc' : g.cmap.get? (g.wc[(k : ℕ)]'hk) = some b'.2.2 := hc
      generalize g.cmap.get? (g.wc[(k : ℕ)]'hk) = o at hc'
      subst hc'
      rfl

/-- A SQUID with a flux bias, and a charge bias through a gate capacitor. -/
def biasedSquid : List Call :=
  [.addBranch Orc.id 0 1 "C1", .addBranch Orc.id 0 1 "I1", .addBranch Orc.id 0 1 "I2", .addFluxBias "I2" (some "z") none,
    .addChargeBias 1 (some "g") (some "Cg")]

theorem biasedSquid_settled : Settled biasedSquid (run {} biasedSquid) :=
  ⟨[.addBranch Orc.id 0 1 "C1", .addBranch Orc.id 0 1 "I1"], Orc.id, 0, 1, "I2", [.addFluxBias "I2" (some "z") none, .addChargeBias 1 (some "g") (some "Cg")],
    rfl, by simp [biasedSquid, Call.OK, orcId_ok], by decide +kernel, by simp, rfl⟩

/-- All calls of a list succeed if they succeed one after the other. -/
theorem allOk_of_prefixes (h : List Call) (hp : ∀ i : Fin h.length, (step (run {} (h.take i)) (h[i])).2 = .ok ()) : AllOk h := by
  rintro l c l' rfl
  have := hp ⟨l.length, by simp⟩
  simpa using this

theorem biasedSquid_ok : AllOk biasedSquid := by
  apply allOk_of_prefixes
  decide +kernel

theorem biasedSquid_netlist : JosephsonNetlist biasedSquid := by
  have hb : branches biasedSquid = [(0, 1, "C1"), (0, 1, "I1"), (0, 1, "I2")] := by decide +kernel
  refine ⟨by simp [biasedSquid], ?_, ?_, ?_⟩
  · rw [hb]; decide +kernel
  · rw [hb]; decide +kernel
  · rw [hb]; decide +kernel

/-- The hypotheses of `C86_quantisable` and `C86_hamiltonian` are met: a SQUID with both biases in the preset units. -/
example : ∃ (b : Biases) (U : Spec.System) (u : Prefs) (val : String → ℝ)
    (pinv : Matrix (Fin (edges (run {} biasedSquid)).length) (Fin (edges (run {} biasedSquid)).length) ℝ →
      Matrix (Fin (edges (run {} biasedSquid)).length) (Fin (edges (run {} biasedSquid)).length) ℝ) (N : _),
    Settled biasedSquid (run {} biasedSquid) ∧ AllOk biasedSquid ∧ JosephsonNetlist biasedSquid ∧ createFluxBiases (run {} biasedSquid) = .ok b ∧
    (∀ c ∈ [UCall.new "CQED1"], c.Clean) ∧ Uses (runU [.new "CQED1"]) 0 U ∧ U.C = 2 * Units.pc_e ∧ U.Wb = Units.pc_phi0 ∧
    Units.getPrefactor (runU [.new "CQED1"]) 0 "Ec" = .ok u.Ec ∧ Units.getPrefactor (runU [.new "CQED1"]) 0 "Ej" = .ok u.Ej ∧
    NonnegCaps val biasedSquid ∧ (∀ n ∈ nodesOf (branches biasedSquid), Conn (capacitiveNet val biasedSquid) n 0) ∧
    (∀ M, IsPinv M (pinv M)) ∧ ChargeNodes (fun _ : Fin (nodes (run {} biasedSquid)).length => 5) N := by
  obtain ⟨w, o, hw, hinv, ho, hH, -⟩ := one_instance "CQED1"
  have hst : startUnits "CQED1" = CQED1 := by unfold startUnits; rw [if_pos rfl]
  rw [hst] at hH
  have hU : Uses (runU [.new "CQED1"]) 0 CQED1 := by
    rw [hw, Units.uses_iff (o := o) (by rw [ho]; rfl)]; exact hH
  have hcl : ∀ c ∈ [UCall.new "CQED1"], c.Clean := by simp [UCall.Clean]
  obtain ⟨c1, -, c3, -⟩ := uses_consistent (Units.uinv_runU _ hcl) hU
  choose pinv hp using fun M : Matrix (Fin (edges (run {} biasedSquid)).length) (Fin (edges (run {} biasedSquid)).length) ℝ => pinv_exists M
  obtain ⟨N, hN⟩ := charge_nodes_exist (fun _ : Fin (nodes (run {} biasedSquid)).length => 5)
  have hb : branches biasedSquid = [(0, 1, "C1"), (0, 1, "I1"), (0, 1, "I2")] := by decide +kernel
  refine ⟨⟨[((0, 1, 1), none), ((1, 0, 2), some "z")], [((0, 1, 1), none), ((1, 0, 2), some "z")]⟩, CQED1, ⟨_, 0, _, 0, 0, 0, 0⟩, fun _ => 1, pinv, N, biasedSquid_settled, biasedSquid_ok, biasedSquid_netlist,
    by decide +kernel, hcl, hU, rfl, rfl, c1, c3, ⟨fun _ _ => zero_le_one, fun n _ => ?_⟩, ?_, hp, hN⟩
  · unfold Spec.gateCap biasedSquid
    by_cases hn : 1 = n <;> simp [hn]
  · intro n hn
    rw [hb] at hn
    have hn' : n = 0 ∨ n = 1 := by
      revert hn; revert n; decide +kernel
    rcases hn' with rfl | rfl
    · exact Conn.refl _ _
    · refine Conn.symm (Conn.edge (e := (0, 1, 0)) ?_)
      unfold capacitiveNet
      rw [hb]
      simp [branchesOf, wires]
      decide

end Verif.Props
