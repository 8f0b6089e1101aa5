import Verif.Props.NetlistMutual
import Verif.Props.CircuitBias

/-!
# Lemmas about circuits with resonators
-/

namespace Verif.Props

open Verif Verif.Circuit Verif.Sym Verif.Num Verif.Spec Complex Matrix

/-! ### The resonators after a history -/

theorem resonatorAt_snoc (l : List Call) (x : Call) (n : ℕ) : resonatorAt (l ++ [x]) n = match x with
    | .coupleResonator n' c => if n' = n then some c else resonatorAt l n
    | .removeAllResonators => none
    | _ => resonatorAt l n := by
  unfold resonatorAt
  rw [List.foldl_append]
  cases x <;> rfl

theorem updateCouplings_join (d : Dict Node (Option Resonator)) (a b n : Node) : ((updateCouplings d a b).get? n).join = (d.get? n).join := by
  have key : ∀ (d : Dict Node (Option Resonator)) (a : Node), ((if d.has a then d else d.set a none).get? n).join = (d.get? n).join := by
    intro d a
    split_ifs with hh
    · rfl
    · rw [Dict.get?_set]
      split_ifs with hn
      · subst hn
        have : d.get? a = none := by
          rw [Dict.get?_eq_none_iff]
          intro hk
          exact hh ((Dict.has_iff d a).2 hk)
        rw [this]; rfl
      · rfl
  unfold updateCouplings
  exact (key _ _).trans (key _ _)

/-- The dictionary of resonators holds the resonators of the calls. -/
theorem resonators_run : ∀ {l : List Call}, (∀ x ∈ l, x.OK) → AllOk l → ∀ n, ((run {} l).resonators.get? n).join = (resonatorAt l n).map (mkResonator n) := by
  intro l
  induction l using List.reverseRecOn with
  | nil => intro _ _ n; rfl
  | append_singleton l x ih =>
    intro hok ha n
    obtain ⟨ha', hx⟩ := allOk_snoc ha
    have ih' := ih (fun y hy => hok y (by simp [hy])) ha' n
    rw [run_snoc, resonatorAt_snoc]
    cases x with
    | addBranch o a b c =>
      simp only [step] at hx ⊢
      rw [addBranch_resonators hx, updateCouplings_join, ih']
    | addFluxBias a b m => simp only [step]; rw [addFluxBias_frame]; exact ih'
    | addChargeBias a s m => simp only [step]; rw [addChargeBias_frame]; exact ih'
    | coupleBranches a b m => simp only [step]; rw [coupleBranches_frame]; exact ih'
    | removeAllResonators =>
      simp only [step]
      cases hg : (removeAllResonators (run {} l)).resonators.get? n with
      | none => rfl
      | some r => rw [(C28_remove l (fun y hy => hok y (by simp [hy]))).1 n r hg]; rfl
    | coupleResonator n' c =>
      simp only [step] at hx ⊢
      obtain ⟨-, -, -, -, -, he⟩ := coupleResonator_ok hx
      rw [he]
      simp only
      rw [Dict.get?_set]
      by_cases hn : n' = n
      · subst hn
        rw [if_pos rfl, if_pos rfl]; rfl
      · rw [if_neg hn, if_neg hn, ih']

theorem loadAt_stored {l : List Call} (hok : ∀ x ∈ l, x.OK) (ha : AllOk l) (val : String → ℝ) (n : ℕ) : loadAt val l n = resonatorLoad val (run {} l) n := by
  unfold loadAt resonatorLoad
  rw [resonators_run hok ha n]
  cases resonatorAt l n <;> rfl

/-! ### The capacitance matrix -/

theorem loaded_capacitance {h : List Call} {g : CG} (hs : Settled h g) (ha : AllOk h) (hn : LoadedNetlist h) (val : String → ℝ) :
    ∃ M, capacitance val (resonatorCap val) g = .ok M ∧ (M.block (nodes g).length (nodes g).length).transpose = M.block _ _ ∧
      ∀ v : ℕ → ℝ, v 0 = 0 → atNodes g v ⬝ᵥ (M.block (nodes g).length (nodes g).length).mulVec (atNodes g v) = loadedForm val h v := by
  obtain ⟨M, hM⟩ := C29_defined h g hs ha hn.ground val
  refine ⟨M, hM, C29_symmetric val g M hM, fun v hv => ?_⟩
  obtain ⟨rfl, hok⟩ := settled_run hs
  rw [C29_quadratic_form_partial h _ hs val M hM (fun b hb => hn.ends b (List.mem_filter.1 hb).1) v hv]
  unfold loadedForm
  congr 1
  apply Finset.sum_congr rfl
  intro n _
  rw [gateCap_stored hok ha, loadAt_stored hok ha]

theorem loadAt_nonneg {val : String → ℝ} {h : List Call} (hv : NonnegLoads val h) (n : ℕ) : 0 ≤ loadAt val h n := by
  unfold loadAt
  cases hr : resonatorAt h n with
  | none => exact le_rfl
  | some c =>
    obtain ⟨h1, h2⟩ := hv.2 n c hr
    exact div_nonneg (mul_nonneg h1 h2) (add_nonneg h1 h2)

/-- The energy vanishes only if the voltage is the same along all capacitors. -/
theorem loaded_zero {val : String → ℝ} {h : List Call} (hv : NonnegLoads val h) (v : ℕ → ℝ) (h0 : v 0 = 0) :
    0 ≤ loadedForm val h v ∧ (loadedForm val h v = 0 ↔ ∀ e ∈ loadedNet val h, v e.1 = v e.2.1) := by
  have n1 : ∀ b ∈ branchesOf 'C' (branches h), 0 ≤ val b.2.2 * (v b.1 - v b.2.1) ^ 2 := fun b hb => mul_nonneg (hv.1.1 b hb) (sq_nonneg _)
  have n2 : ∀ n ∈ nodesOf (branches h), 0 ≤ (gateCap val h n + loadAt val h n) * v n ^ 2 :=
    fun n hn => mul_nonneg (add_nonneg (hv.1.2 n hn) (loadAt_nonneg hv n)) (sq_nonneg _)
  have p1 := sum_nonneg_list _ _ n1
  have p2 := Finset.sum_nonneg n2
  unfold loadedForm capacitorForm
  refine ⟨add_nonneg p1 p2, ?_, ?_⟩
  · intro hz
    have z1 := sum_eq_zero_list _ _ n1 (by linarith)
    have z2 := (Finset.sum_eq_zero_iff_of_nonneg n2).1 (by linarith)
    intro e he
    unfold loadedNet at he
    rcases List.mem_append.1 he with he | he
    · unfold wires at he
      obtain ⟨b, hb, rfl⟩ := List.mem_map.1 he
      obtain ⟨hb, hne⟩ := List.mem_filter.1 hb
      have := z1 b hb
      rcases mul_eq_zero.1 this with h | h
      · simp [h] at hne
      · have := pow_eq_zero_iff (two_ne_zero) |>.1 h
        simp only; linarith
    · obtain ⟨n, hn, rfl⟩ := List.mem_map.1 he
      obtain ⟨hn, hne⟩ := List.mem_filter.1 hn
      have := z2 n (Finset.mem_toList.1 hn)
      rcases mul_eq_zero.1 this with h | h
      · simp [h] at hne
      · have := pow_eq_zero_iff (two_ne_zero) |>.1 h
        simp only; rw [this, h0]
  · intro hc
    have z1 : ((branchesOf 'C' (branches h)).map fun b => val b.2.2 * (v b.1 - v b.2.1) ^ 2).sum = 0 := by
      apply List.sum_eq_zero
      intro y hy
      obtain ⟨b, hb, rfl⟩ := List.mem_map.1 hy
      by_cases hz : val b.2.2 = 0
      · rw [hz, zero_mul]
      · have := hc (b.1, b.2.1, 0) (List.mem_append_left _ (List.mem_map.2 ⟨b, List.mem_filter.2 ⟨hb, by simpa using hz⟩, rfl⟩))
        simp only at this
        rw [this]; ring
    have z2 : ∑ n ∈ nodesOf (branches h), (gateCap val h n + loadAt val h n) * v n ^ 2 = 0 := by
      apply Finset.sum_eq_zero
      intro n hn
      by_cases hz : gateCap val h n + loadAt val h n = 0
      · rw [hz, zero_mul]
      · have := hc (n, 0, 0) (List.mem_append_right _ (List.mem_map.2 ⟨n, List.mem_filter.2 ⟨Finset.mem_toList.2 hn, by simpa using hz⟩, rfl⟩))
        simp only at this
        rw [this, h0]; ring
    rw [z1, z2, add_zero]

theorem loaded_det {h : List Call} {g : CG} (hs : Settled h g) (val : String → ℝ) (hv : NonnegLoads val h)
    (C : Matrix (Fin (nodes g).length) (Fin (nodes g).length) ℝ) (hsym : C.transpose = C)
    (hform : ∀ v : ℕ → ℝ, v 0 = 0 → atNodes g v ⬝ᵥ C.mulVec (atNodes g v) = loadedForm val h v) :
    C.det ≠ 0 ↔ ∀ n ∈ nodesOf (branches h), Conn (loadedNet val h) n 0 := by
  have hps : C.PosSemidef := by
    refine Matrix.PosSemidef.of_dotProduct_mulVec_nonneg ?_ fun x => ?_
    · rw [Matrix.IsHermitian, conjTranspose_eq_transpose_of_trivial, hsym]
    · obtain ⟨v, h0, rfl⟩ := atNodes_surj hs x
      rw [star_trivial, hform v h0]
      exact (loaded_zero hv v h0).1
  obtain ⟨hnd, hmem⟩ := C29_rows h g hs
  constructor
  · intro hdet n hn
    by_contra hcon
    classical
    let v : ℕ → ℝ := fun m => if Conn (loadedNet val h) m 0 then 0 else 1
    have h0 : v 0 = 0 := by simp only [v]; rw [if_pos (Conn.refl _ 0)]
    have hz : loadedForm val h v = 0 := by
      rw [(loaded_zero hv v h0).2]
      intro e he
      have hce : Conn (loadedNet val h) e.1 e.2.1 := Conn.edge he
      have : Conn (loadedNet val h) e.1 0 ↔ Conn (loadedNet val h) e.2.1 0 :=
        ⟨fun h => hce.symm.trans h, fun h => hce.trans h⟩
      simp only [v, this]
    have hk := hform v h0
    rw [hz] at hk
    have hk' : C.mulVec (atNodes g v) = 0 := by
      rw [← hps.dotProduct_mulVec_zero_iff, star_trivial]; exact hk
    apply hdet
    rw [← Matrix.exists_mulVec_eq_zero_iff]
    refine ⟨_, ?_, hk'⟩
    intro hzero
    have hn0 : n ≠ 0 := by rintro rfl; exact hcon (Conn.refl _ 0)
    obtain ⟨i, hi⟩ := List.get_of_mem ((hmem n).2 ⟨hn, hn0⟩)
    have := congrFun hzero i
    simp only [atNodes, hi, v, if_neg hcon, Pi.zero_apply] at this
    exact one_ne_zero this
  · intro hconn hdet
    obtain ⟨x, hx, hk⟩ := Matrix.exists_mulVec_eq_zero_iff.2 hdet
    obtain ⟨v, h0, rfl⟩ := atNodes_surj hs x
    have hz := hform v h0
    rw [hk, dotProduct_zero] at hz
    have hw := (loaded_zero hv v h0).2.1 hz.symm
    apply hx
    funext i
    have := const_of_conn hw (hconn _ ((hmem _).1 (List.get_mem (nodes g) i)).1)
    simp only [atNodes, this, h0, Pi.zero_apply]

end Verif.Props
