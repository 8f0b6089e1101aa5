import Verif.Lemmas.Loaded
import Verif.Spec.Loaded

/-!
# C73–C75: resonators coupled to a circuit
-/

namespace Verif.Props

open Verif Verif.Circuit Verif.Sym Verif.Spec

/-- The resonators of a circuit, written out. -/
def written (g : CG) : List Load :=
  (loads g.resonators (nextNode g)).map fun t => ⟨t.1, t.2.1, t.2.2.coupling, t.2.2.cr, t.2.2.lr⟩

theorem mem_loads {h : List Call} {g : CG} (hs : Settled h g) {t : Node × Node × Resonator} (ht : t ∈ loads g.resonators (nextNode g)) :
    g.resonators.get? t.1 = some (some t.2.2) ∧ t.1 ∈ nodes g ∧ (∃ c, t.2.2 = mkResonator t.1 c ∧ pre c = some 'C') ∧ nextNode g ≤ t.2.1 := by
  obtain ⟨o, fct⟩ := settled_facts hs
  have hw := fct.inv.toWF
  obtain ⟨l, o', a, b, c, l', he, h1, h2, h3, rfl⟩ := hs
  obtain ⟨hm, hk⟩ := loads_mem _ _ _ ht
  have hg := Dict.get?_of_mem (resonators_nodup h h1) hm
  obtain ⟨q1, q2⟩ := resonator_nodes h h1 _ _ hg
  obtain ⟨q3, q4⟩ := q2 _ rfl
  exact ⟨hg, (mem_nodes hw _).2 ⟨q1, q3⟩, q4, hk⟩

theorem pre_append (p : Char) (s t : String) (h : s.toList = [p]) : pre (s ++ t) = some p := by
  unfold pre
  rw [String.toList_append, h]
  rfl

theorem load_caps {n k : ℕ} {c : String} (hc : pre c = some 'C') :
    (loadBranches (n, k, mkResonator n c)).filter (fun b => startsWith b.2.2 'C') =
      [(n, k, c), (k, 0, (mkResonator n c).cr)] := by
  have h1 : startsWith c 'C' = true := (startsWith_iff _ _).2 hc
  have h2 : startsWith (mkResonator n c).cr 'C' = true := by
    rw [startsWith_iff]
    unfold mkResonator
    simp only
    rw [String.append_assoc]
    exact pre_append 'C' _ _ rfl
  have h3 : startsWith (mkResonator n c).lr 'C' = false := by
    rw [Bool.eq_false_iff, ne_eq, startsWith_iff]
    unfold mkResonator
    simp only
    rw [String.append_assoc, pre_append 'L' _ _ rfl]
    decide
  have h0 : (mkResonator n c).coupling = c := rfl
  simp [loadBranches, h0, h1, h2, h3]

theorem ext_caps {h : List Call} {g : CG} (hs : Settled h g) (val : String → ℝ) (v : ℕ → ℝ) (h0 : v 0 = 0) :
    (((((loads g.resonators (nextNode g)).flatMap loadBranches).filter fun b => startsWith b.2.2 'C')).map
      fun b => val b.2.2 * (v b.1 - v b.2.1) ^ 2).sum =
    ((loads g.resonators (nextNode g)).map fun t =>
      val t.2.2.coupling * (v t.1 - v t.2.1) ^ 2 + val t.2.2.cr * v t.2.1 ^ 2).sum := by
  have hm : ∀ t ∈ loads g.resonators (nextNode g), ∃ c, t.2.2 = mkResonator t.1 c ∧ pre c = some 'C' := fun t ht => (mem_loads hs ht).2.2.1
  generalize loads g.resonators (nextNode g) = l at hm
  induction l with
  | nil => rfl
  | cons t l ih =>
    obtain ⟨n, k, r⟩ := t
    obtain ⟨c, hr, hc⟩ := hm _ List.mem_cons_self
    simp only at hr
    subst hr
    rw [List.flatMap_cons, List.filter_append, List.map_append, List.sum_append, ih (fun t ht => hm t (List.mem_cons_of_mem _ ht)),
      load_caps hc]
    simp only [List.map_cons, List.map_nil, List.sum_cons, List.sum_nil]
    have h0' : (mkResonator n c).coupling = c := rfl
    rw [h0, h0']
    ring

theorem gate_sum {h h' : List Call} {g g' : CG} (hs : Settled h g) (hb : g'.chargeBias = g.chargeBias)
    (hr : ∀ n, (g'.resonators.get? n).join = none) (hsub : nodesOf (branches h) ⊆ nodesOf (branches h')) (val : String → ℝ) (v : ℕ → ℝ) :
    ∑ n ∈ nodesOf (branches h'), (gateCapacitance val g' n + resonatorLoad val g' n) * v n ^ 2 =
      ∑ n ∈ nodesOf (branches h), gateCapacitance val g n * v n ^ 2 := by
  obtain ⟨l, o', a, b, c, l', he, h1, h2, h3, rfl⟩ := hs
  have hg : ∀ n, gateCapacitance val g' n = gateCapacitance val (run {} h) n := by
    intro n; unfold gateCapacitance; rw [hb]
  have hz : ∀ n, resonatorLoad val g' n = 0 := by
    intro n; unfold resonatorLoad; rw [hr n]
  symm
  rw [Finset.sum_congr rfl fun n _ => by rw [← hg n]]
  rw [Finset.sum_congr (s₂ := nodesOf (branches h')) rfl (fun n _ => by rw [hz n, add_zero])]
  apply Finset.sum_subset hsub
  intro n _ hn
  rw [hg]
  unfold gateCapacitance
  cases hq : (run {} h).chargeBias.get? n with
  | none => simp
  | some q => exact absurd ((C26_history h h1).2.2 _ (Dict.mem_of_get? hq)).1 hn

theorem load_sum {h : List Call} {g : CG} (hs : Settled h g) (val : String → ℝ) (v : ℕ → ℝ) :
    ∑ n ∈ nodesOf (branches h), resonatorLoad val g n * v n ^ 2 =
      ((loads g.resonators (nextNode g)).map fun t =>
        val t.2.2.coupling * val t.2.2.cr / (val t.2.2.coupling + val t.2.2.cr) * v t.1 ^ 2).sum := by
  obtain ⟨l, o', a, b, c, l', he, h1, h2, h3, rfl⟩ := hs
  have hnd := resonators_nodup h h1
  rw [loads_sum _ fun n r => val r.coupling * val r.cr / (val r.coupling + val r.cr) * v n ^ 2]
  have e1 : (run {} h).resonators.map (perRes fun n r => val r.coupling * val r.cr / (val r.coupling + val r.cr) * v n ^ 2) =
      ((run {} h).resonators.keys).map fun n => resonatorLoad val (run {} h) n * v n ^ 2 := by
    unfold Dict.keys
    rw [List.map_map]
    apply List.map_congr_left
    intro p hp
    have := Dict.get?_of_mem hnd (k := p.1) (v := p.2) hp
    simp only [Function.comp, resonatorLoad, this, perRes]
    cases p.2 with
    | none => simp
    | some r => simp
  rw [e1, ← List.sum_toFinset _ hnd]
  symm
  apply Finset.sum_subset
  · intro n hn
    rw [List.mem_toFinset, Dict.mem_keys_iff] at hn
    obtain ⟨r, hr⟩ := Option.isSome_iff_exists.1 hn
    have := (resonator_nodes h h1 n r hr).1
    rw [nodes_run, mem_uniq] at this
    exact List.mem_toFinset.2 this
  · intro n _ hn
    have : (run {} h).resonators.get? n = none := by
      rw [Dict.get?_eq_none_iff]
      exact fun hh => hn (List.mem_toFinset.2 hh)
    unfold resonatorLoad
    rw [this]
    simp

/-- No capacitor of the extended circuit joins a node to itself. -/
theorem ext_loop {o : Orc} (ho : o.OK) {h : List Call} {g g' : CG} (hs : Settled h g) (hl : loadedCircuit o g = (g', .ok ()))
    (hloop : ∀ b ∈ branchesOf 'C' (branches h), b.1 ≠ b.2.1) :
    ∀ b ∈ branchesOf 'C' (branches (loadedCalls o h g)), b.1 ≠ b.2.1 := by
  obtain ⟨_, hb, _⟩ := loaded_facts ho hs hl
  intro b hbm
  unfold branchesOf at hbm
  rw [hb, List.filter_append] at hbm
  rcases List.mem_append.1 hbm with hbm | hbm
  · exact hloop b hbm
  · obtain ⟨t, ht, hbt⟩ := List.mem_flatMap.1 (List.mem_filter.1 hbm).1
    obtain ⟨_, hn, _, hk⟩ := mem_loads hs ht
    have h1 : @LT.lt ℕ _ t.1 (nextNode g) := le_next hn
    have hk : @LE.le ℕ _ (nextNode g) t.2.1 := hk
    have h2 : 0 < nextNode g := Nat.succ_pos _
    simp only [loadBranches, List.mem_cons, List.not_mem_nil, or_false] at hbt
    rcases hbt with rfl | rfl | rfl
    · exact Nat.ne_of_lt (Nat.lt_of_lt_of_le h1 hk)
    · exact Nat.ne_of_gt (Nat.lt_of_lt_of_le h2 hk)
    · exact Nat.ne_of_gt (Nat.lt_of_lt_of_le h2 hk)

/-- **C74** Writing the resonators out as branches adds to the charging energy only what the resonator nodes deviate from floating: at every
voltages `v` the quadratic form of the extended circuit is that of the circuit with its resonators plus one square per resonator. -/
theorem C74_energy (o : Orc) (ho : o.OK) (h : List Call) (g g' : CG) (hs : Settled h g) (hl : loadedCircuit o g = (g', .ok ()))
    (hloop : ∀ b ∈ branchesOf 'C' (branches h), b.1 ≠ b.2.1) (val : String → ℝ)
    (hne : ∀ n r, g.resonators.get? n = some (some r) → val r.coupling + val r.cr ≠ 0) (C C' : Mat ℝ)
    (hC : capacitance val (resonatorCap val) g = .ok C) (hC' : capacitance val (resonatorCap val) g' = .ok C') (v : ℕ → ℝ) (h0 : v 0 = 0) :
    atNodes g' v ⬝ᵥ (C'.block _ _).mulVec (atNodes g' v) =
      atNodes g v ⬝ᵥ (C.block _ _).mulVec (atNodes g v) + ((written g).map fun l => floatForm val l v).sum := by
  obtain ⟨hs', hb, hcb, _, hr⟩ := loaded_facts ho hs hl
  rw [C29_quadratic_form_partial _ _ hs' val C' hC' (ext_loop ho hs hl hloop) v h0, C29_quadratic_form_partial _ _ hs val C hC hloop v h0]
  have hsub : nodesOf (branches h) ⊆ nodesOf (branches (loadedCalls o h g)) := by
    intro n hn
    rw [hb]
    unfold nodesOf at hn ⊢
    rw [List.mem_toFinset] at hn ⊢
    rw [List.flatMap_append]
    exact List.mem_append.2 (Or.inl hn)
  rw [gate_sum hs hcb hr hsub val v]
  simp only [add_mul, Finset.sum_add_distrib]
  rw [load_sum hs val v]
  have hcap : capacitorForm val (branches (loadedCalls o h g)) v = capacitorForm val (branches h) v +
      ((loads g.resonators (nextNode g)).map fun t =>
        val t.2.2.coupling * (v t.1 - v t.2.1) ^ 2 + val t.2.2.cr * v t.2.1 ^ 2).sum := by
    rw [← ext_caps hs val v h0]
    unfold capacitorForm branchesOf
    rw [hb, List.filter_append, List.map_append, List.sum_append]
  rw [hcap]
  have key : ((loads g.resonators (nextNode g)).map fun t =>
        val t.2.2.coupling * (v t.1 - v t.2.1) ^ 2 + val t.2.2.cr * v t.2.1 ^ 2).sum =
      ((loads g.resonators (nextNode g)).map fun t =>
        val t.2.2.coupling * val t.2.2.cr / (val t.2.2.coupling + val t.2.2.cr) * v t.1 ^ 2).sum +
      ((written g).map fun l => floatForm val l v).sum := by
    unfold written
    rw [List.map_map, ← List.sum_map_add]
    congr 1
    apply List.map_congr_left
    intro t ht
    have hn := hne _ _ (mem_loads hs ht).1
    simp only [Function.comp, floatForm]
    field_simp
    ring
  rw [key]
  ring

/-! ### The inverse matrices -/

/-- The bilinear form of a matrix at node voltages. -/
def bform (g : CG) (A : Matrix (Fin (nodes g).length) (Fin (nodes g).length) ℝ) (v w : ℕ → ℝ) : ℝ := atNodes g v ⬝ᵥ A.mulVec (atNodes g w)

theorem bform_add {g : CG} {A : Matrix (Fin (nodes g).length) (Fin (nodes g).length) ℝ} (hA : A.transpose = A) (v w : ℕ → ℝ) :
    bform g A (fun n => v n + w n) (fun n => v n + w n) = bform g A v v + bform g A w w + 2 * bform g A v w := by
  have hsw : bform g A w v = bform g A v w := by
    unfold bform
    rw [Matrix.dotProduct_mulVec, ← Matrix.mulVec_transpose, hA, dotProduct_comm]
  have h1 : ∀ a b : ℕ → ℝ, atNodes g (fun n => a n + b n) = atNodes g a + atNodes g b := fun a b => rfl
  unfold bform at hsw ⊢
  rw [h1, Matrix.mulVec_add, add_dotProduct, dotProduct_add, dotProduct_add, hsw]
  ring

theorem bform_ext {o : Orc} (ho : o.OK) {h : List Call} {g g' : CG} (hs : Settled h g) (hl : loadedCircuit o g = (g', .ok ()))
    (hloop : ∀ b ∈ branchesOf 'C' (branches h), b.1 ≠ b.2.1) (val : String → ℝ)
    (hne : ∀ n r, g.resonators.get? n = some (some r) → val r.coupling + val r.cr ≠ 0) {C C' : Mat ℝ}
    (hC : capacitance val (resonatorCap val) g = .ok C) (hC' : capacitance val (resonatorCap val) g' = .ok C') (v w : ℕ → ℝ)
    (hv : v 0 = 0) (hw : w 0 = 0) :
    bform g' (C'.block _ _) v w = bform g (C.block _ _) v w + ((written g).map fun l => (val l.cc + val l.cr) *
      ((v l.res - val l.cc / (val l.cc + val l.cr) * v l.node) * (w l.res - val l.cc / (val l.cc + val l.cr) * w l.node))).sum := by
  have e := fun u hu => C74_energy o ho h g g' hs hl hloop val hne C C' hC hC' u hu
  have s1 := bform_add (C29_symmetric val g C hC) v w
  have s2 := bform_add (C29_symmetric val g' C' hC') v w
  have e1 := e v hv
  have e2 := e w hw
  have e3 := e (fun n => v n + w n) (by simp [hv, hw])
  have hsum : ((written g).map fun l => floatForm val l (fun n => v n + w n)).sum =
      ((written g).map fun l => floatForm val l v).sum + ((written g).map fun l => floatForm val l w).sum +
      2 * ((written g).map fun l => (val l.cc + val l.cr) *
      ((v l.res - val l.cc / (val l.cc + val l.cr) * v l.node) * (w l.res - val l.cc / (val l.cc + val l.cr) * w l.node))).sum := by
    rw [← List.sum_map_mul_left, ← List.sum_map_add, ← List.sum_map_add]
    congr 1
    apply List.map_congr_left
    intro l _
    simp only [floatForm]
    ring
  unfold bform at s1 s2 ⊢
  rw [e1, e2, e3, hsum, s1] at s2
  linarith

theorem atNodes_single {g : CG} (hnd : (nodes g).Nodup) (i : Fin (nodes g).length) :
    atNodes g (fun n => if n = (nodes g).get i then (1 : ℝ) else 0) = Pi.single i 1 := by
  funext j
  unfold atNodes
  by_cases hij : j = i
  · subst hij; simp
  · rw [Pi.single_eq_of_ne hij]
    exact if_neg fun hh => hij (List.nodup_iff_injective_get.1 hnd hh)

theorem entry_get {g : CG} (hnd : (nodes g).Nodup) (A : Matrix (Fin (nodes g).length) (Fin (nodes g).length) ℝ) (i j : Fin (nodes g).length) :
    entry g A ((nodes g).get i) ((nodes g).get j) = A i j := by
  have hi : ∀ k : Fin (nodes g).length, (nodes g).idxOf ((nodes g).get k) = k := fun k => hnd.idxOf_getElem _ _
  unfold entry
  rw [dif_pos (by rw [hi, hi]; exact ⟨i.2, j.2⟩)]
  congr 1 <;> exact Fin.ext (hi _)

/-- A vector that pairs with every test vector as node `p` does is the column `p` of the inverse. -/
theorem column_of_form {g : CG} (hnd : (nodes g).Nodup) (h0 : (0 : ℕ) ∉ nodes g) {A : Matrix (Fin (nodes g).length) (Fin (nodes g).length) ℝ}
    (hdet : A.det ≠ 0) {p : ℕ} (hp : p ∈ nodes g) {X : ℕ → ℝ} (hX : ∀ w : ℕ → ℝ, w 0 = 0 → bform g A w X = w p) {a : ℕ}
    (ha : a ∈ nodes g) : entry g A⁻¹ a p = X a := by
  obtain ⟨i, rfl⟩ := List.mem_iff_get.1 ha
  obtain ⟨j, rfl⟩ := List.mem_iff_get.1 hp
  have hcol : A.mulVec (atNodes g X) = Pi.single j 1 := by
    funext k
    have := hX (fun n => if n = (nodes g).get k then (1 : ℝ) else 0) (by
      rw [if_neg]; intro hh; exact h0 (hh ▸ List.get_mem _ _))
    unfold bform at this
    rw [atNodes_single hnd, single_one_dotProduct] at this
    rw [this]
    by_cases hkj : k = j
    · subst hkj; simp
    · rw [if_neg, Pi.single_eq_of_ne hkj]
      intro hh
      exact hkj (List.nodup_iff_injective_get.1 hnd hh).symm
  have hu : IsUnit A.det := isUnit_iff_ne_zero.2 hdet
  have hx : atNodes g X = A⁻¹.mulVec (Pi.single j 1) := by
    rw [← hcol, Matrix.mulVec_mulVec, Matrix.nonsing_inv_mul _ hu, Matrix.one_mulVec]
  have := congrFun hx i
  rw [Matrix.mulVec_single_one] at this
  change X _ = _ at this
  rw [this, Matrix.col_apply]
  exact entry_get hnd _ i j

theorem entry_zero {g : CG} {A : Matrix (Fin (nodes g).length) (Fin (nodes g).length) ℝ} {a p : ℕ} (ha : a ∉ nodes g) : entry g A a p = 0 := by
  unfold entry
  rw [dif_neg]
  rintro ⟨h1, -⟩
  exact ha (List.idxOf_lt_length_iff.1 h1)

/-- A column of the inverse pairs with every test vector as its node does. -/
theorem form_of_column {g : CG} (hnd : (nodes g).Nodup) {A : Matrix (Fin (nodes g).length) (Fin (nodes g).length) ℝ}
    (hdet : A.det ≠ 0) {p : ℕ} (hp : p ∈ nodes g) (w : ℕ → ℝ) : bform g A w (fun n => entry g A⁻¹ n p) = w p := by
  obtain ⟨j, rfl⟩ := List.mem_iff_get.1 hp
  have hu : IsUnit A.det := isUnit_iff_ne_zero.2 hdet
  have hx : atNodes g (fun n => entry g A⁻¹ n ((nodes g).get j)) = A⁻¹.mulVec (Pi.single j 1) := by
    funext i
    rw [Matrix.mulVec_single_one, Matrix.col_apply]
    exact entry_get hnd _ i j
  unfold bform
  rw [hx, Matrix.mulVec_mulVec, Matrix.mul_nonsing_inv _ hu, Matrix.one_mulVec, dotProduct_single_one]
  rfl

theorem written_facts {h : List Call} {g : CG} (hs : Settled h g) {l : Load} (hl : l ∈ written g) :
    l.node ∈ nodes g ∧ l.res ∉ nodes g ∧ l.res ≠ 0 ∧ ∃ c, g.resonators.get? l.node = some (some (mkResonator l.node c)) ∧
      pre c = some 'C' ∧ l.cc = c ∧ l.cr = (mkResonator l.node c).cr ∧ l.lr = (mkResonator l.node c).lr := by
  unfold written at hl
  obtain ⟨t, ht, rfl⟩ := List.mem_map.1 hl
  obtain ⟨h1, h2, ⟨c, h3, h3'⟩, h4⟩ := mem_loads hs ht
  refine ⟨h2, fun hh => absurd (le_next hh) (Nat.not_lt.2 h4), Nat.ne_of_gt (Nat.lt_of_lt_of_le (Nat.succ_pos _) h4), c, ?_, h3', ?_, ?_, ?_⟩
  · rw [h1, h3]
  all_goals simp only [h3]
  rfl

theorem written_nodup (g : CG) : ((written g).map Load.res).Nodup := by
  unfold written
  rw [List.map_map]
  exact loads_nodup _ _

theorem written_inj {g : CG} {l l' : Load} (hl : l ∈ written g) (hl' : l' ∈ written g) (he : l.res = l'.res) : l = l' := by
  exact List.inj_on_of_nodup_map (written_nodup g) hl hl' he

theorem sum_pick {ls : List Load} (hnd : (ls.map Load.res).Nodup) {l : Load} (hl : l ∈ ls) {z : ℝ} :
    (ls.map fun l' => if l'.res = l.res then z else 0).sum = z := by
  induction ls with
  | nil => cases hl
  | cons a ls ih =>
    rw [List.map_cons, List.nodup_cons] at hnd
    rw [List.map_cons, List.sum_cons]
    by_cases ha : a.res = l.res
    · rw [if_pos ha, List.sum_eq_zero, add_zero]
      intro x hx
      obtain ⟨l', hl', rfl⟩ := List.mem_map.1 hx
      exact if_neg fun hh => hnd.1 (List.mem_map.2 ⟨l', hl', hh.trans ha.symm⟩)
    · rw [if_neg ha, zero_add]
      refine ih hnd.2 ?_
      rcases List.mem_cons.1 hl with rfl | hl
      · exact absurd rfl ha
      · exact hl

theorem ext_nodes {o : Orc} (ho : o.OK) {h : List Call} {g g' : CG} (hs : Settled h g) (hl : loadedCircuit o g = (g', .ok ())) (n : ℕ) :
    n ∈ nodes g' ↔ n ∈ nodes g ∨ ∃ l ∈ written g, n = l.res := by
  obtain ⟨hs', hb, _⟩ := loaded_facts ho hs hl
  rw [(C29_rows _ _ hs').2, (C29_rows _ _ hs).2, hb]
  unfold nodesOf
  rw [List.flatMap_append, List.toFinset_append, Finset.mem_union, List.mem_toFinset, List.mem_toFinset]
  constructor
  · rintro ⟨h1 | h1, h2⟩
    · exact Or.inl ⟨h1, h2⟩
    · obtain ⟨b, hb, hn⟩ := List.mem_flatMap.1 h1
      obtain ⟨t, ht, hbt⟩ := List.mem_flatMap.1 hb
      have hw : (⟨t.1, t.2.1, t.2.2.coupling, t.2.2.cr, t.2.2.lr⟩ : Load) ∈ written g := List.mem_map.2 ⟨t, ht, rfl⟩
      have hmem := (written_facts hs hw).1
      rw [(C29_rows _ _ hs).2] at hmem
      simp only [nodesOf, List.mem_toFinset] at hmem
      simp only [loadBranches, List.mem_cons, List.not_mem_nil, or_false] at hbt
      rcases hbt with rfl | rfl | rfl <;> simp only [List.mem_cons, List.not_mem_nil, or_false] at hn
      · rcases hn with rfl | rfl
        · exact Or.inl hmem
        · exact Or.inr ⟨_, hw, rfl⟩
      · rcases hn with rfl | rfl
        · exact Or.inr ⟨_, hw, rfl⟩
        · exact absurd rfl h2
      · rcases hn with rfl | rfl
        · exact Or.inr ⟨_, hw, rfl⟩
        · exact absurd rfl h2
  · rintro (h1 | ⟨l, hlw, rfl⟩)
    · exact ⟨Or.inl h1.1, h1.2⟩
    · refine ⟨Or.inr ?_, (written_facts hs hlw).2.2.1⟩
      obtain ⟨t, ht, rfl⟩ := List.mem_map.1 hlw
      refine List.mem_flatMap.2 ⟨(t.1, t.2.1, t.2.2.coupling), List.mem_flatMap.2 ⟨t, ht, by simp [loadBranches]⟩, by simp⟩

/-- A voltage distribution of the circuit continued to the resonator nodes: floating, plus `d` at each. -/
noncomputable def continued (val : String → ℝ) (g : CG) (x : ℕ → ℝ) (d : Load → ℝ) (m : ℕ) : ℝ :=
  match (written g).find? (fun l => l.res == m) with
  | some l => val l.cc / (val l.cc + val l.cr) * x l.node + d l
  | none => x m

theorem continued_node {h : List Call} {g : CG} (hs : Settled h g) (val : String → ℝ) (x : ℕ → ℝ) (d : Load → ℝ) {m : ℕ}
    (hm : m ∈ nodes g ∨ m = 0) : continued val g x d m = x m := by
  have : (written g).find? (fun l => l.res == m) = none := by
    rw [List.find?_eq_none]
    intro l hl he
    obtain ⟨_, h1, h2, _⟩ := written_facts hs hl
    have he : l.res = m := by simpa using he
    rcases hm with hm | rfl
    · exact h1 (he ▸ hm)
    · exact h2 he
  unfold continued
  rw [this]

theorem continued_res {g : CG} (val : String → ℝ) (x : ℕ → ℝ) (d : Load → ℝ) {l : Load} (hl : l ∈ written g) :
    continued val g x d l.res = val l.cc / (val l.cc + val l.cr) * x l.node + d l := by
  have : (written g).find? (fun l' => l'.res == l.res) = some l := by
    cases hf : (written g).find? (fun l' => l'.res == l.res) with
    | none =>
      rw [List.find?_eq_none] at hf
      exact absurd (beq_self_eq_true l.res) (hf l hl)
    | some l' =>
      have h1 := List.find?_some hf
      rw [written_inj (List.mem_of_find?_eq_some hf) hl (by simpa using h1)]
  unfold continued
  rw [this]

theorem atNodes_continued {h : List Call} {g : CG} (hs : Settled h g) (val : String → ℝ) (x : ℕ → ℝ) (d : Load → ℝ) :
    atNodes g (continued val g x d) = atNodes g x := by
  funext i
  exact continued_node hs val x d (Or.inl (List.get_mem _ _))

section

variable {o : Orc} (ho : o.OK) {h : List Call} {g g' : CG} (hs : Settled h g) (hl : loadedCircuit o g = (g', .ok ()))
    (hloop : ∀ b ∈ branchesOf 'C' (branches h), b.1 ≠ b.2.1) (val : String → ℝ)
    (hne : ∀ n r, g.resonators.get? n = some (some r) → val r.coupling + val r.cr ≠ 0) {C C' : Mat ℝ}
    (hC : capacitance val (resonatorCap val) g = .ok C) (hC' : capacitance val (resonatorCap val) g' = .ok C')

include ho hs hl hloop hne hC hC'

/-- The form of the extended circuit against a continued distribution. -/
theorem bform_continued (w x : ℕ → ℝ) (d : Load → ℝ) (hw : w 0 = 0) (hx : x 0 = 0) :
    bform g' (C'.block _ _) w (continued val g x d) = bform g (C.block _ _) w x + ((written g).map fun l => (val l.cc + val l.cr) *
      ((w l.res - val l.cc / (val l.cc + val l.cr) * w l.node) * d l)).sum := by
  rw [bform_ext ho hs hl hloop val hne hC hC' w _ hw (by rw [continued_node hs val x d (Or.inr rfl), hx])]
  congr 1
  · unfold bform
    rw [atNodes_continued hs]
  · congr 1
    apply List.map_congr_left
    intro l hlw
    rw [continued_res val x d hlw, continued_node hs val x d (Or.inl (written_facts hs hlw).1)]
    ring

theorem load_ne {l : Load} (hlw : l ∈ written g) : val l.cc + val l.cr ≠ 0 := by
  obtain ⟨_, _, _, c, h1, _, h2, h3, _⟩ := written_facts hs hlw
  rw [h2, h3]
  exact hne _ _ h1

theorem ext_det (hdet : (C.block (nodes g).length (nodes g).length).det ≠ 0) : (C'.block (nodes g').length (nodes g').length).det ≠ 0 := by
  obtain ⟨hs', _⟩ := loaded_facts ho hs hl
  obtain ⟨hnd, hmem⟩ := C29_rows _ _ hs
  obtain ⟨hnd', hmem'⟩ := C29_rows _ _ hs'
  intro hz
  obtain ⟨y, hy, hker⟩ := Matrix.exists_mulVec_eq_zero_iff.2 hz
  -- the kernel vector as a function of nodes
  let Y : ℕ → ℝ := fun n => if hh : (nodes g').idxOf n < (nodes g').length then y ⟨_, hh⟩ else 0
  have hY : atNodes g' Y = y := by
    funext i
    have hi : (nodes g').idxOf ((nodes g').get i) = i := hnd'.idxOf_getElem _ _
    show Y _ = _
    simp only [Y]
    rw [dif_pos (by rw [hi]; exact i.2)]
    congr 1
    exact Fin.ext hi
  have hY0 : Y 0 = 0 := by
    simp only [Y]
    rw [dif_neg]
    intro hh
    exact (hmem' 0).1 (List.idxOf_lt_length_iff.1 hh) |>.2 rfl
  have hform : ∀ w, bform g' (C'.block _ _) w Y = 0 := by
    intro w
    unfold bform
    rw [hY, hker, dotProduct_zero]
  -- the circuit nodes
  have hfl : ∀ x : ℕ → ℝ, x 0 = 0 → bform g (C.block _ _) x Y = 0 := by
    intro x hx
    have e := bform_ext ho hs hl hloop val hne hC hC' (continued val g x fun _ => 0) Y
      (by rw [continued_node hs val x _ (Or.inr rfl), hx]) hY0
    rw [hform] at e
    have e2 : ((written g).map fun l => (val l.cc + val l.cr) *
      ((continued val g x (fun _ => 0) l.res - val l.cc / (val l.cc + val l.cr) * continued val g x (fun _ => 0) l.node) *
        (Y l.res - val l.cc / (val l.cc + val l.cr) * Y l.node))).sum = 0 := by
      apply List.sum_eq_zero
      intro z hz
      obtain ⟨l, hlw, rfl⟩ := List.mem_map.1 hz
      rw [continued_res val x _ hlw, continued_node hs val x _ (Or.inl (written_facts hs hlw).1)]
      ring
    rw [e2, add_zero] at e
    unfold bform at e ⊢
    rw [atNodes_continued hs] at e
    exact e.symm
  have hker2 : (C.block (nodes g).length (nodes g).length).mulVec (atNodes g Y) = 0 := by
    funext k
    have := hfl (fun n => if n = (nodes g).get k then (1 : ℝ) else 0) (by
      rw [if_neg]; intro hh; exact ((hmem 0).1 (hh ▸ List.get_mem _ _)).2 rfl)
    unfold bform at this
    rwa [atNodes_single hnd, single_one_dotProduct] at this
  have hzero : atNodes g Y = 0 := by
    by_contra hc
    exact hdet (Matrix.exists_mulVec_eq_zero_iff.1 ⟨_, hc, hker2⟩)
  have hYn : ∀ n ∈ nodes g, Y n = 0 := by
    intro n hn
    obtain ⟨i, rfl⟩ := List.mem_iff_get.1 hn
    exact congrFun hzero i
  -- the resonator nodes
  have hYr : ∀ l ∈ written g, Y l.res = 0 := by
    intro l hlw
    have e := bform_ext ho hs hl hloop val hne hC hC' (fun n => if n = l.res then 1 else 0) Y
      (if_neg (written_facts hs hlw).2.2.1.symm) hY0
    rw [hform, hfl _ (if_neg (written_facts hs hlw).2.2.1.symm), zero_add] at e
    have e2 : ((written g).map fun l' => (val l'.cc + val l'.cr) *
      (((if l'.res = l.res then (1:ℝ) else 0) - val l'.cc / (val l'.cc + val l'.cr) * (if l'.node = l.res then (1:ℝ) else 0)) *
        (Y l'.res - val l'.cc / (val l'.cc + val l'.cr) * Y l'.node))) =
        (written g).map fun l' => if l'.res = l.res then (val l.cc + val l.cr) * Y l.res else 0 := by
      apply List.map_congr_left
      intro l' hlw'
      obtain ⟨h1, _⟩ := written_facts hs hlw'
      rw [hYn _ h1, if_neg (fun hh : l'.node = l.res => (written_facts hs hlw).2.1 (hh ▸ h1))]
      by_cases hh : l'.res = l.res
      · rw [written_inj hlw' hlw hh]; simp
      · rw [if_neg hh, if_neg hh]; ring
    rw [e2, sum_pick (written_nodup g) hlw] at e
    exact (mul_eq_zero.1 e.symm).resolve_left (load_ne ho hs hl hloop val hne hC hC' hlw)
  apply hy
  rw [← hY]
  funext i
  rcases (ext_nodes ho hs hl _).1 (List.get_mem (nodes g') i) with hh | ⟨l, hlw, hh⟩
  · exact hYn _ hh
  · show Y _ = 0
    rw [hh]
    exact hYr l hlw

theorem ext_column_node (hdet : (C.block (nodes g).length (nodes g).length).det ≠ 0) {b : ℕ} (hb : b ∈ nodes g) {a : ℕ} (ha : a ∈ nodes g') :
    entry g' (C'.block _ _)⁻¹ a b = continued val g (fun n => entry g (C.block _ _)⁻¹ n b) (fun _ => 0) a := by
  obtain ⟨hs', _⟩ := loaded_facts ho hs hl
  obtain ⟨hnd, hmem⟩ := C29_rows _ _ hs
  obtain ⟨hnd', hmem'⟩ := C29_rows _ _ hs'
  refine column_of_form hnd' (fun hh => ((hmem' 0).1 hh).2 rfl) (ext_det ho hs hl hloop val hne hC hC' hdet)
    ((ext_nodes ho hs hl b).2 (Or.inl hb)) ?_ ha
  intro w hw
  have h0 : entry g (C.block _ _)⁻¹ 0 b = 0 := entry_zero fun hh => ((hmem 0).1 hh).2 rfl
  rw [bform_continued ho hs hl hloop val hne hC hC' w (fun n => entry g (C.block _ _)⁻¹ n b) _ hw h0, form_of_column hnd hdet hb]
  simp

omit ho hs hl hloop hne hC hC' in
theorem bform_smul (g : CG) (A : Matrix (Fin (nodes g).length) (Fin (nodes g).length) ℝ) (v w : ℕ → ℝ) (c : ℝ) :
    bform g A v (fun n => c * w n) = c * bform g A v w := by
  have : atNodes g (fun n => c * w n) = c • atNodes g w := rfl
  unfold bform
  rw [this, Matrix.mulVec_smul, dotProduct_smul, smul_eq_mul]

theorem ext_column_res (hdet : (C.block (nodes g).length (nodes g).length).det ≠ 0) {l : Load} (hlw : l ∈ written g) {a : ℕ} (ha : a ∈ nodes g') :
    entry g' (C'.block _ _)⁻¹ a l.res =
      continued val g (fun n => val l.cc / (val l.cc + val l.cr) * entry g (C.block _ _)⁻¹ n l.node)
        (fun l' => if l'.res = l.res then 1 / (val l.cc + val l.cr) else 0) a := by
  obtain ⟨hs', _⟩ := loaded_facts ho hs hl
  obtain ⟨hnd, hmem⟩ := C29_rows _ _ hs
  obtain ⟨hnd', hmem'⟩ := C29_rows _ _ hs'
  refine column_of_form hnd' (fun hh => ((hmem' 0).1 hh).2 rfl) (ext_det ho hs hl hloop val hne hC hC' hdet)
    ((ext_nodes ho hs hl _).2 (Or.inr ⟨l, hlw, rfl⟩)) ?_ ha
  intro w hw
  have h0 : entry g (C.block _ _)⁻¹ 0 l.node = 0 := entry_zero fun hh => ((hmem 0).1 hh).2 rfl
  rw [bform_continued ho hs hl hloop val hne hC hC' w _ _ hw (by rw [h0, mul_zero]), bform_smul,
    form_of_column hnd hdet (written_facts hs hlw).1]
  have hn := load_ne ho hs hl hloop val hne hC hC' hlw
  have e2 : ((written g).map fun l' => (val l'.cc + val l'.cr) * ((w l'.res - val l'.cc / (val l'.cc + val l'.cr) * w l'.node) *
        (if l'.res = l.res then 1 / (val l.cc + val l.cr) else 0))) =
      (written g).map fun l' => if l'.res = l.res then w l.res - val l.cc / (val l.cc + val l.cr) * w l.node else 0 := by
    apply List.map_congr_left
    intro l' hlw'
    by_cases hh : l'.res = l.res
    · rw [written_inj hlw' hlw hh, if_pos rfl, if_pos rfl]
      field_simp
    · rw [if_neg hh, if_neg hh]; ring
  rw [e2, sum_pick (written_nodup g) hlw]
  ring

end

/-- **C74** Writing the resonators out as branches changes nothing for the circuit: if its capacitance matrix is invertible then so is that of
the extended circuit, and between circuit nodes the two inverses agree.  The remaining entries of the inverse are those of capacitive
dividers: a resonator node follows its circuit node with ratio `Cc / (Cc + Cr)`, and has `1 / (Cc + Cr)` of its own. -/
theorem C74_inverse (o : Orc) (ho : o.OK) (h : List Call) (g g' : CG) (hs : Settled h g) (hl : loadedCircuit o g = (g', .ok ()))
    (hloop : ∀ b ∈ branchesOf 'C' (branches h), b.1 ≠ b.2.1) (val : String → ℝ)
    (hne : ∀ n r, g.resonators.get? n = some (some r) → val r.coupling + val r.cr ≠ 0) (C C' : Mat ℝ)
    (hC : capacitance val (resonatorCap val) g = .ok C) (hC' : capacitance val (resonatorCap val) g' = .ok C')
    (hdet : (C.block (nodes g).length (nodes g).length).det ≠ 0) :
    (C'.block (nodes g').length (nodes g').length).det ≠ 0 ∧
    (∀ a ∈ nodes g, ∀ b ∈ nodes g, entry g' (C'.block _ _)⁻¹ a b = entry g (C.block _ _)⁻¹ a b) ∧
    (∀ l ∈ written g, ∀ b ∈ nodes g, entry g' (C'.block _ _)⁻¹ l.res b = val l.cc / (val l.cc + val l.cr) * entry g (C.block _ _)⁻¹ l.node b ∧
      entry g' (C'.block _ _)⁻¹ b l.res = val l.cc / (val l.cc + val l.cr) * entry g (C.block _ _)⁻¹ b l.node) ∧
    ∀ l ∈ written g, ∀ l' ∈ written g, entry g' (C'.block _ _)⁻¹ l.res l'.res =
      val l.cc / (val l.cc + val l.cr) * (val l'.cc / (val l'.cc + val l'.cr)) * entry g (C.block _ _)⁻¹ l.node l'.node +
        if l.res = l'.res then 1 / (val l.cc + val l.cr) else 0 := by
  have hN : ∀ a ∈ nodes g, a ∈ nodes g' := fun a ha => (ext_nodes ho hs hl a).2 (Or.inl ha)
  have hR : ∀ l ∈ written g, l.res ∈ nodes g' := fun l hlw => (ext_nodes ho hs hl _).2 (Or.inr ⟨l, hlw, rfl⟩)
  refine ⟨ext_det ho hs hl hloop val hne hC hC' hdet, ?_, ?_, ?_⟩
  · intro a ha b hb
    rw [ext_column_node ho hs hl hloop val hne hC hC' hdet hb (hN a ha), continued_node hs val _ _ (Or.inl ha)]
  · intro l hlw b hb
    rw [ext_column_node ho hs hl hloop val hne hC hC' hdet hb (hR l hlw), continued_res val _ _ hlw,
      ext_column_res ho hs hl hloop val hne hC hC' hdet hlw (hN b hb), continued_node hs val _ _ (Or.inl hb), add_zero]
    exact ⟨rfl, rfl⟩
  · intro l hlw l' hlw'
    rw [ext_column_res ho hs hl hloop val hne hC hC' hdet hlw' (hR l hlw), continued_res val _ _ hlw]
    by_cases hh : l.res = l'.res
    · rw [if_pos hh, if_pos hh, written_inj hlw hlw' hh]
      ring
    · rw [if_neg hh, if_neg hh]
      ring

/-! ### Frequency, impedance and coupling -/

/-- **C73** The capacitance and inductance taken from a design frequency and impedance have that frequency and impedance, `1 / (2π √(L C))`
and `√(L / C)`; and they are the only positive values that do. -/
theorem C73_design (fr Zr : ℝ) (hf : 0 < fr) (hZ : 0 < Zr) :
    0 < designCr fr Zr ∧ 0 < designLr fr Zr ∧
    1 / (2 * Real.pi * Real.sqrt (designLr fr Zr * designCr fr Zr)) = fr ∧ Real.sqrt (designLr fr Zr / designCr fr Zr) = Zr ∧
    ∀ C L : ℝ, 0 < C → 0 < L → 1 / (2 * Real.pi * Real.sqrt (L * C)) = fr → Real.sqrt (L / C) = Zr → C = designCr fr Zr ∧ L = designLr fr Zr := by
  have hpi := Real.pi_pos
  have h1 : designLr fr Zr * designCr fr Zr = (1 / (2 * Real.pi * fr)) ^ 2 := by
    unfold designLr designCr
    field_simp
    norm_num
  have h2 : designLr fr Zr / designCr fr Zr = Zr ^ 2 := by
    unfold designLr designCr
    field_simp
  refine ⟨by unfold designCr; positivity, by unfold designLr; positivity, ?_, ?_, ?_⟩
  · rw [h1, Real.sqrt_sq (by positivity)]
    field_simp
  · rw [h2, Real.sqrt_sq hZ.le]
  · intro C L hC hL e1 e2
    have hLC : Real.sqrt (L * C) = Real.sqrt L * Real.sqrt C := Real.sqrt_mul hL.le C
    have hLdC : Real.sqrt (L / C) = Real.sqrt L / Real.sqrt C := Real.sqrt_div hL.le C
    have sL := Real.sqrt_pos.2 hL
    have sC := Real.sqrt_pos.2 hC
    have qL := Real.mul_self_sqrt hL.le
    have qC := Real.mul_self_sqrt hC.le
    rw [hLC] at e1
    rw [hLdC] at e2
    rw [← e1, ← e2]
    unfold designCr designLr
    constructor
    · conv_lhs => rw [← qC]
      generalize Real.sqrt C = y at *
      generalize Real.sqrt L = x at *
      field_simp
      norm_num
    · conv_lhs => rw [← qL]
      generalize Real.sqrt C = y at *
      generalize Real.sqrt L = x at *
      field_simp
      norm_num

theorem ext_inductors {h : List Call} {g : CG} (hs : Settled h g) {l : Load} (hlw : l ∈ written g) (val : String → ℝ) :
    (branchesOf 'L' ((loads g.resonators (nextNode g)).flatMap loadBranches)).map
      (fun b => ((if b.1 = l.res then (1 : ℝ) else 0) - (if b.2.1 = l.res then 1 else 0)) ^ 2 / val b.2.2) =
    (written g).map fun l' => if l'.res = l.res then 1 / val l.lr else 0 := by
  have hm : ∀ t ∈ loads g.resonators (nextNode g), ∃ c, t.2.2 = mkResonator t.1 c ∧ pre c = some 'C' := fun t ht => (mem_loads hs ht).2.2.1
  have hinj : ∀ t ∈ loads g.resonators (nextNode g), t.2.1 = l.res → t.2.2.lr = l.lr := by
    intro t ht he
    have hw : (⟨t.1, t.2.1, t.2.2.coupling, t.2.2.cr, t.2.2.lr⟩ : Load) ∈ written g := List.mem_map.2 ⟨t, ht, rfl⟩
    rw [← written_inj hw hlw he]
  have h0 := (written_facts hs hlw).2.2.1
  unfold written branchesOf
  generalize loads g.resonators (nextNode g) = ts at hm hinj
  induction ts with
  | nil => rfl
  | cons t ts ih =>
    obtain ⟨c, hr, hc⟩ := hm _ List.mem_cons_self
    have hl := hinj t List.mem_cons_self
    rw [List.flatMap_cons, List.filter_append, List.map_append, ih (fun t ht => hm t (List.mem_cons_of_mem _ ht))
      (fun t ht => hinj t (List.mem_cons_of_mem _ ht)), List.map_cons, List.map_cons]
    have h1 : startsWith t.2.2.coupling 'L' = false := by
      rw [Bool.eq_false_iff, ne_eq, startsWith_iff, hr]
      show ¬ pre c = some 'L'
      rw [hc]; decide
    have h2 : startsWith t.2.2.cr 'L' = false := by
      rw [Bool.eq_false_iff, ne_eq, startsWith_iff, hr]
      unfold mkResonator
      simp only
      rw [String.append_assoc, pre_append 'C' _ _ rfl]
      decide
    have h3 : startsWith t.2.2.lr 'L' = true := by
      rw [startsWith_iff, hr]
      unfold mkResonator
      simp only
      rw [String.append_assoc]
      exact pre_append 'L' _ _ rfl
    have : (loadBranches t).filter (fun b => startsWith b.2.2 'L') = [(t.2.1, 0, t.2.2.lr)] := by
      simp [loadBranches, h1, h2, h3]
    rw [this, List.map_cons, List.map_nil, List.singleton_append, if_neg (fun hh : (0 : ℕ) = l.res => h0 hh.symm)]
    congr 1
    by_cases hh : t.2.1 = l.res
    · simp only [hh, if_true, hl hh]; norm_num
    · simp only [hh, if_false]; norm_num

/-- **C75** Without mutual inductances, the inverse inductance of the extended circuit at a resonator node is one over the resonator's
inductance. -/
theorem C75_inductance (o : Orc) (ho : o.OK) (h : List Call) (g g' : CG) (hs : Settled h g) (hl : loadedCircuit o g = (g', .ok ()))
    (hc : g.coupled = []) (val : String → ℝ) (hval : ∀ b ∈ branchesOf 'L' (branches h), val b.2.2 ≠ 0)
    (hlr : ∀ l ∈ written g, val l.lr ≠ 0)
    (pinv : Matrix (Fin (edges g').length) (Fin (edges g').length) ℝ → Matrix (Fin (edges g').length) (Fin (edges g').length) ℝ)
    (hp : ∀ M, branchInductance val g' = .ok M → IsPinv (M.block _ _) (pinv (M.block _ _)))
    (L : Matrix (Fin (nodes g').length) (Fin (nodes g').length) ℝ) (hL : inverseInductance val g' pinv = .ok L) (l : Load) (hlw : l ∈ written g) :
    entry g' L l.res l.res = 1 / val l.lr := by
  obtain ⟨hs', hb, _, hcc, _⟩ := loaded_facts ho hs hl
  obtain ⟨hnd', hmem'⟩ := C29_rows _ _ hs'
  obtain ⟨hn1, hn2, hn3, _⟩ := written_facts hs hlw
  have hval' : ∀ b ∈ branchesOf 'L' (branches (loadedCalls o h g)), val b.2.2 ≠ 0 := by
    intro b hbm
    unfold branchesOf at hbm
    rw [hb, List.filter_append] at hbm
    rcases List.mem_append.1 hbm with hbm | hbm
    · exact hval b hbm
    · obtain ⟨hb1, hb2⟩ := List.mem_filter.1 hbm
      obtain ⟨t, ht, hbt⟩ := List.mem_flatMap.1 hb1
      have hw : (⟨t.1, t.2.1, t.2.2.coupling, t.2.2.cr, t.2.2.lr⟩ : Load) ∈ written g := List.mem_map.2 ⟨t, ht, rfl⟩
      obtain ⟨c, hr, hcp⟩ := (mem_loads hs ht).2.2.1
      rw [startsWith_iff] at hb2
      simp only [loadBranches, List.mem_cons, List.not_mem_nil, or_false] at hbt
      rcases hbt with rfl | rfl | rfl
      · simp only [hr] at hb2
        change pre c = _ at hb2
        rw [hcp] at hb2
        cases hb2
      · simp only [hr, mkResonator] at hb2
        rw [String.append_assoc, pre_append 'C' _ _ rfl] at hb2
        cases hb2
      · exact hlr _ hw
  have e := C30_uncoupled _ g' hs' (hcc.trans hc) val hval' pinv hp L hL (fun n => if n = l.res then 1 else 0) (if_neg hn3.symm)
  have hk : l.res ∈ nodes g' := (ext_nodes ho hs hl _).2 (Or.inr ⟨l, hlw, rfl⟩)
  obtain ⟨i, hi⟩ := List.mem_iff_get.1 hk
  rw [← hi, entry_get hnd']
  simp only [← hi] at e
  rw [atNodes_single hnd', Matrix.mulVec_single_one, single_one_dotProduct, Matrix.col_apply] at e
  rw [e, hi]
  unfold inductorForm
  have hsplit : branchesOf 'L' (branches (loadedCalls o h g)) =
      branchesOf 'L' (branches h) ++ branchesOf 'L' ((loads g.resonators (nextNode g)).flatMap loadBranches) := by
    unfold branchesOf
    rw [hb, List.filter_append]
  rw [hsplit, List.map_append, List.sum_append, ext_inductors hs hlw, sum_pick (written_nodup g) hlw, List.sum_eq_zero, zero_add]
  intro x hx
  obtain ⟨b, hbm, rfl⟩ := List.mem_map.1 hx
  have hnot : ∀ n, n ∈ nodesOf (branches h) → n ≠ l.res := by
    rintro n hn rfl
    exact hn2 (((C29_rows _ _ hs).2 _).2 ⟨hn, hn3⟩)
  have hb1 : b.1 ∈ nodesOf (branches h) ∧ b.2.1 ∈ nodesOf (branches h) := by
    unfold nodesOf
    rw [List.mem_toFinset, List.mem_toFinset]
    exact ⟨List.mem_flatMap.2 ⟨b, (List.mem_filter.1 hbm).1, by simp⟩, List.mem_flatMap.2 ⟨b, (List.mem_filter.1 hbm).1, by simp⟩⟩
  simp only [if_neg (hnot _ hb1.1), if_neg (hnot _ hb1.2)]
  simp

/-- The inverse capacitance at the node of a resonator, from that of the circuit. -/
noncomputable def nodeInverse (val : String → ℝ) (l : Load) (y : ℝ) : ℝ :=
  1 / (val l.cc + val l.cr) + (val l.cc / (val l.cc + val l.cr)) ^ 2 * y

/-- **C75** The loaded frequency, impedance and coupling that the code reads off the extended circuit, in terms of the circuit's own inverse
capacitance matrix: with `κ = Cc / (Cc + Cr)`, `y` its entry at the circuit node and `α = 1 / (Cc + Cr) + κ² y` they are `√(α / Lr)`, `√(α Lr)`
and `κ y / √(2 √(α Lr))`. -/
theorem C75_loaded (o : Orc) (ho : o.OK) (h : List Call) (g g' : CG) (hs : Settled h g) (hl : loadedCircuit o g = (g', .ok ()))
    (hloop : ∀ b ∈ branchesOf 'C' (branches h), b.1 ≠ b.2.1) (hc : g.coupled = []) (val : String → ℝ)
    (hne : ∀ n r, g.resonators.get? n = some (some r) → val r.coupling + val r.cr ≠ 0) (C C' : Mat ℝ)
    (hC : capacitance val (resonatorCap val) g = .ok C) (hC' : capacitance val (resonatorCap val) g' = .ok C')
    (hdet : (C.block (nodes g).length (nodes g).length).det ≠ 0)
    (hval : ∀ b ∈ branchesOf 'L' (branches h), val b.2.2 ≠ 0) (hlr : ∀ l ∈ written g, val l.lr ≠ 0)
    (pinv : Matrix (Fin (edges g').length) (Fin (edges g').length) ℝ → Matrix (Fin (edges g').length) (Fin (edges g').length) ℝ)
    (hp : ∀ M, branchInductance val g' = .ok M → IsPinv (M.block _ _) (pinv (M.block _ _)))
    (L : Matrix (Fin (nodes g').length) (Fin (nodes g').length) ℝ) (hL : inverseInductance val g' pinv = .ok L) (l : Load) (hlw : l ∈ written g)
    (y Ckk Cnk Lkk : ℝ) (hy : y = entry g (C.block _ _)⁻¹ l.node l.node) (hCkk : Ckk = entry g' (C'.block _ _)⁻¹ l.res l.res)
    (hCnk : Cnk = entry g' (C'.block _ _)⁻¹ l.node l.res) (hLkk : Lkk = entry g' L l.res l.res) :
    loadedFrequency Ckk Lkk = Real.sqrt (nodeInverse val l y / val l.lr) ∧
    loadedImpedance Ckk Lkk = Real.sqrt (nodeInverse val l y * val l.lr) ∧
    loadedCoupling Cnk Ckk Lkk =
      val l.cc / (val l.cc + val l.cr) * y / Real.sqrt (2 * Real.sqrt (nodeInverse val l y * val l.lr)) := by
  obtain ⟨_, _, h2, h3⟩ := C74_inverse o ho h g g' hs hl hloop val hne C C' hC hC' hdet
  have e1 : Ckk = nodeInverse val l y := by
    rw [hCkk, h3 l hlw l hlw, if_pos rfl, hy]
    unfold nodeInverse
    ring
  have e2 : Cnk = val l.cc / (val l.cc + val l.cr) * y := by
    rw [hCnk, (h2 l hlw _ (written_facts hs hlw).1).2, hy]
  have e3 : Lkk = 1 / val l.lr := by
    rw [hLkk, C75_inductance o ho h g g' hs hl hc val hval hlr pinv hp L hL l hlw]
  have hz : loadedImpedance Ckk Lkk = Real.sqrt (nodeInverse val l y * val l.lr) := by
    unfold loadedImpedance
    rw [e1, e3, div_div_eq_mul_div, div_one]
  refine ⟨?_, hz, ?_⟩
  · unfold loadedFrequency
    rw [e1, e3, mul_one_div]
  · unfold loadedCoupling
    rw [hz, e2]

theorem form_ge_load {h : List Call} {g : CG} (hs : Settled h g) (hloop : ∀ b ∈ branchesOf 'C' (branches h), b.1 ≠ b.2.1)
    {val : String → ℝ} (hn : Nonneg val h g) {C : Mat ℝ} (hC : capacitance val (resonatorCap val) g = .ok C) (v : ℕ → ℝ) (h0 : v 0 = 0)
    {n : ℕ} (hm : n ∈ nodes g) : resonatorLoad val g n * v n ^ 2 ≤ bform g (C.block _ _) v v := by
  unfold bform
  rw [C29_quadratic_form_partial _ _ hs val C hC hloop v h0]
  have hm' := (((C29_rows _ _ hs).2 n).1 hm).1
  have h1 := Finset.single_le_sum (f := fun n => (gateCapacitance val g n + resonatorLoad val g n) * v n ^ 2)
    (fun n _ => mul_nonneg (add_nonneg (gate_nonneg hn n) (load_nonneg hn n)) (sq_nonneg _)) hm'
  have h2 := capacitorForm_nonneg hn v
  have h3 := mul_nonneg (gate_nonneg hn n) (sq_nonneg (v n))
  simp only [add_mul] at h1 ⊢
  linarith

/-- **C75** With non-negative capacitances (positive ones for the resonator), loading only lowers the frequency, and not below that of the
resonator with its coupling capacitor grounded: `1 / (Lr (Cc + Cr)) ≤ frl² ≤ 1 / (Lr Cr)`; the impedance is likewise bounded. -/
theorem C75_bounds (o : Orc) (ho : o.OK) (h : List Call) (g g' : CG) (hs : Settled h g) (hl : loadedCircuit o g = (g', .ok ()))
    (hloop : ∀ b ∈ branchesOf 'C' (branches h), b.1 ≠ b.2.1) (hc : g.coupled = []) (val : String → ℝ) (hn : Nonneg val h g) (C C' : Mat ℝ)
    (hpos : ∀ l ∈ written g, 0 < val l.cc ∧ 0 < val l.cr ∧ 0 < val l.lr)
    (hC : capacitance val (resonatorCap val) g = .ok C) (hC' : capacitance val (resonatorCap val) g' = .ok C')
    (hdet : (C.block (nodes g).length (nodes g).length).det ≠ 0) (hval : ∀ b ∈ branchesOf 'L' (branches h), val b.2.2 ≠ 0)
    (pinv : Matrix (Fin (edges g').length) (Fin (edges g').length) ℝ → Matrix (Fin (edges g').length) (Fin (edges g').length) ℝ)
    (hp : ∀ M, branchInductance val g' = .ok M → IsPinv (M.block _ _) (pinv (M.block _ _)))
    (L : Matrix (Fin (nodes g').length) (Fin (nodes g').length) ℝ) (hL : inverseInductance val g' pinv = .ok L) (l : Load) (hlw : l ∈ written g)
    (Ckk Lkk : ℝ) (hCkk : Ckk = entry g' (C'.block _ _)⁻¹ l.res l.res) (hLkk : Lkk = entry g' L l.res l.res) :
    1 / (val l.lr * (val l.cc + val l.cr)) ≤ loadedFrequency Ckk Lkk ^ 2 ∧ loadedFrequency Ckk Lkk ^ 2 ≤ 1 / (val l.lr * val l.cr) ∧
    val l.lr / (val l.cc + val l.cr) ≤ loadedImpedance Ckk Lkk ^ 2 ∧ loadedImpedance Ckk Lkk ^ 2 ≤ val l.lr / val l.cr := by
  have hne : ∀ n r, g.resonators.get? n = some (some r) → val r.coupling + val r.cr ≠ 0 := by
    intro n r hr
    obtain ⟨t, ht, he⟩ : ∃ t ∈ loads g.resonators (nextNode g), t.2.2 = r := by
      have hm := Dict.mem_of_get? hr
      have : ∀ (ds : List (Node × Option Resonator)) k, (n, some r) ∈ ds → ∃ t ∈ loads ds k, t.2.2 = r := by
        intro ds
        induction ds with
        | nil => intro k hk; cases hk
        | cons p ds ih =>
          intro k hk
          obtain ⟨n', r'⟩ := p
          cases r' with
          | none =>
            rcases List.mem_cons.1 hk with hk | hk
            · cases hk
            · exact ih k hk
          | some r' =>
            rcases List.mem_cons.1 hk with hk | hk
            · cases hk
              exact ⟨_, List.mem_cons_self, rfl⟩
            · obtain ⟨t, ht, he⟩ := ih (k + 1) hk
              exact ⟨t, List.mem_cons_of_mem _ ht, he⟩
      exact this _ _ hm
    obtain ⟨p1, p2, _⟩ := hpos _ (List.mem_map.2 ⟨t, ht, rfl⟩)
    rw [← he]
    exact (add_pos p1 p2).ne'
  obtain ⟨p1, p2, p3⟩ := hpos l hlw
  obtain ⟨hmn, _, _, c, hr, _, hcc, hcr, _⟩ := written_facts hs hlw
  obtain ⟨hnd, hmem⟩ := C29_rows _ _ hs
  obtain ⟨f1, f2, _⟩ := C75_loaded o ho h g g' hs hl hloop hc val hne C C' hC hC' hdet hval (fun l hl => (hpos l hl).2.2.ne') pinv hp L hL l hlw
    _ Ckk _ Lkk rfl hCkk rfl hLkk
  -- the entry of the circuit
  set y := entry g (C.block _ _)⁻¹ l.node l.node with hy
  have h0 : entry g (C.block _ _)⁻¹ 0 l.node = 0 := entry_zero fun hh => ((hmem 0).1 hh).2 rfl
  have e1 := form_of_column hnd hdet hmn (fun n => entry g (C.block _ _)⁻¹ n l.node)
  have e2 := form_ge_load hs hloop hn hC (fun n => entry g (C.block _ _)⁻¹ n l.node) h0 hmn
  rw [e1] at e2
  have hload : resonatorLoad val g l.node = val l.cc * val l.cr / (val l.cc + val l.cr) := by
    unfold resonatorLoad
    rw [hr, hcc, hcr]
    rfl
  rw [hload] at e2
  change _ * y ^ 2 ≤ y at e2
  have hs0 : 0 < val l.cc + val l.cr := add_pos p1 p2
  have hy0 : 0 ≤ y := le_trans (by positivity) e2
  have hy1 : val l.cc * val l.cr * y ≤ val l.cc + val l.cr := by
    rcases hy0.eq_or_lt with hz | hz
    · rw [← hz]; nlinarith
    · have : val l.cc * val l.cr / (val l.cc + val l.cr) * y ≤ 1 := by
        by_contra hcon
        push Not at hcon
        nlinarith
      rw [div_mul_eq_mul_div, div_le_one hs0] at this
      exact this
  have a1 : 1 / (val l.cc + val l.cr) ≤ nodeInverse val l y := by
    unfold nodeInverse
    have : 0 ≤ (val l.cc / (val l.cc + val l.cr)) ^ 2 * y := by positivity
    linarith
  have a2 : nodeInverse val l y ≤ 1 / val l.cr := by
    unfold nodeInverse
    rw [div_pow, div_mul_eq_mul_div, div_add_div _ _ hs0.ne' (by positivity), div_le_div_iff₀ (by positivity) p2]
    have : val l.cc * (val l.cc * val l.cr * y) ≤ val l.cc * (val l.cc + val l.cr) := mul_le_mul_of_nonneg_left hy1 p1.le
    nlinarith [mul_le_mul_of_nonneg_left this hs0.le]
  have a0 : 0 ≤ nodeInverse val l y := le_trans (by positivity) a1
  rw [f1, f2, Real.sq_sqrt (by positivity), Real.sq_sqrt (by positivity)]
  refine ⟨?_, ?_, ?_, ?_⟩
  · rw [mul_comm, ← div_div]
    exact div_le_div_of_nonneg_right a1 p3.le
  · rw [mul_comm, ← div_div]
    exact div_le_div_of_nonneg_right a2 p3.le
  · have := mul_le_mul_of_nonneg_right a1 p3.le
    rwa [one_div, inv_mul_eq_div] at this
  · have := mul_le_mul_of_nonneg_right a2 p3.le
    rwa [one_div, inv_mul_eq_div] at this

/-! ### A circuit with a resonator -/

-- C73 at 1 GHz and 50 Ω, in GHz and Ω
example : (0 : ℝ) < 1 ∧ (0 : ℝ) < 50 := by norm_num

/-- The values of the example, as real numbers. -/
noncomputable def gatedReal (c : String) : ℝ :=
  if c = "C1" then 5 else if c = "C2" then 3 else if c = "Cg" then 1 else if c = "Cc" then 2 else if c = "C2r" then 2 else 1

-- the circuit of C29 with a resonator at node 2: the extended circuit exists, the resonator gets node 3
example : Orc.id.OK ∧ ∃ g', loadedCircuit Orc.id gated = (g', .ok ()) ∧ nodes g' = [1, 2, 3] ∧ gated.coupled = [] ∧
    written gated = [⟨2, 3, "Cc", "C2r", "L2r"⟩] ∧ (∀ b ∈ branchesOf 'C' (branches gatedCalls), b.1 ≠ b.2.1) := by
  refine ⟨⟨fun l => List.Perm.refl l, fun l => List.Perm.refl l⟩, (loadedCircuit Orc.id gated).1, ?_, ?_, ?_, ?_, ?_⟩
  · apply Prod.ext
    · rfl
    · decide +kernel
  all_goals decide +kernel

/-- Without mutual inductances the pseudo-inverse is the matrix of reciprocals. -/
theorem uncoupled_pinv (h : List Call) (g : CG) (hs : Settled h g) (hc : g.coupled = []) (val : String → ℝ) (M : Mat ℝ)
    (hM : branchInductance val g = .ok M) :
    IsPinv (M.block (edges g).length (edges g).length) ((M.block (edges g).length (edges g).length).map fun x => x⁻¹) := by
  have hoff : ∀ i j : Fin (edges g).length, i ≠ j → M i j = 0 := by
    intro i j hij
    exact ((C30_branch_matrix h g hs val M hM i j).2.2.1 (by rw [hc]; intro q hq; cases hq)).1 hij
  have e1 : M.block (edges g).length (edges g).length = Matrix.diagonal fun i : Fin (edges g).length => M i i := by
    ext i j
    by_cases hij : i = j
    · subst hij; simp [Mat.block]
    · rw [Matrix.diagonal_apply_ne _ hij]; exact hoff i j hij
  have e2 : (M.block (edges g).length (edges g).length).map (fun x => x⁻¹) = Matrix.diagonal fun i : Fin (edges g).length => (M i i)⁻¹ := by
    rw [e1, Matrix.diagonal_map inv_zero]
  rw [e2, e1]
  refine ⟨?_, ?_, ?_, ?_⟩
  · rw [Matrix.diagonal_mul_diagonal, Matrix.diagonal_mul_diagonal]
    congr 1; funext i
    exact mul_inv_mul_cancel _
  · rw [Matrix.diagonal_mul_diagonal, Matrix.diagonal_mul_diagonal]
    congr 1; funext i
    by_cases hz : M i i = 0
    · simp [hz]
    · field_simp
  · rw [Matrix.diagonal_mul_diagonal, Matrix.diagonal_transpose]
  · rw [Matrix.diagonal_mul_diagonal, Matrix.diagonal_transpose]

theorem gatedReal_pos (c : String) : 0 < gatedReal c := by
  unfold gatedReal
  split_ifs <;> norm_num

theorem gated_det {C : Mat ℝ} (hC : capacitance gatedReal (resonatorCap gatedReal) gated = .ok C) :
    (C.block (nodes gated).length (nodes gated).length).det ≠ 0 := by
  have hn : Nonneg gatedReal gatedCalls gated :=
    ⟨fun _ _ => (gatedReal_pos _).le, fun _ _ _ _ _ => (gatedReal_pos _).le, fun _ _ _ => ⟨(gatedReal_pos _).le, (gatedReal_pos _).le⟩⟩
  refine (C29_definite_partial _ _ gated_settled gatedReal C hC (by decide +kernel) hn ?_).2
  have h1 : ∀ n ∈ nodesOf (branches gatedCalls), n = 0 ∨ n ∈ nodes gated ∧
      (gated.chargeBias.get? n = some ⟨some "Cg", "1"⟩ ∨ gated.resonators.get? n = some (some (mkResonator 2 "Cc"))) := by decide +kernel
  intro n hm
  rcases h1 n hm with rfl | ⟨h2, h3⟩
  · exact Relation.EqvGen.refl 0
  · refine Relation.EqvGen.rel _ _ ⟨(n, 0, 0), ?_, rfl, rfl⟩
    unfold capacitiveWires
    refine List.mem_append.2 (Or.inr (List.mem_map.2 ⟨n, List.mem_filter.2 ⟨h2, ?_⟩, rfl⟩))
    rw [decide_eq_true_eq]
    rcases h3 with h3 | h3
    · refine add_pos_of_pos_of_nonneg ?_ (load_nonneg hn n)
      unfold gateCapacitance
      rw [h3]
      exact gatedReal_pos _
    · refine add_pos_of_nonneg_of_pos (gate_nonneg hn n) ?_
      unfold resonatorLoad
      rw [h3]
      exact div_pos (mul_pos (gatedReal_pos _) (gatedReal_pos _)) (add_pos (gatedReal_pos _) (gatedReal_pos _))

-- … all hypotheses of C74 and C75 hold for it, with positive values: the matrices exist, that of the circuit is invertible …
example : ∃ g' C C', loadedCircuit Orc.id gated = (g', .ok ()) ∧ capacitance gatedReal (resonatorCap gatedReal) gated = .ok C ∧
    capacitance gatedReal (resonatorCap gatedReal) g' = .ok C' ∧ Nonneg gatedReal gatedCalls gated ∧
    (C.block (nodes gated).length (nodes gated).length).det ≠ 0 ∧
    ∃ L, inverseInductance gatedReal g' (fun A => A.map fun x => x⁻¹) = .ok L ∧
    ∀ M, branchInductance gatedReal g' = .ok M → IsPinv (M.block (edges g').length (edges g').length) ((M.block _ _).map fun x => x⁻¹) := by
  have hl : loadedCircuit Orc.id gated = ((loadedCircuit Orc.id gated).1, .ok ()) := by
    apply Prod.ext
    · rfl
    · decide +kernel
  have ho : Orc.id.OK := ⟨fun l => List.Perm.refl l, fun l => List.Perm.refl l⟩
  have hn : Nonneg gatedReal gatedCalls gated :=
    ⟨fun _ _ => (gatedReal_pos _).le, fun _ _ _ _ _ => (gatedReal_pos _).le, fun _ _ _ => ⟨(gatedReal_pos _).le, (gatedReal_pos _).le⟩⟩
  have hC : ∃ C, capacitance gatedReal (resonatorCap gatedReal) gated = .ok C := ⟨_, rfl⟩
  have hC' : ∃ C, capacitance gatedReal (resonatorCap gatedReal) (loadedCircuit Orc.id gated).1 = .ok C := ⟨_, rfl⟩
  have hL : ∃ L, inverseInductance gatedReal (loadedCircuit Orc.id gated).1 (fun A => A.map fun x => x⁻¹) = .ok L := ⟨_, rfl⟩
  obtain ⟨C, hC⟩ := hC
  obtain ⟨C', hC'⟩ := hC'
  obtain ⟨L, hL⟩ := hL
  obtain ⟨hs', _, _, hcc, _⟩ := loaded_facts ho gated_settled hl
  refine ⟨_, C, C', hl, hC, hC', hn, ?_, L, hL, ?_⟩
  · exact gated_det hC
  · intro M hM
    exact uncoupled_pinv _ _ hs' (hcc.trans (by decide +kernel)) _ M hM

end Verif.Props
