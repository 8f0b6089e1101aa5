import Verif.Model.Loops
import Verif.Spec.Loops
import Verif.Lemmas.CircuitForest
import Verif.Lemmas.CircuitInv
import Verif.Lemmas.CircuitLoops

/-!
# Loops modulo 2
-/

namespace Verif.Circuit

open Verif Verif.Spec

/-- A branch without its key. -/
def flat (e : Edge) : Edge := (e.1, e.2.1, 0)

theorem named_flat (e : Edge) : named (flat e) = flat (named e) := by
  unfold named flat; split_ifs <;> rfl

theorem flat_flat (e : Edge) : flat (flat e) = flat e := rfl

theorem named_named (e : Edge) : named (named e) = named e := by
  unfold named; split_ifs with h1 h2 h2
  · rfl
  · rfl
  · simp at h2; omega

theorem endsOn_named (e : Edge) (n : Node) : endsOn (named e) n = endsOn e n := by
  unfold named endsOn; split_ifs <;> simp_all

theorem parity_nil (e : Edge) : parity [] e = 0 := rfl

theorem parity_cons (x : Edge) (l : List Edge) (e : Edge) : parity (x :: l) e = (if named x = e then 1 else 0) + parity l e := by
  unfold parity
  rw [List.map_cons, List.count_cons]
  split_ifs with h1 h2 h2
  · push_cast; ring
  · exact absurd (by simpa using h1) h2
  · exact absurd (by simp [h2]) h1
  · push_cast; ring

theorem parity_congr {l l' : List Edge} (h : l.map named = l'.map named) (e : Edge) : parity l e = parity l' e := by
  unfold parity; rw [h]

theorem parity_zero {l : List Edge} {e : Edge} (h : e ∉ l.map named) : parity l e = 0 := by
  unfold parity; rw [List.count_eq_zero.2 h]; rfl

/-- A sum of some loops of a list. -/
def comb (a : List (ZMod 2)) (ls : List (List Edge)) (e : Edge) : ZMod 2 := ((a.zip ls).map fun p => p.1 * parity p.2 e).sum

theorem comb_nil (ls : List (List Edge)) (e : Edge) : comb [] ls e = 0 := rfl

theorem comb_cons (x : ZMod 2) (a : List (ZMod 2)) (l : List Edge) (ls : List (List Edge)) (e : Edge) :
    comb (x :: a) (l :: ls) e = x * parity l e + comb a ls e := rfl

theorem comb_append {a a' : List (ZMod 2)} {ls ls' : List (List Edge)} (h : a.length = ls.length) (e : Edge) :
    comb (a ++ a') (ls ++ ls') e = comb a ls e + comb a' ls' e := by
  unfold comb; rw [List.zip_append h, List.map_append, List.sum_append]

theorem comb_zero {ls : List (List Edge)} {e : Edge} (h : ∀ l ∈ ls, e ∉ l.map named) : ∀ a : List (ZMod 2), comb a ls e = 0 := by
  induction ls with
  | nil => intro a; unfold comb; simp
  | cons l ls ih =>
    intro a
    cases a with
    | nil => rfl
    | cons x a =>
      rw [comb_cons, parity_zero (h l List.mem_cons_self), ih (fun l' hl' => h l' (List.mem_cons_of_mem _ hl'))]
      ring

theorem fin_comb (ls : List (List Edge)) (a : Fin ls.length → ZMod 2) (e : Edge) : ∑ i, a i * parity (ls.get i) e = comb (List.ofFn a) ls e := by
  unfold comb
  rw [← List.sum_ofFn]
  congr 1
  apply List.ext_getElem
  · simp
  · intro i h1 h2
    simp

theorem rep_iff (ls : List (List Edge)) (f : Edge → ZMod 2) :
    (∃! a : Fin ls.length → ZMod 2, ∀ e, f e = ∑ i, a i * parity (ls.get i) e) ↔
      ∃! a : List (ZMod 2), a.length = ls.length ∧ ∀ e, f e = comb a ls e := by
  have back : ∀ a : List (ZMod 2), a.length = ls.length → ∃ b : Fin ls.length → ZMod 2, List.ofFn b = a := by
    intro a ha
    refine ⟨fun i => a.get (i.cast ha.symm), ?_⟩
    apply List.ext_getElem
    · simp [ha]
    · intro i h1 h2
      simp
  constructor
  · rintro ⟨a, ha, hu⟩
    refine ⟨List.ofFn a, ⟨by simp, fun e => by rw [ha e, fin_comb]⟩, ?_⟩
    rintro b ⟨hb, hf⟩
    obtain ⟨b, rfl⟩ := back b hb
    rw [hu b fun e => by rw [hf e, fin_comb]]
  · rintro ⟨a, ⟨hl, ha⟩, hu⟩
    obtain ⟨a, rfl⟩ := back a hl
    refine ⟨a, fun e => by rw [ha e, fin_comb], fun b hb => ?_⟩
    exact List.ofFn_injective (hu (List.ofFn b) ⟨by simp, fun e => by rw [← fin_comb]; exact hb e⟩)

/-! ### Parallel branches -/

theorem twoLoops_cons (x y : Edge) (r : List Edge) : twoLoops (x :: y :: r) = [x, y] :: twoLoops (y :: r) := rfl

theorem mem_twoLoops : ∀ (v : List Edge) (l : List Edge), l ∈ twoLoops v → ∃ x ∈ v, ∃ y ∈ v, l = [x, y] := by
  intro v l h
  unfold twoLoops at h
  obtain ⟨p, hp, rfl⟩ := List.mem_map.1 h
  have := List.of_mem_zip hp
  exact ⟨p.1, this.1, p.2, List.mem_of_mem_tail this.2, rfl⟩

theorem twoLoops_zero {v : List Edge} {e : Edge} (h : e ∉ v.map named) (a : List (ZMod 2)) : comb a (twoLoops v) e = 0 := by
  refine comb_zero (fun l hl he => h ?_) a
  obtain ⟨x, hx, y, hy, rfl⟩ := mem_twoLoops v l hl
  simp only [List.map_cons, List.map_nil, List.mem_cons, List.not_mem_nil, or_false] at he
  rcases he with rfl | rfl
  · exact List.mem_map.2 ⟨x, hx, rfl⟩
  · exact List.mem_map.2 ⟨y, hy, rfl⟩

theorem two_two (x : ZMod 2) : x + x = 0 := by
  have : (2 : ZMod 2) = 0 := by decide
  rw [← two_mul, this, zero_mul]

theorem eq_of_add_zero {x y : ZMod 2} (h : x + y = 0) : x = y := by
  have := congrArg (· + y) h
  simpa [add_assoc, two_two] using this

theorem two_rep : ∀ (v : List Edge), (v.map named).Nodup → ∀ f : Edge → ZMod 2, (∀ e, f e ≠ 0 → e ∈ v.map named) → ((v.map named).map f).sum = 0 →
    ∃! a : List (ZMod 2), a.length = (twoLoops v).length ∧ ∀ e, f e = comb a (twoLoops v) e
  | [], _, f, hf, _ => by
    refine ⟨[], ⟨rfl, fun e => ?_⟩, fun b hb => List.length_eq_zero_iff.1 hb.1⟩
    by_contra h
    exact absurd (hf e h) (by simp)
  | [x], _, f, hf, hs => by
    refine ⟨[], ⟨rfl, fun e => ?_⟩, fun b hb => List.length_eq_zero_iff.1 hb.1⟩
    by_contra h
    have := hf e h
    simp only [List.map_cons, List.map_nil, List.mem_cons, List.not_mem_nil, or_false] at this
    subst this
    apply h
    rw [comb_nil]
    simpa using hs
  | x :: y :: r, hn, f, hf, hs => by
    have hn' : (List.map named (y :: r)).Nodup := by
      rw [List.map_cons] at hn
      exact (List.nodup_cons.1 hn).2
    have hx : named x ∉ List.map named (y :: r) := by
      rw [List.map_cons] at hn
      exact (List.nodup_cons.1 hn).1
    have hxy : named x ≠ named y := fun h => hx (by rw [h]; simp)
    have hpx : parity [x, y] (named x) = 1 := by
      rw [parity_cons, parity_cons, parity_nil, if_pos rfl, if_neg hxy.symm]; ring
    have hpy : parity [x, y] (named y) = 1 := by
      rw [parity_cons, parity_cons, parity_nil, if_neg hxy, if_pos rfl]; ring
    have hp0 : ∀ e, e ≠ named x → e ≠ named y → parity [x, y] e = 0 := by
      intro e h1 h2
      rw [parity_cons, parity_cons, parity_nil, if_neg h1.symm, if_neg h2.symm]; ring
    obtain ⟨a, ⟨hl, ha⟩, hu⟩ := two_rep (y :: r) hn' (fun e => f e + f (named x) * parity [x, y] e) (by
      intro e he
      by_cases h1 : e = named x
      · subst h1
        exact absurd (by rw [hpx, mul_one, two_two]) he
      by_cases h2 : e = named y
      · rw [h2]; simp
      rw [hp0 e h1 h2, mul_zero, add_zero] at he
      have := hf e he
      rw [List.map_cons] at this
      rcases List.mem_cons.1 this with h | h
      · exact absurd h h1
      · exact h) (by
      rw [List.map_cons, List.map_cons, List.sum_cons, hpy]
      have : (List.map (fun e => f e + f (named x) * parity [x, y] e) (List.map named r)) = List.map f (List.map named r) := by
        apply List.map_congr_left
        intro e he
        rw [hp0 e (fun h => hx (by rw [← h]; exact List.mem_cons_of_mem _ he)) (fun h => (List.nodup_cons.1 hn').1 (by rw [← h]; exact he))]
        ring
      rw [this]
      rw [List.map_cons, List.map_cons, List.map_cons, List.map_cons, List.sum_cons, List.sum_cons] at hs
      rw [← hs]
      ring)
    refine ⟨f (named x) :: a, ⟨by rw [twoLoops_cons, List.length_cons, List.length_cons, hl], fun e => ?_⟩, ?_⟩
    · rw [twoLoops_cons, comb_cons, ← ha e, add_left_comm, two_two, add_zero]
    · rintro b ⟨hb, hbf⟩
      cases b with
      | nil => rw [twoLoops_cons] at hb; simp at hb
      | cons b0 b =>
        rw [twoLoops_cons, List.length_cons, List.length_cons] at hb
        have h0 : b0 = f (named x) := by
          have := hbf (named x)
          rw [twoLoops_cons, comb_cons, hpx, twoLoops_zero hx] at this
          rw [this]; ring
        rw [hu b ⟨by omega, fun e => by
          rw [hbf e, twoLoops_cons, comb_cons, ← h0, add_comm (b0 * _), add_assoc, two_two, add_zero]⟩, h0]

theorem groups_rep : ∀ (vs : List (List Edge)), (vs.flatten.map named).Nodup → ∀ f : Edge → ZMod 2, (∀ e, f e ≠ 0 → e ∈ vs.flatten.map named) →
    (∀ v ∈ vs, ((v.map named).map f).sum = 0) → ∃! a : List (ZMod 2), a.length = (vs.flatMap twoLoops).length ∧ ∀ e, f e = comb a (vs.flatMap twoLoops) e := by
  intro vs
  induction vs with
  | nil =>
    intro _ f hf _
    refine ⟨[], ⟨rfl, fun e => ?_⟩, fun b hb => List.length_eq_zero_iff.1 hb.1⟩
    by_contra h
    exact absurd (hf e h) (by simp)
  | cons v vs ih =>
    intro hn f hf hs
    rw [List.flatten_cons, List.map_append] at hn hf
    obtain ⟨hn1, hn2, hdis⟩ := List.nodup_append.1 hn
    have hd : ∀ e, e ∈ v.map named → e ∉ vs.flatten.map named := fun e h1 h2 => hdis e h1 e h2 rfl
    have hz : ∀ e a, e ∈ v.map named → comb a (vs.flatMap twoLoops) e = 0 := by
      intro e a he
      refine comb_zero (fun l hl hle => hd e he ?_) a
      obtain ⟨w, hw, hl⟩ := List.mem_flatMap.1 hl
      obtain ⟨x, hx, y, hy, rfl⟩ := mem_twoLoops w l hl
      simp only [List.map_cons, List.map_nil, List.mem_cons, List.not_mem_nil, or_false] at hle
      rcases hle with rfl | rfl
      · exact List.mem_map.2 ⟨x, List.mem_flatten.2 ⟨w, hw, hx⟩, rfl⟩
      · exact List.mem_map.2 ⟨y, List.mem_flatten.2 ⟨w, hw, hy⟩, rfl⟩
    obtain ⟨a, ⟨al, ha⟩, hua⟩ := two_rep v hn1 (fun e => if e ∈ v.map named then f e else 0) (by
      intro e he; by_contra h; exact he (if_neg h)) (by
      rw [← hs v List.mem_cons_self]
      congr 1
      exact List.map_congr_left fun e he => if_pos he)
    obtain ⟨b, ⟨bl, hb⟩, hub⟩ := ih hn2 (fun e => if e ∈ v.map named then 0 else f e) (by
      intro e he
      by_cases h : e ∈ v.map named
      · exact absurd (if_pos h) he
      · rw [if_neg h] at he
        rcases List.mem_append.1 (hf e he) with h' | h'
        · exact absurd h' h
        · exact h') (by
      intro w hw
      rw [← hs w (List.mem_cons_of_mem _ hw)]
      congr 1
      apply List.map_congr_left
      intro e he
      refine if_neg fun h => hd e h ?_
      obtain ⟨x, hx, rfl⟩ := List.mem_map.1 he
      exact List.mem_map.2 ⟨x, List.mem_flatten.2 ⟨w, hw, hx⟩, rfl⟩)
    have hcs : (v :: vs).flatMap twoLoops = twoLoops v ++ vs.flatMap twoLoops := List.flatMap_cons
    refine ⟨a ++ b, ⟨by rw [hcs, List.length_append, List.length_append, al, bl], fun e => ?_⟩, ?_⟩
    · rw [hcs, comb_append al, ← ha e, ← hb e]
      split_ifs <;> simp
    · rintro c ⟨hl, hc⟩
      rw [hcs, List.length_append] at hl
      have hsplit : c = c.take (twoLoops v).length ++ c.drop (twoLoops v).length := (List.take_append_drop _ _).symm
      have htl : (c.take (twoLoops v).length).length = (twoLoops v).length := by rw [List.length_take]; omega
      have hce : ∀ e, f e = comb (c.take (twoLoops v).length) (twoLoops v) e + comb (c.drop (twoLoops v).length) (vs.flatMap twoLoops) e := by
        intro e
        rw [hc e, hcs]
        conv_lhs => rw [hsplit]
        exact comb_append htl e
      rw [hsplit]
      congr 1
      · refine hua _ ⟨htl, fun e => ?_⟩
        by_cases he : e ∈ v.map named
        · simp only [if_pos he]
          rw [hce e, hz e _ he, add_zero]
        · simp only [if_neg he]
          rw [twoLoops_zero he]
      · refine hub _ ⟨by rw [List.length_drop]; omega, fun e => ?_⟩
        by_cases he : e ∈ v.map named
        · simp only [if_pos he]
          rw [hz e _ he]
        · simp only [if_neg he]
          rw [hce e, twoLoops_zero he, zero_add]

/-! ### From the multigraph to the simple graph -/

theorem sum_single {L : List Edge} (hn : L.Nodup) {a : Edge} (ha : a ∈ L) (h : Edge → ZMod 2) : (L.map fun e => if a = e then h e else 0).sum = h a := by
  rw [← List.sum_toFinset _ hn, Finset.sum_ite_eq, if_pos (List.mem_toFinset.2 ha)]

/-- The choice of edges of the simple graph that belongs to a choice of branches. -/
def proj (L : List Edge) (f : Edge → ZMod 2) (x : Edge) : ZMod 2 := (L.map fun e => if flat e = x then f e else 0).sum

theorem proj_add (L : List Edge) (f g : Edge → ZMod 2) (x : Edge) : proj L (fun e => f e + g e) x = proj L f x + proj L g x := by
  unfold proj
  rw [← List.sum_map_add]
  congr 1
  apply List.map_congr_left
  intro e _
  split_ifs <;> simp

theorem proj_mul (L : List Edge) (c : ZMod 2) (f : Edge → ZMod 2) (x : Edge) : proj L (fun e => c * f e) x = c * proj L f x := by
  unfold proj
  rw [← List.sum_map_mul_left]
  congr 1
  apply List.map_congr_left
  intro e _
  split_ifs <;> simp

theorem proj_congr {L : List Edge} {f g : Edge → ZMod 2} (h : ∀ e, f e = g e) (x : Edge) : proj L f x = proj L g x := by
  rw [show f = g from funext h]

theorem proj_parity {L : List Edge} (hn : L.Nodup) (x : Edge) : ∀ l : List Edge, (∀ e ∈ l, named e ∈ L) → proj L (parity l) x = parity (l.map flat) x := by
  intro l
  induction l with
  | nil =>
    intro _
    unfold proj
    rw [List.map_nil, parity_nil]
    apply List.sum_eq_zero
    intro y hy
    obtain ⟨e, _, rfl⟩ := List.mem_map.1 hy
    rw [parity_nil]; split_ifs <;> rfl
  | cons y l ih =>
    intro h
    rw [List.map_cons, parity_cons, ← ih fun e he => h e (List.mem_cons_of_mem _ he), proj_congr (parity_cons y l), proj_add]
    congr 1
    unfold proj
    rw [named_flat, ← sum_single hn (h y List.mem_cons_self) fun e => if flat e = x then 1 else 0]
    congr 1
    apply List.map_congr_left
    intro e _
    dsimp only
    split_ifs <;> rfl

theorem proj_comb {L : List Edge} (hn : L.Nodup) (x : Edge) : ∀ (ls : List (List Edge)) (a : List (ZMod 2)), (∀ l ∈ ls, ∀ e ∈ l, named e ∈ L) →
    proj L (comb a ls) x = comb a (ls.map fun l => l.map flat) x := by
  have hz : proj L (fun _ => 0) x = 0 := by
    have := proj_mul L 0 (fun _ => 0) x
    simpa using this
  intro ls
  induction ls with
  | nil =>
    intro a _
    cases a <;> exact hz
  | cons l ls ih =>
    intro a h
    cases a with
    | nil => exact hz
    | cons c a =>
      rw [List.map_cons, comb_cons, proj_congr (comb_cons c a l ls), proj_add, proj_mul, proj_parity hn x l (h l List.mem_cons_self),
        ih a fun l' hl' => h l' (List.mem_cons_of_mem _ hl')]

theorem endsOn_flat (e : Edge) (n : Node) : endsOn (flat e) n = endsOn e n := rfl

theorem ends_sum {L : List Edge} (hn : L.Nodup) (n : Node) : ∀ l : List Edge, (∀ e ∈ l, named e ∈ L) →
    (L.map fun e => parity l e * endsOn e n).sum = (l.map fun e => endsOn e n).sum := by
  intro l
  induction l with
  | nil =>
    intro _
    apply List.sum_eq_zero
    intro y hy
    obtain ⟨e, _, rfl⟩ := List.mem_map.1 hy
    rw [parity_nil, zero_mul]
  | cons y l ih =>
    intro h
    rw [List.map_cons, List.sum_cons, ← ih fun e he => h e (List.mem_cons_of_mem _ he), ← endsOn_named,
      ← sum_single hn (h y List.mem_cons_self) fun e => endsOn e n, ← List.sum_map_add]
    congr 1
    apply List.map_congr_left
    intro e _
    rw [parity_cons, add_mul]
    split_ifs <;> simp

theorem proj_even {PN : List Edge} (hn : PN.Nodup) (f : Edge → ZMod 2) (n : Node) : ∀ L : List Edge, (∀ e ∈ L, flat e ∈ PN) →
    (PN.map fun x => proj L f x * endsOn x n).sum = (L.map fun e => f e * endsOn e n).sum := by
  intro L
  induction L with
  | nil =>
    intro _
    apply List.sum_eq_zero
    intro y hy
    obtain ⟨e, _, rfl⟩ := List.mem_map.1 hy
    unfold proj; simp
  | cons e L ih =>
    intro h
    rw [List.map_cons, List.sum_cons, ← ih fun e he => h e (List.mem_cons_of_mem _ he), ← endsOn_flat e,
      ← sum_single hn (h e List.mem_cons_self) fun x => f e * endsOn x n, ← List.sum_map_add]
    congr 1
    apply List.map_congr_left
    intro x _
    unfold proj
    rw [List.map_cons, List.sum_cons, add_mul]
    split_ifs <;> simp

/-- What the branches of a circuit are like. -/
structure Branches (bs : List Edge) : Prop where
  nodup : (bs.map named).Nodup
  pair : ∀ e ∈ bs, ∀ e' ∈ bs, named (flat e) = named (flat e') → (e.1, e.2.1) = (e'.1, e'.2.1)
  first : ∀ e ∈ bs, flat e ∈ bs
  second : ∀ e ∈ bs, ∀ e' ∈ bs, e ≠ e' → (e.1, e.2.1) = (e'.1, e'.2.1) → (e.1, e.2.1, 1) ∈ bs

/-- The branches between two nodes. -/
def group (bs : List Edge) (p : Node × Node) : List Edge := bs.filter fun e => decide ((e.1, e.2.1) = p)

theorem mem_group {bs : List Edge} {p : Node × Node} {e : Edge} : e ∈ group bs p ↔ e ∈ bs ∧ (e.1, e.2.1) = p := by
  unfold group; simp

theorem groups_nodup {bs : List Edge} (hn : (bs.map named).Nodup) : ∀ {ps : List (Node × Node)}, ps.Nodup → ((ps.map (group bs)).flatten.map named).Nodup := by
  intro ps
  induction ps with
  | nil => intro _; simp
  | cons p ps ih =>
    intro h
    rw [List.map_cons, List.flatten_cons, List.map_append, List.nodup_append]
    refine ⟨hn.sublist (List.Sublist.map _ List.filter_sublist), ih (List.nodup_cons.1 h).2, ?_⟩
    rintro a ha b hb rfl
    obtain ⟨e, he, rfl⟩ := List.mem_map.1 ha
    obtain ⟨e', he', hee⟩ := List.mem_map.1 hb
    obtain ⟨w, hw, he'⟩ := List.mem_flatten.1 he'
    obtain ⟨q, hq, rfl⟩ := List.mem_map.1 hw
    have h1 := mem_group.1 he
    have h2 := mem_group.1 he'
    have : e' = e := List.inj_on_of_nodup_map hn h2.1 h1.1 hee
    subst this
    exact (List.nodup_cons.1 h).1 (by rw [← h1.2, h2.2]; exact hq)

theorem simple_nodup {bs : List Edge} (hB : Branches bs) : (((simplePairs bs).map fun p => ((p.1, p.2, 0) : Edge)).map named).Nodup := by
  rw [List.map_map]
  apply (List.nodup_map_iff_inj_on (uniq_nodup _)).2
  intro p hp q hq h
  obtain ⟨e, he, rfl⟩ := List.mem_map.1 ((mem_uniq _ _).1 hp)
  obtain ⟨e', he', rfl⟩ := List.mem_map.1 ((mem_uniq _ _).1 hq)
  exact hB.pair e he e' he' h

theorem mem_simple {bs : List Edge} {e : Edge} (he : e ∈ bs) :
    named (flat e) ∈ ((simplePairs bs).map fun p => ((p.1, p.2, 0) : Edge)).map named := by
  refine List.mem_map.2 ⟨flat e, List.mem_map.2 ⟨(e.1, e.2.1), ?_, rfl⟩, rfl⟩
  exact (mem_uniq _ _).2 (List.mem_map.2 ⟨e, he, rfl⟩)

theorem group_sum {bs : List Edge} (hB : Branches bs) {p : Node × Node} (hp : p ∈ simplePairs bs) (f : Edge → ZMod 2) :
    (((group bs p).map named).map f).sum = proj (bs.map named) f (named (p.1, p.2, 0)) := by
  obtain ⟨e0, he0, rfl⟩ := List.mem_map.1 ((mem_uniq _ _).1 hp)
  unfold proj group
  rw [List.map_map, List.map_map]
  have : ∀ l : List Edge, (∀ e ∈ l, e ∈ bs) → (List.map (f ∘ named) (l.filter fun e => decide ((e.1, e.2.1) = (e0.1, e0.2.1)))).sum =
      (List.map ((fun e => if flat e = named (flat e0) then f e else 0) ∘ named) l).sum := by
    intro l
    induction l with
    | nil => intro _; rfl
    | cons e l ih =>
      intro h
      have ih := ih fun e he => h e (List.mem_cons_of_mem _ he)
      have he := h e List.mem_cons_self
      by_cases hp : (e.1, e.2.1) = (e0.1, e0.2.1)
      · have h2 : flat (named e) = named (flat e0) := by
          rw [← named_flat]
          simp only [Prod.mk.injEq] at hp
          unfold flat
          rw [hp.1, hp.2]
        rw [List.filter_cons_of_pos (by simpa using hp), List.map_cons, List.sum_cons, ih, List.map_cons, List.sum_cons]
        congr 1
        exact (if_pos h2).symm
      · have h2 : flat (named e) ≠ named (flat e0) := fun h => hp (hB.pair e he e0 he0 (by rw [named_flat]; exact h))
        rw [List.filter_cons_of_neg (by simpa using hp), ih, List.map_cons, List.sum_cons]
        rw [show ((fun e => if flat e = named (flat e0) then f e else 0) ∘ named) e = 0 from if_neg h2, zero_add]
  exact this bs fun e he => he

/-- What the longer loops are like: a cycle of the simple graph, with some branch for each of its edges. -/
structure Lifts (bs : List Edge) (cyc : List (List Node)) (cls : List (List Edge)) : Prop where
  flat : cls.map (fun l => (l.map flat).map named) = cyc.map fun c => (around c).map named
  mem : ∀ l ∈ cls, ∀ e ∈ l, named e ∈ bs.map named

theorem comb_named {ls ls' : List (List Edge)} (h : ls.map (fun l => l.map named) = ls'.map fun l => l.map named) (e : Edge) :
    ∀ a, comb a ls e = comb a ls' e := by
  induction ls generalizing ls' with
  | nil =>
    intro a
    cases ls' with
    | nil => rfl
    | cons => simp at h
  | cons l ls ih =>
    intro a
    cases ls' with
    | nil => simp at h
    | cons l' ls' =>
      rw [List.map_cons, List.map_cons, List.cons.injEq] at h
      cases a with
      | nil => rfl
      | cons c a => rw [comb_cons, comb_cons, parity_congr h.1, ih h.2 a]

theorem loops_basis {bs : List Edge} (hB : Branches bs) {cyc : List (List Node)} (hc : CycleBasis (simplePairs bs) cyc) {cls : List (List Edge)}
    (hl : Lifts bs cyc cls) : LoopBasis bs ((simplePairs bs).flatMap (fun p => twoLoops (group bs p)) ++ cls) := by
  have h2 : (simplePairs bs).flatMap (fun p => twoLoops (group bs p)) = ((simplePairs bs).map (group bs)).flatMap twoLoops := by
    rw [List.flatMap_map]
  have m2 : ∀ l ∈ (simplePairs bs).flatMap (fun p => twoLoops (group bs p)), ∃ x ∈ bs, ∃ y ∈ bs, (x.1, x.2.1) = (y.1, y.2.1) ∧ l = [x, y] := by
    intro l h
    obtain ⟨p, hp, h⟩ := List.mem_flatMap.1 h
    obtain ⟨x, hx, y, hy, rfl⟩ := mem_twoLoops _ _ h
    have hx := mem_group.1 hx
    have hy := mem_group.1 hy
    exact ⟨x, hx.1, y, hy.1, by rw [hx.2, hy.2], rfl⟩
  have flat2 : ∀ {x y : Edge}, (x.1, x.2.1) = (y.1, y.2.1) → flat x = flat y := by
    intro x y h
    simp only [Prod.mk.injEq] at h
    unfold flat; rw [h.1, h.2]
  have mem2 : ∀ l ∈ (simplePairs bs).flatMap (fun p => twoLoops (group bs p)), ∀ e ∈ l, named e ∈ bs.map named := by
    intro l h e he
    obtain ⟨x, hx, y, hy, _, rfl⟩ := m2 l h
    simp only [List.mem_cons, List.not_mem_nil, or_false] at he
    rcases he with rfl | rfl
    · exact List.mem_map.2 ⟨_, hx, rfl⟩
    · exact List.mem_map.2 ⟨_, hy, rfl⟩
  have closed_of : ∀ l : List Edge, (∀ e ∈ l, named e ∈ bs.map named) → (∀ n, (l.map fun e => endsOn e n).sum = 0) → Closed bs (parity l) := by
    intro l hm hs
    refine ⟨fun e he => ?_, fun n => by rw [ends_sum hB.nodup n l hm, hs n]⟩
    by_contra h
    apply he
    apply parity_zero
    intro h'
    obtain ⟨y, hy, rfl⟩ := List.mem_map.1 h'
    exact h (List.mem_map.1 (hm y hy))
  have hflat : ∀ e ∈ bs.map named, flat e ∈ ((simplePairs bs).map fun p => ((p.1, p.2, 0) : Edge)).map named := by
    intro e he
    obtain ⟨b, hb, rfl⟩ := List.mem_map.1 he
    rw [← named_flat]; exact mem_simple hb
  have pz : ∀ a x, proj (bs.map named) (comb a ((simplePairs bs).flatMap (fun p => twoLoops (group bs p)))) x = 0 := by
    intro a x
    rw [proj_comb hB.nodup x _ a mem2]
    have : ∀ (ls : List (List Edge)), (∀ l ∈ ls, ∃ x ∈ bs, ∃ y ∈ bs, (x.1, x.2.1) = (y.1, y.2.1) ∧ l = [x, y]) → ∀ a,
        comb a (ls.map fun l => l.map flat) x = 0 := by
      intro ls
      induction ls with
      | nil => intro _ a; cases a <;> rfl
      | cons l ls ih =>
        intro h a
        cases a with
        | nil => rfl
        | cons c a =>
          obtain ⟨u, _, v, _, he, rfl⟩ := h l List.mem_cons_self
          rw [List.map_cons, comb_cons, ih (fun l' hl' => h l' (List.mem_cons_of_mem _ hl')), List.map_cons, List.map_cons, List.map_nil,
            flat2 he, parity_cons, parity_cons, parity_nil, add_zero, add_zero, two_two]
          ring
    exact this _ m2 a
  have pc : ∀ a x, proj (bs.map named) (comb a cls) x = comb a (cyc.map around) x := by
    intro a x
    rw [proj_comb hB.nodup x _ a hl.mem]
    apply comb_named
    rw [List.map_map, List.map_map]
    exact hl.flat
  refine ⟨fun l h => ?_, fun f hf => (rep_iff _ f).2 ?_⟩
  · rcases List.mem_append.1 h with h | h
    · obtain ⟨x, hx, y, hy, he, rfl⟩ := m2 l h
      refine closed_of _ (mem2 _ h) fun n => ?_
      rw [List.map_cons, List.map_cons, List.map_nil, List.sum_cons, List.sum_cons, List.sum_nil, add_zero,
        ← endsOn_flat x, flat2 he, endsOn_flat, two_two]
    · refine closed_of _ (hl.mem l h) fun n => ?_
      have h1 : (l.map flat).map named ∈ cyc.map fun c => (around c).map named := by
        rw [← hl.flat]; exact List.mem_map.2 ⟨l, h, rfl⟩
      obtain ⟨c, hcm, hce⟩ := List.mem_map.1 h1
      have h2 := (hc.basis.closed (around c) (List.mem_map.2 ⟨c, hcm, rfl⟩)).even n
      rw [ends_sum (simple_nodup hB) n] at h2
      · rw [← h2]
        have e1 : (l.map fun e => endsOn e n) = ((l.map flat).map named).map fun e => endsOn e n := by
          rw [List.map_map, List.map_map]
          exact List.map_congr_left fun e _ => by simp only [Function.comp_apply, endsOn_named, endsOn_flat]
        have e2 : ((around c).map fun e => endsOn e n) = ((around c).map named).map fun e => endsOn e n := by
          rw [List.map_map]
          exact List.map_congr_left fun e _ => by simp only [Function.comp_apply, endsOn_named]
        rw [e1, e2, hce]
      · intro e he
        have hk : e.2.2 = 0 := by
          unfold around at he
          obtain ⟨p, _, rfl⟩ := List.mem_map.1 he
          rfl
        have hpar : named e ∈ (l.map flat).map named := by rw [← hce]; exact List.mem_map.2 ⟨e, he, rfl⟩
        obtain ⟨y, hy, hye⟩ := List.mem_map.1 hpar
        obtain ⟨z, hz, rfl⟩ := List.mem_map.1 hy
        obtain ⟨b, hb, hbz⟩ := List.mem_map.1 (hl.mem l h z hz)
        rw [← hye, named_flat, ← hbz, ← named_flat]
        exact mem_simple hb
  · have hPf : Closed ((simplePairs bs).map fun p => (p.1, p.2, 0)) (proj (bs.map named) f) := by
      refine ⟨fun x hx => ?_, fun n => ?_⟩
      · by_contra h
        apply hx
        unfold proj
        apply List.sum_eq_zero
        intro y hy
        obtain ⟨e, he, rfl⟩ := List.mem_map.1 hy
        refine if_neg fun h' => h ?_
        have := hflat e he
        rw [h'] at this
        exact List.mem_map.1 this
      · rw [proj_even (simple_nodup hB) f n _ hflat]
        exact hf.even n
    obtain ⟨c, ⟨cl, hcf⟩, huc⟩ := (rep_iff _ _).1 (hc.basis.unique _ hPf)
    have hlen : cls.length = (cyc.map around).length := by
      have := congrArg List.length hl.flat
      simpa using this
    have hin : ∀ a : List (ZMod 2), ∀ e, comb a cls e ≠ 0 → e ∈ bs.map named := by
      intro a e he
      by_contra h
      exact he (comb_zero (fun l hl' hle => h (by
        obtain ⟨y, hy, rfl⟩ := List.mem_map.1 hle
        exact hl.mem l hl' y hy)) a)
    have hg : ∀ c' : List (ZMod 2), (∀ x, proj (bs.map named) f x = comb c' (cyc.map around) x) →
        ∃! a : List (ZMod 2), a.length = ((simplePairs bs).flatMap (fun p => twoLoops (group bs p))).length ∧
          ∀ e, f e + comb c' cls e = comb a ((simplePairs bs).flatMap (fun p => twoLoops (group bs p))) e := by
      intro c' hc'
      rw [h2]
      have hnd := groups_nodup hB.nodup (uniq_nodup (bs.map fun e => (e.1, e.2.1)))
      refine groups_rep _ hnd (fun e => f e + comb c' cls e) ?_ ?_
      · intro e he
        have : e ∈ bs.map named := by
          by_contra h
          apply he
          have h1 : f e = 0 := by
            by_contra h1
            exact h (List.mem_map.2 (hf.branches e h1))
          have h2 : comb c' cls e = 0 := by
            by_contra h2
            exact h (hin _ _ h2)
          simp only [h1, h2, add_zero]
        obtain ⟨b, hb, rfl⟩ := List.mem_map.1 this
        refine List.mem_map.2 ⟨b, List.mem_flatten.2 ⟨group bs (b.1, b.2.1), List.mem_map.2 ⟨_, ?_, rfl⟩, mem_group.2 ⟨hb, rfl⟩⟩, rfl⟩
        exact (mem_uniq _ _).2 (List.mem_map.2 ⟨b, hb, rfl⟩)
      · intro v hv
        obtain ⟨p, hp, rfl⟩ := List.mem_map.1 hv
        rw [group_sum hB hp, proj_add, pc, hc', two_two]
    obtain ⟨a, ⟨al, ha⟩, hua⟩ := hg c hcf
    refine ⟨a ++ c, ⟨by rw [List.length_append, List.length_append, al, cl, hlen], fun e => ?_⟩, ?_⟩
    · rw [comb_append al, ← ha e, add_assoc, two_two, add_zero]
    · rintro d ⟨hd, hdf⟩
      rw [List.length_append] at hd
      set k := ((simplePairs bs).flatMap (fun p => twoLoops (group bs p))).length with hk
      have hsplit : d = d.take k ++ d.drop k := (List.take_append_drop _ _).symm
      have htl : (d.take k).length = k := by rw [List.length_take]; omega
      have hde : ∀ e, f e = comb (d.take k) ((simplePairs bs).flatMap (fun p => twoLoops (group bs p))) e + comb (d.drop k) cls e := by
        intro e
        rw [hdf e]
        conv_lhs => rw [hsplit]
        exact comb_append htl e
      have h1 : d.drop k = c := by
        refine huc _ ⟨by rw [List.length_drop, ← hlen]; omega, fun x => ?_⟩
        rw [← pc, proj_congr hde, proj_add, pz, zero_add]
      rw [hsplit, h1]
      congr 1
      refine hua _ ⟨htl, fun e => ?_⟩
      rw [hde e, h1, add_assoc, two_two, add_zero]

/-! ### The branches of the circuit graph -/

theorem full_of_small {K : List ℕ} (hn : K.Nodup) (h : ∀ k ∈ K, k < K.length) : ∀ k < K.length, k ∈ K := by
  have h1 : K.toFinset = Finset.range K.length := by
    apply Finset.eq_of_subset_of_card_le
    · intro k hk
      exact Finset.mem_range.2 (h k (List.mem_toFinset.1 hk))
    · rw [Finset.card_range, List.toFinset_card_of_nodup hn]
  intro k hk
  rw [← List.mem_toFinset, h1]
  exact Finset.mem_range.2 hk

theorem named_eq_iff {e e' : Edge} : named e = named e' ↔ e = e' ∨ e = e'.rev := by
  obtain ⟨a, b, k⟩ := e
  obtain ⟨a', b', k'⟩ := e'
  unfold named Edge.rev
  simp only
  split_ifs <;> simp only [Prod.mk.injEq] <;> omega

theorem branches_of {G : MGraph} (h : GraphInv G) : Branches G.edges := by
  have hpair : ∀ e ∈ G.edges, ∀ e' ∈ G.edges, named (flat e) = named (flat e') → (e.1, e.2.1) = (e'.1, e'.2.1) := by
    intro e he e' he' hee
    obtain ⟨p, hp, rfl⟩ := List.mem_map.1 he
    obtain ⟨q, hq, rfl⟩ := List.mem_map.1 he'
    rcases named_eq_iff.1 hee with h1 | h1
    · unfold flat at h1
      simp only [Prod.mk.injEq] at h1 ⊢
      exact ⟨h1.1, h1.2.1⟩
    · unfold flat Edge.rev at h1
      simp only [Prod.mk.injEq] at h1
      have o1 := view_oriented h.toWF hp
      have o2 := view_oriented h.toWF hq
      rw [h1.1, h1.2.1] at o1
      have hi := le_antisymm o1 o2
      have := (List.idxOf_inj (view_mem_nodes h.toWF hq).2).1 hi
      rw [h1.1, h1.2.1, this]
  have hfull : ∀ e ∈ G.edges, ∀ k < G.newKey e.1 e.2.1, (e.1, e.2.1, k) ∈ G.edges := by
    intro e he k hk
    have hK := full_of_small (K := (G.es.filter fun p => MGraph.joins p.1 e.1 e.2.1).map fun p => p.1.2.2) (by
        rw [List.Nodup, List.pairwise_map]
        refine List.Pairwise.imp_of_mem ?_ (h.keys.sublist List.filter_sublist)
        intro p q hp hq hpq hk
        have hp := (MGraph.joins_iff _ _ _).1 (List.mem_filter.1 hp).2
        have hq := (MGraph.joins_iff _ _ _).1 (List.mem_filter.1 hq).2
        obtain ⟨⟨a, b, c⟩, s⟩ := p
        obtain ⟨⟨a', b', c'⟩, s'⟩ := q
        unfold Edge.rev at hpq
        simp only [ne_eq, Prod.mk.injEq, not_and] at hpq hp hq hk
        omega) (by
        intro k hk
        obtain ⟨p, hp, rfl⟩ := List.mem_map.1 hk
        have hj := (MGraph.joins_iff _ _ _).1 (List.mem_filter.1 hp).2
        have hs := h.small p (List.mem_filter.1 hp).1
        rw [List.length_map]
        rcases hj with ⟨h1, h2⟩ | ⟨h1, h2⟩
        · rw [h1, h2] at hs; exact hs
        · rw [h1, h2, newKey_comm] at hs; exact hs) k (by rw [List.length_map]; exact hk)
    obtain ⟨p, hp, rfl⟩ := List.mem_map.1 hK
    have hj := (MGraph.joins_iff _ _ _).1 (List.mem_filter.1 hp).2
    have hm : MGraph.orient G.nodes p.1 ∈ G.edges :=
      List.mem_map.2 ⟨_, (MGraph.mem_view h.toWF _).2 ⟨p, (List.mem_filter.1 hp).1, rfl⟩, rfl⟩
    have hf : named (flat (MGraph.orient G.nodes p.1)) = named (flat e) := by
      apply named_eq_iff.2
      rcases orient_cases G.nodes p.1 with h1 | h1 <;> rw [h1] <;> unfold flat Edge.rev <;> rcases hj with ⟨h2, h3⟩ | ⟨h2, h3⟩ <;> simp [h2, h3]
    have hp2 := hpair _ hm e he hf
    have hk2 : (MGraph.orient G.nodes p.1).2.2 = p.1.2.2 := by
      rcases orient_cases G.nodes p.1 with h1 | h1 <;> rw [h1]; rfl
    simp only [Prod.mk.injEq] at hp2
    rw [← hp2.1, ← hp2.2, ← hk2]
    exact hm
  have hlt : ∀ e ∈ G.edges, e.2.2 < G.newKey e.1 e.2.1 := by
    intro e he
    obtain ⟨x, hx, rfl⟩ := List.mem_map.1 he
    obtain ⟨p, hp, rfl⟩ := (MGraph.mem_view h.toWF x).1 hx
    have hs := h.small p hp
    simp only
    rcases orient_cases G.nodes p.1 with h1 | h1 <;> rw [h1]
    · exact hs
    · rw [newKey_comm]; exact hs
  have hnd : (G.edges.map named).Nodup := by
    unfold MGraph.edges
    rw [List.Nodup, List.map_map, List.pairwise_map]
    refine (view_keys h.toWF).imp ?_
    intro p q hpq he
    rcases named_eq_iff.1 he with h1 | h1
    · exact hpq.1 h1
    · exact hpq.2 h1
  refine ⟨hnd, hpair, fun e he => hfull e he 0 (lt_of_le_of_lt (Nat.zero_le _) (hlt e he)), fun e he e' he' hne hp => hfull e he 1 ?_⟩
  have h1 := hlt e he
  have h2 := hlt e' he'
  simp only [Prod.mk.injEq] at hp
  rw [← hp.1, ← hp.2] at h2
  have : e.2.2 ≠ e'.2.2 := fun h3 => hne (Prod.ext hp.1 (Prod.ext hp.2 h3))
  omega

/-! ### The loops of the code -/

theorem set_map {κ α : Type} [DecidableEq κ] (F : κ → α) (k : κ) (v : α) : ∀ ps : List κ, ps.Nodup → Dict.set (ps.map fun p => (p, F p)) k v =
    if k ∈ ps then ps.map fun p => (p, if p = k then v else F p) else (ps.map fun p => (p, F p)) ++ [(k, v)]
  | [], _ => by simp [Dict.set]
  | p :: ps, h => by
    rw [List.map_cons, Dict.set]
    have hp := (List.nodup_cons.1 h).1
    by_cases hk : p = k
    · subst hk
      rw [if_pos rfl, if_pos List.mem_cons_self, List.map_cons, if_pos rfl]
      congr 1
      apply List.map_congr_left
      intro q hq
      rw [if_neg (fun (e : q = p) => hp (e ▸ hq))]
    · rw [if_neg hk, set_map F k v ps (List.nodup_cons.1 h).2]
      by_cases hm : k ∈ ps
      · rw [if_pos hm, if_pos (List.mem_cons_of_mem _ hm), List.map_cons, if_neg hk]
      · rw [if_neg hm, if_neg (fun h' => by rcases List.mem_cons.1 h' with h' | h'; exact hk h'.symm; exact hm h'), List.cons_append]

theorem get?_map {κ α : Type} [DecidableEq κ] (F : κ → α) (k : κ) : ∀ ps : List κ, Dict.get? (ps.map fun p => (p, F p)) k = if k ∈ ps then some (F k) else none
  | [] => by simp
  | p :: ps => by
    rw [List.map_cons, Dict.get?_cons, get?_map F k ps]
    by_cases hk : p = k
    · subst hk; simp
    · have : k ≠ p := fun h => hk h.symm
      simp [hk, this]

theorem pairDict_eq (es : List Edge) : pairDict es = (simplePairs es).map fun p => (p, group es p) := by
  induction es using List.reverseRecOn with
  | nil => rfl
  | append_singleton es e ih =>
    unfold pairDict at ih ⊢
    rw [List.foldl_append, ih, List.foldl_cons, List.foldl_nil, get?_map, set_map _ _ _ (simplePairs es) (uniq_nodup _)]
    have hsp : simplePairs (es ++ [e]) = if (e.1, e.2.1) ∈ simplePairs es then simplePairs es else simplePairs es ++ [(e.1, e.2.1)] := by
      unfold simplePairs
      rw [List.map_append, List.map_cons, List.map_nil, uniq_snoc]
      split_ifs <;> rfl
    have hg : ∀ p, group (es ++ [e]) p = if p = (e.1, e.2.1) then group es p ++ [e] else group es p := by
      intro p
      unfold group
      rw [List.filter_append]
      by_cases hp : p = (e.1, e.2.1)
      · subst hp; simp
      · rw [if_neg hp, List.filter_cons_of_neg (by simpa using fun h => hp h.symm), List.filter_nil, List.append_nil]
    rw [hsp]
    by_cases hm : (e.1, e.2.1) ∈ simplePairs es
    · rw [if_pos hm, if_pos hm, if_pos hm]
      apply List.map_congr_left
      intro p _
      rw [hg p]
      split_ifs with h <;> simp_all
    · rw [if_neg hm, if_neg hm, if_neg hm, List.map_append, List.map_cons, List.map_nil, hg, if_pos rfl]
      have h0 : group es (e.1, e.2.1) = [] := by
        apply List.eq_nil_iff_forall_not_mem.2
        intro x hx
        exact hm ((mem_uniq _ _).2 (List.mem_map.2 ⟨x, (mem_group.1 hx).1, (mem_group.1 hx).2⟩))
      rw [h0]
      congr 1
      apply List.map_congr_left
      intro p hp
      rw [hg p, if_neg (fun h => hm (by rw [← h]; exact hp))]

theorem twoLoops_short {v : List Edge} (h : ¬ 1 < v.length) : twoLoops v = [] := by
  match v, h with
  | [], _ => rfl
  | [_], _ => rfl
  | _ :: _ :: _, h => simp at h

theorem duplicates_two (es : List Edge) : (duplicates es).flatMap (fun p => twoLoops p.2) = (simplePairs es).flatMap fun p => twoLoops (group es p) := by
  unfold duplicates
  rw [pairDict_eq]
  generalize simplePairs es = ps
  induction ps with
  | nil => rfl
  | cons p ps ih =>
    rw [List.map_cons, List.flatMap_cons]
    by_cases h : 1 < (group es p).length
    · rw [List.filter_cons_of_pos (by simpa using h), List.flatMap_cons, ih]
    · rw [List.filter_cons_of_neg (by simpa using h), ih, twoLoops_short h, List.nil_append]

/-- One of several parallel branches. -/
def Multi (bs : List Edge) (e : Edge) : Prop := e ∈ bs ∧ ∃ e' ∈ bs, e ≠ e' ∧ (e.1, e.2.1) = (e'.1, e'.2.1)

theorem mem_duplicates {es : List Edge} (hn : es.Nodup) {e : Edge} (h : e ∈ (duplicates es).flatMap Prod.snd) : Multi es e := by
  unfold duplicates at h
  rw [pairDict_eq] at h
  obtain ⟨x, hx, he⟩ := List.mem_flatMap.1 h
  obtain ⟨hx, hl⟩ := List.mem_filter.1 hx
  obtain ⟨p, hp, rfl⟩ := List.mem_map.1 hx
  have hg := mem_group.1 he
  refine ⟨hg.1, ?_⟩
  have hl : 1 < (group es p).length := by simpa using hl
  have hgn : (group es p).Nodup := hn.sublist List.filter_sublist
  obtain ⟨y, hy, hne⟩ : ∃ y ∈ group es p, e ≠ y := by
    by_contra hc
    push Not at hc
    have : (group es p).length ≤ 1 := by
      have h1 : group es p ⊆ [e] := fun y hy => by rw [hc y hy]; simp
      exact (hgn.subperm h1).length_le
    omega
  exact ⟨y, (mem_group.1 hy).1, hne, by rw [hg.2, (mem_group.1 hy).2]⟩

theorem bump_spec {M : Edge → Prop} : ∀ (l used multi : List Edge), (∀ e ∈ used, M e) → (∀ e ∈ multi, M e) →
    (bump used multi l).1.map flat = l.map flat ∧
      (∀ e ∈ (bump used multi l).1, e ∈ l ∨ ∃ e0 ∈ l, M e0 ∧ e = (e0.1, e0.2.1, e0.2.2 + 1)) ∧
      (∀ e ∈ (bump used multi l).2.1, M e) ∧ ∀ e ∈ (bump used multi l).2.2, M e
  | [], used, multi, hu, hm => ⟨rfl, by simp [bump], hu, hm⟩
  | e :: l, used, multi, hu, hm => by
    unfold bump
    by_cases h1 : e ∈ used
    · obtain ⟨i1, i2, i3, i4⟩ := bump_spec l used multi hu hm
      rw [if_pos h1]
      refine ⟨by simp only [List.map_cons, i1]; rfl, ?_, i3, i4⟩
      intro x hx
      rcases List.mem_cons.1 hx with rfl | hx
      · exact Or.inr ⟨e, List.mem_cons_self, hu e h1, rfl⟩
      · rcases i2 x hx with h | ⟨e0, h, h'⟩
        · exact Or.inl (List.mem_cons_of_mem _ h)
        · exact Or.inr ⟨e0, List.mem_cons_of_mem _ h, h'⟩
    · rw [if_neg h1]
      have step : ∀ used' multi', (∀ e ∈ used', M e) → (∀ e ∈ multi', M e) →
          (e :: (bump used' multi' l).1).map flat = (e :: l).map flat ∧
            (∀ x ∈ e :: (bump used' multi' l).1, x ∈ e :: l ∨ ∃ e0 ∈ e :: l, M e0 ∧ x = (e0.1, e0.2.1, e0.2.2 + 1)) ∧
            (∀ e ∈ (bump used' multi' l).2.1, M e) ∧ ∀ e ∈ (bump used' multi' l).2.2, M e := by
        intro used' multi' hu' hm'
        obtain ⟨i1, i2, i3, i4⟩ := bump_spec l used' multi' hu' hm'
        refine ⟨by simp only [List.map_cons, i1], ?_, i3, i4⟩
        intro x hx
        rcases List.mem_cons.1 hx with rfl | hx
        · exact Or.inl List.mem_cons_self
        · rcases i2 x hx with h | ⟨e0, h, h'⟩
          · exact Or.inl (List.mem_cons_of_mem _ h)
          · exact Or.inr ⟨e0, List.mem_cons_of_mem _ h, h'⟩
      by_cases h2 : e ∈ multi
      · rw [if_pos h2]
        refine step _ _ ?_ fun x hx => hm x (List.mem_of_mem_erase hx)
        intro x hx
        rcases List.mem_append.1 hx with hx | hx
        · exact hu x hx
        · rw [List.mem_singleton.1 hx]; exact hm e h2
      · rw [if_neg h2]
        exact step _ _ hu hm

theorem cycleLoops_spec {M : Edge → Prop} : ∀ (cyc : List (List Node)) (used multi : List Edge), (∀ e ∈ used, M e) → (∀ e ∈ multi, M e) →
    (cycleLoops used multi cyc).map (fun l => l.map flat) = cyc.map (fun c => (cycleEdges c).map flat) ∧
      ∀ l ∈ cycleLoops used multi cyc, ∃ c ∈ cyc, l.map flat = (cycleEdges c).map flat ∧
        ∀ e ∈ l, e ∈ cycleEdges c ∨ ∃ e0 ∈ cycleEdges c, M e0 ∧ e = (e0.1, e0.2.1, e0.2.2 + 1)
  | [], _, _, _, _ => ⟨rfl, by simp [cycleLoops]⟩
  | c :: cyc, used, multi, hu, hm => by
    obtain ⟨b1, b2, b3, b4⟩ := bump_spec (cycleEdges c) used multi hu hm
    obtain ⟨i1, i2⟩ := cycleLoops_spec cyc _ _ b3 b4
    unfold cycleLoops
    refine ⟨by simp only [List.map_cons, b1, i1], ?_⟩
    intro l hl
    rcases List.mem_cons.1 hl with rfl | hl
    · exact ⟨c, List.mem_cons_self, b1, b2⟩
    · obtain ⟨c', hc', h⟩ := i2 l hl
      exact ⟨c', List.mem_cons_of_mem _ hc', h⟩

theorem around_getElem (c : List Node) (i : ℕ) (h : i < (around c).length) :
    (around c)[i] = (c[i]'(by simpa [around] using h), c[(i + 1) % c.length]'(Nat.mod_lt _ (by have : i < c.length := by simpa [around] using h
                                                                                               omega)), 0) := by
  simp [around, List.getElem_rotate]

theorem around_length (c : List Node) : (around c).length = c.length := by simp [around]

theorem cycleEdges_named (c : List Node) : (cycleEdges c).map named = (around c).map named := by
  apply List.ext_getElem
  · simp [cycleEdges, around_length]
  · intro i h1 h2
    have hi : i < c.length := by simpa [cycleEdges] using h1
    rw [List.getElem_map, List.getElem_map, around_getElem]
    unfold cycleEdges
    rw [List.getElem_map, List.getElem_range]
    have hsort : ∀ e : Edge, named (if e.1 < e.2.1 then e else (e.2.1, e.1, e.2.2)) = named e := by
      intro e
      split_ifs
      · rfl
      · exact named_eq_iff.2 (Or.inr rfl)
    simp only
    rw [hsort]
    by_cases hl : i < c.length - 1
    · rw [if_pos hl]
      have hm : (i + 1) % c.length = i + 1 := Nat.mod_eq_of_lt (by omega)
      simp [hm, hi, show i + 1 < c.length by omega]
    · rw [if_neg hl]
      have hm : (i + 1) % c.length = 0 := by rw [show i + 1 = c.length by omega]; exact Nat.mod_self _
      apply named_eq_iff.2
      right
      unfold Edge.rev
      have h0 : 0 < c.length := by omega
      simp [hm, hi, h0]

theorem cycleEdges_key {c : List Node} {e : Edge} (h : e ∈ cycleEdges c) : flat e = e ∧ e.1 ≤ e.2.1 := by
  unfold cycleEdges at h
  obtain ⟨i, _, rfl⟩ := List.mem_map.1 h
  simp only
  split_ifs <;> constructor <;> first | rfl | (simp only at *; omega)

theorem lifts {G : MGraph} (h : GraphInv G) {cyc : List (List Node)} (hc : CycleBasis (simplePairs G.edges) cyc) :
    Lifts G.edges cyc (cycleLoops [] ((duplicates G.edges).flatMap Prod.snd) cyc) := by
  have hB := branches_of h
  obtain ⟨s1, s2⟩ := cycleLoops_spec (M := Multi G.edges) cyc [] ((duplicates G.edges).flatMap Prod.snd) (by simp)
    fun e he => mem_duplicates hB.nodup.of_map he
  refine ⟨?_, ?_⟩
  · have := congrArg (List.map (List.map named)) s1
    rw [List.map_map, List.map_map] at this
    rw [show (fun l : List Edge => (l.map flat).map named) = List.map named ∘ fun l => l.map flat from rfl, this]
    apply List.map_congr_left
    intro c _
    simp only [Function.comp_apply]
    rw [← cycleEdges_named]
    congr 1
    conv_rhs => rw [← List.map_id (cycleEdges c)]
    exact List.map_congr_left fun e he => (cycleEdges_key he).1
  · intro l hl e he
    obtain ⟨c, hcm, _, hm⟩ := s2 l hl
    rcases hm e he with h1 | ⟨e0, h1, hM, rfl⟩
    · have h2 : named e ∈ (around c).map named := by rw [← cycleEdges_named]; exact List.mem_map.2 ⟨e, h1, rfl⟩
      obtain ⟨a, ha, hae⟩ := List.mem_map.1 h2
      have hk : a.2.2 = 0 := by
        unfold around at ha
        obtain ⟨p, _, rfl⟩ := List.mem_map.1 ha
        rfl
      rw [← hae]
      rcases hc.edges c hcm a ha with h3 | h3
      · obtain ⟨b, hb, hbe⟩ := List.mem_map.1 ((mem_uniq _ _).1 h3)
        refine List.mem_map.2 ⟨flat b, hB.first b hb, ?_⟩
        simp only [Prod.mk.injEq] at hbe
        unfold flat
        rw [hbe.1, hbe.2, ← hk]
      · obtain ⟨b, hb, hbe⟩ := List.mem_map.1 ((mem_uniq _ _).1 h3)
        refine List.mem_map.2 ⟨flat b, hB.first b hb, named_eq_iff.2 (Or.inr ?_)⟩
        simp only [Prod.mk.injEq] at hbe
        unfold flat Edge.rev
        rw [hbe.1, hbe.2, hk]
    · have hk : e0.2.2 = 0 := by rw [← (cycleEdges_key h1).1]; rfl
      obtain ⟨h2, e', he', hne, hp⟩ := hM
      rw [hk]
      exact List.mem_map.2 ⟨_, hB.second e0 h2 e' he' hne hp, rfl⟩

theorem loopsMap_eq (cyc : List (List Node)) (G : MGraph) : loopsMap cyc G =
    (simplePairs G.edges).flatMap (fun p => twoLoops (group G.edges p)) ++ cycleLoops [] ((duplicates G.edges).flatMap Prod.snd) cyc := by
  unfold loopsMap; rw [duplicates_two]

theorem loopsMap_basis {G : MGraph} (h : GraphInv G) {cyc : List (List Node)} (hc : CycleBasis (simplePairs G.edges) cyc) :
    LoopBasis G.edges (loopsMap cyc G) := by
  rw [loopsMap_eq]
  exact loops_basis (branches_of h) hc (lifts h hc)

/-! ### The shape of the loops -/

theorem around_nodup {c : List Node} (hn : c.Nodup) (h2 : c.length ≠ 2) : ((around c).map named).Nodup := by
  rw [List.nodup_iff_injective_get]
  intro i j hij
  have hi : (i : ℕ) < c.length := by have := i.2; simpa [around_length] using this
  have hj : (j : ℕ) < c.length := by have := j.2; simpa [around_length] using this
  rw [List.get_eq_getElem, List.get_eq_getElem, List.getElem_map, List.getElem_map, around_getElem, around_getElem] at hij
  apply Fin.ext
  rcases named_eq_iff.1 hij with h | h
  · simp only [Prod.mk.injEq] at h
    exact (List.Nodup.getElem_inj_iff hn).1 h.1
  · unfold Edge.rev at h
    simp only [Prod.mk.injEq] at h
    have e1 := (List.Nodup.getElem_inj_iff hn).1 h.1
    have e2 := (List.Nodup.getElem_inj_iff hn).1 h.2.1
    have m1 : ∀ k < c.length, (k + 1) % c.length = k + 1 ∨ (k + 1 = c.length ∧ (k + 1) % c.length = 0) := by
      intro k hk
      by_cases hk1 : k + 1 = c.length
      · right; exact ⟨hk1, by rw [hk1]; exact Nat.mod_self _⟩
      · left; exact Nat.mod_eq_of_lt (by omega)
    rcases m1 i hi with a | a <;> rcases m1 j hj with b | b <;> omega

theorem loopsMap_cycles {G : MGraph} (h : GraphInv G) {cyc : List (List Node)} (hc : CycleBasis (simplePairs G.edges) cyc)
    (hs : ∀ e ∈ G.edges, e.1 ≠ e.2.1) : ∀ l ∈ loopsMap cyc G, IsCycle l := by
  have hB := branches_of h
  intro l hl
  rw [loopsMap_eq] at hl
  rcases List.mem_append.1 hl with hl | hl
  · obtain ⟨p, hp, hl⟩ := List.mem_flatMap.1 hl
    unfold twoLoops at hl
    obtain ⟨⟨x, y⟩, hxy, rfl⟩ := List.mem_map.1 hl
    have hx := mem_group.1 (List.of_mem_zip hxy).1
    have hy := mem_group.1 (List.mem_of_mem_tail (List.of_mem_zip hxy).2)
    have hgn : ((group G.edges p).map named).Nodup := hB.nodup.sublist (List.Sublist.map _ List.filter_sublist)
    have hne : named x ≠ named y := by
      obtain ⟨i, hi, hzi⟩ := List.mem_iff_getElem.1 hxy
      rw [List.getElem_zip, Prod.mk.injEq, List.getElem_tail] at hzi
      have hil : i + 1 < (group G.edges p).length := by
        simp only [List.length_zip, List.length_tail] at hi
        omega
      intro he
      rw [← hzi.1, ← hzi.2] at he
      have := (List.Nodup.getElem_inj_iff hgn (i := i) (j := i + 1) (hi := by rw [List.length_map]; omega) (hj := by rw [List.length_map]; omega)).1
        (by rw [List.getElem_map, List.getElem_map]; exact he)
      omega
    have hpq : y.1 = x.1 ∧ y.2.1 = x.2.1 := by
      have := hy.2.trans hx.2.symm
      simpa [Prod.mk.injEq] using this
    refine ⟨by simp, by simp [hne], [x.1, x.2.1], by simpa using hs x hx.1, ?_⟩
    have ha : around [x.1, x.2.1] = [(x.1, x.2.1, 0), (x.2.1, x.1, 0)] := rfl
    rw [ha]
    simp only [List.map_cons, List.map_nil, hpq.1, hpq.2]
    rw [show named (x.2.1, x.1, 0) = named (x.1, x.2.1, 0) from named_eq_iff.2 (Or.inr rfl)]
  · have hL := lifts h hc
    have h1 : (l.map flat).map named ∈ cyc.map fun c => (around c).map named := by
      rw [← hL.flat]; exact List.mem_map.2 ⟨l, hl, rfl⟩
    obtain ⟨c, hcm, hce⟩ := List.mem_map.1 h1
    obtain ⟨n1, n2, n3⟩ := hc.nodes c hcm
    have hnd := around_nodup n3 n2
    refine ⟨?_, ?_, c, n3, ?_⟩
    · rintro rfl
      have := congrArg List.length hce
      rw [List.length_map, around_length] at this
      exact n1 (List.length_eq_zero_iff.1 this)
    · rw [hce, List.map_map] at hnd
      have : (l.map named).map flat = l.map (named ∘ flat) := by
        rw [List.map_map]
        exact List.map_congr_left fun e _ => (named_flat e).symm
      rw [← this] at hnd
      exact hnd.of_map
    · rw [hce, List.map_map]; rfl

/-! ### Shared branches -/

theorem mem_edges_loop {G : MGraph} (h : GraphInv G) {cyc : List (List Node)} (hc : CycleBasis (simplePairs G.edges) cyc) {l : List Edge}
    (hl : l ∈ loopsMap cyc G) {e : Edge} (he : e ∈ l) : e ∈ G.edges ∨ (e.1 ≤ e.2.1 ∧ named e ∈ G.edges.map named) := by
  have hL := lifts h hc
  rw [loopsMap_eq] at hl
  rcases List.mem_append.1 hl with hl | hl
  · obtain ⟨p, hp, hl⟩ := List.mem_flatMap.1 hl
    obtain ⟨x, hx, y, hy, rfl⟩ := mem_twoLoops _ _ hl
    simp only [List.mem_cons, List.not_mem_nil, or_false] at he
    rcases he with rfl | rfl
    · exact Or.inl (mem_group.1 hx).1
    · exact Or.inl (mem_group.1 hy).1
  · refine Or.inr ⟨?_, hL.mem l hl e he⟩
    obtain ⟨-, s2⟩ := cycleLoops_spec (M := fun _ => True) cyc [] ((duplicates G.edges).flatMap Prod.snd) (by simp) (by simp)
    obtain ⟨c, hcm, _, hm⟩ := s2 l hl
    rcases hm e he with h1 | ⟨e0, h1, _, rfl⟩
    · exact (cycleEdges_key h1).2
    · exact (cycleEdges_key h1).2

theorem get?_cond_fold {ι κ α : Type} [DecidableEq κ] (key : ι → κ) (c : ι → Bool) (v : ι → α) (hk : Function.Injective key) (k : κ) :
    ∀ (l : List ι) (d : Dict κ α), Dict.get? (l.foldl (fun d x => if c x then d.set (key x) (v x) else d) d) k =
      ((l.find? fun x => c x && decide (key x = k)).map v).or (Dict.get? d k)
  | [], d => by simp
  | x :: l, d => by
    rw [List.foldl_cons, get?_cond_fold key c v hk k l]
    by_cases hc : c x = true
    · by_cases hx : key x = k
      · rw [List.find?_cons_of_pos (by simp [hc, hx]), if_pos hc, hx, Dict.get?_set_self]
        cases hf : l.find? (fun x => c x && decide (key x = k)) with
        | none => simp
        | some y =>
          have := List.find?_some hf
          simp only [Bool.and_eq_true, decide_eq_true_eq] at this
          have : y = x := hk (this.2.trans hx.symm)
          simp [this]
      · rw [List.find?_cons_of_neg (by simp [hx]), if_pos hc, Dict.get?_set_ne _ _ hx]
    · rw [List.find?_cons_of_neg (by simp [hc]), if_neg hc]

theorem loopAdjacency_get (loops : List (List Edge)) (i j : ℕ) : (loopAdjacency loops).get? (i, j) =
    if i < j ∧ j < loops.length ∧ ((loops.getD i []).filter fun k => k ∈ loops.getD j []) ≠ [] then
      some ((loops.getD i []).filter fun k => k ∈ loops.getD j []) else none := by
  have hfold : loopAdjacency loops = ((List.range (loops.length - 1)).flatMap fun i => (List.range' (i + 1) (loops.length - (i + 1))).map fun j => (i, j)).foldl
      (fun (d : Dict (ℕ × ℕ) (List Edge)) (x : ℕ × ℕ) => if decide (0 < ((loops.getD x.1 []).filter fun k => k ∈ loops.getD x.2 []).length) then
        d.set x ((loops.getD x.1 []).filter fun k => k ∈ loops.getD x.2 []) else d) [] := by
    unfold loopAdjacency
    rw [List.foldl_flatMap]
    congr 1
    funext d i
    rw [List.foldl_map]
    simp only [decide_eq_true_eq]
  rw [hfold, get?_cond_fold (fun x => x) _ _ (fun _ _ h => h)]
  simp only [Dict.get?_nil, Option.or_none]
  by_cases h : i < j ∧ j < loops.length ∧ ((loops.getD i []).filter fun k => k ∈ loops.getD j []) ≠ []
  · rw [if_pos h]
    have hex : ((List.range (loops.length - 1)).flatMap fun i => (List.range' (i + 1) (loops.length - (i + 1))).map fun j => (i, j)).find?
        (fun x => decide (0 < ((loops.getD x.1 []).filter fun k => k ∈ loops.getD x.2 []).length) && decide (x = (i, j))) = some (i, j) := by
      rw [List.find?_eq_some_iff_append]
      have hm : (i, j) ∈ (List.range (loops.length - 1)).flatMap fun i => (List.range' (i + 1) (loops.length - (i + 1))).map fun j => (i, j) := by
        refine List.mem_flatMap.2 ⟨i, List.mem_range.2 (by omega), List.mem_map.2 ⟨j, ?_, rfl⟩⟩
        rw [List.mem_range'_1]; omega
      obtain ⟨as, bs, he, hna⟩ := List.eq_append_cons_of_mem hm
      refine ⟨by rw [decide_eq_true (List.length_pos_iff.2 h.2.2), decide_eq_true rfl]; rfl, as, bs, he, fun a ha => ?_⟩
      have : a ≠ (i, j) := fun hh => hna (hh ▸ ha)
      simp [this]
    rw [hex]; rfl
  · rw [if_neg h]
    have : ((List.range (loops.length - 1)).flatMap fun i => (List.range' (i + 1) (loops.length - (i + 1))).map fun j => (i, j)).find?
        (fun x => decide (0 < ((loops.getD x.1 []).filter fun k => k ∈ loops.getD x.2 []).length) && decide (x = (i, j))) = none := by
      rw [List.find?_eq_none]
      rintro ⟨a, b⟩ hab hc
      simp only [Bool.and_eq_true, decide_eq_true_eq, Prod.mk.injEq] at hc
      obtain ⟨h1, rfl, rfl⟩ := hc
      obtain ⟨i', hi', hj⟩ := List.mem_flatMap.1 hab
      obtain ⟨j', hj', he⟩ := List.mem_map.1 hj
      simp only [Prod.mk.injEq] at he
      obtain ⟨rfl, rfl⟩ := he
      rw [List.mem_range'_1] at hj'
      exact h ⟨by omega, by omega, List.length_pos_iff.1 h1⟩
    rw [this]; rfl

end Verif.Circuit
