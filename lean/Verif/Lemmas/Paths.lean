import Verif.Lemmas.Graph
import Verif.Model.Circuit

/-!
# Lemmas: directed paths in arborescences
-/

set_option linter.unusedVariables false

namespace Verif.Circuit

open Verif Verif.Spec

theorem DiWalk_nil_iff {S : List Edge} {u v : Node} : DiWalk S u [] v ↔ u = v := by
  constructor
  · intro h; cases h; rfl
  · rintro rfl; exact DiWalk.nil _

theorem DiWalk_cons_iff {S : List Edge} {u v : Node} {e : Edge} {p : List Edge} :
    DiWalk S u (e :: p) v ↔ e ∈ S ∧ e.1 = u ∧ DiWalk S e.2.1 p v := by
  constructor
  · intro h
    cases h with
    | cons he w => exact ⟨he, rfl, w⟩
  · rintro ⟨h1, rfl, h2⟩; exact DiWalk.cons h1 h2

/-! ### Simple paths -/

theorem simplePaths_sound (S : List Edge) (t : Node) : ∀ (fuel : ℕ) (vis : List Node) (cur : Node) (p : List Edge),
    p ∈ simplePaths S t fuel vis cur → DiWalk S cur p t ∧ (p.map fun e => e.2.1).Nodup ∧ ∀ e ∈ p, e.2.1 ∉ vis := by
  intro fuel
  induction fuel with
  | zero => intro vis cur p h; cases h
  | succ fuel ih =>
    intro vis cur p h
    rw [simplePaths] at h
    split_ifs at h with hc
    · rw [List.mem_singleton] at h; subst h; subst hc
      exact ⟨DiWalk.nil _, by simp, by simp⟩
    · obtain ⟨e, he, hp⟩ := List.mem_flatMap.1 h
      obtain ⟨heS, he2⟩ := List.mem_filter.1 he
      simp only [decide_eq_true_eq] at he2
      obtain ⟨p', hp', rfl⟩ := List.mem_map.1 hp
      obtain ⟨h1, h2, h3⟩ := ih _ _ _ hp'
      refine ⟨?_, ?_, ?_⟩
      · rw [← he2.1]; exact DiWalk.cons heS h1
      · rw [List.map_cons, List.nodup_cons]
        refine ⟨?_, h2⟩
        intro hm
        obtain ⟨e', he', hee⟩ := List.mem_map.1 hm
        exact h3 e' he' (by simp [hee])
      · intro e' he'
        rcases List.mem_cons.1 he' with rfl | he'
        · exact he2.2
        · exact fun hm => h3 e' he' (by simp [hm])

theorem DiWalk_last {S : List Edge} {u v : Node} {p : List Edge} (w : DiWalk S u p v) : p = [] ∧ u = v ∨ v ∈ p.map fun e => e.2.1 := by
  induction w with
  | nil u => exact Or.inl ⟨rfl, rfl⟩
  | @cons e p v he w ih =>
    right
    rcases ih with ⟨rfl, rfl⟩ | h
    · simp
    · rw [List.map_cons]; exact List.mem_cons_of_mem _ h

theorem simplePaths_complete (S : List Edge) (t : Node) : ∀ (p : List Edge) (fuel : ℕ) (vis : List Node) (cur : Node),
    DiWalk S cur p t → (p.map fun e => e.2.1).Nodup → (∀ e ∈ p, e.2.1 ∉ vis) → cur ∈ vis → p.length < fuel →
    p ∈ simplePaths S t fuel vis cur := by
  intro p
  induction p with
  | nil =>
    intro fuel vis cur w _ _ _ hf
    cases fuel with
    | zero => exact absurd hf (by simp)
    | succ fuel =>
      cases w
      rw [simplePaths, if_pos rfl]; simp
  | cons e p ih =>
    intro fuel vis cur w hnd hvis hcur hf
    cases fuel with
    | zero => simp at hf
    | succ fuel =>
      rw [List.map_cons, List.nodup_cons] at hnd
      have hlast := DiWalk_last w
      cases w with
      | cons he w =>
        rw [simplePaths, if_neg]
        · refine List.mem_flatMap.2 ⟨e, List.mem_filter.2 ⟨he, ?_⟩, List.mem_map.2 ⟨p, ?_, rfl⟩⟩
          · simpa using hvis e (by simp)
          · refine ih fuel _ _ w hnd.2 ?_ (by simp) (by simpa using hf)
            intro e' he' hm
            rcases List.mem_cons.1 hm with h | h
            · exact hnd.1 (List.mem_map.2 ⟨e', he', h⟩)
            · exact hvis e' (by simp [he']) h
        · intro hct
          rcases hlast with ⟨h, _⟩ | h
          · cases h
          · obtain ⟨e', he', hee⟩ := List.mem_map.1 h
            exact hvis e' he' (by rw [hee, ← hct]; exact hcur)

theorem firstPath_some {S : List Edge} {u t : Node} {p : List Edge} (h : firstPath S u t = some p) : DiWalk S u p t := by
  unfold firstPath at h
  have := List.mem_of_head? h
  rw [List.mem_insertionSort] at this
  exact (simplePaths_sound S t _ _ _ _ this).1

theorem DiWalk_mem {S : List Edge} {u v : Node} {p : List Edge} (w : DiWalk S u p v) : ∀ e ∈ p, e ∈ S := by
  induction w with
  | nil u => intro e he; cases he
  | @cons e p v he w ih =>
    intro e' he'
    rcases List.mem_cons.1 he' with rfl | h
    · exact he
    · exact ih e' h

theorem firstPath_exists {S : List Edge} {u t : Node} {p : List Edge} (w : DiWalk S u p t) (hnd : (visited u p).Nodup) :
    ∃ q, firstPath S u t = some q := by
  have hnd' := List.nodup_cons.1 hnd
  have hlen : p.length ≤ S.length := by
    have hp : p.Nodup := List.Nodup.of_map _ hnd'.2
    exact (hp.subperm (DiWalk_mem w)).length_le
  have hm := simplePaths_complete S t p (S.length + 1) [u] u w hnd'.2 (by
    intro e he hm
    rw [List.mem_singleton] at hm
    exact hnd'.1 (List.mem_map.2 ⟨e, he, hm⟩)) (by simp) (by omega)
  unfold firstPath
  have hm' := (List.mem_insertionSort (fun a b => pathLe a b = true)).2 hm
  cases hs : (simplePaths S t (S.length + 1) [u] u).insertionSort fun a b => pathLe a b = true with
  | nil => rw [hs] at hm'; cases hm'
  | cons a l => exact ⟨a, rfl⟩

/-! ### Arborescences -/

/-- A directed tree in which every edge leads to a later node and every node but the root has one incoming edge. -/
structure Arbor (S : List Edge) (rank : Node → ℕ) (r : Node) (c : List Node) : Prop where
  inc : ∀ e ∈ S, rank e.1 < rank e.2.1
  uniqIn : ∀ e ∈ S, ∀ e' ∈ S, e.2.1 = e'.2.1 → e = e'
  noRoot : ∀ e ∈ S, e.2.1 ≠ r
  reach : ∀ n ∈ c, ∃ p, DiWalk S r p n

theorem DiWalk_append {S : List Edge} {u v w : Node} {p q : List Edge} (h1 : DiWalk S u p v) (h2 : DiWalk S v q w) :
    DiWalk S u (p ++ q) w := by
  induction h1 with
  | nil u => exact h2
  | @cons e p v he _ ih => exact DiWalk.cons he (ih h2)

theorem DiWalk_snoc {S : List Edge} {u v : Node} {p : List Edge} {e : Edge} (h : DiWalk S u (p ++ [e]) v) :
    DiWalk S u p e.1 ∧ e ∈ S ∧ e.2.1 = v := by
  induction p generalizing u with
  | nil =>
    obtain ⟨he, h1, w⟩ := DiWalk_cons_iff.1 h
    exact ⟨DiWalk_nil_iff.2 h1.symm, he, DiWalk_nil_iff.1 w⟩
  | cons a p ih =>
    obtain ⟨he, rfl, w⟩ := DiWalk_cons_iff.1 h
    have := ih w; exact ⟨DiWalk.cons he this.1, this.2⟩

theorem rank_walk {S : List Edge} {rank : Node → ℕ} (inc : ∀ e ∈ S, rank e.1 < rank e.2.1) {u v : Node} {p : List Edge}
    (w : DiWalk S u p v) : (∀ e ∈ p, rank u < rank e.2.1) ∧ p.Pairwise fun e e' => rank e.2.1 < rank e'.2.1 := by
  induction w with
  | nil u => simp
  | @cons e p v he w ih =>
    have h0 := inc e he
    refine ⟨?_, List.pairwise_cons.2 ⟨ih.1, ih.2⟩⟩
    intro e' he'
    rcases List.mem_cons.1 he' with rfl | h
    · exact h0
    · have := ih.1 e' h; omega

theorem visited_nodup {S : List Edge} {rank : Node → ℕ} (inc : ∀ e ∈ S, rank e.1 < rank e.2.1) {u v : Node} {p : List Edge}
    (w : DiWalk S u p v) : (visited u p).Nodup := by
  obtain ⟨h1, h2⟩ := rank_walk inc w
  unfold visited
  rw [List.nodup_cons]
  constructor
  · intro hm
    obtain ⟨e, he, hee⟩ := List.mem_map.1 hm
    have := h1 e he
    rw [hee] at this; omega
  · rw [List.nodup_map_iff_inj_on]
    · intro x hx y hy hxy
      by_contra hne
      exact List.Pairwise.forall_of_forall_of_flip (R := fun e e' : Edge => e ≠ e' → rank e.2.1 ≠ rank e'.2.1)
        (fun x _ h => absurd rfl h) (h2.imp fun h _ => by omega) (h2.imp fun h _ => by
          change rank _ ≠ rank _; omega) hx hy hne (by rw [hxy])
    · exact h2.imp fun h he => by rw [he] at h; omega

theorem walk_unique {S : List Edge} {rank : Node → ℕ} {r : Node} {c : List Node} (h : Arbor S rank r c) :
    ∀ (p q : List Edge) (x : Node), DiWalk S r p x → DiWalk S r q x → p = q := by
  intro p
  induction p using List.reverseRecOn with
  | nil =>
    intro q x hp hq
    cases hp
    rcases DiWalk_last hq with ⟨rfl, _⟩ | hm
    · rfl
    · obtain ⟨e, he, hee⟩ := List.mem_map.1 hm
      exact absurd hee (h.noRoot e (DiWalk_mem hq e he))
  | append_singleton p e ih =>
    intro q x hp hq
    obtain ⟨h1, h2, h3⟩ := DiWalk_snoc hp
    induction q using List.reverseRecOn with
    | nil =>
      cases hq
      exact absurd h3 (h.noRoot e h2)
    | append_singleton q e' _ =>
      obtain ⟨h1', h2', h3'⟩ := DiWalk_snoc hq
      have : e = e' := h.uniqIn e h2 e' h2' (h3.trans h3'.symm)
      subst this
      rw [ih q e.1 h1 h1']

theorem walk_split {S : List Edge} : ∀ (p q : List Edge) (r a b : Node), DiWalk S r p a → DiWalk S r q b →
    ∃ w p' q' m, p = w ++ p' ∧ q = w ++ q' ∧ DiWalk S r w m ∧ DiWalk S m p' a ∧ DiWalk S m q' b ∧
      ∀ e p'' q'', ¬ (p' = e :: p'' ∧ q' = e :: q'') := by
  intro p
  induction p with
  | nil =>
    intro q r a b hp hq
    exact ⟨[], [], q, r, rfl, rfl, DiWalk.nil _, hp, hq, by rintro e p'' q'' ⟨h, _⟩; cases h⟩
  | cons e p ih =>
    intro q r a b hp hq
    cases q with
    | nil => exact ⟨[], e :: p, [], r, rfl, rfl, DiWalk.nil _, hp, hq, by rintro _ _ _ ⟨_, h⟩; cases h⟩
    | cons e' q =>
      by_cases he : e = e'
      · subst he
        obtain ⟨h1, rfl, w1⟩ := DiWalk_cons_iff.1 hp
        obtain ⟨h2, -, w2⟩ := DiWalk_cons_iff.1 hq
        obtain ⟨w, p', q', m, h3, h4, h5, h6, h7, h8⟩ := ih q _ a b w1 w2
        exact ⟨e :: w, p', q', m, by rw [h3]; rfl, by rw [h4]; rfl, DiWalk.cons h1 h5, h6, h7, h8⟩
      · refine ⟨[], e :: p, e' :: q, r, rfl, rfl, DiWalk.nil _, hp, hq, ?_⟩
        rintro x p'' q'' ⟨h1, h2⟩
        injection h1 with h1 _
        injection h2 with h2 _
        exact he (h1.trans h2.symm)

theorem walk_to_visited {S : List Edge} {u v x : Node} {p : List Edge} (w : DiWalk S u p v) (hx : x ∈ visited u p) :
    ∃ p1 p2, p = p1 ++ p2 ∧ DiWalk S u p1 x := by
  induction w with
  | nil u =>
    simp only [visited, List.map_nil, List.mem_singleton] at hx
    subst hx; exact ⟨[], [], rfl, DiWalk.nil _⟩
  | @cons e p v he w ih =>
    rcases List.mem_cons.1 hx with rfl | hx
    · exact ⟨[], e :: p, rfl, DiWalk.nil _⟩
    · obtain ⟨p1, p2, rfl, h⟩ := ih hx
      exact ⟨e :: p1, p2, rfl, DiWalk.cons he h⟩

/-- The symmetric difference of the paths from the root to the ends of an edge is a cycle with that edge. -/
theorem simpleCycle_of_paths {o : Orc} (ho : o.OK) {S : List Edge} {rank : Node → ℕ} {r : Node} {c : List Node} (h : Arbor S rank r c)
    {cl : Edge} {p q : List Edge} (hp : DiWalk S r p cl.1) (hq : DiWalk S r q cl.2.1) :
    SimpleCycle S cl (symDiff o p q ++ [cl]) := by
  obtain ⟨w, p', q', m, rfl, rfl, hw, hp', hq', hdiff⟩ := walk_split p q r _ _ hp hq
  have hmeet : ∀ x, x ∈ visited m p' → x ∈ visited m q' → x = m := by
    intro x hx hx'
    by_contra hne
    obtain ⟨p1, p2, rfl, h1⟩ := walk_to_visited hp' hx
    obtain ⟨q1, q2, rfl, h2⟩ := walk_to_visited hq' hx'
    have heq := walk_unique h _ _ x (DiWalk_append hw h1) (DiWalk_append hw h2)
    have heq' : p1 = q1 := List.append_cancel_left heq
    subst heq'
    cases p1 with
    | nil => cases h1; exact hne rfl
    | cons e p1 => exact hdiff e _ _ ⟨rfl, rfl⟩
  refine ⟨m, p', q', hp', hq', visited_nodup h.inc hp', visited_nodup h.inc hq', hmeet, ?_⟩
  have hnp := List.Nodup.of_map _ (List.nodup_cons.1 (visited_nodup h.inc hp)).2
  have hnq := List.Nodup.of_map _ (List.nodup_cons.1 (visited_nodup h.inc hq)).2
  have hdis : ∀ e, e ∈ p' → e ∈ q' → False := by
    intro e he he'
    have h1 := hmeet e.2.1 (List.mem_cons_of_mem _ (List.mem_map.2 ⟨e, he, rfl⟩)) (List.mem_cons_of_mem _ (List.mem_map.2 ⟨e, he', rfl⟩))
    have h2 := (rank_walk h.inc hp').1 e he
    rw [h1] at h2; omega
  have hwp : ∀ e, e ∈ w → e ∈ p' → False := fun e h1 h2 => (List.nodup_append.1 hnp).2.2 e h1 e h2 rfl
  have hwq : ∀ e, e ∈ w → e ∈ q' → False := fun e h1 h2 => (List.nodup_append.1 hnq).2.2 e h1 e h2 rfl
  intro e
  simp only [symDiff, List.mem_append, List.mem_singleton, (ho.edge _).mem_iff, mem_uniq, List.mem_filter, decide_eq_true_eq]
  constructor
  · rintro ((⟨h1 | h1, h2⟩ | ⟨h1 | h1, h2⟩) | rfl)
    · exact absurd (Or.inl h1) h2
    · exact Or.inr (Or.inl h1)
    · exact absurd (Or.inl h1) h2
    · exact Or.inr (Or.inr h1)
    · exact Or.inl rfl
  · rintro (rfl | h1 | h1)
    · exact Or.inr rfl
    · exact Or.inl (Or.inl ⟨Or.inr h1, fun h2 => h2.elim (fun h2 => hwp e h2 h1) fun h2 => hdis e h1 h2⟩)
    · exact Or.inl (Or.inr ⟨Or.inr h1, fun h2 => h2.elim (fun h2 => hwq e h2 h1) fun h2 => hdis e h2 h1⟩)

end Verif.Circuit
