import Verif.Model.MultiGraph
import Verif.Spec.Circuit
import Mathlib.Data.Finset.Card
import Mathlib.Data.List.Perm.Basic
import Mathlib.Tactic

/-!
# Lemmas: union-find, Kruskal, connectivity
-/

namespace Verif.Circuit

open Verif Verif.Spec

/-! ### `uniq` -/

section Uniq
variable {α : Type} [DecidableEq α]

theorem uniq_aux : ∀ (l acc : List α), acc.Nodup →
    (l.foldl (fun acc x => if x ∈ acc then acc else acc ++ [x]) acc).Nodup ∧
    ∀ x, x ∈ l.foldl (fun acc x => if x ∈ acc then acc else acc ++ [x]) acc ↔ x ∈ acc ∨ x ∈ l := by
  intro l
  induction l with
  | nil => intro acc h; exact ⟨h, by simp⟩
  | cons a l ih =>
    intro acc h
    rw [List.foldl_cons]
    by_cases ha : a ∈ acc
    · rw [if_pos ha]
      obtain ⟨h1, h2⟩ := ih acc h
      refine ⟨h1, fun x => ?_⟩
      rw [h2]
      constructor
      · rintro (h | h)
        · exact Or.inl h
        · exact Or.inr (by simp [h])
      · rintro (h | h)
        · exact Or.inl h
        · rcases List.mem_cons.1 h with rfl | h
          · exact Or.inl ha
          · exact Or.inr h
    · rw [if_neg ha]
      obtain ⟨h1, h2⟩ := ih (acc ++ [a]) (by
        rw [List.nodup_append]; refine ⟨h, by simp, ?_⟩
        intro x hx y hy; rw [List.mem_singleton] at hy; rintro rfl; exact ha (hy ▸ hx))
      refine ⟨h1, fun x => ?_⟩
      rw [h2, List.mem_append, List.mem_singleton, List.mem_cons, or_assoc]

theorem uniq_nodup (l : List α) : (uniq l).Nodup := (uniq_aux l [] List.nodup_nil).1

@[simp] theorem mem_uniq (l : List α) (x : α) : x ∈ uniq l ↔ x ∈ l := by
  have := (uniq_aux l [] List.nodup_nil).2 x
  unfold uniq; simpa using this

theorem foldl_uniq_prefix : ∀ (l acc : List α), acc <+: l.foldl (fun acc x => if x ∈ acc then acc else acc ++ [x]) acc := by
  intro l
  induction l with
  | nil => intro acc; exact List.prefix_refl _
  | cons a l ih =>
    intro acc
    rw [List.foldl_cons]
    split_ifs
    · exact ih acc
    · exact (List.prefix_append acc [a]).trans (ih _)

theorem uniq_cons_head (a : α) (l : List α) : ∃ t, uniq (a :: l) = a :: t := by
  unfold uniq
  rw [List.foldl_cons, if_neg (by simp), List.nil_append]
  obtain ⟨t, ht⟩ := foldl_uniq_prefix l [a]
  exact ⟨t, ht.symm⟩

theorem foldl_uniq_nodup : ∀ (l acc : List α), (acc ++ l).Nodup →
    l.foldl (fun acc x => if x ∈ acc then acc else acc ++ [x]) acc = acc ++ l := by
  intro l
  induction l with
  | nil => intro acc _; simp
  | cons a l ih =>
    intro acc h
    rw [List.foldl_cons]
    have ha : a ∉ acc := by
      intro ha
      exact (List.nodup_append.1 h).2.2 a ha a (by simp) rfl
    rw [if_neg ha, ih (acc ++ [a]) (by simpa using h)]
    simp

theorem uniq_of_nodup {l : List α} (h : l.Nodup) : uniq l = l := by
  have := foldl_uniq_nodup l [] (by simpa using h)
  simpa [uniq] using this

end Uniq

/-! ### Connectivity -/

end Verif.Circuit

namespace Verif.Spec

open Verif.Circuit

theorem Conn.refl (es : List Edge) (x : Node) : Conn es x x := Relation.EqvGen.refl _
theorem Conn.symm {es : List Edge} {x y : Node} (h : Conn es x y) : Conn es y x := Relation.EqvGen.symm _ _ h
theorem Conn.trans {es : List Edge} {x y z : Node} (h : Conn es x y) (h' : Conn es y z) : Conn es x z :=
  Relation.EqvGen.trans _ _ _ h h'
theorem Conn.edge {es : List Edge} {e : Edge} (h : e ∈ es) : Conn es e.1 e.2.1 := Relation.EqvGen.rel _ _ ⟨e, h, rfl, rfl⟩

theorem Conn.of_edges {es : List Edge} {R : Node → Node → Prop} (hR : Equivalence R) (h : ∀ e ∈ es, R e.1 e.2.1) {x y : Node}
    (hc : Conn es x y) : R x y := by
  induction hc with
  | rel x y hxy => obtain ⟨e, he, rfl, rfl⟩ := hxy; exact h e he
  | refl x => exact hR.refl x
  | symm x y _ ih => exact hR.symm ih
  | trans x y z _ _ ih1 ih2 => exact hR.trans ih1 ih2

theorem conn_equiv (es : List Edge) : Equivalence (Conn es) := ⟨Conn.refl es, Conn.symm, Conn.trans⟩

theorem Conn.mono {es es' : List Edge} (h : ∀ e ∈ es, Conn es' e.1 e.2.1) {x y : Node} (hc : Conn es x y) : Conn es' x y :=
  Conn.of_edges (conn_equiv es') h hc

theorem Conn.subset {es es' : List Edge} (h : es ⊆ es') {x y : Node} (hc : Conn es x y) : Conn es' x y :=
  Conn.mono (fun _ he => Conn.edge (h he)) hc

end Verif.Spec

namespace Verif.Circuit

open Verif.Spec

/-! ### Union-find -/

theorem ufUnion_eq_iff (f : Node → Node) (u v x y : Node) :
    ufUnion f u v x = ufUnion f u v y ↔
      f x = f y ∨ (f x = f v ∧ f y = f u) ∨ (f x = f u ∧ f y = f v) := by
  unfold ufUnion
  split_ifs with h1 h2 h2
  · simp [h1, h2]
  · constructor
    · intro h; exact Or.inr (Or.inl ⟨h1, h.symm⟩)
    · rintro (h | ⟨_, h⟩ | ⟨_, h⟩)
      · exact absurd (h ▸ h1 : f y = f v) h2
      · exact h.symm
      · exact absurd h h2
  · constructor
    · intro h; exact Or.inr (Or.inr ⟨h, h2⟩)
    · rintro (h | ⟨h, _⟩ | ⟨h, _⟩)
      · exact absurd (h.trans h2) h1
      · exact absurd h h1
      · exact h
  · constructor
    · intro h; exact Or.inl h
    · rintro (h | ⟨h, _⟩ | ⟨_, h⟩)
      · exact h
      · exact absurd h h1
      · exact absurd h h2

theorem uf_append (es : List Edge) (e : Edge) : uf (es ++ [e]) = ufUnion (uf es) e.1 e.2.1 := by
  unfold uf; rw [List.foldl_append]; rfl

theorem uf_iff (es : List Edge) : ∀ x y, uf es x = uf es y ↔ Conn es x y := by
  induction es using List.reverseRecOn with
  | nil =>
    intro x y
    constructor
    · intro h; simp only [uf, List.foldl_nil, id] at h; subst h; exact Conn.refl _ _
    · intro h
      exact Conn.of_edges (R := fun x y => uf [] x = uf [] y) ⟨fun _ => rfl, Eq.symm, Eq.trans⟩ (by simp) h
  | append_singleton es e ih =>
    intro x y
    constructor
    · intro h
      rw [uf_append, ufUnion_eq_iff, ih, ih, ih, ih, ih] at h
      have hsub : ∀ {a b}, Conn es a b → Conn (es ++ [e]) a b := fun h => Conn.subset (List.subset_append_left _ _) h
      have he : Conn (es ++ [e]) e.1 e.2.1 := Conn.edge (by simp)
      rcases h with h | ⟨h1, h2⟩ | ⟨h1, h2⟩
      · exact hsub h
      · exact (hsub h1).trans (he.symm.trans (hsub h2).symm)
      · exact (hsub h1).trans (he.trans (hsub h2).symm)
    · intro h
      refine Conn.of_edges (R := fun x y => uf (es ++ [e]) x = uf (es ++ [e]) y) ⟨fun _ => rfl, Eq.symm, Eq.trans⟩ ?_ h
      intro e' he'
      rw [uf_append, ufUnion_eq_iff]
      rcases List.mem_append.1 he' with h1 | h1
      · exact Or.inl ((ih _ _).2 (Conn.edge h1))
      · rw [List.mem_singleton] at h1; subst h1
        exact Or.inr (Or.inr ⟨rfl, rfl⟩)

/-! ### Counting classes -/

/-- The number of classes among the given nodes. -/
def classes (f : Node → Node) (ns : Finset Node) : ℕ := (ns.image f).card

theorem classes_union {f : Node → Node} {ns : Finset Node} {u v : Node} (hu : u ∈ ns) (hv : v ∈ ns) (h : f u ≠ f v) :
    classes (ufUnion f u v) ns + 1 = classes f ns := by
  unfold classes
  have himg : ns.image (ufUnion f u v) = (ns.image f).erase (f v) := by
    ext y
    simp only [Finset.mem_image, Finset.mem_erase]
    constructor
    · rintro ⟨x, hx, rfl⟩
      unfold ufUnion
      split_ifs with hxv
      · exact ⟨h, u, hu, rfl⟩
      · exact ⟨hxv, x, hx, rfl⟩
    · rintro ⟨hy, x, hx, rfl⟩
      exact ⟨x, hx, by unfold ufUnion; rw [if_neg hy]⟩
  rw [himg, Finset.card_erase_of_mem (Finset.mem_image_of_mem f hv)]
  have : 0 < (ns.image f).card := Finset.card_pos.2 ⟨_, Finset.mem_image_of_mem f hv⟩
  omega

theorem classes_congr {f g : Node → Node} {ns : Finset Node} (h : ∀ x ∈ ns, ∀ y ∈ ns, f x = f y ↔ g x = g y) :
    classes f ns = classes g ns := by
  unfold classes
  apply le_antisymm
  all_goals
    apply Finset.card_le_card_of_surjOn (fun y => _) ?_
  all_goals skip
  · exact fun z => if hz : z ∈ ns.image g then f (Finset.mem_image.1 hz).choose else 0
  · intro z hz
    obtain ⟨x, hx, rfl⟩ := Finset.mem_image.1 (Finset.mem_coe.1 hz)
    have hg : g x ∈ ns.image g := Finset.mem_image_of_mem g hx
    refine ⟨g x, Finset.mem_coe.2 hg, ?_⟩
    simp only [dif_pos hg]
    have hc := (Finset.mem_image.1 hg).choose_spec
    exact (h _ hc.1 _ hx).2 hc.2
  · exact fun z => if hz : z ∈ ns.image f then g (Finset.mem_image.1 hz).choose else 0
  · intro z hz
    obtain ⟨x, hx, rfl⟩ := Finset.mem_image.1 (Finset.mem_coe.1 hz)
    have hg : f x ∈ ns.image f := Finset.mem_image_of_mem f hx
    refine ⟨f x, Finset.mem_coe.2 hg, ?_⟩
    simp only [dif_pos hg]
    have hc := (Finset.mem_image.1 hg).choose_spec
    exact (h _ hc.1 _ hx).1 hc.2

theorem classes_ge (ns : Finset Node) : ∀ (es : List Edge), (∀ e ∈ es, e.1 ∈ ns ∧ e.2.1 ∈ ns) →
    ns.card ≤ classes (uf es) ns + es.length := by
  intro es
  induction es using List.reverseRecOn with
  | nil => intro _; simp [classes, uf]
  | append_singleton es e ih =>
    intro h
    have h1 := ih fun e' he' => h e' (by simp [he'])
    obtain ⟨hu, hv⟩ := h e (by simp)
    rw [uf_append, List.length_append, List.length_singleton]
    by_cases heq : uf es e.1 = uf es e.2.1
    · have : ufUnion (uf es) e.1 e.2.1 = uf es := by
        funext x; unfold ufUnion; split_ifs with hx
        · rw [heq, hx]
        · rfl
      rw [this]; omega
    · have := classes_union hu hv heq
      omega

/-- Connectivity and size determine forests. -/
theorem forest_of_count {ns : Finset Node} {T : List Edge} (hT : ∀ e ∈ T, e.1 ∈ ns ∧ e.2.1 ∈ ns) (hnd : T.Nodup)
    (hcount : classes (uf T) ns + T.length = ns.card) : Forest T := by
  refine ⟨hnd, fun e he hconn => ?_⟩
  have hsame : ∀ x y, Conn (T.erase e) x y ↔ Conn T x y := by
    intro x y
    constructor
    · exact Conn.subset List.erase_subset
    · apply Conn.mono
      intro e' he'
      by_cases h : e' = e
      · subst h; exact hconn
      · exact Conn.edge ((List.mem_erase_of_ne h).2 he')
  have h1 := classes_ge ns (T.erase e) fun e' he' => hT e' (List.mem_of_mem_erase he')
  have h2 : classes (uf (T.erase e)) ns = classes (uf T) ns :=
    classes_congr fun x _ y _ => by rw [uf_iff, uf_iff, hsame]
  have h3 := List.length_erase_of_mem he
  have h4 : 0 < T.length := List.length_pos_of_mem he
  omega

/-! ### Kruskal -/

theorem kruskal_inv (ns : Finset Node) : ∀ (l : List (Edge × String)), (∀ p ∈ l, p.1.1 ∈ ns ∧ p.1.2.1 ∈ ns) →
    let st := l.foldl kruskalStep (id, [])
    st.1 = uf (l.map Prod.fst) ∧ st.1 = uf (st.2.map Prod.fst) ∧ st.2.Sublist l ∧
      classes st.1 ns + st.2.length = ns.card := by
  intro l
  induction l using List.reverseRecOn with
  | nil => intro _; exact ⟨rfl, rfl, List.Sublist.refl _, by simp [classes]⟩
  | append_singleton l p ih =>
    intro h
    obtain ⟨h1, h2, h3, h4⟩ := ih fun q hq => h q (by simp [hq])
    obtain ⟨hu, hv⟩ := h p (by simp)
    simp only [List.foldl_append, List.foldl_cons, List.foldl_nil]
    rw [List.map_append, List.map_singleton, uf_append, ← h1]
    clear h1
    generalize l.foldl kruskalStep (id, []) = st at h2 h3 h4 ⊢
    unfold kruskalStep
    split_ifs with heq
    · have : ufUnion st.1 p.1.1 p.1.2.1 = st.1 := by
        funext x; unfold ufUnion; split_ifs with hx
        · rw [heq, hx]
        · rfl
      exact ⟨this.symm, h2, h3.trans (List.sublist_append_left _ _), h4⟩
    · refine ⟨rfl, ?_, h3.append (List.Sublist.refl _), ?_⟩
      · simp only [List.map_append, List.map_singleton, uf_append]
        rw [← h2]
      · have := classes_union (f := st.1) hu hv heq
        simp only [List.length_append, List.length_singleton]
        omega

end Verif.Circuit
