import Verif.Props.ConstructClean

/-!
# Repeating a parameterisation of a matrix changes nothing
-/

namespace Verif.Props

open Verif Verif.Spec Verif.PC Verif.Derived

variable {E D : Type}

theorem Dict.set_same {κ α : Type} [DecidableEq κ] (d : Dict κ α) {k : κ} {v : α} (h : d.get? k = some v) : d.set k v = d := by
  induction d with
  | nil => simp at h
  | cons p d ih =>
    obtain ⟨k', v'⟩ := p
    unfold Dict.set
    by_cases hk : k' = k
    · subst hk
      simp only [Dict.get?_cons, if_true, Option.some.injEq] at h
      rw [if_pos rfl, h]
    · rw [if_neg hk, ih (by simpa [hk] using h)]

theorem revMap_owner {st : PC E} (hk : st.symMap.keys.Nodup) {s : Sym} {n : String} (h : st.revMap s = some n) : st.symMap.get? n = some s := by
  unfold revMap at h
  rw [Option.map_eq_some_iff] at h
  obtain ⟨p, hp, rfl⟩ := h
  have h1 := List.find?_some hp
  have h2 := List.mem_of_find?_eq_some hp
  rw [List.mem_reverse] at h2
  simp only [decide_eq_true_eq] at h1
  subst h1
  exact Dict.get?_of_mem hk h2

theorem revMap_owned {st : PC E} (hk : st.symMap.keys.Nodup) (hinj : ∀ a b s, st.symMap.get? a = some s → st.symMap.get? b = some s → a = b)
    {s : Sym} {n : String} (h : st.symMap.get? n = some s) : st.revMap s = some n := by
  cases hr : st.revMap s with
  | some m => rw [hinj _ _ _ (revMap_owner hk hr) h]
  | none =>
    unfold revMap at hr
    rw [Option.map_eq_none_iff, List.find?_eq_none] at hr
    have := hr (n, s) (by rw [List.mem_reverse]; exact Dict.mem_of_get? h)
    simp at this

theorem symbolNames_owners {st : PC E} (hk : st.symMap.keys.Nodup) : ∀ (l : List Sym) (ns : List String), st.symbolNames l = .ok ns →
    List.Forall₂ (fun s n => st.symMap.get? n = some s) l ns := by
  intro l
  induction l with
  | nil => intro ns h; cases h; exact .nil
  | cons s l ih =>
    intro ns h
    unfold symbolNames at h
    split at h
    · cases h
    rename_i n hn
    split at h
    · cases h
    rename_i ns' hns
    cases h
    exact .cons (revMap_owner hk hn) (ih _ hns)

theorem symbolNames_owned {st : PC E} (hk : st.symMap.keys.Nodup) (hinj : ∀ a b s, st.symMap.get? a = some s → st.symMap.get? b = some s → a = b) :
    ∀ (l : List Sym) (ns : List String), List.Forall₂ (fun s n => st.symMap.get? n = some s) l ns → st.symbolNames l = .ok ns := by
  intro l ns h
  induction h with
  | nil => rfl
  | cons h1 _ ih =>
    unfold symbolNames
    rw [revMap_owned hk hinj h1]
    simp only [ih]

/-- The collection has the parameter, with that expression. -/
def Stored (eng : Engine E) (pc : PC E) (k : String) (e : E) : Prop :=
  pc.coll.has k = true ∧ ∃ ns, pc.parz.get? k = some (e, ns) ∧ List.Forall₂ (fun s n => pc.symMap.get? n = some s) (eng.free e) ns

theorem addEdge_same {g : DiGraph String} (hw : g.WF) {u v : String} (h : g.Adj u v) : g.addEdge u v = g := by
  have h1 : g.addNode u = g := by unfold DiGraph.addNode; rw [if_pos (hw.src _ _ h)]
  have h2 : g.addNode v = g := by unfold DiGraph.addNode; rw [if_pos (hw.tgt _ _ h)]
  unfold DiGraph.addEdge
  simp only [h1, h2]
  exact if_pos h

/-- Giving a parameter the expression that it has. -/
theorem parz_again {eng : Engine E} {pc : PC E} (hg : pc.Good eng) {k : String} {e : E} (h : Stored eng pc k e) :
    pc.addParameterisation eng k e = (pc, .ok ()) := by
  obtain ⟨h1, ns, h2, h3⟩ := h
  unfold addParameterisation
  rw [if_pos h1, symbolNames_owned hg.symKeys hg.symInj _ _ h3]
  have hgr : ∀ l : List String, (∀ m ∈ l, pc.graph.Adj m k) → l.foldl (fun g pname => g.addEdge pname k) pc.graph = pc.graph := by
    intro l
    induction l with
    | nil => intro _; rfl
    | cons m l ih =>
      intro hl
      rw [List.foldl_cons, addEdge_same hg.wf (hl m (by simp))]
      exact ih fun m' hm' => hl m' (by simp [hm'])
  simp only [hgr ns (hg.recorded k e ns h2)]
  rw [if_pos ((DiGraph.isDag_iff _ hg.wf).2 hg.acyclic), Dict.set_same _ h2]

theorem add_again {pc : PC E} {k : String} (h : pc.coll.has k = true) : pc.addParameter k = (pc, .ok ()) := by
  unfold addParameter
  rw [if_pos h]

/-- Repeating the loop on a collection that has its parameters. -/
theorem loop_again {eng : Engine E} (isZero : E → Bool) (symE : Sym → E) (name : ℕ → ℕ → String) {pc : PC E} (hg : pc.Good eng) :
    ∀ (l : List (ℕ × ℕ)) (M : ℕ → ℕ → E), l.Nodup → (∀ p ∈ l, p.1 ≤ p.2) →
    (∀ p ∈ l, skipped eng isZero (M p.1 p.2) = false → Stored eng pc (name p.1 p.2) (M p.1 p.2)) →
    ∃ M', parLoop eng isZero symE name l pc M = (pc, .ok M') := by
  intro l
  induction l with
  | nil => intro M _ _ _; exact ⟨M, rfl⟩
  | cons p l ih =>
    obtain ⟨i, j⟩ := p
    intro M hnd hle h
    rw [List.nodup_cons] at hnd
    unfold parLoop
    by_cases hsk : skipped eng isZero (M i j) = true
    · rw [if_pos hsk]
      exact ih M hnd.2 (fun p hp => hle p (by simp [hp])) fun p hp => h p (by simp [hp])
    · rw [if_neg hsk]
      have hst := h (i, j) (by simp) (by simpa using hsk)
      rw [add_again hst.1]
      simp only [parz_again hg hst]
      obtain ⟨s, hs⟩ : ∃ s, pc.getSymbol (name i j) = .ok s := by
        unfold getSymbol
        have : name i j ∈ pc.symMap.keys := (hg.sameKeys _).2 ((Dict.has_iff _ _).1 hst.1)
        rw [Dict.mem_keys_iff, Option.isSome_iff_exists] at this
        obtain ⟨s, hs⟩ := this
        exact ⟨s, by rw [hs]⟩
      simp only [hs]
      refine ih _ hnd.2 (fun p hp => hle p (by simp [hp])) ?_
      intro p hp hs'
      have h1 : ¬ (p.1 = i ∧ p.2 = j) := fun hc => hnd.1 (by rw [← hc.1, ← hc.2]; exact hp)
      have h2 : ¬ (p.1 = j ∧ p.2 = i) := by
        intro hc
        have e1 := hle p (by simp [hp])
        have e2 := hle (i, j) (by simp)
        simp only at e2
        have : i = j := by omega
        subst this
        exact h1 ⟨by omega, by omega⟩
      have he : setAt (setAt M i j (symE s)) j i (symE s) p.1 p.2 = M p.1 p.2 := by
        unfold setAt
        rw [if_neg h2, if_neg h1]
      rw [he] at hs' ⊢
      exact h p (by simp [hp]) hs'

/-- `pc'` knows what `pc` knows, and has the same expressions but for `names`. -/
structure Grown (pc pc' : PC E) (names : String → Prop) : Prop where
  coll : ∀ k p, pc.coll.get? k = some p → pc'.coll.get? k = some p
  syms : ∀ k s, pc.symMap.get? k = some s → pc'.symMap.get? k = some s
  parz : ∀ k, ¬ names k → pc'.parz.get? k = pc.parz.get? k

theorem Grown.refl (pc : PC E) (names : String → Prop) : Grown pc pc names := ⟨fun _ _ h => h, fun _ _ h => h, fun _ _ => rfl⟩

theorem Grown.trans {pc pc' pc'' : PC E} {n m : String → Prop} (h : Grown pc pc' n) (h' : Grown pc' pc'' m) : Grown pc pc'' fun k => n k ∨ m k :=
  ⟨fun k p hp => h'.coll k p (h.coll k p hp), fun k s hs => h'.syms k s (h.syms k s hs),
    fun k hk => by rw [h'.parz k fun hc => hk (Or.inr hc), h.parz k fun hc => hk (Or.inl hc)]⟩

theorem Grown.mono {pc pc' : PC E} {n m : String → Prop} (h : Grown pc pc' n) (hnm : ∀ k, n k → m k) : Grown pc pc' m :=
  ⟨h.coll, h.syms, fun k hk => h.parz k fun hc => hk (hnm k hc)⟩

theorem Stored.grown {eng : Engine E} {pc pc' : PC E} {n : String → Prop} (hg : Grown pc pc' n) {k : String} {e : E} (hk : ¬ n k)
    (h : Stored eng pc k e) : Stored eng pc' k e := by
  obtain ⟨h1, ns, h2, h3⟩ := h
  refine ⟨?_, ns, by rw [hg.parz k hk, h2], h3.imp fun s m hs => hg.syms _ _ hs⟩
  unfold Dict.has at h1 ⊢
  obtain ⟨p, hp⟩ := Option.isSome_iff_exists.1 h1
  rw [hg.coll k p hp]
  rfl

theorem add_grown {pc pc' : PC E} (hs : SymKeys pc) {n : String} {o : Option Sym} (h : pc.addParameter n o = (pc', .ok ())) :
    Grown pc pc' (fun _ => False) ∧ pc'.coll.has n = true ∧ SymKeys pc' := by
  have ha := added_one _ _ _ _ h
  refine ⟨⟨fun k p hp => ?_, fun k s hks => ?_, fun k _ => by rw [ha.parz]⟩, ?_, ha.syms hs⟩
  · rw [(ha.old k (by rw [hp]; simp)).1, hp]
  · have hm : k ∈ pc.coll.keys := (hs.2 k).1 (Dict.mem_keys_of_get? hks)
    rw [Dict.mem_keys_iff] at hm
    rw [(ha.old k (Option.isSome_iff_ne_none.1 hm)).2, hks]
  · rw [Dict.has_iff, ha.keys]
    right
    simp [Dict.keys]

theorem parz_grown {eng : Engine E} {pc pc' : PC E} (hs : SymKeys pc) {n : String} {e : E} (h : pc.addParameterisation eng n e = (pc', .ok ())) :
    Grown pc pc' (fun k => k = n) ∧ Stored eng pc' n e ∧ SymKeys pc' := by
  unfold addParameterisation at h
  split_ifs at h with h0
  · split at h
    · cases h
    rename_i names hn
    dsimp only at h
    split_ifs at h
    · simp only [Prod.mk.injEq, and_true] at h
      subst h
      refine ⟨⟨fun _ _ h => h, fun _ _ h => h, fun k hk => ?_⟩, ⟨h0, names, ?_, symbolNames_owners hs.1 _ _ hn⟩, hs⟩
      · exact Dict.get?_set_ne _ _ (fun e => hk e.symm)
      · exact Dict.get?_set_self _ _ _
    · cases h
  · cases h

/-- What the loop leaves behind. -/
theorem loop_stored {eng : Engine E} (isZero : E → Bool) (symE : Sym → E) (name : ℕ → ℕ → String) :
    ∀ (l : List (ℕ × ℕ)) (pc pc' : PC E) (M M' : ℕ → ℕ → E), SymKeys pc → l.Nodup → (∀ p ∈ l, p.1 ≤ p.2) →
    (∀ p ∈ l, ∀ q ∈ l, name p.1 p.2 = name q.1 q.2 → p = q) → parLoop eng isZero symE name l pc M = (pc', .ok M') →
    Grown pc pc' (fun k => ∃ p ∈ l, k = name p.1 p.2) ∧ SymKeys pc' ∧
      ∀ p ∈ l, skipped eng isZero (M p.1 p.2) = false → Stored eng pc' (name p.1 p.2) (M p.1 p.2) := by
  intro l
  induction l with
  | nil =>
    intro pc pc' M M' hs _ _ _ h
    cases h
    exact ⟨Grown.refl _ _, hs, by simp⟩
  | cons p l ih =>
    obtain ⟨i, j⟩ := p
    intro pc pc' M M' hs hnd hle hinj h
    rw [List.nodup_cons] at hnd
    unfold parLoop at h
    by_cases hsk : skipped eng isZero (M i j) = true
    · rw [if_pos hsk] at h
      obtain ⟨h1, h2, h3⟩ := ih pc pc' M M' hs hnd.2 (fun p hp => hle p (by simp [hp])) (fun p hp q hq => hinj p (by simp [hp]) q (by simp [hq])) h
      refine ⟨h1.mono fun k ⟨p, hp, e⟩ => ⟨p, by simp [hp], e⟩, h2, ?_⟩
      intro p hp hp'
      rcases List.mem_cons.1 hp with rfl | hp
      · rw [hsk] at hp'; cases hp'
      · exact h3 p hp hp'
    · rw [if_neg hsk] at h
      split at h
      · cases h
      rename_i pc1 h1
      split at h
      · cases h
      rename_i pc2 h2
      split at h
      · cases h
      rename_i s hs'
      obtain ⟨a1, -, a3⟩ := add_grown hs h1
      obtain ⟨b1, b2, b3⟩ := parz_grown a3 h2
      obtain ⟨c1, c2, c3⟩ := ih pc2 pc' _ M' b3 hnd.2 (fun p hp => hle p (by simp [hp]))
        (fun p hp q hq => hinj p (by simp [hp]) q (by simp [hq])) h
      refine ⟨((a1.trans b1).trans c1).mono ?_, c2, ?_⟩
      · rintro k ((hk | hk) | ⟨p, hp, hk⟩)
        · exact hk.elim
        · exact ⟨(i, j), by simp, hk⟩
        · exact ⟨p, by simp [hp], hk⟩
      · intro p hp hp'
        rcases List.mem_cons.1 hp with rfl | hp
        · refine Stored.grown c1 ?_ b2
          rintro ⟨q, hq, e⟩
          have := hinj (i, j) (by simp) q (by simp [hq]) e
          exact hnd.1 (this ▸ hq)
        · have h1 : ¬ (p.1 = i ∧ p.2 = j) := fun hc => hnd.1 (by rw [← hc.1, ← hc.2]; exact hp)
          have h2 : ¬ (p.1 = j ∧ p.2 = i) := by
            intro hc
            have e1 := hle p (by simp [hp])
            have e2 := hle (i, j) (by simp)
            simp only at e2
            have : i = j := by omega
            subst this
            exact h1 ⟨by omega, by omega⟩
          have he : setAt (setAt M i j (symE s)) j i (symE s) p.1 p.2 = M p.1 p.2 := by
            unfold setAt
            rw [if_neg h2, if_neg h1]
          have := c3 p hp (by rw [he]; exact hp')
          rwa [he] at this

/-- One of the four methods. -/
theorem parameterise_stored {eng : Engine E} (isZero : E → Bool) (symE : Sym → E) (c : Char) (inv : Bool) {n : ℕ} (hn : n ≤ 111) {pc pc' : PC E}
    {M M' : ℕ → ℕ → E} (hs : SymKeys pc) (h : parameterise eng isZero symE c inv n pc M = (pc', .ok M')) :
    Grown pc pc' (fun k => ∃ i j, k = dname c inv i j) ∧ SymKeys pc' ∧
      ∀ i j, i ≤ j → j < n → skipped eng isZero (M i j) = false → Stored eng pc' (dname c inv i j) (M i j) := by
  obtain ⟨h1, h2, h3⟩ := loop_stored isZero symE (dname c inv) (upper n) pc pc' M M' hs (upper_nodup n) (fun p hp => (upper_mem.1 hp).1)
    (fun p hp q hq e => by
      obtain ⟨p1, p2⟩ := upper_mem.1 hp
      obtain ⟨q1, q2⟩ := upper_mem.1 hq
      obtain ⟨e1, e2⟩ := C36_entries_partial c inv p1 (by omega) q1 (by omega) e
      exact Prod.ext e1 e2) h
  exact ⟨h1.mono fun k ⟨p, _, e⟩ => ⟨p.1, p.2, e⟩, h2, fun i j hij hj => h3 (i, j) (upper_mem.2 ⟨hij, hj⟩)⟩

theorem parameterise_again {eng : Engine E} (isZero : E → Bool) (symE : Sym → E) (c : Char) (inv : Bool) {n : ℕ} {pc : PC E} (hg : pc.Good eng)
    {M : ℕ → ℕ → E} (h : ∀ i j, i ≤ j → j < n → skipped eng isZero (M i j) = false → Stored eng pc (dname c inv i j) (M i j)) :
    ∃ M', parameterise eng isZero symE c inv n pc M = (pc, .ok M') :=
  loop_again isZero symE (dname c inv) hg (upper n) M (upper_nodup n) (fun p hp => (upper_mem.1 hp).1)
    fun p hp => h p.1 p.2 (upper_mem.1 hp).1 (upper_mem.1 hp).2

end Verif.Props
