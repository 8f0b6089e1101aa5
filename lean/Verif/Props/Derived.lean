import Verif.Model.Derived
import Verif.Spec.Derived
import Verif.Lemmas.Good
import Verif.Model.AstEngine

/-!
# Property C36: names of derived parameters
-/

namespace Verif.Props

open Verif Verif.Spec Verif.PC Verif.Derived

variable {E : Type}

/-! ### The names -/

theorem toList_digits (n : ℕ) : (toString n).toList = Nat.toDigits 10 n := by
  rw [Nat.toString_eq_ofList_toDigits]; simp

/-- The number of digits, up to three. -/
theorem digits_length {n : ℕ} (hn : n < 1000) : ((toString n).toList.length = 1 ∧ n < 10) ∨
    ((toString n).toList.length = 2 ∧ 10 ≤ n ∧ n < 100) ∨ ((toString n).toList.length = 3 ∧ 100 ≤ n) := by
  rw [toList_digits]
  have h0 : 0 < (Nat.toDigits 10 n).length := Nat.length_toDigits_pos
  have h1 := Nat.length_toDigits_le_iff (b := 10) (n := n) (k := 1) (by norm_num) (by norm_num)
  have h2 := Nat.length_toDigits_le_iff (b := 10) (n := n) (k := 2) (by norm_num) (by norm_num)
  have h3 := Nat.length_toDigits_le_iff (b := 10) (n := n) (k := 3) (by norm_num) (by norm_num)
  norm_num at h1 h2 h3
  omega

theorem digits_append {i j k l : ℕ} (h : (toString i).toList ++ (toString j).toList = (toString k).toList ++ (toString l).toList) :
    10 ^ (toString j).toList.length * i + j = 10 ^ (toString l).toList.length * k + l := by
  have hv : ∀ i j : ℕ, Nat.ofDigitChars 10 ((toString i).toList ++ (toString j).toList) 0 = 10 ^ (toString j).toList.length * i + j := by
    intro i j
    rw [Nat.ofDigitChars_append, Nat.ofDigitChars_eq_ofDigitChars_zero, toList_digits, toList_digits, Nat.ofDigitChars_ten_toDigits,
      Nat.ofDigitChars_ten_toDigits]
  rw [← hv, ← hv, h]

theorem digits_inj {i j k l : ℕ} (hij : i ≤ j) (hj : j < 111) (hkl : k ≤ l) (hl : l < 111)
    (h : (toString i).toList ++ (toString j).toList = (toString k).toList ++ (toString l).toList) : i = k ∧ j = l := by
  have hv := digits_append h
  have hlen := congrArg List.length h
  rw [List.length_append, List.length_append] at hlen
  rcases digits_length (n := i) (by omega) with ⟨ei, _⟩ | ⟨ei, _, _⟩ | ⟨ei, _⟩ <;>
  rcases digits_length (n := j) (by omega) with ⟨ej, _⟩ | ⟨ej, _, _⟩ | ⟨ej, _⟩ <;>
  rcases digits_length (n := k) (by omega) with ⟨ek, _⟩ | ⟨ek, _, _⟩ | ⟨ek, _⟩ <;>
  rcases digits_length (n := l) (by omega) with ⟨el, _⟩ | ⟨el, _, _⟩ | ⟨el, _⟩ <;>
  rw [ei, ej, ek, el] at hlen <;> rw [ej, el] at hv <;> norm_num at hv hlen <;> omega

theorem digits_of (n : ℕ) : (toString n).toList ≠ [] ∧ ∀ d ∈ (toString n).toList, Char.isDigit d = true := by
  have : (toString n).toList = Nat.toDigits 10 n := by
    rw [Nat.toString_eq_ofList_toDigits]; simp
  rw [this]
  exact ⟨Nat.toDigits_ne_nil, fun d hd => Nat.isDigit_of_mem_toDigits (by norm_num) (by norm_num) hd⟩

theorem dname_toList (c : Char) (inv : Bool) (i j : ℕ) :
    (dname c inv i j).toList = c :: ((toString i).toList ++ (toString j).toList ++ if inv then ['i'] else []) := by
  unfold dname; rw [String.toList_ofList]

/-- C36: the names of the derived parameters of one matrix are different, for at most 111 nodes. -/
theorem C36_entries_partial (c : Char) (inv : Bool) {i j k l : ℕ} (hij : i ≤ j) (hj : j < 111) (hkl : k ≤ l) (hl : l < 111)
    (h : dname c inv i j = dname c inv k l) : i = k ∧ j = l := by
  have h := congrArg String.toList h
  rw [dname_toList, dname_toList, List.cons.injEq] at h
  have h := List.append_cancel_right h.2
  exact digits_inj hij hj hkl hl h

/-- C36: the names of derived parameters of different matrices are different. -/
theorem C36_matrices {c c' : Char} {inv inv' : Bool} {i j k l : ℕ} (h : dname c inv i j = dname c' inv' k l) : c = c' ∧ inv = inv' := by
  have h := congrArg String.toList h
  rw [dname_toList, dname_toList, List.cons.injEq] at h
  refine ⟨h.1, ?_⟩
  have key : ∀ i j k l : ℕ, (toString i).toList ++ (toString j).toList ++ ['i'] ≠ (toString k).toList ++ (toString l).toList ++ [] := by
    intro i j k l h
    have hm : 'i' ∈ (toString k).toList ++ (toString l).toList ++ [] := by rw [← h]; simp
    simp only [List.append_nil, List.mem_append] at hm
    rcases hm with hm | hm
    · exact absurd ((digits_of k).2 _ hm) (by decide)
    · exact absurd ((digits_of l).2 _ hm) (by decide)
  cases inv <;> cases inv'
  · rfl
  · exact absurd h.2.symm (key _ _ _ _)
  · exact absurd h.2 (key _ _ _ _)
  · rfl

/-- C36: every derived name has the form that users should avoid. -/
theorem C36_reserved (c : Char) (hc : c = 'C' ∨ c = 'L') (inv : Bool) (i j : ℕ) : Reserved (dname c inv i j) := by
  refine ⟨c, (toString i).toList ++ (toString j).toList, hc, ?_, ?_, ?_⟩
  · have h1 := List.length_pos_iff.2 (digits_of i).1
    have h2 := List.length_pos_iff.2 (digits_of j).1
    rw [List.length_append]
    omega
  · intro d hd
    rcases List.mem_append.1 hd with h | h
    · exact (digits_of i).2 d h
    · exact (digits_of j).2 d h
  · rw [dname_toList]
    cases inv
    · left; simp
    · right; simp

/-! ### The loop -/

theorem add_known {pc : PC E} {n : String} (hk : pc.coll.has n = true → ∃ s, Param.symbolOf n = some s ∧ pc.getSymbol n = .ok s) {pc' : PC E}
    (hadd : pc.addParameter n = (pc', .ok ())) :
    (∃ s, Param.symbolOf n = some s ∧ pc'.getSymbol n = .ok s) ∧ pc'.parz = pc.parz ∧
      ∀ k, k ≠ n → pc'.coll.get? k = pc.coll.get? k ∧ pc'.getSymbol k = pc.getSymbol k := by
  unfold PC.addParameter at hadd
  by_cases h : pc.coll.has n = true
  · rw [if_pos h] at hadd
    cases hadd
    exact ⟨hk h, rfl, fun k _ => ⟨rfl, rfl⟩⟩
  · rw [if_neg h] at hadd
    cases hp : Param.new n with
    | error e => rw [hp] at hadd; cases hadd
    | ok p =>
      rw [hp] at hadd
      simp only [Prod.mk.injEq, and_true] at hadd
      subst hadd
      refine ⟨⟨p.symbol, param_new_symbol hp, ?_⟩, rfl, fun k hkn => ⟨?_, ?_⟩⟩
      · unfold PC.getSymbol; simp
      · exact Dict.get?_set_ne _ _ hkn.symm
      · unfold PC.getSymbol; rw [Dict.get?_set_ne _ _ hkn.symm]

theorem parz_set {eng : Engine E} {pc pc' : PC E} {n : String} {e : E} (h : pc.addParameterisation eng n e = (pc', .ok ())) :
    ∃ names, pc'.coll = pc.coll ∧ pc'.symMap = pc.symMap ∧ pc'.parz = pc.parz.set n (e, names) := by
  unfold PC.addParameterisation at h
  split_ifs at h
  · split at h
    · cases h
    · dsimp only at h
      split_ifs at h
      · simp only [Prod.mk.injEq, and_true] at h
        subst h
        exact ⟨_, rfl, rfl, rfl⟩
      · cases h
  · cases h

theorem par_spec (eng : Engine E) (isZero : E → Bool) (symE : Sym → E) (name : ℕ → ℕ → String) : ∀ (l : List (ℕ × ℕ)) (pc pc' : PC E)
    (M M' : ℕ → ℕ → E), l.Nodup → (∀ p ∈ l, p.1 ≤ p.2) → (∀ p ∈ l, ∀ q ∈ l, name p.1 p.2 = name q.1 q.2 → p = q) →
    (∀ p ∈ l, pc.coll.has (name p.1 p.2) = true → ∃ s, Param.symbolOf (name p.1 p.2) = some s ∧ pc.getSymbol (name p.1 p.2) = .ok s) → parLoop eng isZero symE name l pc M = (pc', .ok M') →
    (∀ k, (∀ p ∈ l, k ≠ name p.1 p.2) → SameParam pc pc' k) ∧
    (∀ p ∈ l, (skipped eng isZero (M p.1 p.2) = true → SameParam pc pc' (name p.1 p.2) ∧ M' p.1 p.2 = M p.1 p.2 ∧ M' p.2 p.1 = M p.2 p.1) ∧
      (skipped eng isZero (M p.1 p.2) = false → ∃ s, Param.symbolOf (name p.1 p.2) = some s ∧ pc'.getSymbol (name p.1 p.2) = .ok s ∧
        pc'.getParametricExpression eng 0 (name p.1 p.2) false = .ok (M p.1 p.2) ∧ M' p.1 p.2 = symE s ∧ M' p.2 p.1 = symE s)) ∧
    (∀ i j, (i, j) ∉ l → (j, i) ∉ l → M' i j = M i j) := by
  intro l
  induction l with
  | nil =>
    intro pc pc' M M' _ _ _ _ h
    cases h
    exact ⟨fun k _ => ⟨rfl, rfl, rfl⟩, by simp, fun _ _ _ _ => rfl⟩
  | cons p l ih =>
    obtain ⟨i, j⟩ := p
    intro pc pc' M M' hnd hle hinj hno h
    rw [List.nodup_cons] at hnd
    unfold parLoop at h
    by_cases hsk : skipped eng isZero (M i j) = true
    · rw [if_pos hsk] at h
      obtain ⟨h1, h2, h3⟩ := ih pc pc' M M' hnd.2 (fun p hp => hle p (by simp [hp])) (fun p hp q hq => hinj p (by simp [hp]) q (by simp [hq]))
        (fun p hp => hno p (by simp [hp])) h
      have hji : (j, i) ∉ l := by
        intro hc
        have hh := hle _ (List.mem_cons_of_mem _ hc)
        have hh' := hle (i, j) (by simp)
        simp only at hh hh'
        have : i = j := by omega
        subst this
        exact hnd.1 hc
      refine ⟨fun k hk => h1 k (fun p hp => hk p (by simp [hp])), ?_, fun a b ha hb => h3 a b (fun hc => ha (by simp [hc])) (fun hc => hb (by simp [hc]))⟩
      intro p hp
      rcases List.mem_cons.1 hp with rfl | hp
      · refine ⟨fun _ => ⟨h1 _ ?_, h3 i j hnd.1 hji, h3 j i hji hnd.1⟩, fun hc => by rw [hsk] at hc; cases hc⟩
        intro q hq he
        exact hnd.1 ((hinj (i, j) (by simp) q (by simp [hq]) he) ▸ hq)
      · exact h2 p hp
    · rw [if_neg hsk] at h
      split at h
      · cases h
      rename_i pc1 hadd
      split at h
      · cases h
      rename_i pc2 hpar
      split at h
      · cases h
      rename_i s hs
      obtain ⟨⟨s0, a1, a0⟩, a4, a2⟩ := add_known (hno (i, j) (by simp)) hadd
      obtain ⟨names, b1, b2, b3⟩ := parz_set hpar
      have hs0 : s = s0 := by
        unfold PC.getSymbol at hs a0
        rw [b2] at hs
        rw [hs] at a0
        cases a0; rfl
      subst hs0
      have hsame : ∀ k, k ≠ name i j → SameParam pc pc2 k := by
        intro k hk
        refine ⟨?_, ?_, ?_⟩
        · rw [b1, (a2 k hk).1]
        · rw [← (a2 k hk).2]; unfold PC.getSymbol; rw [b2]
        · rw [b3, a4, Dict.get?_set_ne _ _ (Ne.symm hk)]
      have hne : ∀ q ∈ l, name q.1 q.2 ≠ name i j := by
        intro q hq he
        exact hnd.1 ((hinj q (by simp [hq]) (i, j) (by simp) he) ▸ hq)
      have hM : ∀ q ∈ l, setAt (setAt M i j (symE s)) j i (symE s) q.1 q.2 = M q.1 q.2 ∧
          setAt (setAt M i j (symE s)) j i (symE s) q.2 q.1 = M q.2 q.1 := by
        intro q hq
        have hq' := hle q (by simp [hq])
        have hij := hle (i, j) (by simp)
        simp only at hij
        have h1 : ¬ (q.1 = i ∧ q.2 = j) := by
          rintro ⟨e1, e2⟩
          exact hnd.1 (by rw [← e1, ← e2]; exact hq)
        have h2 : ¬ (q.1 = j ∧ q.2 = i) := by
          rintro ⟨e1, e2⟩
          exact h1 ⟨by omega, by omega⟩
        unfold setAt
        exact ⟨by rw [if_neg h2, if_neg h1], by rw [if_neg (fun h => h1 ⟨h.2, h.1⟩), if_neg (fun h => h2 ⟨h.2, h.1⟩)]⟩
      obtain ⟨h1, h2, h3⟩ := ih pc2 pc' _ M' hnd.2 (fun p hp => hle p (by simp [hp])) (fun p hp q hq => hinj p (by simp [hp]) q (by simp [hq]))
        (by
          intro q hq
          obtain ⟨u1, u2, -⟩ := hsame _ (hne q hq)
          have hh := hno q (by simp [hq])
          unfold Dict.has at hh ⊢
          rw [u1, u2]; exact hh) h
      have hji : (j, i) ∉ l := by
        intro hc
        have hh := hle _ (List.mem_cons_of_mem _ hc)
        have hh' := hle (i, j) (by simp)
        simp only at hh hh'
        have : i = j := by omega
        subst this
        exact hnd.1 hc
      have htr : ∀ k, k ≠ name i j → SameParam pc2 pc' k → SameParam pc pc' k := by
        intro k hk h
        obtain ⟨u1, u2, u3⟩ := hsame k hk
        exact ⟨h.1.trans u1, h.2.1.trans u2, h.2.2.trans u3⟩
      refine ⟨?_, ?_, ?_⟩
      · intro k hk
        exact htr k (hk (i, j) (by simp)) (h1 k (fun p hp => hk p (by simp [hp])))
      · intro p hp
        rcases List.mem_cons.1 hp with rfl | hp
        · refine ⟨fun hc => absurd hc hsk, fun _ => ⟨s, a1, ?_, ?_, ?_, ?_⟩⟩
          · rw [(h1 (name i j) (fun q hq => (hne q hq).symm)).2.1]; exact hs
          · have := (h1 (name i j) (fun q hq => (hne q hq).symm)).2.2
            unfold PC.getParametricExpression
            rw [this, b3]
            simp
          · rw [h3 i j hnd.1 hji]
            unfold setAt
            by_cases hij : i = j
            · subst hij; simp
            · simp
          · rw [h3 j i hji hnd.1]
            unfold setAt
            simp
        · obtain ⟨g1, g2⟩ := h2 p hp
          rw [(hM p hp).1] at g1 g2
          rw [(hM p hp).2] at g1
          exact ⟨fun hc => ⟨htr _ (hne p hp) (g1 hc).1, (g1 hc).2⟩, g2⟩
      · intro a b ha hb
        rw [h3 a b (fun hc => ha (by simp [hc])) (fun hc => hb (by simp [hc]))]
        unfold setAt
        rw [if_neg, if_neg]
        · rintro ⟨rfl, rfl⟩; exact ha (by simp)
        · rintro ⟨rfl, rfl⟩; exact hb (by simp)

theorem upper_mem {n : ℕ} {p : ℕ × ℕ} : p ∈ upper n ↔ p.1 ≤ p.2 ∧ p.2 < n := by
  obtain ⟨i, j⟩ := p
  simp only [upper, List.mem_flatMap, List.mem_range, List.mem_map, List.mem_filter, decide_eq_true_eq, Prod.mk.injEq]
  constructor
  · rintro ⟨a, ha, b, ⟨hb, hab⟩, rfl, rfl⟩
    exact ⟨hab, hb⟩
  · rintro ⟨h1, h2⟩
    exact ⟨i, by omega, j, ⟨h2, h1⟩, rfl, rfl⟩

theorem upper_nodup (n : ℕ) : (upper n).Nodup := by
  unfold upper
  rw [List.nodup_flatMap]
  refine ⟨fun i _ => (List.nodup_range.filter _).map (fun a b h => (Prod.mk.inj h).2), ?_⟩
  refine List.nodup_range.imp ?_
  intro a b hab
  simp only [Function.onFun, List.disjoint_left, List.mem_map]
  rintro ⟨x, y⟩ ⟨u, _, hu⟩ ⟨v, _, hv⟩
  exact hab ((Prod.mk.inj hu).1.trans (Prod.mk.inj hv).1.symm)

theorem parameterise_spec (eng : Engine E) (isZero : E → Bool) (symE : Sym → E) {c : Char} (hc : c = 'C' ∨ c = 'L') (inv : Bool) {n : ℕ}
    (hn : n ≤ 111) {pc pc' : PC E} {M M' : ℕ → ℕ → E} (hr : Own pc) (h : parameterise eng isZero symE c inv n pc M = (pc', .ok M')) :
    (∀ k, (∀ i j, k ≠ dname c inv i j) → SameParam pc pc' k) ∧ Own pc' ∧
    (∀ i j, i ≤ j → j < n →
      (skipped eng isZero (M i j) = true → SameParam pc pc' (dname c inv i j) ∧ M' i j = M i j ∧ M' j i = M j i) ∧
      (skipped eng isZero (M i j) = false → ∃ s, Param.symbolOf (dname c inv i j) = some s ∧ pc'.getSymbol (dname c inv i j) = .ok s ∧
        pc'.getParametricExpression eng 0 (dname c inv i j) false = .ok (M i j) ∧ M' i j = symE s ∧ M' j i = symE s)) := by
  have hh := par_spec eng isZero symE (dname c inv) (upper n) pc pc' M M' (upper_nodup n) (fun p hp => (upper_mem.1 hp).1)
    (fun p hp q hq he => by
      have h1 := upper_mem.1 hp
      have h2 := upper_mem.1 hq
      have := C36_entries_partial c inv h1.1 (by omega) h2.1 (by omega) he
      exact Prod.ext this.1 this.2)
    (fun p _ hk => hr _ (C36_reserved c hc inv _ _) hk) h
  obtain ⟨h1, h2, h3⟩ := hh
  refine ⟨fun k hk => h1 k (fun p _ => hk p.1 p.2), ?_, fun i j hij hj => h2 (i, j) (upper_mem.2 ⟨hij, hj⟩)⟩
  intro k hk hhas
  by_cases hex : ∃ p ∈ upper n, k = dname c inv p.1 p.2
  · obtain ⟨p, hp, rfl⟩ := hex
    obtain ⟨g1, g2⟩ := h2 p hp
    cases hs : skipped eng isZero (M p.1 p.2) with
    | true =>
      obtain ⟨⟨u1, u2, -⟩, -⟩ := g1 hs
      unfold Dict.has at hhas
      rw [u1] at hhas; rw [u2]
      exact hr _ hk hhas
    | false =>
      obtain ⟨s, a1, a2, -⟩ := g2 hs
      exact ⟨s, a1, a2⟩
  · push Not at hex
    obtain ⟨u1, u2, -⟩ := h1 k hex
    unfold Dict.has at hhas
    rw [u1] at hhas; rw [u2]
    exact hr _ hk hhas

theorem par_frame (eng : Engine E) (isZero : E → Bool) (symE : Sym → E) (c : Char) (inv : Bool) (hc : c = 'C' ∨ c = 'L') :
    ∀ (l : List (ℕ × ℕ)) (pc pc' : PC E) (M : ℕ → ℕ → E) (r : Except Err (ℕ → ℕ → E)), Own pc →
    parLoop eng isZero symE (dname c inv) l pc M = (pc', r) → Own pc' ∧ ∀ k, ¬ Reserved k → SameParam pc pc' k := by
  intro l
  induction l with
  | nil => intro pc pc' M r ho h; cases h; exact ⟨ho, fun k _ => ⟨rfl, rfl, rfl⟩⟩
  | cons p l ih =>
    obtain ⟨i, j⟩ := p
    intro pc pc' M r ho h
    have hres := C36_reserved c hc inv i j
    unfold parLoop at h
    by_cases hsk : skipped eng isZero (M i j) = true
    · rw [if_pos hsk] at h
      exact ih _ _ _ _ ho h
    rw [if_neg hsk] at h
    split at h
    · rename_i pc1 e hadd
      have : pc1 = pc := by
        unfold PC.addParameter at hadd
        split_ifs at hadd
        · cases hadd
        · split at hadd <;> cases hadd
          rfl
      subst this
      cases h
      exact ⟨ho, fun k _ => ⟨rfl, rfl, rfl⟩⟩
    rename_i pc1 hadd
    obtain ⟨⟨s0, a1, a0⟩, a4, a2⟩ := add_known (ho _ hres) hadd
    have ho1 : Own pc1 := by
      intro k hk hhas
      by_cases hkn : k = dname c inv i j
      · subst hkn; exact ⟨s0, a1, a0⟩
      · obtain ⟨u1, u2⟩ := a2 k hkn
        unfold Dict.has at hhas
        rw [u1] at hhas; rw [u2]
        exact ho k hk hhas
    have hf1 : ∀ k, ¬ Reserved k → SameParam pc pc1 k := by
      intro k hk
      obtain ⟨u1, u2⟩ := a2 k (fun he => hk (he ▸ hres))
      exact ⟨u1, u2, by rw [a4]⟩
    split at h
    · rename_i pc2 e hpar
      have : pc2 = pc1 := by
        unfold PC.addParameterisation at hpar
        split_ifs at hpar
        · split at hpar
          · cases hpar; rfl
          · dsimp only at hpar
            split_ifs at hpar
            · cases hpar
            · cases hpar; rfl
        · cases hpar; rfl
      subst this
      cases h
      exact ⟨ho1, hf1⟩
    rename_i pc2 hpar
    obtain ⟨names, b1, b2, b3⟩ := parz_set hpar
    have ho2 : Own pc2 := by
      intro k hk hhas
      rw [b1] at hhas
      have := ho1 k hk hhas
      unfold PC.getSymbol at this ⊢
      rw [b2]; exact this
    have hf2 : ∀ k, ¬ Reserved k → SameParam pc pc2 k := by
      intro k hk
      obtain ⟨u1, u2, u3⟩ := hf1 k hk
      refine ⟨by rw [b1, u1], by rw [← u2]; unfold PC.getSymbol; rw [b2], ?_⟩
      rw [b3, Dict.get?_set_ne _ _ (fun he => hk (by rw [← he]; exact hres)), u3]
    split at h
    · cases h
      exact ⟨ho2, hf2⟩
    · obtain ⟨g1, g2⟩ := ih _ _ _ _ ho2 h
      refine ⟨g1, fun k hk => ?_⟩
      obtain ⟨u1, u2, u3⟩ := hf2 k hk
      obtain ⟨v1, v2, v3⟩ := g2 k hk
      exact ⟨v1.trans u1, v2.trans u2, v3.trans u3⟩

theorem calls_frame (eng : Engine E) (isZero : E → Bool) (symE : Sym → E) {pc pc' : PC E} (ho : Own pc) (h : DerivedCalls eng isZero symE pc pc') :
    Own pc' ∧ ∀ k, ¬ Reserved k → SameParam pc pc' k := by
  induction h with
  | none => exact ⟨ho, fun k _ => ⟨rfl, rfl, rfl⟩⟩
  | call c inv n M _ hc hp ih =>
    obtain ⟨h1, h2⟩ := par_frame eng isZero symE c inv hc _ _ _ _ _ ih.1 hp
    refine ⟨h1, fun k hk => ?_⟩
    obtain ⟨u1, u2, u3⟩ := ih.2 k hk
    obtain ⟨v1, v2, v3⟩ := h2 k hk
    exact ⟨v1.trans u1, v2.trans u2, v3.trans u3⟩

theorem entryOk_of {eng : Engine E} {isZero : E → Bool} {symE : Sym → E} {pc' : PC E} {x x' : E} {n : String}
    (h1 : skipped eng isZero x = true → x' = x)
    (h2 : skipped eng isZero x = false → ∃ s, Param.symbolOf n = some s ∧ pc'.getSymbol n = .ok s ∧
        pc'.getParametricExpression eng 0 n false = .ok x ∧ x' = symE s) : EntryOk eng isZero symE pc' x x' n := by
  refine ⟨fun h => h1 (by unfold skipped; simpa using h), fun hz hl => ?_⟩
  obtain ⟨s, a1, a2, a3, a4⟩ := h2 (by unfold skipped; simp [hz]; omega)
  exact ⟨s, a4, a2, a3, fun k hk => symbolOf_inj hk a1⟩

/-- **C36** (user components): as long as no component of the user has a name of the form of a derived parameter, no history of calls of the
four methods changes a component's symbol, value, bounds or parameterisation; and none of them becomes parametric. -/
theorem C36_user_partial (eng : Engine E) (isZero : E → Bool) (symE : Sym → E) {pc pc' : PC E}
    (huser : ∀ k, pc.coll.has k = true → ¬ Reserved k) (h : DerivedCalls eng isZero symE pc pc') :
    ∀ k, pc.coll.has k = true → pc'.coll.get? k = pc.coll.get? k ∧ pc'.getSymbol k = pc.getSymbol k ∧ pc'.parz.get? k = pc.parz.get? k :=
  fun k hk => (calls_frame eng isZero symE (fun k hr hk => absurd hr (huser k hk)) h).2 k (huser k hk)

/-- **C36** (matrix entries): with such names, and up to 111 nodes, after any history of calls, each of the methods returns a matrix whose
entries are the entries of the matrix it computed, or symbols of parameters of their own that stand for those entries. -/
theorem C36_partial (eng : Engine E) (isZero : E → Bool) (symE : Sym → E) {pc pc1 pc' : PC E} {c : Char} (hc : c = 'C' ∨ c = 'L') (inv : Bool) {n : ℕ}
    (hn : n ≤ 111) {M M' : ℕ → ℕ → E} (hsym : ∀ i j, M i j = M j i)
    (huser : ∀ k, pc.coll.has k = true → ¬ Reserved k) (h1 : DerivedCalls eng isZero symE pc pc1)
    (h : parameterise eng isZero symE c inv n pc1 M = (pc', .ok M')) {i j : ℕ} (hi : i < n) (hj : j < n) :
    EntryOk eng isZero symE pc' (M i j) (M' i j) (dname c inv (min i j) (max i j)) := by
  have ho := (calls_frame eng isZero symE (fun k hr hk => absurd hr (huser k hk)) h1).1
  obtain ⟨-, -, h3⟩ := parameterise_spec eng isZero symE hc inv hn ho h
  rcases le_total i j with hij | hij
  · rw [min_eq_left hij, max_eq_right hij]
    obtain ⟨g1, g2⟩ := h3 i j hij hj
    refine entryOk_of (fun hs => (g1 hs).2.1) (fun hs => ?_)
    obtain ⟨s, a1, a2, a3, a4, a5⟩ := g2 hs
    exact ⟨s, a1, a2, a3, a4⟩
  · rw [min_eq_right hij, max_eq_left hij]
    obtain ⟨g1, g2⟩ := h3 j i hij hi
    rw [hsym i j]
    refine entryOk_of (fun hs => (g1 hs).2.2.trans (hsym i j)) (fun hs => ?_)
    obtain ⟨s, a1, a2, a3, a4, a5⟩ := g2 hs
    exact ⟨s, a1, a2, a3, a5⟩

/-- **C36** (two matrices): `getInverseCapacitanceMatrix` leaves the parameters of the capacitance matrix it inverted in place beside those
of its inverse. -/
theorem C36_inverse_partial (eng : Engine E) (isZero : E → Bool) (symE : Sym → E) (inverse : (ℕ → ℕ → E) → ℕ → ℕ → E) {pc pc1 pc' : PC E} {n : ℕ}
    (hn : n ≤ 111) {M M' : ℕ → ℕ → E} (huser : ∀ k, pc.coll.has k = true → ¬ Reserved k) (h1 : DerivedCalls eng isZero symE pc pc1)
    (h : inverseCapacitance eng isZero symE inverse n pc1 M = (pc', .ok M')) :
    ∃ M1, ∀ i j, i ≤ j → j < n → EntryOk eng isZero symE pc' (M i j) (M1 i j) (dname 'C' false i j) ∧
      EntryOk eng isZero symE pc' (inverse M1 i j) (M' i j) (dname 'C' true i j) := by
  have ho := (calls_frame eng isZero symE (fun k hr hk => absurd hr (huser k hk)) h1).1
  unfold inverseCapacitance at h
  split at h
  · cases h
  rename_i pc2 M1 hp
  obtain ⟨-, ho2, h3⟩ := parameterise_spec eng isZero symE (Or.inl rfl) false hn ho hp
  obtain ⟨f4, -, h4⟩ := parameterise_spec eng isZero symE (Or.inl rfl) true hn ho2 h
  refine ⟨M1, fun i j hij hj => ⟨?_, ?_⟩⟩
  · obtain ⟨g1, g2⟩ := h3 i j hij hj
    refine entryOk_of (fun hs => (g1 hs).2.1) (fun hs => ?_)
    obtain ⟨s, a1, a2, a3, a4, a5⟩ := g2 hs
    obtain ⟨-, u2, u3⟩ := f4 (dname 'C' false i j) (fun k l he => by cases (C36_matrices he).2)
    refine ⟨s, a1, by rw [u2]; exact a2, ?_, a4⟩
    unfold PC.getParametricExpression at a3 ⊢
    rw [u3]; exact a3
  · obtain ⟨g1, g2⟩ := h4 i j hij hj
    refine entryOk_of (fun hs => (g1 hs).2.1) (fun hs => ?_)
    obtain ⟨s, a1, a2, a3, a4, a5⟩ := g2 hs
    exact ⟨s, a1, a2, a3, a4⟩

/-! ### What fails -/

/-- The two diagonal entries of two nodes with capacitors `a`, `b` to ground and `c` between them. -/
def capMatrix (a b c : Sym) : ℕ → ℕ → Ast
  | 0, 0 => .add (.sym a) (.sym c)
  | 1, 1 => .add (.sym b) (.sym c)
  | 0, 1 => .mul (.lit (.fin (-1))) (.sym c)
  | 1, 0 => .mul (.lit (.fin (-1))) (.sym c)
  | _, _ => .lit (.fin 0)

def capPC (a b c : String) : PC Ast :=
  (PC.new [a, b, c]).toOption.getD { coll := [], symMap := [], parz := [], graph := { nodes := [], edges := [] } }

def capRun (a b c : String) (sa sb sc : Sym) : PC Ast × Except Err (ℕ → ℕ → Ast) :=
  parameterise Ast.engine (fun e => e == .lit (.fin 0)) .sym 'C' false 2 (capPC a b c) (capMatrix sa sb sc)

/-- `setParameterValue` for three parameters in a row. -/
def set3 (pc : PC Ast) (a : String) (x : ℚ) (b : String) (y : ℚ) (c : String) (z : ℚ) : PC Ast :=
  let pc := (pc.setParameterValue Ast.engine HashOrder.id 10 a (.float (.fin x))).1
  let pc := (pc.setParameterValue Ast.engine HashOrder.id 10 b (.float (.fin y))).1
  (pc.setParameterValue Ast.engine HashOrder.id 10 c (.float (.fin z))).1

/-- Proper names: the two diagonal entries get the values of the sums. -/
example : PC.new ["Ca", "Cb", "Cc"] = .ok (capPC "Ca" "Cb" "Cc") ∧
    (set3 (capRun "Ca" "Cb" "Cc" "C_{a}" "C_{b}" "C_{c}").1 "Ca" 7 "Cb" 1 "Cc" 2).getParameterValue "Ca" = .ok (some (.fin 7)) ∧
    (set3 (capRun "Ca" "Cb" "Cc" "C_{a}" "C_{b}" "C_{c}").1 "Ca" 7 "Cb" 1 "Cc" 2).getParameterValue "C00" = .ok (some (.fin 9)) ∧
    (set3 (capRun "Ca" "Cb" "Cc" "C_{a}" "C_{b}" "C_{c}").1 "Ca" 7 "Cb" 1 "Cc" 2).getParameterValue "C11" = .ok (some (.fin 3)) := by
  refine ⟨?_, ?_, ?_, ?_⟩ <;> decide +kernel

theorem not_reserved_of {k : String} (h : (k.toList.drop 1).head?.map Char.isDigit ≠ some true) : ¬ Reserved k := by
  rintro ⟨c, ds, -, hne, hd, hk⟩
  apply h
  cases ds with
  | nil => simp at hne
  | cons d ds =>
    rcases hk with hk | hk <;> rw [hk] <;> simp [hd d (by simp)]

/-- A name with one digit is free for use. -/
theorem not_reserved_digit {k : String} (h : (k.toList.drop 2).head?.map Char.isDigit ≠ some true) : ¬ Reserved k := by
  rintro ⟨c, ds, -, hne, hd, hk⟩
  apply h
  match ds, hne with
  | d :: d' :: ds, _ => rcases hk with hk | hk <;> rw [hk] <;> simp [hd d' (by simp)]

example : ¬ Reserved "C1" ∧ ¬ Reserved "L2" ∧ Reserved "C12" ∧ Reserved "L11i" :=
  ⟨not_reserved_digit (by decide), not_reserved_digit (by decide), ⟨'C', ['1', '2'], .inl rfl, by decide, by decide, .inl rfl⟩,
    ⟨'L', ['1', '1'], .inr rfl, by decide, by decide, .inr rfl⟩⟩

/-- The hypotheses of the theorems above are met by it. -/
example : (∀ k, (capPC "Ca" "Cb" "Cc").coll.has k = true → ¬ Reserved k) ∧
    DerivedCalls Ast.engine (fun e => e == .lit (.fin 0)) .sym (capPC "Ca" "Cb" "Cc") (capRun "Ca" "Cb" "Cc" "C_{a}" "C_{b}" "C_{c}").1 ∧
    (capRun "Ca" "Cb" "Cc" "C_{a}" "C_{b}" "C_{c}").2.isOk = true ∧
    (∀ i j, capMatrix "C_{a}" "C_{b}" "C_{c}" i j = capMatrix "C_{a}" "C_{b}" "C_{c}" j i) := by
  refine ⟨?_, .call 'C' false 2 (capMatrix "C_{a}" "C_{b}" "C_{c}") .none (Or.inl rfl) (r := (capRun "Ca" "Cb" "Cc" "C_{a}" "C_{b}" "C_{c}").2) rfl, by decide +kernel, ?_⟩
  · intro k hk
    have : k ∈ (capPC "Ca" "Cb" "Cc").coll.keys := by
      unfold Dict.has at hk
      obtain ⟨v, hv⟩ := Option.isSome_iff_exists.1 hk
      exact Dict.mem_keys_of_get? hv
    have hkeys : (capPC "Ca" "Cb" "Cc").coll.keys = ["Ca", "Cb", "Cc"] := by decide +kernel
    rw [hkeys] at this
    simp only [List.mem_cons, List.not_mem_nil, or_false] at this
    rcases this with rfl | rfl | rfl <;> exact not_reserved_of (by decide +kernel)
  · intro i j
    match i, j with
    | 0, 0 => rfl
    | 0, 1 => rfl
    | 1, 0 => rfl
    | 1, 1 => rfl
    | 0, j + 2 => rfl
    | 1, j + 2 => rfl
    | i + 2, 0 => rfl
    | i + 2, 1 => rfl
    | i + 2, j + 2 => rfl

/-- **C36 is false**: a capacitor that the user calls `C11`, on the other node, becomes the derived parameter of entry (1, 1): the value 7
that the user sets afterwards is silently replaced by the sum of the two other capacitors. -/
theorem C36_false_user_name : PC.new ["C11", "Cb", "Cc"] = .ok (capPC "C11" "Cb" "Cc") ∧
    (capRun "C11" "Cb" "Cc" "C_{11}" "C_{b}" "C_{c}").2.isOk = true ∧
    (set3 (capRun "C11" "Cb" "Cc" "C_{11}" "C_{b}" "C_{c}").1 "Cb" 1 "Cc" 2 "C11" 7).getParameterValue "C11" = .ok (some (.fin 3)) ∧
    (set3 (capRun "C11" "Cb" "Cc" "C_{11}" "C_{b}" "C_{c}").1 "Cb" 1 "Cc" 2 "C11" 7).getParameterValue "C00" = .ok (some (.fin 5)) := by
  refine ⟨?_, ?_, ?_, ?_⟩ <;> decide +kernel

/-- **C36 is false**: when the capacitor called `C00` is on the first node, the entry would have to be defined by itself, and the method
raises. -/
theorem C36_false_crash : PC.new ["C00", "Cb", "Cc"] = .ok (capPC "C00" "Cb" "Cc") ∧
    (match (capRun "C00" "Cb" "Cc" "C_{00}" "C_{b}" "C_{c}").2 with | .error e => some e | .ok _ => none) = some .assertionError := by
  refine ⟨?_, ?_⟩ <;> decide +kernel

/-- **C36 is false** for 112 nodes and more: the entries (1, 111) and (11, 11) have the same name. -/
theorem C36_false_many_nodes : dname 'C' false 1 111 = dname 'C' false 11 11 ∧ (1, 111) ∈ upper 112 ∧ (11, 11) ∈ upper 112 :=
  ⟨by decide +kernel, upper_mem.2 (by decide), upper_mem.2 (by decide)⟩

end Verif.Props
