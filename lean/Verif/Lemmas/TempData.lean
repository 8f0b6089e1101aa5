import Verif.Spec.TempData
import Mathlib.Tactic

/-!
# Lemmas on temporary data
-/

namespace Verif.Temp

open Verif Verif.Spec

variable {A : Type}

theorem append_sep_inj {c : Char} : ∀ (x y u v : List Char), c ∉ x → c ∉ y →
    x ++ c :: u = y ++ c :: v → x = y ∧ u = v := by
  intro x
  induction x with
  | nil =>
    intro y u v _ hy h
    cases y with
    | nil => simpa using h
    | cons d y => simp at h hy; exact absurd h.1 hy.1
  | cons d x ih =>
    intro y u v hx hy h
    cases y with
    | nil => simp at h hx; exact absurd h.1.symm hx.1
    | cons d' y =>
      simp only [List.cons_append, List.cons.injEq] at h
      simp only [List.mem_cons, not_or] at hx hy
      obtain ⟨h1, h2⟩ := ih y u v hx.2 hy.2 h.2
      exact ⟨by rw [h.1, h1], h2⟩

theorem digitChar_inj {a b : ℕ} (ha : a < 16) (hb : b < 16) (h : Nat.digitChar a = Nat.digitChar b) : a = b := by
  interval_cases a <;> interval_cases b <;> first | rfl | (exfalso; revert h; decide)

theorem digitChar_ne {a : ℕ} (ha : a < 16) : Nat.digitChar a ≠ '/' ∧ Nat.digitChar a ≠ '.' := by
  interval_cases a <;> decide

theorem map_digitChar_inj : ∀ (l l' : List ℕ), (∀ d ∈ l, d < 16) → (∀ d ∈ l', d < 16) →
    l.map Nat.digitChar = l'.map Nat.digitChar → l = l' := by
  intro l
  induction l with
  | nil => intro l' _ _ h; simp at h; exact h.symm
  | cons a l ih =>
    intro l' h1 h2 h
    cases l' with
    | nil => simp at h
    | cons b l' =>
      simp only [List.map_cons, List.cons.injEq] at h
      rw [digitChar_inj (h1 a (by simp)) (h2 b (by simp)) h.1,
        ih l' (fun d hd => h1 d (by simp [hd])) (fun d hd => h2 d (by simp [hd])) h.2]

theorem digits_lt16 {b : ℕ} (hb : 1 < b) (hb' : b ≤ 16) (n : ℕ) : ∀ d ∈ Nat.digits b n, d < 16 :=
  fun _ hd => lt_of_lt_of_le (Nat.digits_lt_base hb hd) hb'

theorem numeral_inj {b : ℕ} (hb : 1 < b) (hb' : b ≤ 16) {n m : ℕ} (h : numeral b n = numeral b m) : n = m := by
  have key : ∀ k, k ≠ 0 → numeral b k ≠ ['0'] := by
    intro k hk he
    unfold numeral at he
    rw [if_neg hk] at he
    have h1 : (Nat.digits b k).reverse = [0] := by
      apply map_digitChar_inj
      · intro d hd; exact digits_lt16 hb hb' k d (by simpa using hd)
      · simp
      · rw [he]; rfl
    have h2 : Nat.digits b k = [0] := by
      have := congrArg List.reverse h1; simpa using this
    have := Nat.ofDigits_digits b k
    rw [h2] at this
    simp [Nat.ofDigits] at this
    exact hk this.symm
  by_cases hn : n = 0
  · subst hn
    by_contra hm
    exact key m (fun e => hm e.symm) (by rw [← h]; simp [numeral])
  · by_cases hm : m = 0
    · subst hm
      exact absurd (by rw [h]; simp [numeral]) (key n hn)
    · unfold numeral at h
      rw [if_neg hn, if_neg hm] at h
      have := map_digitChar_inj _ _ (fun d hd => digits_lt16 hb hb' n d (by simpa using hd))
        (fun d hd => digits_lt16 hb hb' m d (by simpa using hd)) h
      exact Nat.digits_inj_iff.1 (List.reverse_injective this)

theorem numeral_chars {b : ℕ} (hb : 1 < b) (hb' : b ≤ 16) (n : ℕ) : '/' ∉ numeral b n ∧ '.' ∉ numeral b n := by
  unfold numeral
  split_ifs
  · decide
  · constructor
    all_goals
      intro hc
      obtain ⟨d, hd, he⟩ := List.mem_map.1 hc
      have := digits_lt16 hb hb' n d (by simpa using hd)
    · exact (digitChar_ne this).1 he
    · exact (digitChar_ne this).2 he

/-- The name of part `k` in a directory. -/
def partName (path : Path) (k : ℕ) : Path := path ++ "part-".toList ++ numeral 10 k ++ ".bin".toList

theorem partName_tail (k : ℕ) : '/' ∉ ("part-".toList ++ numeral 10 k ++ ".bin".toList) := by
  have := (numeral_chars (b := 10) (by norm_num) (by norm_num) k).1
  simp [this]

theorem partName_eq (path : Path) (k : ℕ) :
    partName path k = path ++ ("part-".toList ++ numeral 10 k ++ ".bin".toList) := by
  simp [partName]

theorem partName_inj {path : Path} {k l : ℕ} (h : partName path k = partName path l) : k = l := by
  rw [partName_eq, partName_eq, List.append_cancel_left_eq, List.append_assoc, List.append_assoc,
    List.append_cancel_left_eq] at h
  exact numeral_inj (b := 10) (by norm_num) (by norm_num) (List.append_cancel_right h)

theorem dropWhile_append_of_all {α : Type} (p : α → Bool) : ∀ (x y : List α), (∀ c ∈ x, p c = true) →
    (x ++ y).dropWhile p = y.dropWhile p := by
  intro x y
  induction x with
  | nil => intro _; rfl
  | cons c x ih =>
    intro h
    rw [List.cons_append, List.dropWhile_cons, if_pos (h c (by simp))]
    exact ih (fun d hd => h d (by simp [hd]))

theorem dirOf_append_sep (x tail : List Char) (h : '/' ∉ tail) : dirOf (x ++ ['/'] ++ tail) = x ++ ['/'] := by
  unfold dirOf
  rw [List.reverse_append, dropWhile_append_of_all]
  · simp
  · intro c hc
    simp only [List.mem_reverse] at hc
    have : c ≠ '/' := fun e => h (e ▸ hc)
    simpa using this

theorem dirOf_no_sep (tail : List Char) (h : '/' ∉ tail) : dirOf tail = [] := by
  unfold dirOf
  have := dropWhile_append_of_all (fun c => decide (c ≠ '/')) tail.reverse [] (by
    intro c hc
    simp only [List.mem_reverse] at hc
    have : c ≠ '/' := fun e => h (e ▸ hc)
    simpa using this)
  simp only [List.append_nil] at this
  rw [this]; rfl

theorem sessionDir_eq (root : Path) (n : ℕ) :
    sessionDir root n = root ++ ("session-".toList ++ numeral 16 n) ++ ['/'] := by
  simp [sessionDir]

theorem sess_no_sep (n : ℕ) : '/' ∉ ("session-".toList ++ numeral 16 n) := by
  have := (numeral_chars (b := 16) (by norm_num) (by norm_num) n).1
  simp [this]

/-- A session directory is not a prefix of anything inside another session directory. -/
theorem sessionDir_prefix {root : Path} {n m : ℕ} {t : Path} (h : sessionDir root n <+: sessionDir root m ++ t) :
    n = m := by
  obtain ⟨u, hu⟩ := h
  rw [sessionDir_eq, sessionDir_eq] at hu
  simp only [List.append_assoc, List.append_cancel_left_eq] at hu
  have h1 := append_sep_inj (c := '/') (numeral 16 n) (numeral 16 m) u t
    (numeral_chars (by norm_num) (by norm_num) n).1 (numeral_chars (by norm_num) (by norm_num) m).1
    (by simpa using hu)
  exact numeral_inj (b := 16) (by norm_num) (by norm_num) h1.1

theorem get?_filter_key {κ α : Type} [DecidableEq κ] (d : Dict κ α) (p : κ → Bool) (k : κ) :
    Dict.get? (d.filter (fun x => p x.1)) k = if p k then Dict.get? d k else none := by
  induction d with
  | nil => simp
  | cons x d ih =>
    obtain ⟨k', v⟩ := x
    by_cases hp : p k'
    · rw [List.filter_cons_of_pos (by simpa using hp), Dict.get?_cons, Dict.get?_cons, ih]
      by_cases hk : k' = k
      · subst hk; simp [hp]
      · simp [hk]
    · rw [List.filter_cons_of_neg (by simpa using hp), ih, Dict.get?_cons]
      by_cases hk : k' = k
      · subst hk; simp [hp]
      · simp [hk]

/-- What holds after every history: an instance with a session writes into its own session directory,
which exists; one without writes into the root or the current directory. -/
structure TInv (root : Path) (ident : ℕ → ℕ) (w : World A) : Prop where
  session : ∀ (i : ℕ) (o : Obj), w.objs[i]? = some o → o.exists_ = true →
    o.path = sessionDir root (ident i) ∧ sessionDir root (ident i) ∈ w.dirs
  none : ∀ (i : ℕ) (o : Obj), w.objs[i]? = some o → o.exists_ = false → o.path = root ∨ o.path = []

theorem tinv_run {root : Path} {ident : ℕ → ℕ} (hid : Function.Injective ident) (w : World A)
    (h : TInv root ident w) (c : TCall A) : TInv root ident (c.run root ident w) := by
  cases c with
  | new =>
    constructor
    · intro i o ho he
      simp only [TCall.run, Temp.new] at ho ⊢
      rw [List.getElem?_append] at ho
      split_ifs at ho with hi
      · obtain ⟨h1, h2⟩ := h.session i o ho he
        refine ⟨h1, ?_⟩
        split_ifs
        · exact h2
        · exact List.mem_cons_of_mem _ h2
      · rw [List.getElem?_singleton] at ho
        split_ifs at ho
        cases ho; cases he
    · intro i o ho he
      simp only [TCall.run, Temp.new] at ho
      rw [List.getElem?_append] at ho
      split_ifs at ho with hi
      · exact h.none i o ho he
      · rw [List.getElem?_singleton] at ho
        split_ifs at ho
        cases ho; exact Or.inl rfl
  | newSession j =>
    simp only [TCall.run, Temp.newSession]
    split
    · exact h
    · rename_i o₀ ho₀
      rw [← sessionDir_eq]
      have hmem : ∀ d, d ∈ w.dirs → d ∈ (if sessionDir root (ident j) ∈ w.dirs then w.dirs
          else sessionDir root (ident j) :: w.dirs) := by
        intro d hd; split_ifs
        · exact hd
        · exact List.mem_cons_of_mem _ hd
      have hself : sessionDir root (ident j) ∈ (if sessionDir root (ident j) ∈ w.dirs then w.dirs
          else sessionDir root (ident j) :: w.dirs) := by
        split_ifs with hx
        · exact hx
        · simp
      constructor
      · intro i o ho he
        simp only at ho ⊢
        rw [List.getElem?_set] at ho
        split_ifs at ho with h1 h2
        · subst h1; cases ho; exact ⟨rfl, hself⟩
        · obtain ⟨a, b⟩ := h.session i o ho he; exact ⟨a, hmem _ b⟩
      · intro i o ho he
        simp only at ho
        rw [List.getElem?_set] at ho
        split_ifs at ho with h1 h2
        · cases ho; cases he
        · exact h.none i o ho he
  | writePart j a =>
    simp only [TCall.run, Temp.writePart]
    split
    · exact h
    · rename_i o₀ ho₀
      split_ifs with hd
      · constructor
        · intro i o ho he
          simp only at ho ⊢
          rw [List.getElem?_set] at ho
          split_ifs at ho with h1 h2
          · subst h1; cases ho; exact h.session j o₀ ho₀ he
          · exact h.session i o ho he
        · intro i o ho he
          simp only at ho
          rw [List.getElem?_set] at ho
          split_ifs at ho with h1 h2
          · subst h1; cases ho; exact h.none j o₀ ho₀ he
          · exact h.none i o ho he
      · exact h
  | clearSession j =>
    simp only [TCall.run, Temp.clearSession]
    split
    · exact h
    · rename_i o₀ ho₀
      split_ifs with hex
      · split
        · exact h
        · rename_i w' hw'
          unfold rmtree at hw'
          split_ifs at hw' with hdir
          cases hw'
          obtain ⟨hp, _⟩ := h.session j o₀ ho₀ hex
          constructor
          · intro i o ho he
            simp only at ho ⊢
            rw [List.getElem?_set] at ho
            split_ifs at ho with h1 h2
            · cases ho; cases he
            · obtain ⟨a, b⟩ := h.session i o ho he
              refine ⟨a, ?_⟩
              rw [List.mem_filter]
              refine ⟨b, ?_⟩
              rw [hp]
              simp only [Bool.not_eq_true', Bool.eq_false_iff, ne_eq, List.isPrefixOf_iff_prefix]
              intro hc
              have := sessionDir_prefix (t := []) (by simpa using hc)
              exact h1 (hid this)
          · intro i o ho he
            simp only at ho
            rw [List.getElem?_set] at ho
            split_ifs at ho with h1 h2
            · cases ho; exact Or.inr rfl
            · exact h.none i o ho he
      · constructor
        · intro i o ho he
          simp only at ho ⊢
          rw [List.getElem?_set] at ho
          split_ifs at ho with h1 h2
          · cases ho; exact absurd he hex
          · exact h.session i o ho he
        · intro i o ho he
          simp only at ho
          rw [List.getElem?_set] at ho
          split_ifs at ho with h1 h2
          · cases ho; exact Or.inr rfl
          · exact h.none i o ho he

theorem tinv_runT {root : Path} {ident : ℕ → ℕ} (hid : Function.Injective ident) : ∀ (h : List (TCall A))
    (w : World A), TInv root ident w → TInv root ident (runT root ident w h) := by
  intro h
  induction h with
  | nil => intro w hw; exact hw
  | cons c h ih => intro w hw; exact ih _ (tinv_run hid w hw c)

/-- What is kept about a part after it was written. -/
structure PartInv (root : Path) (ident : ℕ → ℕ) (i k : ℕ) (a : A) (w : World A) : Prop where
  inv : TInv root ident w
  obj : ∃ o : Obj, w.objs[i]? = some o ∧ o.exists_ = true ∧ k < o.count
  file : w.files.get? (partName (sessionDir root (ident i)) k) = some a

/-- Names written by an instance are never the names of another instance's session parts. -/
theorem partName_ne {root : Path} {ident : ℕ → ℕ} (hroot : ∃ r, root = '/' :: r) (hid : Function.Injective ident)
    {w : World A} (hw : TInv root ident w) {i j k l : ℕ} {o : Obj} (hj : w.objs[j]? = some o) (hij : i ≠ j) :
    partName o.path l ≠ partName (sessionDir root (ident i)) k := by
  intro he
  cases hex : o.exists_ with
  | true =>
    obtain ⟨hp, _⟩ := hw.session j o hj hex
    rw [hp, partName_eq, partName_eq] at he
    have : sessionDir root (ident j) <+: sessionDir root (ident i) ++ ("part-".toList ++ numeral 10 k ++ ".bin".toList) :=
      ⟨_, he⟩
    exact hij (hid (sessionDir_prefix this)).symm
  | false =>
    obtain ⟨r, hr⟩ := hroot
    rcases hw.none j o hj hex with hp | hp
    · rw [hp, partName_eq, partName_eq, sessionDir_eq] at he
      simp only [List.append_assoc, List.append_cancel_left_eq] at he
      have := congrArg List.head? he
      simp at this
    · rw [hp, partName_eq, partName_eq, sessionDir_eq, hr] at he
      have := congrArg List.head? he
      simp at this

theorem partInv_run {root : Path} {ident : ℕ → ℕ} (hroot : ∃ r, root = '/' :: r) (hid : Function.Injective ident)
    {i k : ℕ} {a : A} {w : World A} (h : PartInv root ident i k a w) (c : TCall A)
    (hc : c ≠ .clearSession i) :
    PartInv root ident i k a (c.run root ident w) ∧
      c.written w ≠ some (partName (sessionDir root (ident i)) k) := by
  have hinv := tinv_run hid w h.inv c
  obtain ⟨o, ho, he, hk⟩ := h.obj
  obtain ⟨hp, hdir⟩ := h.inv.session i o ho he
  cases c with
  | new =>
    refine ⟨⟨hinv, ⟨o, ?_, he, hk⟩, h.file⟩, by simp [TCall.written]⟩
    simp only [TCall.run, Temp.new]
    rw [List.getElem?_append, if_pos (List.getElem?_eq_some_iff.1 ho).1]
    exact ho
  | newSession j =>
    refine ⟨⟨hinv, ?_, ?_⟩, by simp [TCall.written]⟩
    · simp only [TCall.run, Temp.newSession]
      split
      · exact ⟨o, ho, he, hk⟩
      · rename_i o₀ ho₀
        simp only
        by_cases hij : j = i
        · subst hij
          rw [ho] at ho₀; cases ho₀
          refine ⟨_, List.getElem?_set_self (List.getElem?_eq_some_iff.1 ho).1, rfl, hk⟩
        · exact ⟨o, by rw [List.getElem?_set_ne hij]; exact ho, he, hk⟩
    · simp only [TCall.run, Temp.newSession]
      split <;> exact h.file
  | writePart j b =>
    simp only [TCall.run, TCall.written] at hinv ⊢
    unfold Temp.writePart at hinv ⊢
    cases hj : w.objs[j]? with
    | none => simp only; exact ⟨h, by simp [Except.toOption]⟩
    | some o₀ =>
      simp only [hj] at hinv ⊢
      rw [show o₀.path ++ "part-".toList ++ numeral 10 o₀.count ++ ".bin".toList = partName o₀.path o₀.count from rfl]
        at hinv ⊢
      by_cases hd : dirOf (partName o₀.path o₀.count) = [] ∨ dirOf (partName o₀.path o₀.count) ∈ w.dirs
      · rw [if_pos hd] at hinv ⊢
        have hne : partName o₀.path o₀.count ≠ partName (sessionDir root (ident i)) k := by
          by_cases hij : j = i
          · subst hij
            rw [ho] at hj; cases hj
            rw [hp]
            intro hc
            have := partName_inj hc
            omega
          · exact partName_ne hroot hid h.inv hj (fun e => hij e.symm)
        refine ⟨⟨hinv, ?_, ?_⟩, ?_⟩
        · by_cases hij : j = i
          · subst hij
            rw [ho] at hj; cases hj
            exact ⟨_, List.getElem?_set_self (List.getElem?_eq_some_iff.1 ho).1, he, by simp; omega⟩
          · exact ⟨o, by simp only; rw [List.getElem?_set_ne hij]; exact ho, he, hk⟩
        · simp only
          rw [Dict.get?_set_ne _ _ hne]; exact h.file
        · simpa [Except.toOption] using hne
      · rw [if_neg hd] at hinv ⊢
        exact ⟨h, by simp [Except.toOption]⟩
  | clearSession j =>
    have hji : j ≠ i := fun e => hc (by rw [e])
    refine ⟨⟨hinv, ?_, ?_⟩, by simp [TCall.written]⟩
    · simp only [TCall.run, Temp.clearSession]
      split
      · exact ⟨o, ho, he, hk⟩
      · split_ifs
        · split
          · exact ⟨o, ho, he, hk⟩
          · rename_i w' hw'
            unfold rmtree at hw'
            split_ifs at hw'
            cases hw'
            exact ⟨o, by simp only; rw [List.getElem?_set_ne hji]; exact ho, he, hk⟩
        · exact ⟨o, by simp only; rw [List.getElem?_set_ne hji]; exact ho, he, hk⟩
    · simp only [TCall.run, Temp.clearSession]
      split
      · exact h.file
      · rename_i o₀ ho₀
        split_ifs with hex
        · split
          · exact h.file
          · rename_i w' hw'
            unfold rmtree at hw'
            split_ifs at hw'
            cases hw'
            obtain ⟨hp₀, _⟩ := h.inv.session j o₀ ho₀ hex
            simp only
            rw [get?_filter_key w.files (fun p => ! o₀.path.isPrefixOf p), if_pos]
            · exact h.file
            · rw [hp₀]
              simp only [Bool.not_eq_true', Bool.eq_false_iff, ne_eq, List.isPrefixOf_iff_prefix]
              rw [partName_eq]
              intro hcc
              exact hji (hid (sessionDir_prefix hcc))
        · exact h.file

end Verif.Temp
