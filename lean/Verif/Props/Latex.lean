import Verif.Model.Latex
import Mathlib.Data.List.Infix
import Mathlib.Tactic

/-!
# Property C55: LaTeX names
-/

namespace Verif.Props

open Verif Verif.Latex

/-- `s` occurs in `name` at the very beginning and nowhere else. -/
def OccursOnlyAtStart (s name : String) : Prop :=
  s.toList <+: name.toList ∧ ∀ i, 0 < i → ¬ s.toList <+: name.toList.drop i

theorem rfind_none_iff (pat : List Char) (hp : pat ≠ []) : ∀ cs, rfind pat cs = none ↔ ∀ i, ¬ pat <+: cs.drop i := by
  intro cs
  induction cs with
  | nil =>
    simp only [rfind, true_iff, List.drop_nil, List.prefix_nil]
    intro _; exact hp
  | cons c cs ih =>
    unfold rfind
    constructor
    · intro h i
      cases hr : rfind pat cs with
      | some j => rw [hr] at h; simp at h
      | none =>
        rw [hr] at h
        cases i with
        | zero =>
          simp only [List.isPrefixOf_iff_prefix] at h
          split_ifs at h with h1
          simpa using h1
        | succ i => simpa using (ih.1 hr) i
    · intro h
      have h1 : rfind pat cs = none := ih.2 (fun i => by simpa using h (i + 1))
      rw [h1]
      have h0 := h 0
      simp only [List.drop_zero] at h0
      simp [List.isPrefixOf_iff_prefix, h0]

theorem rfind_zero_iff (pat : List Char) (hp : pat ≠ []) (cs : List Char) :
    rfind pat cs = some 0 ↔ pat <+: cs ∧ ∀ i, 0 < i → ¬ pat <+: cs.drop i := by
  cases cs with
  | nil =>
    simp only [rfind, List.prefix_nil, hp, false_and, iff_false]
    simp
  | cons c cs =>
    unfold rfind
    have hn := rfind_none_iff pat hp cs
    cases hr : rfind pat cs with
    | some j =>
      simp only [Option.some.injEq, Nat.add_eq_zero_iff, one_ne_zero, and_false, false_iff, not_and]
      intro _ hall
      have : rfind pat cs = none := hn.2 (fun i => by simpa using hall (i + 1) (by omega))
      rw [hr] at this; cases this
    | none =>
      have hall := hn.1 hr
      simp only [List.isPrefixOf_iff_prefix]
      constructor
      · intro h
        split_ifs at h with h1
        refine ⟨h1, ?_⟩
        intro i hi
        obtain ⟨j, rfl⟩ : ∃ j, i = j + 1 := ⟨i - 1, by omega⟩
        simpa using hall j
      · rintro ⟨h1, _⟩
        rw [if_pos h1]

theorem symbols_ne_nil : ∀ p ∈ supportedSymbols, p.1.toList ≠ [] := by decide +kernel

theorem findSymbol_spec (name : List Char) : ∀ (l : List (String × String)),
    (∀ p ∈ l, p.1.toList ≠ []) → (∀ p ∈ l, ∀ q ∈ l, p.1.toList <+: q.1.toList → p = q) →
    (∀ p, findSymbol name l = some p ↔ p ∈ l ∧ p.1.toList <+: name ∧ ∀ i, 0 < i → ¬ p.1.toList <+: name.drop i) := by
  intro l
  induction l with
  | nil => intro _ _ p; simp [findSymbol]
  | cons q l ih =>
    intro hne hpf p
    have hz := rfind_zero_iff q.1.toList (hne q (by simp)) name
    unfold findSymbol
    split_ifs with h
    · constructor
      · intro he; cases he; exact ⟨by simp, (hz.1 h).1, (hz.1 h).2⟩
      · rintro ⟨hm, h1, h2⟩
        rw [Option.some.injEq]
        have hq := (hz.1 h).1
        rcases List.prefix_or_prefix_of_prefix hq h1 with hh | hh
        · exact hpf q (by simp) p hm hh
        · exact (hpf p hm q (by simp) hh).symm
    · rw [ih (fun p hp => hne p (by simp [hp])) (fun p hp q hq => hpf p (by simp [hp]) q (by simp [hq]))]
      constructor
      · rintro ⟨a, b⟩; exact ⟨by simp [a], b⟩
      · rintro ⟨a, b, c⟩
        rcases List.mem_cons.1 a with rfl | a
        · exact absurd (hz.2 ⟨b, c⟩) h
        · exact ⟨a, b, c⟩

theorem symbols_prefix_free : ∀ p ∈ supportedSymbols, ∀ q ∈ supportedSymbols, p.1.toList <+: q.1.toList → p = q := by
  decide +kernel

theorem symbols_backslash : ∀ p ∈ supportedSymbols, p.2 = "\\" ++ p.1 ∧ '_' ∉ p.1.toList := by
  decide +kernel

theorem find_iff (name : String) (p : String × String) : findSymbol name.toList supportedSymbols = some p ↔
    p ∈ supportedSymbols ∧ OccursOnlyAtStart p.1 name :=
  findSymbol_spec name.toList supportedSymbols symbols_ne_nil symbols_prefix_free p

/-- C55: at most one supported symbol occurs at the start of a name and nowhere else. -/
theorem C55_at_most_one_symbol (name : String) (p q : String × String) (hp : p ∈ supportedSymbols)
    (hq : q ∈ supportedSymbols) (h1 : OccursOnlyAtStart p.1 name) (h2 : OccursOnlyAtStart q.1 name) : p = q := by
  have a := (find_iff name p).2 ⟨hp, h1⟩
  have b := (find_iff name q).2 ⟨hq, h2⟩
  rw [a] at b; cases b; rfl

/-- C55: a name that begins with a supported symbol (which does not occur again later in the name) becomes the
LaTeX command of the symbol with the rest of the name as subscript. -/
theorem C55_symbol (name s rest : String) (hs : (s, "\\" ++ s) ∈ supportedSymbols) (hname : name = s ++ rest)
    (honly : OccursOnlyAtStart s name) : latexify name = .ok ("\\" ++ s ++ "_\\mathrm{" ++ rest ++ "}") := by
  unfold latexify
  rw [(find_iff name (s, "\\" ++ s)).2 ⟨hs, honly⟩]
  subst hname
  simp

/-- C55: every other name that is not empty becomes its first character with the rest as subscript. -/
theorem C55_plain (c : Char) (cs : List Char)
    (h : ∀ p ∈ supportedSymbols, ¬ OccursOnlyAtStart p.1 (String.ofList (c :: cs))) :
    latexify (String.ofList (c :: cs)) = .ok (String.ofList (c :: "_\\mathrm{".toList ++ cs ++ "}".toList)) := by
  unfold latexify
  have : findSymbol (String.ofList (c :: cs)).toList supportedSymbols = none := by
    rw [Option.eq_none_iff_forall_not_mem]
    intro p hp
    have := (find_iff _ p).1 hp
    exact h p this.1 this.2
  rw [this]
  simp only [String.toList_ofList]
  congr 1
  apply String.toList_injective
  simp

/-- C55: only the empty name raises. -/
theorem C55_raises_iff (name : String) : (∃ e, latexify name = .error e) ↔ name = "" := by
  constructor
  · rintro ⟨e, h⟩
    unfold latexify at h
    split at h
    · cases h
    · split at h
      · rename_i hn; exact String.toList_injective hn
      · cases h
  · rintro rfl
    exact ⟨.indexError, by decide +kernel⟩

/-- C55: different parameter names get different LaTeX strings. -/
theorem C55_injective (a b : String) (s : String) (ha : latexify a = .ok s) (hb : latexify b = .ok s) : a = b := by
  have key : ∀ (x y : List Char) (u v : List Char), '_' ∉ x → '_' ∉ y →
      x ++ '_' :: u = y ++ '_' :: v → x = y ∧ u = v := by
    intro x
    induction x with
    | nil =>
      intro y u v _ hy h
      cases y with
      | nil => simpa using h
      | cons d y => simp at h hy; exact absurd h.1 hy.1
    | cons d x ih =>
      intro y u v hx hy h
      cases y with
      | nil => simp at h hx; exact absurd h.1.symm hx.1
      | cons d' y =>
        simp only [List.cons_append, List.cons.injEq] at h
        simp only [List.mem_cons, not_or] at hx hy
        obtain ⟨h1, h2⟩ := ih y u v hx.2 hy.2 h.2
        exact ⟨by rw [h.1, h1], h2⟩
  -- shape of a result: a head without '_' and the rest of the name
  have shape : ∀ n s, latexify n = .ok s →
      (∃ p ∈ supportedSymbols, ∃ rest, n.toList = p.1.toList ++ rest ∧
        s.toList = ('\\' :: p.1.toList) ++ '_' :: ("\\mathrm{".toList ++ rest ++ ['}'])) ∨
      (∃ c cs, n.toList = c :: cs ∧ s.toList = c :: '_' :: ("\\mathrm{".toList ++ cs ++ ['}'])) := by
    intro n s h
    unfold latexify at h
    split at h
    · rename_i p hp
      obtain ⟨hm, hpre, _⟩ := (find_iff n p).1 hp
      obtain ⟨rest, hrest⟩ := hpre
      left
      refine ⟨p, hm, rest, hrest.symm, ?_⟩
      cases h
      rw [(symbols_backslash p hm).1, ← hrest]
      simp
    · split at h
      · cases h
      · rename_i c cs hc
        right
        cases h
        exact ⟨c, cs, hc, by simp⟩
  have hend : ∀ r r' : List Char, "\\mathrm{".toList ++ r ++ ['}'] = "\\mathrm{".toList ++ r' ++ ['}'] → r = r' := by
    intro r r' h
    rw [List.append_assoc, List.append_assoc, List.append_cancel_left_eq] at h
    exact List.append_cancel_right h
  apply String.toList_injective
  rcases shape a s ha with ⟨p, hp, r, h1, h2⟩ | ⟨c, cs, h1, h2⟩ <;>
    rcases shape b s hb with ⟨q, hq, r', h3, h4⟩ | ⟨c', cs', h3, h4⟩
  · rw [h2] at h4
    have hpn := (symbols_backslash p hp).2
    have hqn := (symbols_backslash q hq).2
    obtain ⟨e1, e2⟩ := key _ _ _ _ (by simp [hpn]) (by simp [hqn]) h4
    simp only [List.cons.injEq, true_and] at e1
    rw [h1, h3, e1, hend _ _ e2]
  · exfalso
    rw [h2] at h4
    have hne := symbols_ne_nil p hp
    have hpn := (symbols_backslash p hp).2
    cases hpl : p.1.toList with
    | nil => exact hne hpl
    | cons x xs =>
      rw [hpl] at h4 hpn
      simp only [List.cons_append, List.cons.injEq] at h4
      simp only [List.mem_cons, not_or] at hpn
      exact hpn.1 h4.2.1.symm
  · exfalso
    rw [h2] at h4
    have hne := symbols_ne_nil q hq
    have hqn := (symbols_backslash q hq).2
    cases hql : q.1.toList with
    | nil => exact hne hql
    | cons x xs =>
      rw [hql] at h4 hqn
      simp only [List.cons_append, List.cons.injEq] at h4
      simp only [List.mem_cons, not_or] at hqn
      exact hqn.1 h4.2.1
  · rw [h2] at h4
    simp only [List.cons.injEq, true_and] at h4
    rw [h1, h3, h4.1, hend _ _ h4.2]

/-- The hypotheses are met by ordinary names. -/
example : latexify "phi12" = .ok "\\phi_\\mathrm{12}" ∧ latexify "C12" = .ok "C_\\mathrm{12}" := by
  decide +kernel

example : ("phi", "\\" ++ "phi") ∈ supportedSymbols ∧ OccursOnlyAtStart "phi" "phi12" := by
  refine ⟨by decide +kernel, by decide +kernel, ?_⟩
  intro i hi
  by_cases h : i < 6
  · interval_cases i <;> decide +kernel
  · rw [List.drop_eq_nil_of_le (by simp; omega)]; decide

example : ∀ p ∈ supportedSymbols, ¬ OccursOnlyAtStart p.1 (String.ofList ['C', '1', '2']) := by
  intro p hp h
  have := (find_iff _ p).2 ⟨hp, h⟩
  have hn : findSymbol (String.ofList ['C', '1', '2']).toList supportedSymbols = none := by decide +kernel
  rw [hn] at this; cases this

/-- A remark on the code: a symbol repeated later in the name is not recognised, because the *last*
occurrence is required to be at position 0. -/
theorem C55_remark_repeated_symbol : latexify "phi_phi" = .ok "p_\\mathrm{hi_phi}" := by decide +kernel

end Verif.Props
