import Verif.Lemmas.Again

/-!
# C89: constructing a system whose modes cannot be found automatically
-/

namespace Verif.Props

open Verif Verif.Spec Verif.PC Verif.Sym Verif.Circuit Verif.Derived

variable {E D : Type}

/-- Up to 111 nodes, the collection of a new system is that of a system made without asking for modes, and is reached by clean calls: when the
eigenvectors of the modes contain symbols, the entries of the inverse inductance matrix are written a second time, which changes nothing. -/
theorem C89_again_partial (eng : Engine E) (law : eng.Lawful D) (isZero : E → Bool) (symE : Verif.Sym → E) (o : Orc)
    (ex : Resonator → Except Err (ResExprs E)) (M : ℕ → ℕ → E) (again : Bool)
    (h : List Circuit.Call) (pc : PC E) (hok : ∀ x ∈ h, x.OK) (ha : AllOk h) (hk : KeepsResonators h) (hn : (nodes (run {} h)).length ≤ 111)
    (hc : construct eng isZero symE Prefixes.default o ex (.ok M) again (run {} h) = .ok pc) :
    construct eng isZero symE Prefixes.default o ex (.ok M) false (run {} h) = .ok pc ∧ CleanReachable eng pc := by
  have key : construct eng isZero symE Prefixes.default o ex (.ok M) false (run {} h) = .ok pc := by
    cases again with
    | false => exact hc
    | true =>
      have hc' := hc
      unfold construct at hc ⊢
      split_ifs at hc ⊢ with h0
      rw [show (PC.new [] : Except Err (PC E)) = .ok { coll := [], symMap := [], parz := [], graph := DiGraph.empty } from rfl] at hc ⊢
      simp only at hc ⊢
      split at hc
      · cases hc
      rename_i pc1 h1
      split at hc
      · cases hc
      rename_i pc2 h2
      cases hc
      unfold transformParameters at h2 ⊢
      split at h2
      · cases h2
      rename_i pc3 M3 h3
      rw [if_pos rfl] at h2
      -- the collection after the first pass
      have hfirst : construct eng isZero symE Prefixes.default o ex (.ok M) false (run {} h) = .ok pc3 := by
        unfold construct
        rw [if_neg (not_not.2 h0), show (PC.new [] : Except Err (PC E)) = .ok { coll := [], symMap := [], parz := [], graph := DiGraph.empty } from rfl]
        simp only [h1, transformParameters, h3]
        rfl
      have hclean := C89_clean_partial eng isZero symE o ex M h pc3 hok ha hk hn hfirst
      have hg := CleanReachable.good law hclean
      have hs1 : SymKeys pc1 := by
        obtain ⟨⟨st1, hadd, e1, e2⟩, -, -⟩ := create_spec h1
        have := hadd.syms ⟨by simp [Dict.keys], by simp [Dict.keys]⟩
        unfold SymKeys at this ⊢
        rw [e1, e2]
        exact this
      obtain ⟨-, -, hst⟩ := parameterise_stored isZero symE 'L' true hn hs1 h3
      obtain ⟨M', hag⟩ := parameterise_again isZero symE 'L' true hg hst
      rw [hag] at h2
      cases h2
      simp [h3]
  exact ⟨key, C89_clean_partial eng isZero symE o ex M h pc hok ha hk hn key⟩

/-- With two writings of the inverse inductances the loop with a bias and a resonator still has its collection. -/
theorem biasedLoop_again_ok : (construct Ast.engine (fun _ => false) .sym Prefixes.default Orc.id biasedEx (.ok biasedInv) true (run {} biasedLoop)).toOption.isSome = true := by
  decide +kernel

example : ∃ pc, construct Ast.engine (fun _ => false) .sym Prefixes.default Orc.id biasedEx (.ok biasedInv) true (run {} biasedLoop) = .ok pc ∧
    (nodes (run {} biasedLoop)).length ≤ 111 ∧ CleanReachable Ast.engine pc := by
  have h := biasedLoop_again_ok
  cases hc : construct Ast.engine (fun _ => false) .sym Prefixes.default Orc.id biasedEx (.ok biasedInv) true (run {} biasedLoop) with
  | error e => rw [hc] at h; cases h
  | ok pc =>
    have hn : (nodes (run {} biasedLoop)).length ≤ 111 := by decide +kernel
    exact ⟨pc, rfl, hn, (C89_again_partial _ Ast.lawful _ _ _ _ _ true biasedLoop pc (by simp [biasedLoop, Circuit.Call.OK, orcId_ok]) biasedLoop_ok
      (by simp [KeepsResonators, biasedLoop]) hn hc).2⟩

end Verif.Props
