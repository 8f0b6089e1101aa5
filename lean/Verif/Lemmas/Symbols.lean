import Verif.Model.Quantum
import Std.Data.String.ToNat

/-!
# The names of symbols
-/

namespace Verif.Sym

open Verif Verif.Circuit

/-- All symbols of a node. -/
def Dofs.toList (d : Dofs) : List Symb := [d.flux, d.charge, d.D, d.Ddag, d.S, d.Sdag]

/-- A prefix without underscore and what is in the index can be read off a name. -/
theorem indexed_inj {p p' a b : String} (hp : '_' ∉ p.toList) (hp' : '_' ∉ p'.toList) (h : p ++ "_{" ++ a ++ "}" = p' ++ "_{" ++ b ++ "}") :
    p = p' ∧ a = b := by
  have h := congrArg String.toList h
  simp only [String.toList_append] at h
  have e1 : ("_{" : String).toList = ['_', '{'] := rfl
  have e2 : ("}" : String).toList = ['}'] := rfl
  rw [e1, e2] at h
  have key : ∀ (l l' r r' : List Char), '_' ∉ l → '_' ∉ l' → l ++ '_' :: r = l' ++ '_' :: r' → l = l' ∧ r = r' := by
    intro l
    induction l with
    | nil =>
      intro l' r r' _ h' he
      cases l' with
      | nil => simpa using he
      | cons c l' =>
        rw [List.nil_append, List.cons_append, List.cons.injEq] at he
        exact absurd (he.1 ▸ List.mem_cons_self) h'
    | cons c l ih =>
      intro l' r r' hl h' he
      cases l' with
      | nil =>
        rw [List.nil_append, List.cons_append, List.cons.injEq] at he
        exact absurd (he.1 ▸ List.mem_cons_self) hl
      | cons c' l' =>
        rw [List.cons_append, List.cons_append, List.cons.injEq] at he
        obtain ⟨h1, h2⟩ := ih l' r r' (fun hm => hl (List.mem_cons_of_mem _ hm)) (fun hm => h' (List.mem_cons_of_mem _ hm)) he.2
        exact ⟨by rw [he.1, h1], h2⟩
  simp only [List.append_assoc, List.cons_append, List.nil_append] at h
  obtain ⟨h1, h2⟩ := key _ _ _ _ hp hp' h
  rw [List.cons.injEq] at h2
  exact ⟨String.toList_inj.1 h1, String.toList_inj.1 (List.append_cancel_right h2.2)⟩

theorem nodeName_inj {p p' : String} {n m : ℕ} (hp : '_' ∉ p.toList) (hp' : '_' ∉ p'.toList) (h : nodeName p n = nodeName p' m) :
    p = p' ∧ n = m := by
  obtain ⟨h1, h2⟩ := indexed_inj hp hp' h
  exact ⟨h1, Nat.repr_injective h2⟩

/-- The prefixes of the six symbols of a node. -/
def dofPrefixList (p : DofPrefixes) : List String := [p.flux, p.charge, "D", "D^{\\dagger}", "S", "S^{\\dagger}"]

/-- Prefixes that keep the symbols of a node apart. -/
structure DofPrefixes.Apart (p : DofPrefixes) : Prop where
  plain : ∀ x ∈ dofPrefixList p, '_' ∉ x.toList
  nodup : (dofPrefixList p).Nodup

theorem default_apart : DofPrefixes.default.Apart := ⟨by decide +kernel, by decide +kernel⟩

theorem toList_nodeDofs (p : DofPrefixes) (n : ℕ) : (nodeDofs p n).toList = (dofPrefixList p).map fun x => ⟨nodeName x n, false⟩ := rfl

theorem dofs_nodup {p : DofPrefixes} (hp : p.Apart) {ns : List ℕ} (hn : ns.Nodup) : (ns.flatMap fun n => (nodeDofs p n).toList).Nodup := by
  rw [List.nodup_flatMap]
  refine ⟨fun n _ => ?_, hn.imp fun {a b} hab => ?_⟩
  · rw [toList_nodeDofs]
    refine hp.nodup.map_on fun x hx y hy he => ?_
    exact (nodeName_inj (hp.plain x hx) (hp.plain y hy) (congrArg Symb.name he)).1
  · intro s hs hs'
    simp only [toList_nodeDofs] at hs hs'
    obtain ⟨x, hx, rfl⟩ := List.mem_map.1 hs
    obtain ⟨y, hy, he⟩ := List.mem_map.1 hs'
    exact hab (nodeName_inj (hp.plain x hx) (hp.plain y hy) (congrArg Symb.name he.symm)).2

/-- Every choice of operators for the coordinates is a substitution. -/
theorem substitution_exists {p : DofPrefixes} (hp : p.Apart) {ns : List ℕ} (hn : ns.Nodup) {A : Type} [Zero A] (P Q D Dd S Sd : Fin ns.length → A) :
    ∃ f : Symb → A, ∀ i, f (nodeDofs p (ns.get i)).flux = P i ∧ f (nodeDofs p (ns.get i)).charge = Q i ∧ f (nodeDofs p (ns.get i)).D = D i ∧
      f (nodeDofs p (ns.get i)).Ddag = Dd i ∧ f (nodeDofs p (ns.get i)).S = S i ∧ f (nodeDofs p (ns.get i)).Sdag = Sd i := by
  classical
  set sym : Fin 6 × Fin ns.length → Symb := fun q => ⟨nodeName ((dofPrefixList p).get q.1) (ns.get q.2), false⟩ with hsym
  have hinj : Function.Injective sym := by
    rintro ⟨a, i⟩ ⟨b, j⟩ he
    obtain ⟨h1, h2⟩ := nodeName_inj (hp.plain _ (List.get_mem _ _)) (hp.plain _ (List.get_mem _ _)) (congrArg Symb.name he)
    exact Prod.ext ((List.nodup_iff_injective_get.1 hp.nodup) h1) ((List.nodup_iff_injective_get.1 hn) h2)
  set val : Fin 6 × Fin ns.length → A := fun q => ![P q.2, Q q.2, D q.2, Dd q.2, S q.2, Sd q.2] q.1 with hval
  refine ⟨Function.extend sym val 0, fun i => ⟨?_, ?_, ?_, ?_, ?_, ?_⟩⟩
  · exact hinj.extend_apply val 0 (0, i)
  · exact hinj.extend_apply val 0 (1, i)
  · exact hinj.extend_apply val 0 (2, i)
  · exact hinj.extend_apply val 0 (3, i)
  · exact hinj.extend_apply val 0 (4, i)
  · exact hinj.extend_apply val 0 (5, i)

end Verif.Sym
