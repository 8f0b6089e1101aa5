import Verif.Model.Engine
import Mathlib.Data.List.Dedup
import Mathlib.Tactic

/-!
# A concrete expression engine

Plain syntax trees with sums, products, reciprocals and square roots, substitution without simplification.  It is used
only to show that the hypotheses of the theorems (which hold for every lawful engine) can be met, and
for the counterexamples.
-/

namespace Verif

/-- Product on the idealised floats (infinities are not needed by the examples: they give NaN). -/
def PF.mul : PF → PF → PF
  | .fin a, .fin b => .fin (a * b)
  | _, _ => .nan

/-- The square root of a natural number that is a square. -/
def natRoot (n : ℕ) : Option ℕ := (List.range (n + 1)).find? fun k => k * k == n

/-- Square root on the idealised floats (only of squares of rational numbers: the others are not needed by the examples and give NaN). -/
def PF.sqrt : PF → PF
  | .fin a => if a < 0 then .nan else
    match natRoot a.num.natAbs, natRoot a.den with
    | some p, some q => .fin (p / q)
    | _, _ => .nan
  | _ => .nan

/-- Syntax trees. -/
inductive Ast
  | lit (f : PF)
  | sym (s : Sym)
  | add (a b : Ast)
  | mul (a b : Ast)
  | inv (a : Ast)
  | sqrt (a : Ast)
  deriving DecidableEq, Repr

namespace Ast

/-- All symbol occurrences. -/
def syms : Ast → List Sym
  | lit _ => []
  | sym s => [s]
  | add a b => syms a ++ syms b
  | mul a b => syms a ++ syms b
  | inv a => syms a
  | sqrt a => syms a

/-- Substitution. -/
def subst (s : Sym) (r : Ast) : Ast → Ast
  | lit f => lit f
  | sym x => if x = s then r else sym x
  | add a b => add (subst s r a) (subst s r b)
  | mul a b => mul (subst s r a) (subst s r b)
  | inv a => inv (subst s r a)
  | sqrt a => sqrt (subst s r a)

/-- Evaluation; the reciprocal of zero is undefined. -/
def eval (ρ : Sym → PF) : Ast → Option PF
  | lit f => some f
  | sym s => some (ρ s)
  | add a b => (eval ρ a).bind fun x => (eval ρ b).map fun y => x.add y
  | mul a b => (eval ρ a).bind fun x => (eval ρ b).map fun y => x.mul y
  | inv a => (eval ρ a).bind fun x =>
      match x with
      | .fin q => if q = 0 then none else some (.fin q⁻¹)
      | _ => some .nan
  | sqrt a => (eval ρ a).map PF.sqrt

/-- The engine. -/
def engine : Engine Ast where
  free e := e.syms.dedup
  subs e s r := subst s r e
  lit := .lit
  mul := .mul
  toFloat e := if e.syms = [] then eval (fun _ => .nan) e else none

theorem syms_subst (s : Sym) (r : Ast) (x : Sym) : ∀ e : Ast, x ∈ (subst s r e).syms →
    (x ∈ e.syms ∧ x ≠ s) ∨ x ∈ r.syms
  | lit _ => by simp [subst, syms]
  | sym y => by
    simp only [subst, syms]
    split_ifs with h
    · intro hx; exact Or.inr hx
    · simp only [syms, List.mem_singleton]; rintro rfl; exact Or.inl ⟨rfl, h⟩
  | add a b => by
    simp only [subst, syms, List.mem_append]
    rintro (h | h)
    · rcases syms_subst s r x a h with h | h <;> simp_all
    · rcases syms_subst s r x b h with h | h <;> simp_all
  | mul a b => by
    simp only [subst, syms, List.mem_append]
    rintro (h | h)
    · rcases syms_subst s r x a h with h | h <;> simp_all
    · rcases syms_subst s r x b h with h | h <;> simp_all
  | inv a => by simp only [subst, syms]; exact syms_subst s r x a
  | sqrt a => by simp only [subst, syms]; exact syms_subst s r x a

theorem subst_of_not_mem (s : Sym) (r : Ast) : ∀ e : Ast, s ∉ e.syms → subst s r e = e
  | lit _ => by simp [subst]
  | sym y => by simp only [syms, List.mem_singleton, subst]; intro h; rw [if_neg (fun e => h e.symm)]
  | add a b => by
    simp only [syms, List.mem_append, not_or, subst]
    rintro ⟨h1, h2⟩; rw [subst_of_not_mem s r a h1, subst_of_not_mem s r b h2]
  | mul a b => by
    simp only [syms, List.mem_append, not_or, subst]
    rintro ⟨h1, h2⟩; rw [subst_of_not_mem s r a h1, subst_of_not_mem s r b h2]
  | inv a => by simp only [syms, subst]; intro h; rw [subst_of_not_mem s r a h]
  | sqrt a => by simp only [syms, subst]; intro h; rw [subst_of_not_mem s r a h]

theorem eval_congr (ρ ρ' : Sym → PF) : ∀ e : Ast, (∀ s ∈ e.syms, ρ s = ρ' s) → eval ρ e = eval ρ' e
  | lit _ => by simp [eval]
  | sym y => by simp [eval, syms]
  | add a b => by
    simp only [syms, List.mem_append, eval]
    intro h
    rw [eval_congr ρ ρ' a (fun s hs => h s (Or.inl hs)), eval_congr ρ ρ' b (fun s hs => h s (Or.inr hs))]
  | mul a b => by
    simp only [syms, List.mem_append, eval]
    intro h
    rw [eval_congr ρ ρ' a (fun s hs => h s (Or.inl hs)), eval_congr ρ ρ' b (fun s hs => h s (Or.inr hs))]
  | inv a => by
    simp only [syms, eval]
    intro h
    rw [eval_congr ρ ρ' a h]
  | sqrt a => by
    simp only [syms, eval]
    intro h
    rw [eval_congr ρ ρ' a h]

theorem eval_subst (ρ : Sym → PF) (s : Sym) (r : Ast) (x : PF) (hr : eval ρ r = some x) :
    ∀ e : Ast, eval ρ (subst s r e) = eval (Function.update ρ s x) e
  | lit _ => by simp [eval, subst]
  | sym y => by
    simp only [subst]
    split_ifs with h
    · subst h; simp [eval, hr]
    · simp [eval, h]
  | add a b => by simp only [eval, subst, eval_subst ρ s r x hr a, eval_subst ρ s r x hr b]
  | mul a b => by simp only [eval, subst, eval_subst ρ s r x hr a, eval_subst ρ s r x hr b]
  | inv a => by simp only [eval, subst, eval_subst ρ s r x hr a]
  | sqrt a => by simp only [eval, subst, eval_subst ρ s r x hr a]

/-- The engine satisfies what is assumed of sympy. -/
def lawful : engine.Lawful PF where
  eval := eval
  ofPF f := f
  toPF f := some f
  mulD := PF.mul
  free_nodup e := List.nodup_dedup _
  free_subs e s r x h := by
    simp only [engine, List.mem_dedup] at h ⊢; exact syms_subst s r x e h
  subs_of_not_free e s r h := by
    simp only [engine, List.mem_dedup] at h ⊢; exact subst_of_not_mem s r e h
  free_lit f := rfl
  free_mul a b x h := by simpa [engine, syms] using h
  eval_congr ρ ρ' e h := eval_congr ρ ρ' e (by simpa [engine] using h)
  eval_subs ρ e s r x d hr hd := by simp only [engine]; rw [eval_subst ρ s r x hr]; exact hd
  eval_lit ρ f := rfl
  eval_mul ρ a b x y ha hb := by simp [engine, eval, ha, hb]
  toFloat_closed ρ e d h hd := by
    simp only [engine, List.dedup_eq_nil] at h ⊢
    rw [if_pos h, ← hd]
    exact eval_congr _ _ e (by simp [h])
  toFloat_open e h := by
    simp only [engine, ne_eq, List.dedup_eq_nil] at h ⊢
    rw [if_neg h]

end Ast

end Verif
