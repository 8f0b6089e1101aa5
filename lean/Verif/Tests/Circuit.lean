import Verif.Props.Circuit

/-!
# Conformance of the circuit model with the repository's own tests

Each example is a case of `/repo/tests/test_circuit_graph.py`, run in the model.  These are tests of the model, not proofs
of properties.
-/

namespace Verif.Tests

open Verif Verif.Circuit Verif.Spec

/-- The circuit of a list of branches. -/
def mk (bs : List (ℕ × ℕ × String)) : CG := run {} (bs.map fun b => Call.addBranch Orc.id b.1 b.2.1 b.2.2)

/-- All orders of a list (by structural recursion, so that the kernel can run it). -/
def perms : List String → List (List String)
  | [] => [[]]
  | x :: l => (perms l).flatMap fun p => (List.range (p.length + 1)).map fun i => p.take i ++ x :: p.drop i

/-- Numbers of closure branches and loops. -/
def counts (bs : List (ℕ × ℕ × String)) : ℕ × ℕ := ((mk bs).closures.length, (mk bs).loops.length)

/-- `all_loops_are_unique` (lines 34-43). -/
def loopsUnique (bs : List (ℕ × ℕ × String)) : Bool :=
  let ls := (mk bs).loops
  ls.all fun p => p.2.any fun e => ls.all fun q => q.1 == p.1 || !(q.2.contains e)

-- lines 60-68
example : (["C", "L", "I", "V"].map fun c => (addBranch Orc.id {} 0 1 c).2) = [.ok (), .ok (), .ok (), .ok ()] := by decide +kernel
example : (addBranch Orc.id (mk [(0, 1, "V")]) 0 1 "J").2 = .error .valueError := by decide +kernel

-- lines 71-93
example : (perms ["I", "L"]).all (fun p => counts (p.map fun c => (0, 1, c)) == (1, 1)) = true := by decide +kernel
example : (perms ["I1", "I2", "L"]).all (fun p => counts (p.map fun c => (0, 1, c)) == (2, 2)) = true := by decide +kernel
example : (perms ["I1", "I2", "I3", "L"]).all
    (fun p => counts (p.map fun c => (0, 1, c)) == (3, 3) && loopsUnique (p.map fun c => (0, 1, c))) = true := by decide +kernel

-- lines 95-119
example : counts [(0, 1, "I1"), (1, 2, "L1"), (1, 2, "L2")] = (1, 1) := by decide +kernel
example : counts [(0, 1, "I"), (1, 2, "C"), (1, 2, "L")] = (0, 0) := by decide +kernel
example : counts [(0, 1, "I"), (1, 2, "C"), (0, 2, "L")] = (0, 0) := by decide +kernel

-- lines 121-131
def ring6 : List (ℕ × ℕ × String) := [(0, 1, "I0"), (1, 2, "L1"), (2, 3, "I2"), (3, 4, "I3"), (4, 5, "L4"), (5, 0, "L5")]
example : counts ring6 = (1, 1) ∧ loopsUnique ring6 = true := by decide +kernel

-- lines 133-146
def series : List (ℕ × ℕ × String) :=
  [(0, 1, "I1"), (0, 1, "C1"), (0, 1, "L1"), (1, 2, "L2"), (1, 2, "I2"), (1, 2, "C2"), (0, 2, "I3"), (0, 2, "I4"), (0, 2, "L3")]
example : counts series = (5, 5) ∧ loopsUnique series = true := by decide +kernel

-- lines 148-159
def shared : List (ℕ × ℕ × String) :=
  [(0, 1, "I1"), (1, 2, "L1a"), (2, 0, "L1b"), (1, 3, "L2a"), (3, 0, "L2b"), (1, 4, "L3a"), (4, 0, "L3b")]
example : counts shared = (3, 3) ∧ loopsUnique shared = true := by decide +kernel

-- lines 161-173
def sharedLoop : List (ℕ × ℕ × String) :=
  [(0, 1, "I1"), (0, 1, "I2"), (1, 2, "L1a"), (2, 0, "L1b"), (1, 3, "L2a"), (3, 0, "L2b"), (1, 4, "L3a"), (4, 0, "L3b")]
example : counts sharedLoop = (4, 4) ∧ loopsUnique sharedLoop = true := by decide +kernel

-- lines 175-187
def sharedLarge : List (ℕ × ℕ × String) :=
  [(0, 1, "Lma"), (1, 2, "Ima"), (0, 3, "Lmb"), (3, 2, "Imb"), (0, 4, "I1a"), (4, 2, "L1a"), (0, 5, "I2a"), (5, 2, "L2a")]
example : counts sharedLarge = (3, 3) ∧ loopsUnique sharedLarge = true := by decide +kernel

-- lines 210-231
def simple : CG := mk [(0, 1, "I1"), (0, 1, "I2"), (0, 1, "C"), (0, 1, "L")]
def simple1 : CG := (addFluxBias simple "I1" (some "Z1") none).1
example : (addFluxBias simple "I1" (some "Z1") none).2 = .ok () := by decide +kernel
example : (addFluxBias simple1 "I1" (some "Z1") none).2 = .error .valueError := by decide +kernel
example : (addFluxBias simple1 "I2" (some "Z1") none).2 = .error .valueError := by decide +kernel
example : (addFluxBias simple1 "I2" (some "Z2") none).2 = .ok () := by decide +kernel
example : (addFluxBias simple "I1" (some "Z1") (some "M1")).2 = .error .typeError := by decide +kernel
example : (addFluxBias simple "L" (some "Z") (some "M")).2 = .ok () := by decide +kernel

-- lines 233-245
def simple2 : CG := (addChargeBias simple 1 (some "XY") none).1
example : (addChargeBias simple 1 (some "XY") none).2 = .ok () := by decide +kernel
example : (addChargeBias simple2 1 (some "XY") none).2 = .error .valueError := by decide +kernel
example : (addChargeBias simple2 0 (some "XY") none).2 = .error .valueError := by decide +kernel

-- lines 247-254
example : (addFluxBias (mk [(0, 1, "I1"), (1, 2, "L1"), (1, 2, "L2")]) "I1" (some "Z1") none).2 = .error .typeError := by decide +kernel

-- lines 256-277
def mi : CG := mk [(0, 1, "L1"), (0, 1, "I1"), (0, 1, "C1"), (0, 2, "L2"), (0, 2, "I2"), (0, 2, "C2")]
def mi1 : CG := (coupleBranches mi "L1" "L2" "M").1
example : (coupleBranches mi "L1" "L2" "M").2 = .ok () := by decide +kernel
example : (coupleBranches mi1 "I1" "L2" "M1").2 = .error .typeError ∧ (coupleBranches mi1 "L1" "I2" "M2").2 = .error .typeError ∧
    (coupleBranches mi1 "I1" "I2" "M3").2 = .error .typeError := by decide +kernel
example : (coupleBranches mi1 "L1" "L2" "M").2 = .error .valueError ∧ (coupleBranches mi1 "L1" "L2" "M4").2 = .error .valueError := by
  decide +kernel

end Verif.Tests
