import Verif.Model.Numerical

/-!
# Sweep results that are arrays (pyscqed/parameters.py 1058-1163, numerical_system.py 879-883, util.py 393-402)

`Verif.Model.Sweep` models which entries `getSweepResult` selects.  Here is what it does with them when an entry is itself an
array, such as the energy levels at one point: it stacks the entries into one array and reverses the axes.
-/

namespace Verif

namespace NDArray

variable {α : Type}

/-- `np.array([a_0, a_1, …])` of arrays: a new first axis; ValueError unless all have the same shape (numpy 2.0). -/
def stack [Inhabited α] (l : List (NDArray α)) : Except Err (NDArray α) :=
  match l with
  | [] => .ok { shape := [0], get := fun _ => default }
  | a :: _ =>
    if l.all (fun b => decide (b.shape = a.shape)) then
      .ok { shape := l.length :: a.shape
            get := fun t => ((l[t.headD 0]?).map fun b => b.get t.tail).getD default }
    else .error .valueError

/-- `a.reshape(*ns)`: the same elements in row-major order; ValueError if their number does not fit, TypeError without any size. -/
def reshape [Inhabited α] (a : NDArray α) (ns : List ℕ) : Except Err (NDArray α) :=
  if ns.isEmpty then .error .typeError
  else if ns.prod ≠ a.shape.prod then .error .valueError
  else
    .ok { shape := ns
          get := fun t => a.flatten.getD
            (SW.flatIndex (ns.map (fun (x : ℕ) => (x : ℤ))) (t.map (fun (x : ℕ) => (x : ℤ)))).toNat default }

/-- `a[:, j]`; IndexError if there is no second axis or it is too short. -/
def column (a : NDArray α) (j : ℕ) : Except Err (NDArray α) :=
  match a.shape with
  | n :: m :: ns =>
    if j < m then .ok { shape := n :: ns, get := fun t => a.get (t.headD 0 :: j :: t.tail) } else .error .indexError
  | _ => .error .indexError

end NDArray

namespace SW

variable {E R α : Type}

/-- `np.array(res)` where numpy makes the array `arr r` of the entry `r`, or finds it ragged (`none`, ValueError). -/
def stackEntries [Inhabited α] (arr : R → Option (NDArray α)) (rs : List R) : Except Err (NDArray α) :=
  match rs.mapM arr with
  | none => .error .valueError
  | some l => NDArray.stack l

/-- `getSweepResult(ind_var, …)` with a string `ind_var` (parameters.py 1058-1068 and 1095-1103): `np.array(res).T`. -/
def getSweepArray [Inhabited α] (arr : R → Option (NDArray α)) (st : SW E R) (disk : String → Option (Pickled R)) (ind : String)
    (static : List (String × PF)) (data : DataArg R := .default) (key : Option String := none) :
    Except Err (List PF × NDArray α × List (String × PF)) :=
  match st.getSweepResult disk ind static data key with
  | .error e => .error e
  | .ok (sw, rs, vals) =>
    match stackEntries arr rs with
    | .error e => .error e
    | .ok a => .ok (sw, a.T, vals)

/-- `getSweepResult(ind_vars, …)` with a list (parameters.py 1105-1163): `np.array(res).reshape(*Ns, *shape).T` where `shape` is
that of the last entry fetched. -/
def getSweepArrayMulti [Inhabited α] (arr : R → Option (NDArray α)) (st : SW E R) (disk : String → Option (Pickled R))
    (inds : List String) (static : List (String × PF)) (data : DataArg R := .default) (key : Option String := none) :
    Except Err (List (List PF) × NDArray α × List (String × PF)) :=
  match st.resolveData disk data key with
  | .error e => .error e
  | .ok (l, tmp, key) =>
    match st.sliceMulti l inds static with
    | .error e => .error e
    | .ok (sw, Ns, xs, vals) =>
      match readAll disk tmp key xs with
      | .error e => .error e
      | .ok rs =>
        match (rs.getLast?).bind arr with
        | none => .error .valueError
        | some last =>
          match stackEntries arr rs with
          | .error e => .error e
          | .ok a =>
            match a.reshape (Ns ++ last.shape) with
            | .error e => .error e
            | .ok b => .ok (sw, b.T, vals)

end SW

namespace Num

variable {E X V R : Type}

/-- An element of the array of a sweep.  Numbers, eigenvectors (qutip objects) and whatever else an evaluation returns. -/
inductive Cell (X V R : Type)
  | num (x : X)
  | vec (v : V)
  | obj (r : R)
  | none

instance : Inhabited (Cell X V R) := ⟨.none⟩

/-- What `np.array` makes of the result of an evaluation: a one-dimensional array of levels or matrix elements; a tuple of levels and
vectors becomes an array with two rows, if they are equally many; anything else is a single object.  Simplification: qutip objects
and resonator responses are opaque to numpy. -/
def resArray : Res X V R → Option (NDArray (Cell X V R))
  | .vals es => some { shape := [es.length], get := fun t => ((es[t.headD 0]?).map .num).getD .none }
  | .elems es => some { shape := [es.length], get := fun t => ((es[t.headD 0]?).map .num).getD .none }
  | .eig es vs =>
    if es.length = vs.length then
      some { shape := [2, es.length]
             get := fun t => match t with
              | 0 :: t => ((es[t.headD 0]?).map .num).getD .none
              | _ :: t => ((vs[t.headD 0]?).map .vec).getD .none
              | [] => .none }
    else none
  | .none => some { shape := [], get := fun _ => .none }
  | .number r => some { shape := [], get := fun _ => .obj r }
  | .dict r => some { shape := [], get := fun _ => .obj r }
  | .empty => some { shape := [0], get := fun _ => .none }

/-- `getSweep` (numerical_system.py 879-883) with a string independent variable, the whole array it returns. -/
def getSweepLevels (sw : SW E (Res X V R)) (files : List (SW.Pickled (Res X V R))) (names : ℕ → String)
    (disk : String → Option (SW.Pickled (Res X V R))) (ind : String) (static : List (String × PF)) (evaluable : String) :
    Except Err (List PF × NDArray (Cell X V R) × List (String × PF)) :=
  match evalSpec.get? evaluable with
  | none => .error .userError
  | some e => sw.getSweepArray resArray disk ind static (.list ((List.range files.length).map fun i => .file (names i))) (some e.eval.name)

/-- `astype(np.float64)` of the numbers (util.py 402): TypeError on a qutip object.  Simplification: None is treated the same, numpy
makes a NaN of it. -/
def asNumbers [Inhabited X] (a : NDArray (Cell X V R)) : Except Err (NDArray X) :=
  if a.flatten.all (fun c => match c with | .num _ => true | _ => false) then
    .ok { shape := a.shape, get := fun t => match a.get t with | .num x => x | _ => default }
  else .error .typeError

/-- `getEigenValuesAndVectors(sweep)` (util.py 393-402): `sweep[:, 0]` as numbers and `sweep[:, 1]`. -/
def getEigenValuesAndVectors [Inhabited X] (a : NDArray (Cell X V R)) : Except Err (NDArray X × NDArray (Cell X V R)) :=
  match a.column 0 with
  | .error e => .error e
  | .ok c0 =>
    match asNumbers c0 with
    | .error e => .error e
    | .ok es =>
      match a.column 1 with
      | .error e => .error e
      | .ok vs => .ok (es, vs)

end Num

end Verif
