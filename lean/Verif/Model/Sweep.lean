import Verif.Model.Collection
import Verif.Prelude.NDArray

/-!
# Model of the sweeping half of `ParamCollection` (pyscqed/parameters.py, lines 771-1166)
-/

namespace Verif

/-- A sweep specification dictionary (parameters.py 771-799). -/
structure SweepSpec where
  name : String
  start : PyVal
  stop : PyVal
  N : CountArg

/-- A `ParamCollection` with its sweep attributes.  They are not created by `__init__`: `none` means the
attribute does not exist yet.  `R` is the type of the values computed at the points of a sweep. -/
structure SW (E R : Type) where
  pc : PC E
  /-- `sweep_spec` -/
  spec : Option (List SweepSpec) := none
  /-- `sweep_grid_npts` -/
  npts : Option ℤ := none
  /-- `sweep_grid_params` -/
  params : Option (List String) := none
  /-- `sweep_grid_ndims` -/
  ndims : Option ℕ := none
  /-- `sweep_grid_nc` -/
  nc : Option (Dict String (NDArray PF)) := none
  /-- `sweep_grid_c` -/
  c : Option (Dict String (List PF)) := none
  /-- `sweep_grid_c_len` -/
  cLen : Option ℕ := none
  /-- `sweep_grid_result` -/
  result : Option (List R) := none

namespace SW

variable {E R : Type}

/-- `paramSweepSpec` (parameters.py 771-799), with the three sweep arguments. -/
def paramSweepSpec (st : SW E R) (name : String) (start stop : PyVal) (N : CountArg) :
    Except Err SweepSpec :=
  if st.pc.coll.has name then .ok ⟨name, start, stop, N⟩ else .error .valueError

/-- The loop of `ndSweep` (parameters.py 867-871).  The running product is the attribute
`sweep_grid_npts`, so it survives an exception, like the sweeps already stored. -/
def ndLoop (pc : PC E) (npts : ℤ) : List SweepSpec →
    PC E × ℤ × Except Err (List String × List (List PF))
  | [] => (pc, npts, .ok ([], []))
  | s :: rest =>
    match pc.coll.get? s.name with
    | none => (pc, npts, .error .keyError)
    | some p =>
      match p.linearSweep s.start s.stop s.N with
      | (_, .error e) => (pc, npts, .error e)
      | (p', .ok pts) =>
        match ndLoop { pc with coll := pc.coll.set s.name p' } (npts * p'.N) rest with
        | (pc', n', .error e) => (pc', n', .error e)
        | (pc', n', .ok (ks, sw)) => (pc', n', .ok (s.name :: ks, pts :: sw))

/-- `dict(zip(keys, grid))` (parameters.py 879): for a repeated key the last grid stays. -/
def ncOf (keys : List String) (sweeps : List (List PF)) : Dict String (NDArray PF) :=
  (keys.zipIdx).foldl (fun d kj => d.set kj.1 (meshgridIJ .nan sweeps kj.2)) []

/-- The collapsed grid (parameters.py 882-884). -/
def cOf (keys : List String) (nc : Dict String (NDArray PF)) : Dict String (List PF) :=
  keys.foldl (fun d k => match nc.get? k with
    | none => d
    | some a => d.set k a.flatten) []

/-- `ndSweep` (parameters.py 801-886). -/
def ndSweep (st : SW E R) (spec : List SweepSpec) : SW E R × Except Err Unit :=
  match ndLoop st.pc 1 spec with
  | (pc, n, .error e) => ({ st with pc := pc, spec := some spec, npts := some n }, .error e)
  | (pc, n, .ok (keys, sweeps)) =>
    let nc := ncOf keys sweeps
    let c := cOf keys nc
    ({ st with
        pc := pc
        spec := some spec
        npts := some n
        params := some keys
        ndims := some sweeps.length
        nc := some nc
        c := some c
        -- parameters.py 885-886: only assigned inside the loop, for its first iteration
        cLen := match keys with
          | [] => st.cLen
          | k :: _ => some ((c.get? k).getD []).length }, .ok ())

/-- The product of the sizes of the later axes times the index, summed (parameters.py 939-944).  numpy
multiplies in floating point; the model is exact. -/
def flatIndex : List ℤ → List ℤ → ℤ
  | _, [] => 0
  | Ns, i :: is => (Ns.drop 1).prod * i + flatIndex (Ns.drop 1) is

/-- The current sizes of the swept parameters (parameters.py 940-941). -/
def gridSizes (pc : PC E) : List String → Except Err (List ℤ)
  | [] => .ok []
  | k :: ks =>
    match pc.coll.get? k with
    | none => .error .keyError
    | some p =>
      match gridSizes pc ks with
      | .error e => .error e
      | .ok ns => .ok (p.N :: ns)

/-- `collapsedIndices` (parameters.py 929-944). -/
def collapsedIndices (st : SW E R) (indices : List ℤ) : Except Err ℤ :=
  match st.params with
  | none => .error .attributeError
  | some ks =>
    match gridSizes st.pc ks with
    | .error e => .error e
    | .ok ns => .ok (flatIndex ns indices)

/-- The dictionary of parameter values handed to the user function at point `i` (parameters.py 975). -/
def pointParams (params : List String) (c : Dict String (List PF)) (i : ℕ) : Dict String PF :=
  params.foldl (fun d p => d.set p (((c.get? p).getD []).getD i .nan)) []

/-- The evaluation loop (parameters.py 974-976).  The user function is an arbitrary action on a state `σ`
that may raise; `left` counts the points still to do. -/
def evalLoop {σ : Type} (func : σ → Dict String PF → σ × Except Err R) (params : List String)
    (c : Dict String (List PF)) : (left i : ℕ) → σ → List R → σ × List R × Except Err Unit
  | 0, _, s, acc => (s, acc, .ok ())
  | left + 1, i, s, acc =>
    match func s (pointParams params c i) with
    | (s', .error e) => (s', acc, .error e)
    | (s', .ok r) => evalLoop func params c left (i + 1) s' (acc ++ [r])

/-- `computeFuncSweep` (parameters.py 946-976).  Simplification: the user function does not itself
change the collection's sweep attributes. -/
def computeFuncSweep {σ : Type} (st : SW E R) (func : σ → Dict String PF → σ × Except Err R)
    (spec : List SweepSpec) (s : σ) : σ × SW E R × Except Err Unit :=
  match st.ndSweep spec with
  | (st', .error e) => (s, st', .error e)
  | (st', .ok ()) =>
    match st'.cLen, st'.params, st'.c with
    | some n, some ps, some c =>
      match evalLoop func ps c n 0 s [] with
      | (s', res, r) => (s', { st' with result := some res }, r)
    | _, _, _ => (s, { st' with result := some [] }, .error .attributeError)

/-! ### `getSweepResult` (parameters.py 1002-1166) -/

/-- `abs` of a float. -/
def absPF : PF → PF
  | .nan => .nan
  | .fin q => .fin |q|
  | _ => .pinf

/-- `np.argmin`: the first NaN if there is one, else the first smallest element; `none` (ValueError) on
an empty array. -/
def argmin (l : List PF) : Option ℕ :=
  match l.findIdx? (fun x => decide (x = .nan)) with
  | some i => some i
  | none => l.findIdx? (fun x => l.all (fun y => PF.le x y))

/-- `np.argmin(np.abs(p - v))` (parameters.py 1078-1079). -/
def nearest (p : List PF) (v : PF) : Option ℕ := argmin (p.map fun x => absPF (PF.sub x v))

/-- The loop over the static variables (parameters.py 1077-1081): indices and values of the nearest sweep
points.  A parameter that was never swept has an empty array, so `argmin` raises ValueError. -/
def staticPoints (pc : PC E) : List (String × PF) → Except Err (List (String × ℕ × PF))
  | [] => .ok []
  | (k, v) :: rest =>
    match pc.coll.get? k with
    | none => .error .valueError
    | some p =>
      match nearest p.sweep v with
      | none => .error .valueError
      | some i =>
        match staticPoints pc rest with
        | .error e => .error e
        | .ok l => .ok ((k, i, p.sweep.getD i .nan) :: l)

/-- `indices[name]` (parameters.py 1070-1072): for a repeated name the last one stays; KeyError. -/
def specIndex (spec : List SweepSpec) (name : String) : Option ℕ :=
  Dict.get? (spec.zipIdx.foldl (fun d si => Dict.set d si.1.name (spec.length - si.2 - 1))
    ([] : Dict String ℕ)) name

/-- `Ns[name]`. -/
def specN (spec : List SweepSpec) (name : String) : Option ℕ :=
  Dict.get? (spec.foldl (fun d s => Dict.set d s.name (match s.N with | .int z => z.toNat | .other => 0))
    ([] : Dict String ℕ)) name

/-- `final[i] = x`. -/
def assign {α : Type} (final : List α) (i : ℕ) (x : α) : Except Err (List α) :=
  if i < final.length then .ok (final.set i x) else .error .indexError

/-- `final[indices[k]] = [static_indices[k]] * N` for the static variables (parameters.py 1086-1087). -/
def assignStatics {α : Type} (spec : List SweepSpec) (mk : ℕ → α) :
    List (String × ℕ × PF) → List α → Except Err (List α)
  | [], final => .ok final
  | (k, i, _) :: rest, final =>
    match specIndex spec k with
    | none => .error .keyError
    | some j =>
      match assign final j (mk i) with
      | .error e => .error e
      | .ok f => assignStatics spec mk rest f

/-- `data[collapsedIndices(*l)]` for every row (parameters.py 1091-1093).  `data` is a list: IndexError. -/
def fetchRows {A : Type} (st : SW E R) (data : List A) : List (List ℕ) → Except Err (List A)
  | [] => .ok []
  | l :: ls =>
    match st.collapsedIndices (l.map (fun (x : ℕ) => (x : ℤ))) with
    | .error e => .error e
    | .ok i =>
      match data[i.toNat]? with
      | none => .error .indexError
      | some r =>
        match fetchRows st data ls with
        | .error e => .error e
        | .ok rs => .ok (r :: rs)

/-- Existence checks (parameters.py 1045-1051). -/
def namesKnown (st : SW E R) (names : List String) : Bool := names.all (fun k => st.pc.coll.has k)

/-- Selection of the data for a single independent variable (parameters.py 1044-1103, without the reading
of temporary files). -/
def sliceSingle {A : Type} (st : SW E R) (data : List A) (ind : String) (static : List (String × PF)) :
    Except Err (List PF × List A × List (String × PF)) :=
  if ! st.namesKnown (ind :: static.map Prod.fst) then .error .valueError
  else
    match st.pc.coll.get? ind, st.spec with
    | some p, some spec =>
      if spec.length = 1 then .ok (p.sweep, data, [])
      else
        match staticPoints st.pc static with
        | .error e => .error e
        | .ok pts =>
          match specIndex spec ind, specN spec ind with
          | some j, some n =>
            match assign (List.replicate (1 + static.length) (none : Option (List ℕ))) j
                (some (List.range n)) with
            | .error e => .error e
            | .ok f0 =>
              match assignStatics spec (fun i => some (List.replicate n i)) pts f0 with
              | .error e => .error e
              | .ok f =>
                -- `np.array(final)` raises ValueError if a slot still holds the scalar 0
                if f.any (fun o => o.isNone) then .error .valueError
                else
                  let rows := (List.range n).map fun i => f.map fun o => (o.getD []).getD i 0
                  match st.fetchRows data (rows.map List.reverse) with
                  | .error e => .error e
                  | .ok rs => .ok (p.sweep, rs, pts.map fun x => (x.1, x.2.2))
          | _, _ => .error .keyError
    | _, _ => .error .attributeError

/-- The independent variables in the order of the sweep specification (parameters.py 1121-1127). -/
def sortedInd (spec : List SweepSpec) (inds : List String) : List String :=
  (spec.map SweepSpec.name).filter (fun n => decide (n ∈ inds))

/-- `final[indices[iv]] = range(Ns[iv])` for every independent variable (parameters.py 1140-1141). -/
def assignInds (spec : List SweepSpec) : List String → List (List ℕ) → Except Err (List (List ℕ))
  | [], final => .ok final
  | k :: rest, final =>
    match specIndex spec k, specN spec k with
    | some j, some n =>
      match assign final j (List.range n) with
      | .error e => .error e
      | .ok f => assignInds spec rest f
    | _, _ => .error .keyError

/-- Selection of the data for a list of independent variables (parameters.py 1105-1163, without the
reading of temporary files): the sweeps of the independent variables in specification order, their
sizes, the selected entries as a flat list and the static values. -/
def sliceMulti {A : Type} (st : SW E R) (data : List A) (inds : List String)
    (static : List (String × PF)) :
    Except Err (List (List PF) × List ℕ × List A × List (String × PF)) :=
  if ! st.namesKnown (inds ++ static.map Prod.fst) then .error .valueError
  else
    match st.spec with
    | none => .error .attributeError
    | some spec =>
      let ivs := sortedInd spec inds
      match staticPoints st.pc static with
      | .error e => .error e
      | .ok pts =>
        match assignInds spec ivs (List.replicate (ivs.length + static.length) [0]) with
        | .error e => .error e
        | .ok f0 =>
          match assignStatics spec (fun i => [i]) pts f0 with
          | .error e => .error e
          | .ok f =>
            match st.fetchRows data (meshRows f.reverse) with
            | .error e => .error e
            | .ok rs =>
              if rs.isEmpty then .error .nameError   -- `l` is unbound, parameters.py 1154
              else
                .ok (ivs.map fun iv => ((st.pc.coll.get? iv).map Param.sweep).getD [],
                  ivs.map fun iv => (specN spec iv).getD 0, rs, pts.map fun x => (x.1, x.2.2))

/-- `np.array(res).reshape(N_1, …, N_m).T` for scalar entries (parameters.py 1155); ValueError if the
sizes do not fit, TypeError from `reshape()` when there is no size at all. -/
def reshapeT [Inhabited R] (Ns : List ℕ) (rs : List R) : Except Err (NDArray R) :=
  if Ns.isEmpty then .error .typeError
  else if Ns.prod ≠ rs.length then .error .valueError
  else
    .ok (NDArray.T { shape := Ns
                     get := fun t => rs.getD (flatIndex (Ns.map (fun (x : ℕ) => (x : ℤ)))
                       (t.map (fun (x : ℕ) => (x : ℤ)))).toNat default })

/-! #### The `data` and `key` arguments -/

/-- An entry of a data list: a value, or the name of a temporary file. -/
inductive Datum (R : Type)
  | val (r : R)
  | file (path : String)

/-- What a temporary file holds: a value or a dictionary of values. -/
inductive Pickled (R : Type)
  | plain (r : R)
  | keyed (d : Dict String R)

/-- The `data` argument. -/
inductive DataArg (R : Type)
  | default
  | list (l : List (Datum R))
  | dict (d : Dict String (List (Datum R)))

/-- `pickleRead(f)` / `pickleRead(f)[key]` / the entry itself (parameters.py 1096-1103).  `disk` gives the
contents of files; reading a missing file raises.  Simplification: a list mixing values and file names
raises TypeError. -/
def readDatum (disk : String → Option (Pickled R)) (tmp : Bool) (key : Option String) :
    Datum R → Except Err R
  | .val r => if tmp then .error .typeError else .ok r
  | .file f =>
    if ! tmp then .error .typeError
    else
      match disk f, key with
      | none, _ => .error .userError
      | some (.plain r), none => .ok r
      | some (.plain _), some _ => .error .typeError
      | some (.keyed _), none => .error .typeError
      | some (.keyed d), some k =>
        match d.get? k with
        | none => .error .keyError
        | some r => .ok r

/-- Is the entry a file name? (parameters.py 1029, 1046) -/
def Datum.isFile : Datum R → Bool
  | .file _ => true
  | .val _ => false

/-- Determination of the data, of whether temporary files are used, and of the key (parameters.py
1024-1047).  Simplification: a user function never returns a string, so the default data are values. -/
def resolveData (st : SW E R) (disk : String → Option (Pickled R)) (data : DataArg R)
    (key : Option String) : Except Err (List (Datum R) × Bool × Option String) :=
  match data with
  | .default =>
    match st.result with
    | none => .error .attributeError
    | some [] => .error .indexError
    | some rs => .ok (rs.map .val, false, key)
  | .list [] => .error .indexError
  | .list (.val r :: l) => .ok (.val r :: l, false, key)
  | .list (.file f :: l) =>
    match disk f with
    | none => .error .userError
    | some (.plain _) => .ok (.file f :: l, true, none)
    | some (.keyed _) =>
      match key with
      | none => .error .typeError
      | some k => .ok (.file f :: l, true, some k)
  | .dict d =>
    match key with
    | none => .error .valueError
    | some k =>
      match d.get? k with
      | none => .error .keyError
      | some [] => .error .indexError
      | some (x :: l) => .ok (x :: l, x.isFile, some k)

/-- Read every selected entry. -/
def readAll (disk : String → Option (Pickled R)) (tmp : Bool) (key : Option String) :
    List (Datum R) → Except Err (List R)
  | [] => .ok []
  | x :: xs =>
    match readDatum disk tmp key x with
    | .error e => .error e
    | .ok r =>
      match readAll disk tmp key xs with
      | .error e => .error e
      | .ok rs => .ok (r :: rs)

/-- `getSweepResult(ind_var, static_vars, data, key)` with a string `ind_var` (parameters.py 1002-1103).
The data are scalars, so the final `.T` does nothing. -/
def getSweepResult (st : SW E R) (disk : String → Option (Pickled R)) (ind : String)
    (static : List (String × PF)) (data : DataArg R := .default) (key : Option String := none) :
    Except Err (List PF × List R × List (String × PF)) :=
  match st.resolveData disk data key with
  | .error e => .error e
  | .ok (l, tmp, key) =>
    match st.sliceSingle l ind static with
    | .error e => .error e
    | .ok (sw, xs, vals) =>
      match readAll disk tmp key xs with
      | .error e => .error e
      | .ok rs => .ok (sw, rs, vals)

/-- `getSweepResult(ind_vars, static_vars, data, key)` with a list (parameters.py 1002-1163). -/
def getSweepResultMulti [Inhabited R] (st : SW E R) (disk : String → Option (Pickled R))
    (inds : List String) (static : List (String × PF)) (data : DataArg R := .default)
    (key : Option String := none) : Except Err (List (List PF) × NDArray R × List (String × PF)) :=
  match st.resolveData disk data key with
  | .error e => .error e
  | .ok (l, tmp, key) =>
    match st.sliceMulti l inds static with
    | .error e => .error e
    | .ok (sw, Ns, xs, vals) =>
      match readAll disk tmp key xs with
      | .error e => .error e
      | .ok rs =>
        match reshapeT Ns rs with
        | .error e => .error e
        | .ok a => .ok (sw, a, vals)

/-! ### Swept and unswept parameters (parameters.py 888-927) -/

/-- The set `not_for_presub` (parameters.py 896-903 and 917-925).  `dfs_successors(G, p)` lists exactly the
nodes reachable from `p`, `p` excepted; KeyError if `p` is not a node. -/
def notForPresub (pc : PC E) : List String → Except Err (List String)
  | [] => .ok []
  | name :: rest =>
    match pc.getParameterisationsInvolving [name] with
    | .error e => .error e
    | .ok ps =>
      if ps.all (fun p => decide (p ∈ pc.graph.nodes)) then
        match notForPresub pc rest with
        | .error e => .error e
        | .ok l => .ok (name :: (ps ++ (ps.flatMap fun p => pc.graph.descendants p) ++ l))
      else .error .keyError

/-- `getSweepParametersDict` (parameters.py 888-906).  The names come out of a set: order `ho`. -/
def getSweepParametersDict (st : SW E R) (ho : HashOrder) : Except Err (Dict Sym (Option PF)) :=
  match st.params with
  | none => .error .attributeError
  | some ks =>
    match notForPresub st.pc ks with
    | .error e => .error e
    | .ok l => st.pc.getSymbolValues (ho.ord l.dedup)

/-- `getNonSweepParametersDict` (parameters.py 908-927). -/
def getNonSweepParametersDict (st : SW E R) (ho : HashOrder) : Except Err (Dict Sym (Option PF)) :=
  match st.params with
  | none => .error .attributeError
  | some ks =>
    match notForPresub st.pc ks with
    | .error e => .error e
    | .ok l => st.pc.getSymbolValues (ho.ord (st.pc.coll.keys.filter (fun k => decide (k ∉ l))))

end SW

/-- `expr.subs(d)` with a dictionary of numbers, as `_presub`, `_postsub` and `substitute` use it
(numerical_system.py 319-437): sympy replaces the symbols one after the other.  A symbol whose value is
None has no replacement (sympy would leave a broken expression); this simplification is not used by any
theorem, all of which ask for the values to be set. -/
def subsDict {E : Type} (eng : Engine E) (e : E) (d : Dict Sym (Option PF)) : E :=
  d.foldl (fun e p => match p.2 with
    | none => e
    | some v => eng.subs e p.1 (eng.lit v)) e

end Verif
