import Verif.Prelude.Dict
import Verif.Prelude.Py
import Mathlib.Data.Nat.Digits.Defs

/-!
# Model of `TempData` (pyscqed/dataspec.py, lines 28-136) and its pickle helpers (util.py 409-453)

Paths are character lists, built by concatenation exactly as the code does.  The file system is a map from
paths to stored objects plus the list of existing directories; pickling and unpickling is the identity.
Not modelled: I/O errors other than a missing directory or file, the messages printed, parent directories
(`os.makedirs` creates them, nothing depends on it), threads.
-/

namespace Verif.Temp

open Verif

/-- A path. -/
abbrev Path := List Char

/-- The numeral of `n` in base `b` (2 to 16), as `str(n)` and `hex(n)[2:]` write it. -/
def numeral (b n : ℕ) : List Char :=
  if n = 0 then ['0'] else ((Nat.digits b n).reverse.map Nat.digitChar)

/-- A `TempData` instance: `session_path`, `__session_exists`, `part_count` (dataspec.py 49-52). -/
structure Obj where
  path : Path
  exists_ : Bool
  count : ℕ
  deriving DecidableEq

/-- The file system and the live instances. -/
structure World (A : Type) where
  files : Dict Path A
  dirs : List Path
  objs : List Obj

variable {A : Type}

/-- The directory part of a path: everything up to the last separator. -/
def dirOf (p : Path) : Path := (p.reverse.dropWhile (· ≠ '/')).reverse

/-- `TempData.__init__` (dataspec.py 38-52).  `root` is `tempfile.gettempdir() + os.sep + ".pycqed/"`. -/
def new (root : Path) (w : World A) : World A :=
  { w with dirs := if root ∈ w.dirs then w.dirs else root :: w.dirs
           objs := w.objs ++ [⟨root, false, 0⟩] }

/-- `newSession` (dataspec.py 54-74). -/
def newSession (root : Path) (w : World A) (i id : ℕ) : World A × Except Err Path :=
  match w.objs[i]? with
  | none => (w, .error .attributeError)
  | some o =>
    let path := root ++ ("session-".toList ++ numeral 16 id) ++ ['/']
    ({ w with dirs := if path ∈ w.dirs then w.dirs else path :: w.dirs
              objs := w.objs.set i { o with path := path, exists_ := true } }, .ok path)

/-- `writePart` (dataspec.py 83-104) with `pickleWrite` (util.py 409-429).  Opening a file in a directory
that does not exist raises.  The empty directory name is the current directory. -/
def writePart (w : World A) (i : ℕ) (a : A) : World A × Except Err Path :=
  match w.objs[i]? with
  | none => (w, .error .attributeError)
  | some o =>
    let fname := o.path ++ "part-".toList ++ numeral 10 o.count ++ ".bin".toList
    if dirOf fname = [] ∨ dirOf fname ∈ w.dirs then
      ({ w with files := w.files.set fname a
                objs := w.objs.set i { o with count := o.count + 1 } }, .ok fname)
    else (w, .error .userError)

/-- `readPart` (dataspec.py 106-116) with `pickleRead` (util.py 436-453). -/
def readPart (w : World A) (f : Path) : Except Err A :=
  match w.files.get? f with
  | none => .error .userError
  | some a => .ok a

/-- `sessionExists` (dataspec.py 118-125). -/
def sessionExists (w : World A) (i : ℕ) : Bool :=
  match w.objs[i]? with
  | none => false
  | some o => o.exists_

/-- `shutil.rmtree(path)` for a path ending in a separator: raises if there is no such directory, removes
everything below it. -/
def rmtree (w : World A) (path : Path) : Option (World A) :=
  if path ∈ w.dirs then
    some { w with files := w.files.filter (fun p => ! path.isPrefixOf p.1)
                  dirs := w.dirs.filter (fun d => ! path.isPrefixOf d) }
  else none

/-- `clearSessionData` (dataspec.py 127-136). -/
def clearSession (w : World A) (i : ℕ) : World A × Except Err Unit :=
  match w.objs[i]? with
  | none => (w, .error .attributeError)
  | some o =>
    if o.exists_ then
      match rmtree w o.path with
      | none => (w, .error .userError)
      | some w' => ({ w' with objs := w'.objs.set i ⟨[], false, 0⟩ }, .ok ())
    else ({ w with objs := w.objs.set i { o with path := [], count := 0 } }, .ok ())

end Verif.Temp
