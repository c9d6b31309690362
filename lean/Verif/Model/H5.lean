import Mathlib.Data.Real.Basic
import Mathlib.Data.List.Infix
import Verif.Model.Py

/-!
# Model of the HDF5 files used by `OutputManager` (`h5py`)

A file maps paths to groups and datasets. The library builds names by joining strings with "/", so a
name is represented by the list of the parts between the slashes: "/" is `["", ""]`, "a/b" is
`["a", "b"]`, `x + "/" + y` is `x ++ y`, and `"/" + x` is `"" :: x`. As in HDF5, empty parts do not count
when a name is resolved.

Every change of the file by one `h5py` call is one step; a crash leaves the file as it is between two
steps. (That a real file survives a crash, i.e. that HDF5 writes each step atomically and in order, is an
idealisation.) Entries are exact reals.
-/

namespace JVMC

/-- A string, split at "/". (output_manager.py:24-180) -/
abbrev HName := List String

/-- The path a name refers to. (output_manager.py:24-180) -/
def HName.path (s : HName) : List String := s.filter fun c => c ≠ ""

/-- An array: shape and entries. (the values in output_manager.py:36-180) -/
structure NdArr where
  shape : List ℕ
  val : List ℕ → ℝ

/-- The entries inside a shape, zero outside. (output_manager.py:67, 95, 124) -/
def clip (shape : List ℕ) (f : List ℕ → ℝ) : List ℕ → ℝ := fun idx =>
  if List.Forall₂ (· < ·) idx shape then f idx else 0

/-- A dataset created with shape `(0,) + rowMax` and `maxshape=(None,) + rowMax`; `rowShape` is the
current shape of a row. (output_manager.py:46, 64, 82, 92, 110, 121) -/
structure H5Dset where
  rowMax : List ℕ
  rowShape : List ℕ
  rows : List (List ℕ → ℝ)

/-- An object in a file: a group, a resizable dataset, or a dataset of fixed shape (`data=...`).
(output_manager.py:31-180) -/
inductive H5Obj where
  | group
  | dset (d : H5Dset)
  | fixed (a : NdArr)

/-- A file. The root is `[]`. (output_manager.py:30, 40, 76, 104) -/
abbrev H5File := List String → Option H5Obj

/-- A new file. (output_manager.py:30) -/
def H5File.empty : H5File := fun p => if p = [] then some .group else none

/-- The current file and all earlier states, latest first.
(every state a crash can leave in output_manager.py:30-180) -/
structure H5Log where
  now : H5File
  past : List H5File

/-- Code that works on an open file. (the `with` blocks in output_manager.py:30-180) -/
abbrev H5M (A : Type) := ExceptT PyErr (StateM H5Log) A

/-- The result and the log after running code. (the `with` blocks in output_manager.py:30-180) -/
def H5M.call {A : Type} (m : H5M A) (l : H5Log) : Except PyErr A × H5Log := (ExceptT.run m).run l

/-- The open file. (output_manager.py:40, 76, 104) -/
def h5File : H5M H5File := do return (← get).now

/-- One change of the file. (output_manager.py:43-50) -/
def h5Put (f : H5File) : H5M Unit := modify fun l => ⟨f, l.now :: l.past⟩

/-- `name in f[group]`. Simplification: raises if `f[group]` is a dataset.
(output_manager.py:42, 45, 58, 62) -/
def h5In (name group : HName) : H5M Bool := do
  let f ← h5File
  match f group.path with
  | none => throw .keyError
  | some .group => return (f (HName.path (group ++ name))).isSome
  | some _ => throw .typeError

/-- A proper prefix of the path is not a group although it exists.
(output_manager.py:32, 43, 64) -/
def h5Blocked (f : H5File) (p : List String) : Bool :=
  p.inits.any fun q => q ≠ p && (match f q with
    | none => false
    | some .group => false
    | some _ => true)

/-- The groups on the way to a path are created if missing. (output_manager.py:32, 43, 64) -/
def h5Groups (f : H5File) (p : List String) : H5File := fun q =>
  if q <+: p ∧ q ≠ p ∧ (f q).isNone then some .group else f q

/-- A new object: raises if there is one or if the way to it is blocked.
(output_manager.py:32, 43, 64) -/
def h5Create (name : HName) (o : H5Obj) : H5M Unit := do
  let f ← h5File
  let p := name.path
  if (f p).isSome || h5Blocked f p then throw .valueError
  h5Put (Function.update (h5Groups f p) p (some o))

/-- `f.create_group(name)`. (output_manager.py:32, 43, 60, 79, 107) -/
def h5CreateGroup (name : HName) : H5M Unit := h5Create name .group

/-- `f.create_dataset(name, (0,) + shape, maxshape=(None,) + shape)`.
(output_manager.py:46, 64, 82, 92, 110, 121) -/
def h5CreateDset (name : HName) (shape : List ℕ) : H5M Unit := h5Create name (.dset ⟨shape, shape, []⟩)

/-- `f.create_dataset(name, data=a)`. (output_manager.py:167, 180) -/
def h5CreateFixed (name : HName) (a : NdArr) : H5M Unit := h5Create name (.fixed a)

/-- `f[name]`, for a resizable dataset; raises otherwise. (output_manager.py:48-50, 66-68) -/
def h5Dset (name : HName) : H5M H5Dset := do
  let f ← h5File
  match f name.path with
  | none => throw .keyError
  | some (.dset d) => return d
  | some _ => throw .attributeError

/-- `f[name].resize((newLen,) + shape)`: rows are cut or filled up with zeros. Raises if the number of
dimensions differs or `maxshape` is exceeded. (output_manager.py:49, 67, 85, 95, 113, 124) -/
def h5Resize (name : HName) (newLen : ℕ) (shape : List ℕ) : H5M Unit := do
  let d ← h5Dset name
  if shape.length ≠ d.rowMax.length ∨ ∃ x ∈ shape.zip d.rowMax, x.2 < x.1 then throw .valueError
  let f ← h5File
  let rows := (d.rows.take newLen ++ List.replicate (newLen - d.rows.length) fun _ => (0 : ℝ)).map (clip shape)
  h5Put (Function.update f name.path (some (.dset ⟨d.rowMax, shape, rows⟩)))

/-- `f[name][-1] = value`, for a value of the shape of a row.
(output_manager.py:50, 68, 86, 96, 114, 125) -/
def h5SetLast (name : HName) (val : List ℕ → ℝ) : H5M Unit := do
  let d ← h5Dset name
  if d.rows = [] then throw .indexError
  let f ← h5File
  h5Put (Function.update f name.path (some (.dset { d with
    rows := d.rows.set (d.rows.length - 1) (clip d.rowShape val) })))

end JVMC
