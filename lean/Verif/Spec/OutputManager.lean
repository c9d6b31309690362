import Verif.Model.OutputManager

/-!
# Specification of the output files
-/

namespace JVMC.Spec

/-- The content of the dataset at a path: its rows; none if there is no such dataset. -/
def rowsAt (f : H5File) (p : List String) : List (List ℕ → ℝ) :=
  match f p with
  | some (.dset d) => d.rows
  | _ => []

/-- The entries of an array, as a row. -/
def NdArr.row (a : NdArr) : List ℕ → ℝ := clip a.shape a.val

/-- A name without slashes: one non-empty part. -/
def Simple (s : HName) (c : String) : Prop := s = [c] ∧ c ≠ ""

/-- Names of the subgroups the library creates. -/
def reserved : List String := ["observables", "metadata", "network_checkpoints"]

/-- The path of a group whose parts are not reserved. -/
def GroupPath (G : List String) : Prop := ∀ c ∈ G, c ≠ "" ∧ c ∉ reserved

/-- Every dataset of `f` is in `f'`, with all its rows, and more rows after them at most. -/
def Intact (f f' : H5File) : Prop := ∀ q d, f q = some (.dset d) →
  ∃ d', f' q = some (.dset d') ∧ d'.rowShape = d.rowShape ∧ d.rows <+: d'.rows

/-- The rows that a call should append, with their paths, when `G` is the selected group. -/
def opRows (G : List String) : OmOp → List (List String × NdArr)
  | .writeObservables t kw =>
    (G ++ ["observables", "times"], scalarArr t) ::
      kw.flatMap fun k => k.2.flatMap fun n => n.2.toList.map fun v =>
        (G ++ "observables" :: (HName.path k.1 ++ HName.path n.1), v)
  | .writeMetadata t kw =>
    (G ++ ["metadata", "times"], scalarArr t) ::
      kw.flatMap fun k => k.2.toList.map fun v => (G ++ "metadata" :: HName.path k.1, v)
  | .writeCheckpoint t w =>
    (G ++ ["network_checkpoints", "times"], scalarArr t) ::
      w.toList.map fun v => (G ++ ["network_checkpoints", "checkpoints"], v)
  | _ => []

/-- The group that is selected after a call. -/
def selected (G : List String) : OmOp → List String
  | .setGroup g => g.path
  | _ => G

/-- The rows that a history should append, in order; `G` is the group selected at the beginning. -/
def intended (G : List String) : List OmOp → List (List String × NdArr)
  | [] => []
  | op :: ops => opRows G op ++ intended (selected G op) ops

/-- Calls as they are meant: `set_group` with a name other than "/" that has no reserved parts, writes of
arrays under names without slashes; no observable is called "times". -/
def Natural : OmOp → Prop
  | .setGroup g => g ≠ ["", ""] ∧ GroupPath g.path
  | .writeObservables _ kw => ∀ k ∈ kw, (∃ c, Simple k.1 c ∧ c ≠ "times") ∧
      ∀ n ∈ k.2, (∃ c, Simple n.1 c) ∧ n.2.isSome
  | .writeMetadata _ kw => ∀ k ∈ kw, (∃ c, Simple k.1 c) ∧ k.2.isSome
  | .writeCheckpoint _ w => w.isSome
  | _ => False

/-- What is written to a dataset has always the same shape. -/
def SameShapes (ws : List (List String × NdArr)) : Prop :=
  ∀ w ∈ ws, ∀ w' ∈ ws, w.1 = w'.1 → w.2.shape = w'.2.shape

/-- The `write_observables` calls made while `H` is selected. -/
def obsCalls (H : List String) (G : List String) : List OmOp → List (ℝ × List (HName × List (HName × PyVal)))
  | [] => []
  | op :: ops => (match op with
      | .writeObservables t kw => if G = H then [(t, kw)] else []
      | _ => []) ++ obsCalls H (selected G op) ops

/-- The value of an observable in a call, if it is passed. -/
def obsValue (key name : String) (kw : List (HName × List (HName × PyVal))) : Option NdArr := do
  let d ← kw.lookup [key]
  let v ← d.lookup [name]
  v

/-- Keys of dictionaries are different. -/
def DictKeys (kw : List (HName × List (HName × PyVal))) : Prop :=
  (kw.map Prod.fst).Nodup ∧ ∀ k ∈ kw, (k.2.map Prod.fst).Nodup

/-- The checkpoints written while `H` is selected. -/
def checkpoints (H : List String) (G : List String) : List OmOp → List (ℝ × NdArr)
  | [] => []
  | op :: ops => (match op with
      | .writeCheckpoint t (some w) => if G = H then [(t, w)] else []
      | _ => []) ++ checkpoints H (selected G op) ops

/-- The total time of a timer after a history: for every `stop`, the time since the latest `start` of
the same name (`last`), plus the added times. -/
noncomputable def timeSpent (name : String) : Option ℝ → List TimerOp → ℝ
  | _, [] => 0
  | last, .start n c :: ops => if n = name then timeSpent name (some c) ops else timeSpent name last ops
  | last, .stop n c :: ops =>
    if n = name then (match last with
      | some b => c - b
      | none => 0) + timeSpent name none ops
    else timeSpent name last ops
  | last, .add n x :: ops => if n = name then x + timeSpent name last ops else timeSpent name last ops
  | last, .print :: ops => timeSpent name last ops

/-- Starts and stops of a timer alternate, beginning with a start; `running` says whether it runs. -/
def Matching (name : String) : Bool → List TimerOp → Prop
  | _, [] => True
  | running, .start n _ :: ops => if n = name then running = false ∧ Matching name true ops else Matching name running ops
  | running, .stop n _ :: ops => if n = name then running = true ∧ Matching name false ops else Matching name running ops
  | running, .add _ _ :: ops => Matching name running ops
  | running, .print :: ops => Matching name running ops

end JVMC.Spec
