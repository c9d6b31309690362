import Verif.Model.H5

/-!
# Model of `jVMC/util/output_manager.py`
-/

namespace JVMC

/-- A value passed to be written; `none` has no attribute `shape` (e.g. a Python float).
(output_manager.py:54-68, 88-96, 116-125) -/
abbrev PyVal := Option NdArr

/-- `value.shape` and the entries of `value`. (output_manager.py:64-68, 92-96, 121-125) -/
def valShape (v : PyVal) : H5M NdArr :=
  match v with
  | none => throw .attributeError
  | some a => return a

/-- A scalar. (output_manager.py:50, 86, 114) -/
def scalarArr (x : ℝ) : NdArr := ⟨[], fun _ => x⟩

/-- output_manager.py:42-50, 78-86, 106-114: creates `group` in the current group if missing, then its
dataset "times", and appends the time. -/
def omWriteTime (cur group : HName) (time : ℝ) : H5M Unit := do
  if !(← h5In group cur) then h5CreateGroup (cur ++ group)
  if !(← h5In ["times"] (cur ++ group)) then h5CreateDset (cur ++ group ++ ["times"]) []
  let newLen := (← h5Dset (cur ++ group ++ ["times"])).rows.length + 1
  h5Resize (cur ++ group ++ ["times"]) newLen []
  h5SetLast (cur ++ group ++ ["times"]) fun _ => time

/-- output_manager.py:36-68 `write_observables`, on rank 0; `cur` is `self.currentGroup`. -/
def omWriteObservables (cur : HName) (time : ℝ) (kwargs : List (HName × List (HName × PyVal))) : H5M Unit := do
  omWriteTime cur ["observables"] time
  kwargs.forM fun (key, obsDict) =>
    obsDict.forM fun (name, value) => do
      let datasetName := cur ++ ["observables"] ++ key ++ name
      if !(← h5In key (cur ++ ["observables"])) then h5CreateGroup (cur ++ ["observables"] ++ key)
      if !(← h5In name (cur ++ ["observables"] ++ key)) then
        let a ← valShape value
        h5CreateDset datasetName a.shape
      let newLen := (← h5Dset datasetName).rows.length + 1
      let a ← valShape value
      h5Resize datasetName newLen a.shape
      h5SetLast datasetName a.val

/-- output_manager.py:88-96, 116-125: one value of the metadata, or the weights of a checkpoint. -/
def omWriteKey (grp key : HName) (value : PyVal) : H5M Unit := do
  if !(← h5In key grp) then
    let a ← valShape value
    h5CreateDset (grp ++ key) a.shape
  let newLen := (← h5Dset (grp ++ key)).rows.length + 1
  let a ← valShape value
  h5Resize (grp ++ key) newLen a.shape
  h5SetLast (grp ++ key) a.val

/-- output_manager.py:70-96 `write_metadata`, on rank 0. -/
def omWriteMetadata (cur : HName) (time : ℝ) (kwargs : List (HName × PyVal)) : H5M Unit := do
  omWriteTime cur ["metadata"] time
  kwargs.forM fun (key, value) => omWriteKey (cur ++ ["metadata"]) key value

/-- output_manager.py:98-125 `write_network_checkpoint`, on rank 0. -/
def omWriteCheckpoint (cur : HName) (time : ℝ) (weights : PyVal) : H5M Unit := do
  omWriteTime cur ["network_checkpoints"] time
  omWriteKey (cur ++ ["network_checkpoints"]) ["checkpoints"] weights

/-- Python indexing with negative indices. (output_manager.py:143-144) -/
def pyIndex {A : Type} (l : List A) (idx : ℤ) : Except PyErr A :=
  let i := if idx < 0 then idx + l.length else idx
  if i < 0 then .error .indexError
  else match l[i.toNat]? with
    | some a => .ok a
    | none => .error .indexError

/-- The place of the first minimum (`np.argmin`); raises for empty lists.
(output_manager.py:140) -/
noncomputable def argMin : List ℝ → Except PyErr ℕ
  | [] => .error .valueError
  | [_] => .ok 0
  | x :: y :: ys => do
    let j ← argMin (y :: ys)
    return if (y :: ys).getD j 0 < x then j + 1 else 0

/-- `np.array(f[name])`. (output_manager.py:137) -/
def h5Rows (f : H5File) (name : HName) : Except PyErr (List ℕ × List (List ℕ → ℝ)) :=
  match f name.path with
  | some (.dset d) => .ok (d.rowShape, d.rows)
  | _ => .error .keyError

/-- output_manager.py:127-154 `get_network_checkpoint`; all ranks return what rank 0 reads (it is
broadcast, see C07). -/
noncomputable def omGetCheckpoint (f : H5File) (cur : HName) (time : ℝ) (idx : ℤ) : Except PyErr (ℝ × NdArr) := do
  let (_, t) ← h5Rows f (cur ++ ["network_checkpoints"] ++ ["times"])
  let times := t.map fun r => r []
  let idx ← if time ≥ 0 then (do
      let j ← argMin (times.map fun x => |x - time|)
      return (j : ℤ))
    else pure idx
  let (shape, c) ← h5Rows f (cur ++ ["network_checkpoints"] ++ ["checkpoints"])
  let w ← pyIndex c idx
  let t ← pyIndex times idx
  return (t, ⟨shape, w⟩)

/-- output_manager.py:156-167 `write_error_data`, on the rank that writes. -/
def omWriteError (name : HName) (data : NdArr) : H5M Unit := do
  if !(← h5In ["error_data"] ["", ""]) then h5CreateGroup ("" :: ["error_data"])
  h5CreateFixed ("" :: ["error_data"] ++ name) data

/-- output_manager.py:169-180 `write_dataset`, on the rank that writes. -/
def omWriteDataset (name : HName) (data : PyVal) (groupname : HName) : H5M Unit := do
  if groupname ≠ ["", ""] then
    if !(← h5In groupname ["", ""]) then h5CreateGroup ("" :: groupname)
  let a ← valShape data
  h5CreateFixed ("" :: groupname ++ name) a

/-- The object: `currentGroup`, and whether the file is opened with mode "a" (else "w") by the next
`set_group`. (output_manager.py:10-34) -/
structure OutMgr where
  currentGroup : HName
  append : Bool

/-- `h5py.File(fn, "a")` or `h5py.File(fn, "w")`; `none`: there is no such file.
(output_manager.py:30) -/
def h5Open (append : Bool) (fs : Option H5File) : H5File :=
  if append then fs.getD H5File.empty else H5File.empty

/-- output_manager.py:26-27: the new `currentGroup`. -/
def omSelect (cur group : HName) : HName := if group ≠ ["", ""] then "" :: group else cur

/-- output_manager.py:30-32: on rank 0, creates the current group if missing. -/
def omEnsureGroup (cur : HName) : H5M Unit := do
  if !(← h5In cur []) then h5CreateGroup cur

/-- A file manager: the object and the file. (output_manager.py:10-34) -/
structure OmState where
  obj : OutMgr
  log : H5Log

/-- What can be done with an object; errors are caught by the caller and leave the state as it is then.
(output_manager.py:24-180) -/
inductive OmOp where
  | setGroup (group : HName)
  | writeObservables (time : ℝ) (kwargs : List (HName × List (HName × PyVal)))
  | writeMetadata (time : ℝ) (kwargs : List (HName × PyVal))
  | writeCheckpoint (time : ℝ) (weights : PyVal)
  | writeError (name : HName) (data : NdArr)
  | writeDataset (name : HName) (data : PyVal) (groupname : HName)

/-- The code of a call, once `currentGroup` is set. (output_manager.py:29-180) -/
def OmOp.code (cur : HName) : OmOp → H5M Unit
  | .setGroup _ => omEnsureGroup cur
  | .writeObservables t kw => omWriteObservables cur t kw
  | .writeMetadata t kw => omWriteMetadata cur t kw
  | .writeCheckpoint t w => omWriteCheckpoint cur t w
  | .writeError n d => omWriteError n d
  | .writeDataset n d g => omWriteDataset n d g

/-- `currentGroup` after line 27 of `set_group`; the other methods do not change it.
(output_manager.py:26-27) -/
def OmOp.group (cur : HName) : OmOp → HName
  | .setGroup g => omSelect cur g
  | _ => cur

/-- A call of a method on rank 0, after the constructor (so that files are opened with "a").
(output_manager.py:24-180) -/
def omCall (s : OmState) (op : OmOp) : Except PyErr Unit × OmState :=
  let cur := op.group s.obj.currentGroup
  let r := (op.code cur).call s.log
  (r.1, ⟨⟨cur, true⟩, r.2⟩)

/-- output_manager.py:10-22 and 24-34: the constructor, on rank 0. -/
def omInit (fs : Option H5File) (group : HName) (append : Bool) : Except PyErr Unit × OmState :=
  let cur := omSelect ["", ""] group
  let r := (omEnsureGroup cur).call ⟨h5Open append fs, []⟩
  (r.1, ⟨⟨cur, true⟩, r.2⟩)

/-- The state after a history of calls. (output_manager.py:24-180) -/
def omRun (s : OmState) (ops : List OmOp) : OmState := ops.foldl (fun s op => (omCall s op).2) s

/-! ## Timings -/

/-- The entries of `self.timings[name]`. (output_manager.py:185, 194, 205) -/
structure Timer where
  total : ℝ := 0
  lastTotal : ℝ := 0
  newest : ℝ := 0
  count : ℕ := 0
  init : ℝ := 0

/-- `self.timings` in order of insertion. (output_manager.py:22) -/
abbrev Timings := List (String × Timer)

/-- `self.timings[name]`, created if missing (output_manager.py:184-185, 193-194, 204-205). -/
def timerOf (name : String) (t : Timings) : Timer := (t.lookup name).getD {}

/-- Assignment to a dictionary entry: existing keys keep their place.
(output_manager.py:184-187) -/
def timerSet (name : String) (x : Timer) (t : Timings) : Timings :=
  if (t.lookup name).isSome then t.map fun e => if e.1 = name then (name, x) else e else t ++ [(name, x)]

/-- output_manager.py:182-187 `start_timing`; `clock` is the value of `time.perf_counter()`. -/
def startTiming (name : String) (clock : ℝ) (t : Timings) : Timings :=
  timerSet name { timerOf name t with init := clock } t

/-- output_manager.py:202-209 `add_timing`. -/
noncomputable def addTiming (name : String) (elapsed : ℝ) (t : Timings) : Timings :=
  let x := timerOf name t
  timerSet name { x with total := x.total + elapsed, newest := elapsed, count := x.count + 1 } t

/-- output_manager.py:189-200 `stop_timing`. -/
noncomputable def stopTiming (name : String) (clock : ℝ) (t : Timings) : Timings :=
  let x := timerOf name t
  let elapsed := clock - x.init
  timerSet name { x with total := x.total + elapsed, newest := elapsed, count := x.count + 1 } t

/-- output_manager.py:211-218 `print_timings`: the printed values and the new state. -/
noncomputable def printTimings (t : Timings) : List (String × ℝ) × Timings :=
  (t.map fun e => (e.1, e.2.total - e.2.lastTotal), t.map fun e => (e.1, { e.2 with lastTotal := e.2.total }))

/-- A call of a timing method. (output_manager.py:182-218) -/
inductive TimerOp where
  | start (name : String) (clock : ℝ)
  | stop (name : String) (clock : ℝ)
  | add (name : String) (elapsed : ℝ)
  | print

/-- One call: the new state and the values printed so far. (output_manager.py:182-218) -/
noncomputable def timerStep (s : Timings × List (String × ℝ)) : TimerOp → Timings × List (String × ℝ)
  | .start n c => (startTiming n c s.1, s.2)
  | .stop n c => (stopTiming n c s.1, s.2)
  | .add n x => (addTiming n x s.1, s.2)
  | .print => ((printTimings s.1).2, s.2 ++ (printTimings s.1).1)

/-- The state and all printed values after a history of calls on a new object.
(output_manager.py:182-218) -/
noncomputable def timerRun (ops : List TimerOp) : Timings × List (String × ℝ) :=
  ops.foldl timerStep ([], [])

end JVMC
