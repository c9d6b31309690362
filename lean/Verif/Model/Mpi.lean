import Mathlib.Data.Complex.Basic
import Mathlib.Data.Complex.BigOperators
import Mathlib.LinearAlgebra.Complex.Module
import Mathlib.Algebra.BigOperators.Fin
import Verif.Model.Py

/-!
# Model of `jVMC/mpi_wrapper.py` and `jVMC/global_defs.py`

A *world* is the list of the contributions of all MPI ranks (position = rank). The data of
one rank is a list over its devices, each device holding a list of samples (batch axis).
-/

namespace JVMC

/-! ## Distribution of samples -/

/-- mpi_wrapper.py:76-79, the local variable `samplesPerProcess`. -/
def samplesPerProcess (commSize rank numSamples : ℕ) : ℕ :=
  numSamples / commSize + (if rank < numSamples % commSize then 1 else 0)

/-- mpi_wrapper.py:89-90, the closure `spc`: ceiling division by the chains per process. -/
def samplesPerChain (numChainsPerProcess spp : ℕ) : ℕ :=
  (spp + numChainsPerProcess - 1) / numChainsPerProcess

/-- mpi_wrapper.py:53-95, `distribute_sampling` on one rank. Returns the pair returned by
Python; its second component is also the new value of the module global `globNumSamples`.
Python's `//` by zero raises, which happens for `localDevices * numChainsPerDevice == 0`.
Simplification: the number of samples is a natural number. -/
def distributeSampling (commSize rank numSamples : ℕ) (localDevices : Option ℕ)
    (numChainsPerDevice : ℕ) : Except PyErr (ℕ × ℕ) :=
  if commSize = 0 then .error .zeroDivisionError
  else
    match localDevices with
    | none => .ok (samplesPerProcess commSize rank numSamples, numSamples)
    | some d =>
      let chains := d * numChainsPerDevice
      if chains = 0 then .error .zeroDivisionError
      else
        let a := numSamples % commSize
        let glob := (a * samplesPerChain chains (1 + numSamples / commSize)
          + (commSize - a) * samplesPerChain chains (numSamples / commSize)) * chains
        .ok (samplesPerChain chains (samplesPerProcess commSize rank numSamples), glob)

/-- mpi_wrapper.py:98-111, `first_sample_id`; `glob` is the module global `globNumSamples`. -/
def firstSampleId (commSize rank glob : ℕ) : ℕ :=
  let mySamples := glob / commSize
  let first := rank * mySamples
  if rank < glob % commSize then first + rank else first + glob % commSize

/-! ## Reductions -/

/-- mpi_wrapper.py:44, the pmapped kernel `_sum_up_pmapd`: on every device the sum over the
batch axis followed by `lax.psum` over devices, so every device holds the same total. -/
def sumUpPmapd {A : Type*} [AddCommMonoid A] (data : List (List A)) : List A :=
  data.map fun _ => (data.map List.sum).sum

/-- Python's `x[0]`. (minsr.py:153-154) -/
def pyHead {A : Type*} : List A → Except PyErr A
  | [] => .error .indexError
  | a :: _ => .ok a

/-- `comm.Allreduce(local, res, op=MPI.SUM)` (mpi_wrapper.py:141, 212): every rank obtains the
sum of all ranks' contributions. -/
def allreduceSum {A : Type*} [AddCommMonoid A] (locals : List A) : List A :=
  locals.map fun _ => locals.sum

/-- mpi_wrapper.py:114-147, `global_sum`, on all ranks: the list of the values returned on the
ranks. Timing and device placement are modelled separately (`CommTime`, `DevState`). -/
def globalSum {A : Type*} [AddCommMonoid A] (world : List (List (List A))) :
    Except PyErr (List A) := do
  let locals ← world.mapM fun data => pyHead (sumUpPmapd data)
  return allreduceSum locals

/-- mpi_wrapper.py:47, `mean_helper`: per device `expand_dims(dot(p, data), axis=0)`.
Simplification: `p` and `data` have equal shapes and are given as pairs. -/
def meanHelper {A : Type*} [AddCommMonoid A] [SMul ℝ A] (data : List (List (ℝ × A))) :
    List (List A) :=
  data.map fun dev => [(dev.map fun s => s.1 • s.2).sum]

/-- mpi_wrapper.py:150-174, `global_mean`. -/
def globalMean {A : Type*} [AddCommMonoid A] [SMul ℝ A] (world : List (List (List (ℝ × A)))) :
    Except PyErr (List A) :=
  globalSum (world.map meanHelper)

/-- mpi_wrapper.py:46, the pmapped kernel `_sum_sq_pmapd`:
`einsum('ij, ij, i -> j', conj(data - mean), data - mean, p)` on each device. There is no
`psum`: the result is one value *per device*. -/
def sumSqPmapd {ι : Type*} (mean : ι → ℂ) (data : List (List (ℝ × (ι → ℂ)))) : List (ι → ℂ) :=
  data.map fun dev =>
    (dev.map fun s => fun j => (starRingEnd ℂ) (s.2 j - mean j) * (s.2 j - mean j) * (s.1 : ℂ)).sum

/-- mpi_wrapper.py:177-217, `global_variance`. Rank `r` uses the mean it received itself. -/
def globalVariance {ι : Type*} (world : List (List (List (ℝ × (ι → ℂ))))) :
    Except PyErr (List (ι → ℂ)) := do
  let means ← globalMean world
  let locals ← (world.zip means).mapM fun dm => pyHead (sumSqPmapd dm.2 dm.1)
  return allreduceSum locals

/-- mpi_wrapper.py:20-24, `_cov_helper` on each device: `conj(data)^T @ (p * data)`. -/
def covHelper {ι : Type*} (data : List (List (ℝ × (ι → ℂ)))) : List (List (ι → ι → ℂ)) :=
  data.map fun dev =>
    [(dev.map fun s => fun i j => (starRingEnd ℂ) (s.2 i) * ((s.1 : ℂ) * s.2 j)).sum]

/-- mpi_wrapper.py:220-243, `global_covariance`. -/
def globalCovariance {ι : Type*} (world : List (List (List (ℝ × (ι → ℂ))))) :
    Except PyErr (List (ι → ι → ℂ)) :=
  globalSum (world.map covHelper)

/-- mpi_wrapper.py:278-292, `gather`: per rank flatten the device and batch axes, `allgather`,
concatenate in rank order; the same array on every rank. -/
def gather {A : Type*} (world : List (List (List A))) : List (List A) :=
  world.map fun _ => (world.map List.flatten).flatten

/-! ## Communication time -/

/-- The module global `communicationTime` (mpi_wrapper.py:17). -/
abbrev CommTime := ℝ

/-- Operations touching `communicationTime`: a timed reduction of measured duration `dt`
(mpi_wrapper.py:144, 215) or a call of `get_communication_time` (295-299). -/
inductive CommOp where
  | reduce (dt : ℝ)
  | query

/-- One operation on `communicationTime`; the second component is the value returned to the
caller by `get_communication_time` (mpi_wrapper.py:295-299), if the operation is a query. -/
def commStep (t : CommTime) : CommOp → CommTime × Option ℝ
  | .reduce dt => (t + dt, none)
  | .query => (0, some t)

/-- A history of operations, collecting the reported values in order.
(mpi_wrapper.py:144, 215, 295-299) -/
def commRun (t : CommTime) : List CommOp → CommTime × List ℝ
  | [] => (t, [])
  | op :: ops =>
    let (t', r) := commStep t op
    let (t'', rs) := commRun t' ops
    (t'', r.toList ++ rs)

/-! ## Broadcast of an array of unknown size -/

/-- A rank's progress inside `bcast_unknown_size` (mpi_wrapper.py:246-275). -/
inductive BcastPc where
  /-- before the dtype check (line 259) -/
  | start
  /-- before `comm.bcast` of the length (267 / 270) -/
  | atDim
  /-- before `comm.Bcast` of the buffer (273); `dim` is the local variable -/
  | atBuf (dim : ℕ)
  /-- returned `buf` -/
  | done (buf : List ℝ)
  /-- raised TypeError (261) -/
  | failed
  deriving Inhabited

/-- What the root has put on the wire so far: the length, then the buffer.
(mpi_wrapper.py:265-273) -/
structure Wire where
  dim : Option ℕ := none
  buf : Option (List ℝ) := none

/-- All ranks inside the call. (mpi_wrapper.py:259-275) -/
structure BcastState where
  wire : Wire
  pcs : List BcastPc

/-- The root's data together with its dtype (`isFloat64`). (mpi_wrapper.py:259-261) -/
structure RootData where
  isFloat64 : Bool
  data : List ℝ

/-- One step of rank `r` in `bcast_unknown_size`, `none` if the rank is blocked or finished.
The root's sends do not block; a receiver's `bcast`/`Bcast` blocks until the root's matching
send happened (MPI matches collectives in program order). (mpi_wrapper.py:259-275) -/
def bcastStep (root : ℕ) (d : RootData) (r : ℕ) (s : BcastState) : Option BcastState :=
  match s.pcs[r]? with
  | none => none
  | some .start =>
      if r = root ∧ d.isFloat64 = false then
        some { s with pcs := s.pcs.set r .failed }
      else some { s with pcs := s.pcs.set r .atDim }
  | some .atDim =>
      if r = root then
        some { wire := { s.wire with dim := some d.data.length },
               pcs := s.pcs.set r (.atBuf d.data.length) }
      else
        match s.wire.dim with
        | none => none
        | some n => some { s with pcs := s.pcs.set r (.atBuf n) }
  | some (.atBuf n) =>
      if r = root then
        some { wire := { s.wire with buf := some (d.data.take n) },
               pcs := s.pcs.set r (.done d.data) }
      else
        match s.wire.buf with
        | none => none
        | some b => some { s with pcs := s.pcs.set r (.done (b.take n)) }
  | some (.done _) => none
  | some .failed => none

/-- All `commSize` ranks enter the call. (mpi_wrapper.py:246-275) -/
def bcastInit (commSize : ℕ) : BcastState :=
  { wire := {}, pcs := List.replicate commSize .start }

/-- Run a schedule (a list of rank numbers); a scheduled rank that cannot move is skipped.
(mpi_wrapper.py:246-275) -/
def bcastRun (root : ℕ) (d : RootData) (s : BcastState) : List ℕ → BcastState
  | [] => s
  | r :: rs => bcastRun root d ((bcastStep root d r s).getD s) rs

/-! ## Device bookkeeping (`jVMC/global_defs.py`) -/

/-- The globals of global_defs.py:15-23 and mpi_wrapper.py:27-32. `compiledFor` is the device
list baked into the pmapped kernels. Devices are natural numbers. -/
structure DevState where
  myPmapDevices : List ℕ
  myDevice : ℕ
  mpiPmapDevices : Option (List ℕ)
  compiledFor : Option (List ℕ)

/-- Program start: global_defs.py:15-23 (`myDevice` is one of `jax.devices()`). -/
def devInit (all : List ℕ) (mine : ℕ) : DevState :=
  { myPmapDevices := all, myDevice := mine, mpiPmapDevices := none, compiledFor := none }

/-- global_defs.py:25-28, `pmap_devices_updated`: compares `collections.Counter`s, i.e.
multisets; `Counter(None)` is empty. -/
def pmapDevicesUpdated (s : DevState) (pmapDevices : Option (List ℕ)) : Bool :=
  ! decide (((pmapDevices.getD []) : Multiset ℕ) = (s.myPmapDevices : Multiset ℕ))

/-- global_defs.py:38-46, `set_pmap_devices` (after `list(get_iterable(devices))`). Line 46
assigns a *local* variable `myDevice`; indexing an empty list raises after the globals have
been changed. -/
def setPmapDevices (devices : List ℕ) (s : DevState) : DevState × Except PyErr Unit :=
  let s' := { s with myPmapDevices := devices }
  match devices with
  | [] => (s', .error .indexError)
  | _ :: _ => (s', .ok ())

/-- mpi_wrapper.py:33-50, `jit_my_stuff`. -/
def jitMyStuff (s : DevState) : DevState :=
  if pmapDevicesUpdated s s.mpiPmapDevices then
    { s with compiledFor := some s.myPmapDevices, mpiPmapDevices := some s.myPmapDevices }
  else s

/-- Calls a user makes: change the devices or run a reduction. (global_defs.py:38-54) -/
inductive DevOp where
  | setDevices (devices : List ℕ)
  | reduction

/-- What is observed when an operation is executed: a reduction runs on kernels compiled for
`kernel` and puts its result on device `placedOn` (mpi_wrapper.py:147, 217). -/
structure DevObs where
  kernel : Option (List ℕ)
  placedOn : ℕ
  current : List ℕ

/-- One call. (global_defs.py:38-54) -/
def devStep (s : DevState) : DevOp → DevState × Option DevObs
  | .setDevices ds => ((setPmapDevices ds s).1, none)
  | .reduction =>
      let s' := jitMyStuff s
      (s', some { kernel := s'.compiledFor, placedOn := s'.myDevice, current := s'.myPmapDevices })

/-- A history of calls with its observations. (global_defs.py:38-54) -/
def devRun (s : DevState) : List DevOp → DevState × List DevObs
  | [] => (s, [])
  | op :: ops =>
    let (s', o) := devStep s op
    let (s'', os) := devRun s' ops
    (s'', o.toList ++ os)

end JVMC
