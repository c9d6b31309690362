import Verif.Model.GroundState
import Verif.Model.MeasureAll
import Verif.Model.Calls
import Verif.Model.Script

/-!
# Model of `ground_state_search` with an output manager (`jVMC/util/util.py:160-212`)

As `groundStateSearch`, on rank 0, but what is measured is passed to `outp.write_observables` and ends up in the
file. The dictionary of results is unpacked into keyword arguments (`**obs`).
-/

namespace JVMC

/-- jVMC/util/output_manager.py:36 `def write_observables(self, time, **kwargs)` -/
def writeObservablesSig : PySig := ⟨[("self", false), ("time", false)], [], true⟩

/-- What `measure` returns: for every name, per operator the values of all ranks. (util.py:124-157) -/
abbrev ObsDict := List (String × List (List MeasResult))

/-- One of the arrays of an entry, as rank 0 has it: one number per operator. (util.py:152-155) -/
noncomputable def statArr (f : MeasResult → ℝ) (vals : List (List MeasResult)) : NdArr :=
  vecArr (vals.map fun v => (v.head?.map f).getD 0)

/-- The inner dictionary of an entry. (util.py:151-155) -/
noncomputable def obsEntry (vals : List (List MeasResult)) : List (HName × PyVal) :=
  [(["mean"], some (statArr MeasResult.mean vals)), (["variance"], some (statArr MeasResult.variance vals)),
    (["MC_error"], some (statArr MeasResult.mcError vals))]

/-- util.py:184, 201: `outp.write_observables(n, **obs)` on rank 0; the file after it. The names become keyword
arguments. Simplifications: names have no slashes; the file left by a call that raises is not tracked. -/
noncomputable def outpWrite (om : OmState) (n : ℕ) (obs : ObsDict) : Except PyErr OmState := do
  let b ← bindCall writeObservablesSig [[], []] (obs.map fun e => (e.1, obsEntry e.2))
  match omCall om (.writeObservables n (b.extra.map fun k => ([k.1], k.2))) with
  | (.error e, _) => .error e
  | (.ok _, om') => .ok om'

variable {P W : Type} [AddCommGroup P] [Module ℝ P]

/-- util.py:181-184, 198-201: measure and write if there are an output manager and observables (`record`). -/
noncomputable def gsMeasureFile (api : GsApi P ObsDict W) (record : Bool) (n : ℕ) (w : W) (om : OmState) :
    Except PyErr (W × OmState) :=
  if record then do
    let (obs, w) ← api.measure w
    let om ← outpWrite om n obs
    return (w, om)
  else return (w, om)

/-- The local variables of the loop, as `GsState`, and the output manager. (util.py:175-205) -/
structure GsFileState (W : Type) where
  n : ℕ
  varE : Flt ℝ
  delta : Option ℝ
  shift : ℝ
  w : W
  om : OmState

/-- util.py:190-205: the body of the loop. -/
noncomputable def gsBodyFile (api : GsApi P ObsDict W) (stepSize : ℝ) (record : Bool) (s : GsFileState W) :
    Except PyErr (GsFileState W) := do
  let p ← api.getParams s.w
  let (dp, w) ← api.rhs s.shift p 0 s.w
  let w ← api.setParams (p + stepSize • dp) w
  let n := s.n + 1
  let varE ← api.variance w
  let (w, om) ← gsMeasureFile api record n w s.om
  if api.hasSetter then
    match s.delta with
    | none => .error .unboundLocalError
    | some delta =>
      let delta := 0.95 * delta
      return ⟨n, varE, some delta, delta, w, om⟩
  else return ⟨n, varE, s.delta, s.shift, w, om⟩

/-- util.py:188: the condition of the loop (false for NaN). -/
noncomputable def gsCondFile (numSteps : ℤ) (varianceTol : ℝ) (s : GsFileState W) : Bool :=
  decide ((s.n : ℤ) < numSteps) && (match s.varE with
    | none => false
    | some v => decide (v > varianceTol))

/-- util.py:188-212: the loop; `fuel` passes are enough when `numSteps ≤ n + fuel`. -/
noncomputable def gsLoopFile (api : GsApi P ObsDict W) (numSteps : ℤ) (varianceTol stepSize : ℝ) (record : Bool) :
    ℕ → GsFileState W → Except PyErr (GsFileState W)
  | 0, s => if gsCondFile numSteps varianceTol s then .error .noReturn else .ok s
  | fuel + 1, s =>
    if gsCondFile numSteps varianceTol s then do
      let s ← gsBodyFile api stepSize record s
      gsLoopFile api numSteps varianceTol stepSize record fuel s
    else .ok s

/-- util.py:160-212 `ground_state_search` with the output manager `om`: the state at the end. -/
noncomputable def groundStateSearchFile (api : GsApi P ObsDict W) (numSteps : ℤ) (varianceTol stepSize : ℝ)
    (record : Bool) (shift : ℝ) (w : W) (om : OmState) : Except PyErr (GsFileState W) := do
  let delta := if api.hasShift then some shift else none
  let (w, om) ← gsMeasureFile api record 0 w om
  gsLoopFile api numSteps varianceTol stepSize record numSteps.toNat ⟨0, some 1, delta, shift, w, om⟩

/-- `measure(observables, psi, sampler)` as called by `ground_state_search` with a sampler object `smp` and the
operators in the state `h`; `net` is the wave function of `psi` (util.py:183, 200). Simplification: the compiled kernels
that the operators keep are not carried over to the next call (by C100 they do not influence the results). -/
noncomputable def searchMeasure {S Term Op Arg Pre σ : Type} [DecidableEq Op] (C : OpClass S Term (ObsVal Op Arg) Pre)
    (batch : Op → ℤ) (zeroCfg : S) (smp : SamplerObj S σ) (h : Op → OpState Term) (net : NqsState → Net S)
    (observables : List (String × ObsVal Op Arg)) (psi : NqsState) (st : σ) : Except PyErr (ObsDict × σ) :=
  match measureAll C batch zeroCfg smp h st (net psi) none observables with
  | (.error e, _, _) => .error e
  | (.ok res, _, st') => .ok (res, st')

end JVMC
