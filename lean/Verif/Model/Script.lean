import Verif.Model.OutputManager
import Verif.Model.Stepper

/-!
# Model of simulation scripts that write checkpoints, and of resuming them

The loop is the one of `examples/ex2_unitary_time_evolution.py:71-81`, with `write_network_checkpoint` (and any other
recording) at the end of every pass.
-/

namespace JVMC

variable {n : ℕ} {smp : Type}

/-- What a TDVP object uses and changes: `psi`, the sampler, its attributes; an exception that was raised.
(jVMC/util/tdvp.py:219-326) -/
abbrev SimRhs (n : ℕ) (smp : Type) := Except PyErr (NqsState × smp × TdvpAttrs n)

/-- A TDVP object as right-hand side of a stepper, `tdvpEquation(y, t, intStep=k, psi=psi, ...)`
(jVMC/util/tdvp.py:219-326, jVMC/util/stepper.py:38, 87-89). After an exception nothing is evaluated any more, the
stepper does not return. Simplification: an update that is not a number counts as an exception. -/
noncomputable def tdvpRhs (env : TdvpEnv n smp) (cfg : TdvpCfg n) (r : ℕ) : VRhs (Fin (n + 1) → ℝ) (SimRhs n smp) :=
  fun y t k s =>
    match s with
    | .error e => (0, .error e)
    | .ok (psi, sm, at₀) =>
      match (tdvpCall env cfg r (List.ofFn y) t (some k) sm at₀).call psi with
      | (.error e, _) => (0, .error e)
      | (.ok (none, _, _), _) => (0, .error .noReturn)
      | (.ok (some u, at₁, sm'), psi') => (u, .ok (psi', sm', at₁))

/-- A stepper with a fixed time step for a TDVP object: `Heun` or `Euler` (jVMC/util/stepper.py:14-40, 62-92). -/
noncomputable def fixedStep (heun : Bool) (dt : ℝ) (f : VRhs (Fin (n + 1) → ℝ) (SimRhs n smp)) (t : ℝ)
    (y : Fin (n + 1) → ℝ) (s : SimRhs n smp) : ((Fin (n + 1) → ℝ) × ℝ) × SimRhs n smp :=
  if heun then heunStep dt none t f y s else eulerStep dt t f y s

/-- A vector as an array. (jVMC/util/output_manager.py:116-125) -/
def vecArr (v : List ℝ) : NdArr := ⟨[v.length], fun idx => v.getD (idx.headD 0) 0⟩

/-- An array with one axis as a vector. (jVMC/util/output_manager.py:143) -/
def arrVec (a : NdArr) : List ℝ := (List.range (a.shape.headD 0)).map fun i => a.val [i]

/-- The variables of a script: time, `psi`, sampler and attributes of the TDVP object, and the output manager.
(examples/ex2_unitary_time_evolution.py:28-60) -/
structure Sim (n : ℕ) (smp : Type) where
  t : ℝ
  psi : NqsState
  rhs : smp × TdvpAttrs n
  om : OmState

/-- Several calls of an output manager; an exception ends the script. (jVMC/util/output_manager.py:24-180) -/
def omAll : OmState → List OmOp → Except PyErr OmState
  | s, [] => .ok s
  | s, op :: ops =>
    match omCall s op with
    | (.error e, _) => .error e
    | (.ok _, s') => omAll s' ops

/-- One pass of the loop (examples/ex2_unitary_time_evolution.py:75-81, where the first argument of `step` is 0, as the
Hamiltonian does not depend on time): a step, `psi.set_parameters`, the time, then
`outp.write_network_checkpoint(t, psi.get_parameters())` after all other recordings `record t parameters`. -/
noncomputable def simPass
    (step : ℝ → (Fin (n + 1) → ℝ) → SimRhs n smp → ((Fin (n + 1) → ℝ) × ℝ) × SimRhs n smp)
    (record : ℝ → List ℝ → List OmOp) (x : Sim n smp) : Except PyErr (Sim n smp) :=
  match getParameters.call x.psi with
  | (.error e, _) => .error e
  | (.ok none, _) => .error .typeError
  | (.ok (some v), psi) =>
    match step x.t (fun i => v.getD i 0) (.ok (psi, x.rhs)) with
    | (_, .error e) => .error e
    | ((y, d), .ok (psi, rhs)) =>
      match (do setParameters (.vec (List.ofFn y)); getParameters : PsiM _).call psi with
      | (.error e, _) => .error e
      | (.ok none, _) => .error .typeError
      | (.ok (some w), psi) => do
        let om ← omAll x.om (record (x.t + d) w ++ [.writeCheckpoint (x.t + d) (some (vecArr w))])
        return ⟨x.t + d, psi, rhs, om⟩

/-- Several passes. (examples/ex2_unitary_time_evolution.py:71-81) -/
noncomputable def simRun
    (step : ℝ → (Fin (n + 1) → ℝ) → SimRhs n smp → ((Fin (n + 1) → ℝ) × ℝ) × SimRhs n smp)
    (record : ℝ → List ℝ → List OmOp) : ℕ → Sim n smp → Except PyErr (Sim n smp)
  | 0, x => .ok x
  | k + 1, x => do
    let x' ← simPass step record x
    simRun step record k x'

/-- The script is started again with the file that is there: `outp = OutputManager(fn, group, append=True)`,
`t, w = outp.get_network_checkpoint(idx=idx)`, `psi.set_parameters(w)`; `psi` and `rhs` are new objects.
(jVMC/util/output_manager.py:10-34, 127-154, jVMC/vqs.py:409-425) -/
noncomputable def simResume (file : H5File) (group : HName) (idx : ℤ) (psi : NqsState) (rhs : smp × TdvpAttrs n) :
    Except PyErr (Sim n smp) :=
  match omInit (some file) group true with
  | (.error e, _) => .error e
  | (.ok _, om) => do
    let (t, w) ← omGetCheckpoint om.log.now om.obj.currentGroup (-1) idx
    match (setParameters (.vec (arrVec w))).call psi with
    | (.error e, _) => .error e
    | (.ok _, psi) => return ⟨t, psi, rhs, om⟩

end JVMC
