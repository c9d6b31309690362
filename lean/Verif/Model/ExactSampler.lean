import Mathlib.Analysis.SpecialFunctions.Log.Basic
import Mathlib.Data.Complex.Basic
import Verif.Model.Mpi

/-!
# Model of `ExactSampler` (`jVMC/sampler.py:377-526`)

Configurations are flattened to lists of local states (`reshape(sampleShape)` is dropped).
-/

namespace JVMC

/-! ## Enumeration of the basis -/

/-- sampler.py:420-421: `[(n + D - 1) // D] * D` with `n - D * first` added to the last entry.
The entries are Python ints and the last one can be negative. `D` is the device count. -/
def numStatesPerDevice (myNumStates deviceCount : ℕ) : List ℤ :=
  let c : ℕ := (myNumStates + deviceCount - 1) / deviceCount
  let l : List ℤ := List.replicate deviceCount (c : ℤ)
  l.set (deviceCount - 1)
    ((c : ℤ) + ((myNumStates : ℤ) - (deviceCount : ℤ) * (c : ℤ)))

/-- sampler.py:424-427: the integer representations handled by each device: a contiguous
range of `D * numStatesPerDevice[0]` integers, reshaped to `(D, -1)`. -/
def intReps (myFirstState myNumStates deviceCount : ℕ) : List (List ℕ) :=
  let c : ℕ := (myNumStates + deviceCount - 1) / deviceCount
  (List.range deviceCount).map fun d => List.range' (myFirstState + d * c) c

/-- sampler.py:436-443, `make_state` of `_get_basis_ldim2`: a loop over the sites setting site `i`
to one if bit `i` of the integer is set (`x[1] >> i & 1`). -/
def makeStateLdim2 (N intRep : ℕ) : List ℕ :=
  (List.range N).foldl
    (fun state i => if (intRep >>> i) &&& 1 ≠ 0 then state.set i 1 else state)
    (List.replicate N 0)

/-- sampler.py:453-458, the `lax.scan` of `_get_basis`: `N` times take the remainder modulo
`lDim`, subtract it and divide. -/
def scanDigits (lDim : ℕ) : ℕ → ℕ → List ℕ
  | 0, _ => []
  | N + 1, c =>
    let locState := c % lDim
    locState :: scanDigits lDim N ((c - locState) / lDim)

/-- sampler.py:451-460, `make_state` of `_get_basis` (digits reversed). -/
def makeStateGeneral (lDim N intRep : ℕ) : List ℕ :=
  (scanDigits lDim N intRep).reverse

/-- sampler.py:429-432: choice between the two enumerations. -/
def makeState (lDim N intRep : ℕ) : List ℕ :=
  if lDim = 2 then makeStateLdim2 N intRep else makeStateGeneral lDim N intRep

/-- sampler.py:471-476, the mask of `_compute_probabilities`: entry `j` of a device is kept iff
`j < numStates`. Returns the entries that are kept (all others get weight zero). -/
def keptEntries {A : Type*} (numStates : ℤ) (entries : List A) : List A :=
  ((List.range entries.length).zip entries).filterMap
    fun ja => if (ja.1 : ℤ) < numStates then some ja.2 else none

/-- sampler.py:413-432 and 466-478 on one rank: the configurations that get non-zero weight.
`myNumStates`, `myFirstState` are the values obtained from `mpi.distribute_sampling` and
`mpi.first_sample_id`. -/
def rankBasis (lDim N deviceCount myNumStates myFirstState : ℕ) : List (List ℕ) :=
  ((numStatesPerDevice myNumStates deviceCount).zip
      ((intReps myFirstState myNumStates deviceCount).map fun dev => dev.map (makeState lDim N))
    ).flatMap fun nd => keptEntries nd.1 nd.2

/-- The configurations that get non-zero weight, over all ranks (sampler.py:413-432). -/
def exactBasis (lDim N deviceCount commSize : ℕ) : Except PyErr (List (List ℕ)) := do
  let ranks ← (List.range commSize).mapM fun r => do
    let (mine, glob) ← distributeSampling commSize r (lDim ^ N) none 1
    return rankBasis lDim N deviceCount mine (firstSampleId commSize r glob)
  return ranks.flatten

/-! ## Probabilities -/

/-- One entry of the (padded) basis: whether the mask keeps it, and `log ψ` on it.
(sampler.py:466-478) -/
abbrev ExactEntry := Bool × ℂ

/-- sampler.py:466-478, `_compute_probabilities` for one entry. -/
noncomputable def exactUnnormalised (logProbFactor lastNorm : ℝ) (e : ExactEntry) : ℝ :=
  if e.1 then Real.exp ((e.2 - (lastNorm : ℂ)).re / logProbFactor) else 0

/-- sampler.py:511-518, `ExactSampler.sample` after the evaluation of the wave function, on the
entries of all ranks and devices (`mpi.global_sum` as in `globalSum`). Returns the new `lastNorm`
and, per rank, device and entry, the probability. -/
noncomputable def exactSample (logProbFactor lastNorm : ℝ) (world : List (List (List ExactEntry))) :
    Except PyErr (ℝ × List (List (List ℝ))) := do
  let p := world.map fun rk => rk.map fun dev => dev.map (exactUnnormalised logProbFactor lastNorm)
  let nrms ← globalSum p
  match nrms with
  | [] => .error .indexError
  | nrm :: _ =>
    return (lastNorm + logProbFactor * Real.log nrm,
      p.map fun rk => rk.map fun dev => dev.map fun x => x / nrm)

/-- A history of `sample` calls: each call sees its own wave function (the parameters may change
arbitrarily in between). `lastNorm` starts at `0.` (sampler.py:411) and persists. -/
noncomputable def exactRun (logProbFactor lastNorm : ℝ) :
    List (List (List (List ExactEntry))) → Except PyErr (ℝ × List (List (List (List ℝ))))
  | [] => .ok (lastNorm, [])
  | w :: ws => do
    let (ln, p) ← exactSample logProbFactor lastNorm w
    let (ln', ps) ← exactRun logProbFactor ln ws
    return (ln', p :: ps)

end JVMC
