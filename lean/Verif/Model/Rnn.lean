import Mathlib.Analysis.SpecialFunctions.Pow.Real
import Mathlib.Analysis.SpecialFunctions.Complex.Log
import Mathlib.Data.List.FinRange
import Verif.Model.SymNet

/-!
# Model of `jVMC/nets/rnn1d_general.py` and `jVMC/nets/rnn2d_general.py`

The cell (stack of cells with the input layer) is any function. Numbers are exact and finite, so that
`nan_to_num` does nothing. Random draws with different keys are independent: a sampling function returns the list of
possible outcomes with their probabilities.
-/

namespace JVMC

/-! ## Distributions -/

/-- Outcomes with their probabilities. (rnn1d_general.py:158-177) -/
abbrev WDist (A : Type) := List (A × ℝ)

/-- No randomness. (rnn1d_general.py:158-177) -/
def WDist.pure {A : Type} (a : A) : WDist A := [(a, 1)]

/-- A draw followed by another one. (rnn1d_general.py:158-177) -/
noncomputable def WDist.bind {A B : Type} (d : WDist A) (f : A → WDist B) : WDist B :=
  d.flatMap fun e => (f e.1).map fun e' => (e'.1, e.2 * e'.2)

/-- `jax.random.categorical(key, logits)` for `n` logits. (rnn1d_general.py:176) -/
noncomputable def categorical (n : ℕ) (logits : ℕ → ℝ) : WDist ℤ :=
  (List.range n).map fun j : ℕ => ((j : ℤ), Real.exp (logits j) / ∑ k ∈ Finset.range n, Real.exp (logits k))

/-! ## Output -/

/-- `jax.nn.one_hot(x, n)`; zero if `x` is not in the range. (rnn1d_general.py:145, 177) -/
noncomputable def oneHot (n : ℕ) (x : ℤ) : ℕ → ℝ := fun j => if j < n ∧ (j : ℤ) = x then 1 else 0

/-- `jax.nn.log_softmax` of `n` real numbers: `a - max(a) - log(sum(exp(a - max(a))))`.
(rnn1d_general.py:142) -/
noncomputable def logSoftmax (n : ℕ) (a : ℕ → ℝ) : ℕ → ℝ := fun j =>
  let m := ((List.range n).map a).max?.getD 0
  a j - m - Real.log (∑ k ∈ Finset.range n, Real.exp (a k - m))

/-- rnn1d_general.py:136-142, rnn2d_general.py:147-153 `log_coeffs_to_log_probs` for real parameters. -/
noncomputable def logCoeffsToLogProbs (inputDim : ℕ) (logProbFactor : ℝ) (realValuedOutput : Bool) (logCoeffs : ℕ → ℝ) :
    ℕ → ℂ := fun j =>
  let phase : ℂ := if realValuedOutput then 0 else
    Complex.I * ((if j = 0 then 0 else logCoeffs (inputDim - 1 + (j - 1)) : ℝ) : ℂ)
  let amp : ℕ → ℝ := fun k => if k = 0 then 0 else logCoeffs (k - 1)
  ((logProbFactor * logSoftmax inputDim amp j : ℝ) : ℂ) + phase

/-- The lexicographic order of complex numbers, which `jnp.max` uses. (rnn1d_general.py:142) -/
noncomputable def lexMax (a b : ℂ) : ℂ :=
  open Classical in if a.re < b.re ∨ (a.re = b.re ∧ a.im < b.im) then b else a

/-- `log_coeffs_to_log_probs` for complex parameters; there is no phase. `jax.nn.log_softmax` is
`a - max(a) - log(sum(exp(a - max(a))))` with complex logarithm. Simplification: the sum is not zero.
(rnn1d_general.py:136-142) -/
noncomputable def logCoeffsToLogProbsCpx (inputDim : ℕ) (logProbFactor : ℝ) (logCoeffs : ℕ → ℂ) : ℕ → ℂ := fun j =>
  let amp : ℕ → ℂ := fun k => if k = 0 then 0 else logCoeffs (k - 1)
  let m := ((List.range (inputDim - 1)).map fun k => amp (k + 1)).foldl lexMax (amp 0)
  logProbFactor * (amp j - m - Complex.log (∑ k ∈ Finset.range inputDim, Complex.exp (amp k - m)))

/-- What the recurrent networks have in common: the logarithmic amplitudes of the `inputDim` local states from
the output of the cell. (rnn1d_general.py:136-142, 154, 175-176) -/
structure RnnHead (O : Type) where
  inputDim : ℕ
  logProbFactor : ℝ
  logProbs : O → ℕ → ℂ

/-- The head with real parameters; `dense` is `self.outputDense`. (rnn1d_general.py:131-142) -/
noncomputable def realHead {O : Type} (inputDim : ℕ) (logProbFactor : ℝ) (realValuedOutput : Bool)
    (dense : O → ℕ → ℝ) : RnnHead O :=
  ⟨inputDim, logProbFactor, fun o => logCoeffsToLogProbs inputDim logProbFactor realValuedOutput (dense o)⟩

/-- The head with complex parameters. (rnn1d_general.py:131-142) -/
noncomputable def cpxHead {O : Type} (inputDim : ℕ) (logProbFactor : ℝ) (dense : O → ℕ → ℂ) : RnnHead O :=
  ⟨inputDim, logProbFactor, fun o => logCoeffsToLogProbsCpx inputDim logProbFactor (dense o)⟩

/-- rnn1d_general.py:155, rnn2d_general.py:180: `jnp.sum(logProb * x, axis=-1)`. -/
noncomputable def RnnHead.select {O : Type} (h : RnnHead O) (o : O) (x : ℕ → ℝ) : ℂ :=
  ∑ j ∈ Finset.range h.inputDim, h.logProbs o j * (x j : ℂ)

/-- rnn1d_general.py:176, rnn2d_general.py:235: `jax.random.categorical(key, jnp.real(logCoeffs) / logProbFactor)`. -/
noncomputable def RnnHead.draw {O : Type} (h : RnnHead O) (o : O) : WDist ℤ :=
  categorical h.inputDim fun j => (h.logProbs o j).re / h.logProbFactor

/-! ## One dimension -/

/-- `RNN1DGeneral`: `cell` is `self.rnnCell(carry, newR)`. (rnn1d_general.py:58-177) -/
structure Rnn1D (H O : Type) where
  head : RnnHead O
  cell : H → (ℕ → ℝ) → H × O
  zeroCarry : H

/-- rnn1d_general.py:149-156 `rnn_cell`, scanned over the configuration; the list of the terms. -/
noncomputable def rnnScan {H O : Type} (net : Rnn1D H O) : H × (ℕ → ℝ) → List (ℕ → ℝ) → List ℂ
  | _, [] => []
  | carry, x :: xs =>
    let r := net.cell carry.1 carry.2
    net.head.select r.2 x :: rnnScan net (r.1, x) xs

/-- rnn1d_general.py:144-147 `__call__`. -/
noncomputable def rnn1d {H O : Type} (net : Rnn1D H O) (x : List ℤ) : ℂ :=
  (rnnScan net (net.zeroCarry, fun _ => 0) (x.map (oneHot net.head.inputDim))).sum

/-- rnn1d_general.py:170-177 `rnn_cell_sample`, scanned over `n` keys. -/
noncomputable def rnnSampleScan {H O : Type} (net : Rnn1D H O) : H × (ℕ → ℝ) → ℕ → WDist (List ℤ)
  | _, 0 => WDist.pure []
  | carry, n + 1 =>
    let r := net.cell carry.1 carry.2
    WDist.bind (net.head.draw r.2) fun j =>
      WDist.bind (rnnSampleScan net (r.1, oneHot net.head.inputDim j) n) fun rest => WDist.pure (j :: rest)

/-- rnn1d_general.py:158-168 `sample`: the distribution of each sample. -/
noncomputable def rnn1dSample {H O : Type} (net : Rnn1D H O) (L : ℕ) : WDist (List ℤ) :=
  rnnSampleScan net (net.zeroCarry, fun _ => 0) L

/-! ## Two dimensions -/

/-- `RNN2DGeneral`: `cell` is `self.rnnCell(carryH, carryV, xH, xV)`; `zeroCarry` gives the initial carry of each
column. (rnn2d_general.py:64-239) -/
structure Rnn2D (H O : Type) where
  head : RnnHead O
  cell : H → H → (ℕ → ℝ) → (ℕ → ℝ) → H × O
  zeroCarry : ℕ → H

/-- rnn2d_general.py:156-157 `reverse_line`; `b` is `direction = 1`. -/
def reverseLine {A : Type} (line : List A) (b : Bool) : List A := if b then line else line.reverse

/-- rnn2d_general.py:160-163: the direction of row `r`. -/
def lineDirection (r : ℕ) : Bool := r % 2 = 0

/-- rnn2d_general.py:183-191 `rnn_cell_H`, scanned over `(carryV, xH, xV)`: new carries and outputs. -/
noncomputable def rnnScanH {H O : Type} (net : Rnn2D H O) : H → List (H × (ℕ → ℝ) × (ℕ → ℝ)) → List (H × O)
  | _, [] => []
  | carry, x :: xs =>
    let r := net.cell carry x.1 x.2.1 x.2.2
    r :: rnnScanH net r.1 xs

/-- rnn2d_general.py:170-181 `rnn_cell_V` for one row `x` (one-hot vectors) with direction `b`: the new carry and the
terms of the row. -/
noncomputable def rnnRow {H O : Type} (net : Rnn2D H O) (carry : List H × List (ℕ → ℝ)) (x : List (ℕ → ℝ)) (b : Bool) :
    (List H × List (ℕ → ℝ)) × List ℂ :=
  let out := rnnScanH net (net.zeroCarry 0) ((reverseLine carry.1 b).zip
    ((((fun _ => 0) :: reverseLine x b).dropLast).zip (reverseLine carry.2 b)))
  let logProb := List.zipWith (fun o y => net.head.select o y) (reverseLine (out.map Prod.snd) b) x
  ((reverseLine (out.map Prod.fst) b, x), logProb)

/-- `rnn_cell_V` scanned over the rows, starting with row number `r`.
(rnn2d_general.py:164-181) -/
noncomputable def rnnScanV {H O : Type} (net : Rnn2D H O) : ℕ → List H × List (ℕ → ℝ) → List (List (ℕ → ℝ)) → List ℂ
  | _, _, [] => []
  | r, carry, x :: xs =>
    let res := rnnRow net carry x (lineDirection r)
    res.2 ++ rnnScanV net (r + 1) res.1 xs

/-- rnn2d_general.py:159-168 `__call__`, for `L × L` configurations. -/
noncomputable def rnn2d {H O : Type} (net : Rnn2D H O) (L : ℕ) (x : List (List ℤ)) : ℂ :=
  (rnnScanV net 0 ((List.range L).map net.zeroCarry, List.replicate L fun _ => 0) (x.map fun row => row.map (oneHot net.head.inputDim))).sum

/-- rnn2d_general.py:228-237 `rnn_cell_H_sample`, scanned over `(carryV, xV)`. -/
noncomputable def rnnSampleH {H O : Type} (net : Rnn2D H O) : H × (ℕ → ℝ) → List (H × (ℕ → ℝ)) → WDist (List (H × ℤ))
  | _, [] => WDist.pure []
  | carry, x :: xs =>
    let r := net.cell carry.1 x.1 carry.2 x.2
    WDist.bind (net.head.draw r.2) fun j =>
      WDist.bind (rnnSampleH net (r.1, oneHot net.head.inputDim j) xs) fun rest => WDist.pure ((r.1, j) :: rest)

/-- rnn2d_general.py:213-226 `rnn_cell_V_sample`: a row. -/
noncomputable def rnnSampleRow {H O : Type} (net : Rnn2D H O) (carry : List H × List (ℕ → ℝ)) (b : Bool) :
    WDist ((List H × List (ℕ → ℝ)) × List ℤ) :=
  WDist.bind (rnnSampleH net (net.zeroCarry 0, fun _ => 0) ((reverseLine carry.1 b).zip (reverseLine carry.2 b))) fun out =>
    let configLine := reverseLine (out.map Prod.snd) b
    WDist.pure ((reverseLine (out.map Prod.fst) b, configLine.map (oneHot net.head.inputDim)), configLine)

/-- `rnn_cell_V_sample` scanned over `n` rows, starting with row number `r`.
(rnn2d_general.py:203-226) -/
noncomputable def rnnSampleV {H O : Type} (net : Rnn2D H O) : ℕ → List H × List (ℕ → ℝ) → ℕ → WDist (List (List ℤ))
  | _, _, 0 => WDist.pure []
  | r, carry, n + 1 =>
    WDist.bind (rnnSampleRow net carry (lineDirection r)) fun res =>
      WDist.bind (rnnSampleV net (r + 1) res.1 n) fun rest => WDist.pure (res.2 :: rest)

/-- rnn2d_general.py:193-211 `sample`: the distribution of each sample. -/
noncomputable def rnn2dSample {H O : Type} (net : Rnn2D H O) (L : ℕ) : WDist (List (List ℤ)) :=
  rnnSampleV net 0 ((List.range L).map net.zeroCarry, List.replicate L fun _ => 0) L

/-! ## Random symmetry operations -/

/-- sampler.py:225-230 `_randomize_samples` for one sample: `random.choice(key, orbit.shape[0])` picks a matrix of the
orbit, which acts on the spins. -/
noncomputable def randomizeSample {n : ℕ} (orbit : List (Matrix (Fin n) (Fin n) ℤ)) (s : Fin n → ℤ) : WDist (Fin n → ℤ) :=
  orbit.map fun o => (fun i => Int.fdiv (o.mulVec (fun j => s j * 2 - 1) i + 1) 2, 1 / (orbit.length : ℝ))

/-- A one-dimensional configuration as the list of its entries, and back.
(rnn1d_general.py:144-147) -/
def listConfig {L : ℕ} (s : Fin L → ℤ) : List ℤ := List.ofFn s

/-- The configuration with the given entries. (rnn1d_general.py:158-168) -/
def configList (L : ℕ) (l : List ℤ) : Fin L → ℤ := fun i => l.getD i 0

/-- A two-dimensional configuration (flattened, row by row) as the list of its rows.
(rnn2d_general.py:159-168) -/
def rowsConfig {L : ℕ} (s : Fin (L * L) → ℤ) : List (List ℤ) :=
  List.ofFn fun i : Fin L => List.ofFn fun j : Fin L => s (finProdFinEquiv (i, j))

/-- The flattened configuration with the given rows. (rnn2d_general.py:193-212) -/
def configRows (L : ℕ) (l : List (List ℤ)) : Fin (L * L) → ℤ := fun k => (l.getD (k.val / L) []).getD (k.val % L) 0

/-- sampler.py:241-247 for a chain: a sample of the network, then a random symmetry operation. -/
noncomputable def genSample1D {H O : Type} (net : Rnn1D H O) (L : ℕ) (orbit : List (Matrix (Fin L) (Fin L) ℤ)) :
    WDist (Fin L → ℤ) :=
  WDist.bind (rnn1dSample net L) fun l => randomizeSample orbit (configList L l)

/-- sampler.py:241-247 for a square lattice. -/
noncomputable def genSample2D {H O : Type} (net : Rnn2D H O) (L : ℕ) (orbit : List (Matrix (Fin (L * L)) (Fin (L * L)) ℤ)) :
    WDist (Fin (L * L) → ℤ) :=
  WDist.bind (rnn2dSample net L) fun l => randomizeSample orbit (configRows L l)

end JVMC
