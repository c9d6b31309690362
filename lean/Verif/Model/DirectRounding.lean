import Verif.Model.Rnn
import Verif.Model.Rounding

/-!
# Model of direct sampling with rounding errors

`log_coeffs_to_log_probs`, `__call__` and `sample` of `jVMC/nets/rnn1d_general.py` and `jVMC/nets/rnn2d_general.py` in floating
point arithmetic, for real parameters. The recurrent cell and the output layer of the computed network are any functions (those
of the machine). Simplification: no overflow and no underflow, so that `nan_to_num` does nothing (see C120 for these).
Products with the entries 0 and 1 of one-hot vectors, and sums with zero, are exact.
-/

namespace JVMC

/-- The arithmetic of a machine: rounding, exponential function, logarithm, sums in some order, and
`jax.random.categorical`. (global_defs.py:3-6, rnn1d_general.py:142, 176) -/
structure Machine where
  r : Rounding
  exp : ℝ → ℝ
  log : ℝ → ℝ
  sum : List ℝ → ℝ
  sum_ok : ∀ l, Sums r l (sum l)
  draw : ℕ → (ℕ → ℝ) → WDist ℤ

/-- `jax.nn.log_softmax` of `n` real numbers: `shifted = a - max(a)`, then `shifted - log(sum(exp(shifted)))`.
(rnn1d_general.py:142) -/
noncomputable def logSoftmaxM (M : Machine) (n : ℕ) (a : ℕ → ℝ) : ℕ → ℝ := fun j =>
  let m := ((List.range n).map a).max?.getD 0
  let shifted : ℕ → ℝ := fun k => M.r.rnd (a k - m)
  M.r.rnd (shifted j - M.log (M.sum ((List.range n).map fun k => M.exp (shifted k))))

/-- `log_coeffs_to_log_probs` for real parameters. (rnn1d_general.py:136-142, rnn2d_general.py:147-153) -/
noncomputable def logCoeffsToLogProbsM (M : Machine) (inputDim : ℕ) (logProbFactor : ℝ) (realValuedOutput : Bool)
    (logCoeffs : ℕ → ℝ) : ℕ → ℂ := fun j =>
  let phase : ℝ := if realValuedOutput then 0 else if j = 0 then 0 else logCoeffs (inputDim - 1 + (j - 1))
  let amp : ℕ → ℝ := fun k => if k = 0 then 0 else logCoeffs (k - 1)
  ⟨M.r.rnd (logProbFactor * logSoftmaxM M inputDim amp j), phase⟩

/-- The head of the computed network. (rnn1d_general.py:131-142) -/
noncomputable def machineHead {O : Type} (M : Machine) (inputDim : ℕ) (logProbFactor : ℝ) (realValuedOutput : Bool)
    (dense : O → ℕ → ℝ) : RnnHead O :=
  ⟨inputDim, logProbFactor, fun o => logCoeffsToLogProbsM M inputDim logProbFactor realValuedOutput (dense o)⟩

/-- `jax.random.categorical(key, jnp.real(logCoeffs) / logProbFactor)`. (rnn1d_general.py:176, rnn2d_general.py:235) -/
noncomputable def RnnHead.drawM {O : Type} (M : Machine) (h : RnnHead O) (o : O) : WDist ℤ :=
  M.draw h.inputDim fun j => M.r.rnd ((h.logProbs o j).re / h.logProbFactor)

/-- `jnp.sum(probs)` of complex numbers. (rnn1d_general.py:147, rnn2d_general.py:168) -/
noncomputable def Machine.csum (M : Machine) (l : List ℂ) : ℂ := ⟨M.sum (l.map Complex.re), M.sum (l.map Complex.im)⟩

/-! ## One dimension -/

/-- The outputs of the cell met by `rnn_cell` when a configuration is evaluated. (rnn1d_general.py:149-153) -/
noncomputable def rnnOuts {H O : Type} (cell : H → (ℕ → ℝ) → H × O) (inputDim : ℕ) : H × (ℕ → ℝ) → List ℤ → List O
  | _, [] => []
  | carry, x :: xs => (cell carry.1 carry.2).2 :: rnnOuts cell inputDim ((cell carry.1 carry.2).1, oneHot inputDim x) xs

/-- `__call__`. (rnn1d_general.py:144-147) -/
noncomputable def rnn1dM {H O : Type} (M : Machine) (net : Rnn1D H O) (x : List ℤ) : ℂ :=
  M.csum (rnnScan net (net.zeroCarry, fun _ => 0) (x.map (oneHot net.head.inputDim)))

/-- `rnn_cell_sample`, scanned over `n` keys. (rnn1d_general.py:170-177) -/
noncomputable def rnnSampleScanM {H O : Type} (M : Machine) (net : Rnn1D H O) : H × (ℕ → ℝ) → ℕ → WDist (List ℤ)
  | _, 0 => WDist.pure []
  | carry, n + 1 =>
    let r := net.cell carry.1 carry.2
    WDist.bind (net.head.drawM M r.2) fun j =>
      WDist.bind (rnnSampleScanM M net (r.1, oneHot net.head.inputDim j) n) fun rest => WDist.pure (j :: rest)

/-- `sample`: the distribution of each sample. (rnn1d_general.py:158-168) -/
noncomputable def rnn1dSampleM {H O : Type} (M : Machine) (net : Rnn1D H O) (L : ℕ) : WDist (List ℤ) :=
  rnnSampleScanM M net (net.zeroCarry, fun _ => 0) L

/-! ## Two dimensions -/

/-- The outputs of the cell met by `rnn_cell_V` when a configuration is evaluated, starting with row number `r`.
(rnn2d_general.py:164-191) -/
noncomputable def rnnOutsV {H O : Type} (net : Rnn2D H O) : ℕ → List H × List (ℕ → ℝ) → List (List ℤ) → List O
  | _, _, [] => []
  | r, carry, x :: xs =>
    let b := lineDirection r
    let y := x.map (oneHot net.head.inputDim)
    let out := rnnScanH net (net.zeroCarry 0) ((reverseLine carry.1 b).zip
      ((((fun _ => 0) :: reverseLine y b).dropLast).zip (reverseLine carry.2 b)))
    reverseLine (out.map Prod.snd) b ++ rnnOutsV net (r + 1) (reverseLine (out.map Prod.fst) b, y) xs

/-- `__call__`, for `L × L` configurations. (rnn2d_general.py:159-168) -/
noncomputable def rnn2dM {H O : Type} (M : Machine) (net : Rnn2D H O) (L : ℕ) (x : List (List ℤ)) : ℂ :=
  M.csum (rnnScanV net 0 ((List.range L).map net.zeroCarry, List.replicate L fun _ => 0)
    (x.map fun row => row.map (oneHot net.head.inputDim)))

/-- `rnn_cell_H_sample`, scanned over `(carryV, xV)`. (rnn2d_general.py:228-237) -/
noncomputable def rnnSampleHM {H O : Type} (M : Machine) (net : Rnn2D H O) :
    H × (ℕ → ℝ) → List (H × (ℕ → ℝ)) → WDist (List (H × ℤ))
  | _, [] => WDist.pure []
  | carry, x :: xs =>
    let r := net.cell carry.1 x.1 carry.2 x.2
    WDist.bind (net.head.drawM M r.2) fun j =>
      WDist.bind (rnnSampleHM M net (r.1, oneHot net.head.inputDim j) xs) fun rest => WDist.pure ((r.1, j) :: rest)

/-- `rnn_cell_V_sample`: a row. (rnn2d_general.py:213-226) -/
noncomputable def rnnSampleRowM {H O : Type} (M : Machine) (net : Rnn2D H O) (carry : List H × List (ℕ → ℝ)) (b : Bool) :
    WDist ((List H × List (ℕ → ℝ)) × List ℤ) :=
  WDist.bind (rnnSampleHM M net (net.zeroCarry 0, fun _ => 0) ((reverseLine carry.1 b).zip (reverseLine carry.2 b))) fun out =>
    let configLine := reverseLine (out.map Prod.snd) b
    WDist.pure ((reverseLine (out.map Prod.fst) b, configLine.map (oneHot net.head.inputDim)), configLine)

/-- `rnn_cell_V_sample` scanned over `n` rows, starting with row number `r`. (rnn2d_general.py:203-226) -/
noncomputable def rnnSampleVM {H O : Type} (M : Machine) (net : Rnn2D H O) :
    ℕ → List H × List (ℕ → ℝ) → ℕ → WDist (List (List ℤ))
  | _, _, 0 => WDist.pure []
  | r, carry, n + 1 =>
    WDist.bind (rnnSampleRowM M net carry (lineDirection r)) fun res =>
      WDist.bind (rnnSampleVM M net (r + 1) res.1 n) fun rest => WDist.pure (res.2 :: rest)

/-- `sample`: the distribution of each sample. (rnn2d_general.py:193-211) -/
noncomputable def rnn2dSampleM {H O : Type} (M : Machine) (net : Rnn2D H O) (L : ℕ) : WDist (List (List ℤ)) :=
  rnnSampleVM M net 0 ((List.range L).map net.zeroCarry, List.replicate L fun _ => 0) L

/-- `_randomize_samples` after a sample on a chain: the index of the symmetry operation is drawn as in exact arithmetic.
(sampler.py:241-247) -/
noncomputable def genSample1DM {H O : Type} (M : Machine) (net : Rnn1D H O) (L : ℕ)
    (orbit : List (Matrix (Fin L) (Fin L) ℤ)) : WDist (Fin L → ℤ) :=
  WDist.bind (rnn1dSampleM M net L) fun l => randomizeSample orbit (configList L l)

/-- The same on a square lattice. (sampler.py:241-247) -/
noncomputable def genSample2DM {H O : Type} (M : Machine) (net : Rnn2D H O) (L : ℕ)
    (orbit : List (Matrix (Fin (L * L)) (Fin (L * L)) ℤ)) : WDist (Fin (L * L) → ℤ) :=
  WDist.bind (rnn2dSampleM M net L) fun l => randomizeSample orbit (configRows L l)

end JVMC
