import Mathlib.Data.String.Basic
import Verif.Model.PovmOperator
import Verif.Model.RnnCells
import Verif.Model.Rnn
import Verif.Model.Povm
import Verif.Model.SymNet

/-!
# Model of the preparation of product states for recurrent networks

The procedure of `examples/ex5_dissipative_Lindblad.py:49-59`, `examples/ex6_dissipative_Lindblad_2D.py:53-63` and
`tests/povm_test.py:34-43`: the bias of the output layer is set to the logarithm of the one-particle distribution,
the kernel of the output layer is multiplied by `1e-15`.

Here floating point numbers can be infinite or NaN, since the logarithm of a probability can be. Finite numbers are exact and
never overflow.
-/

namespace JVMC

/-! ## Floating point numbers with infinities and NaN -/

/-- A floating point number: exact if finite. There is only one zero, which is positive.
(ex5_dissipative_Lindblad.py:51-52, rnn1d_general.py:136-156) -/
inductive Dbl where
  | fin (r : ℝ)
  | inf
  | ninf
  | nan

/-- `a + b`. (rnn1d_general.py:155) -/
noncomputable def Dbl.add : Dbl → Dbl → Dbl
  | .nan, _ => .nan
  | _, .nan => .nan
  | .inf, .ninf => .nan
  | .ninf, .inf => .nan
  | .inf, _ => .inf
  | _, .inf => .inf
  | .ninf, _ => .ninf
  | _, .ninf => .ninf
  | .fin a, .fin b => .fin (a + b)

/-- `-a`. (rnn1d_general.py:142) -/
noncomputable def Dbl.neg : Dbl → Dbl
  | .nan => .nan
  | .inf => .ninf
  | .ninf => .inf
  | .fin a => .fin (-a)

/-- `a - b`. (rnn1d_general.py:142) -/
noncomputable def Dbl.sub (a b : Dbl) : Dbl := a.add b.neg

/-- An infinity times a finite number: NaN for zero. (rnn1d_general.py:155) -/
noncomputable def Dbl.infTimes (r : ℝ) : Dbl :=
  open Classical in if r = 0 then .nan else if 0 < r then .inf else .ninf

/-- `a * b`. (rnn1d_general.py:142, 155) -/
noncomputable def Dbl.mul : Dbl → Dbl → Dbl
  | .nan, _ => .nan
  | _, .nan => .nan
  | .inf, .inf => .inf
  | .inf, .ninf => .ninf
  | .ninf, .inf => .ninf
  | .ninf, .ninf => .inf
  | .inf, .fin r => Dbl.infTimes r
  | .fin r, .inf => Dbl.infTimes r
  | .ninf, .fin r => (Dbl.infTimes r).neg
  | .fin r, .ninf => (Dbl.infTimes r).neg
  | .fin a, .fin b => .fin (a * b)

/-- `a / b` for finite numbers. (ex5_dissipative_Lindblad.py:51) -/
noncomputable def Dbl.quotient (a b : ℝ) : Dbl :=
  open Classical in if b = 0 then Dbl.infTimes a else .fin (a / b)

/-- `jnp.exp`. (rnn1d_general.py:142) -/
noncomputable def Dbl.exp : Dbl → Dbl
  | .nan => .nan
  | .inf => .inf
  | .ninf => .fin 0
  | .fin a => .fin (Real.exp a)

/-- `jnp.log`. (ex5_dissipative_Lindblad.py:52, rnn1d_general.py:142) -/
noncomputable def Dbl.log : Dbl → Dbl
  | .nan => .nan
  | .inf => .inf
  | .ninf => .nan
  | .fin a => open Classical in if a = 0 then .ninf else if 0 < a then .fin (Real.log a) else .nan

/-- The larger number; NaN if one of them is. (rnn1d_general.py:142) -/
noncomputable def Dbl.max : Dbl → Dbl → Dbl
  | .nan, _ => .nan
  | _, .nan => .nan
  | .inf, _ => .inf
  | _, .inf => .inf
  | .ninf, b => b
  | a, .ninf => a
  | .fin a, .fin b => .fin (Max.max a b)

/-- `jnp.sum`. (rnn1d_general.py:155) -/
noncomputable def Dbl.sum (l : List Dbl) : Dbl := l.foldl Dbl.add (.fin 0)

/-- The largest finite double. (rnn1d_general.py:156) -/
noncomputable def dblMax : ℝ := 2 ^ 1024 - 2 ^ 971

/-- `jnp.nan_to_num(a, nan=-35)`. (rnn1d_general.py:156, rnn2d_general.py:181) -/
noncomputable def nanToNum : Dbl → ℝ
  | .nan => -35
  | .inf => dblMax
  | .ninf => -dblMax
  | .fin a => a

/-! ## The network -/

/-- `jax.nn.log_softmax` of `n` numbers: `a - max(a) - log(sum(exp(a - max(a))))`. (rnn1d_general.py:142) -/
noncomputable def logSoftmaxD (n : ℕ) (a : ℕ → Dbl) : ℕ → Dbl := fun j =>
  let m := ((List.range n).map a).foldl Dbl.max .ninf
  ((a j).sub m).sub (Dbl.sum ((List.range n).map fun k => ((a k).sub m).exp)).log

/-- rnn1d_general.py:136-142 `log_coeffs_to_log_probs` for real parameters and real output. -/
noncomputable def logProbsD (inputDim : ℕ) (logProbFactor : ℝ) (logCoeffs : ℕ → Dbl) : ℕ → Dbl := fun j =>
  (Dbl.fin logProbFactor).mul (logSoftmaxD inputDim (fun k => if k = 0 then .fin 0 else logCoeffs (k - 1)) j)

/-- rnn1d_general.py:155-156, rnn2d_general.py:180-181: `nan_to_num(sum(logProb * x), nan=-35)` at one site. -/
noncomputable def siteTermD (inputDim : ℕ) (logProbFactor : ℝ) (logCoeffs : ℕ → Dbl) (x : ℕ → ℝ) : ℝ :=
  nanToNum (Dbl.sum ((List.range inputDim).map fun j => (logProbsD inputDim logProbFactor logCoeffs j).mul (.fin (x j))))

/-- `self.outputDense(out)`; the kernel is an array of shape `(H, F)` with the entries in row-major order.
(rnn1d_general.py:133, 154, rnn2d_general.py:140, 188) -/
noncomputable def denseD {H : ℕ} (F : ℕ) (kernel bias : List Dbl) (o : Fin H → ℝ) : ℕ → Dbl := fun j =>
  (Dbl.sum (List.ofFn fun i : Fin H => (Dbl.fin (o i)).mul (kernel.getD (i * F + j) .nan))).add (bias.getD j .nan)

/-- The outputs of the cells along a chain. (rnn1d_general.py:149-153) -/
noncomputable def cellOutputs {C O : Type} (cell : C → (ℕ → ℝ) → C × O) : C × (ℕ → ℝ) → List (ℕ → ℝ) → List O
  | _, [] => []
  | carry, x :: xs =>
    let r := cell carry.1 carry.2
    r.2 :: cellOutputs cell (r.1, x) xs

/-- rnn1d_general.py:144-156 `__call__` for real parameters and real output, with the given values of `outputDense`. -/
noncomputable def rnn1dD {C O : Type} (inputDim : ℕ) (logProbFactor : ℝ) (dense : O → ℕ → Dbl)
    (cell : C → (ℕ → ℝ) → C × O) (zeroCarry : C) (x : List ℤ) : ℝ :=
  let hot := x.map (oneHot inputDim)
  (List.zipWith (fun o y => siteTermD inputDim logProbFactor (dense o) y)
    (cellOutputs cell (zeroCarry, fun _ => 0) hot) hot).sum

/-- The outputs of the cells in the scan along a row. (rnn2d_general.py:183-191) -/
noncomputable def cellScanH {C O : Type} (cell : C → C → (ℕ → ℝ) → (ℕ → ℝ) → C × O) :
    C → List (C × (ℕ → ℝ) × (ℕ → ℝ)) → List (C × O)
  | _, [] => []
  | carry, x :: xs =>
    let r := cell carry x.1 x.2.1 x.2.2
    r :: cellScanH cell r.1 xs

/-- The outputs of the cells row by row, starting with row number `r`; within a row from left to right.
(rnn2d_general.py:170-191) -/
noncomputable def cellRows {C O : Type} (cell : C → C → (ℕ → ℝ) → (ℕ → ℝ) → C × O) (zeroCarry : ℕ → C) :
    ℕ → List C × List (ℕ → ℝ) → List (List (ℕ → ℝ)) → List (List O)
  | _, _, [] => []
  | r, carry, x :: xs =>
    let b := lineDirection r
    let out := cellScanH cell (zeroCarry 0) ((reverseLine carry.1 b).zip
      ((((fun _ => 0) :: reverseLine x b).dropLast).zip (reverseLine carry.2 b)))
    reverseLine (out.map Prod.snd) b :: cellRows cell zeroCarry (r + 1) (reverseLine (out.map Prod.fst) b, x) xs

/-- rnn2d_general.py:159-191 `__call__` for real parameters and real output, with the given values of `outputDense`. -/
noncomputable def rnn2dD {C O : Type} (inputDim : ℕ) (logProbFactor : ℝ) (dense : O → ℕ → Dbl)
    (cell : C → C → (ℕ → ℝ) → (ℕ → ℝ) → C × O) (zeroCarry : ℕ → C) (L : ℕ) (x : List (List ℤ)) : ℝ :=
  let hot := x.map fun row => row.map (oneHot inputDim)
  let outs := cellRows cell zeroCarry 0 ((List.range L).map zeroCarry, List.replicate L fun _ => 0) hot
  (List.zipWith (fun o y => siteTermD inputDim logProbFactor (dense o) y) outs.flatten hot.flatten).sum

/-! ## Parameters as nested dictionaries -/

/-- Nested dictionaries of arrays, as flax returns them; an array is given by its entries in row-major order.
(vqs.py:191, 214-215) -/
inductive ParamTree (F : Type) where
  | arr (v : List F)
  | dict (e : List (String × ParamTree F))

mutual

/-- The order in which `jax.tree_util` visits a nested dictionary: keys are sorted. `tree_unflatten` returns dictionaries
with sorted keys. (vqs.py:215, 444) -/
def ParamTree.sorted {F : Type} : ParamTree F → ParamTree F
  | .arr v => .arr v
  | .dict e => .dict ((ParamTree.sortedAll e).mergeSort fun a b => decide (a.1 ≤ b.1))

/-- All values of a dictionary sorted. (vqs.py:215, 444) -/
def ParamTree.sortedAll {F : Type} : List (String × ParamTree F) → List (String × ParamTree F)
  | [] => []
  | (k, t) :: e => (k, ParamTree.sorted t) :: ParamTree.sortedAll e

end

mutual

/-- The arrays of a dictionary in the order of its entries, concatenated.
(vqs.py:460-470, ex5_dissipative_Lindblad.py:57-58) -/
def ParamTree.entries {F : Type} : ParamTree F → List F
  | .arr v => v
  | .dict e => ParamTree.entriesAll e

/-- The same for the entries of a dictionary. (ex5_dissipative_Lindblad.py:57-58) -/
def ParamTree.entriesAll {F : Type} : List (String × ParamTree F) → List F
  | [] => []
  | (_, t) :: e => ParamTree.entries t ++ ParamTree.entriesAll e

end

/-- `jnp.concatenate([p.ravel() for p in tree_flatten(t)[0]])`: `get_parameters` for real parameters, and the last
step of the preparation. (vqs.py:449-471, ex5_dissipative_Lindblad.py:57-58) -/
def treeVector {F : Type} (t : ParamTree F) : List F := t.sorted.entries

mutual

/-- `tree_unflatten` with the arrays `P[start:start + size].reshape(shape)`; a slice that is too short cannot be
reshaped. Returns the tree and the rest of `P`. (vqs.py:430-444) -/
def ParamTree.fill {F : Type} : ParamTree F → List F → Except PyErr (ParamTree F × List F)
  | .arr v, P => if P.length < v.length then .error .typeError else .ok (.arr (P.take v.length), P.drop v.length)
  | .dict e, P => do
    let r ← ParamTree.fillAll e P
    return (.dict r.1, r.2)

/-- The same for the entries of a dictionary. (vqs.py:430-444) -/
def ParamTree.fillAll {F : Type} : List (String × ParamTree F) → List F →
    Except PyErr (List (String × ParamTree F) × List F)
  | [], P => .ok ([], P)
  | (k, t) :: e, P => do
    let r ← ParamTree.fill t P
    let r' ← ParamTree.fillAll e r.2
    return ((k, r.1) :: r'.1, r'.2)

end

/-- vqs.py:430-444 `_param_unflatten` for real parameters; `params` are the current parameters, which determine
`paramShapes` and `netTreeDef`. Entries beyond the end are ignored. -/
def treeUnflatten {F : Type} (params : ParamTree F) (P : List F) : Except PyErr (ParamTree F) := do
  let r ← params.sorted.fill P
  return r.1

mutual

/-- ex5_dissipative_Lindblad.py:9-16 `copy_dict`. -/
def copyDict {F : Type} : ParamTree F → ParamTree F
  | .arr v => .arr v
  | .dict a => .dict (copyDictLoop [] a)

/-- The loop of `copy_dict`: `b[key] = ...` for every item. (ex5_dissipative_Lindblad.py:10-16) -/
def copyDictLoop {F : Type} (b : List (String × ParamTree F)) : List (String × ParamTree F) →
    List (String × ParamTree F)
  | [] => b
  | (k, t) :: a => copyDictLoop (PyDict.insert b k (copyDict t)) a

end

/-- `d[k]` for a dictionary; arrays cannot be indexed with a string. (ex5_dissipative_Lindblad.py:55-56) -/
def getItem {F : Type} (k : String) : ParamTree F → Except PyErr (ParamTree F)
  | .arr _ => .error .typeError
  | .dict e => match PyDict.get? e k with
    | none => .error .keyError
    | some t => .ok t

/-- `d[k] = v`. (ex5_dissipative_Lindblad.py:55-56) -/
def setItem {F : Type} (k : String) (v : ParamTree F) : ParamTree F → Except PyErr (ParamTree F)
  | .arr _ => .error .typeError
  | .dict e => .ok (.dict (PyDict.insert e k v))

/-- `params[k1][k2]...` changed in place by `f`. (ex5_dissipative_Lindblad.py:55-56) -/
def changeAt {F : Type} (f : ParamTree F → Except PyErr (ParamTree F)) : List String → ParamTree F →
    Except PyErr (ParamTree F)
  | [], t => f t
  | k :: ks, t => do
    let c ← getItem k t
    let c' ← changeAt f ks c
    setItem k c' t

/-- `c * a` for an array. (ex5_dissipative_Lindblad.py:56) -/
noncomputable def scaleArr (c : ℝ) : ParamTree Dbl → Except PyErr (ParamTree Dbl)
  | .arr v => .ok (.arr (v.map fun x => (Dbl.fin c).mul x))
  | .dict _ => .error .typeError

/-- `prob_dist /= prob_dist[0]; biases = jnp.log(prob_dist[1:])`. (ex5_dissipative_Lindblad.py:51-52) -/
noncomputable def productBiases (p : Fin 4 → ℝ) : List Dbl :=
  List.ofFn fun a : Fin 3 => (Dbl.quotient (p a.succ) (p 0)).log

/-- ex5_dissipative_Lindblad.py:53-59 (path `["outputDense"]`) and tests/povm_test.py:37-43 (path
`["net", "outputDense"]`): the new parameters of the network. -/
noncomputable def prepareParams (path : List String) (biases : List Dbl) (params : ParamTree Dbl) :
    Except PyErr (ParamTree Dbl) := do
  let t ← treeUnflatten params (treeVector params)
  let t := copyDict t
  let t ← changeAt (setItem "bias" (.arr biases)) path t
  let t ← changeAt (fun d => do
    let k ← getItem "kernel" d
    let k' ← scaleArr 1e-15 k
    setItem "kernel" k' d) path t
  treeUnflatten params (treeVector t)

/-- The array at a path; `none` if there is none. (vqs.py:191) -/
def ParamTree.at {F : Type} : List String → ParamTree F → Option (List F)
  | [], .arr v => some v
  | [], .dict _ => none
  | _ :: _, .arr _ => none
  | k :: ks, .dict e => (PyDict.get? e k).bind fun t => ParamTree.at ks t

/-- The parameters of the cells: everything but the output layer, below the key `net` of the wrapper `SymNet`.
(rnn1d_general.py:113-134, sym_wrapper.py:38, util.py:84) -/
def cellParams (params : ParamTree Dbl) : List String → Option (List Dbl)
  | [] => none
  | k :: ks => if k = "outputDense" then none else params.at ("net" :: k :: ks)

/-- The output layer of the network with the given parameters. (rnn1d_general.py:133, sym_wrapper.py:38) -/
noncomputable def denseOf {H : ℕ} (F : ℕ) (params : ParamTree Dbl) : (Fin H → ℝ) → ℕ → Dbl :=
  denseD F ((params.at ["net", "outputDense", "kernel"]).getD []) ((params.at ["net", "outputDense", "bias"]).getD [])

/-- `psi(s)` for a network on a chain from `init_net`, for outcomes of measurements (`inputDim=4`) and real parameters and
output. `cells` is what the cells compute as a function of their parameters. The orbit is that of the wrapper `SymNet`.
(util.py:57-84, sym_wrapper.py:50-61, rnn1d_general.py:144-156) -/
noncomputable def povmRnn1D {C : Type} {H L : ℕ} (logProbFactor : ℝ)
    (cells : (List String → Option (List Dbl)) → C → (ℕ → ℝ) → C × (Fin H → ℝ)) (zeroCarry : C) (sym : LatticeSymmetry L)
    (params : ParamTree Dbl) (s : Fin L → Fin 4) : ℂ :=
  symNet avgSep (fun x => ((rnn1dD 4 logProbFactor (denseOf 3 params) (cells (cellParams params)) zeroCarry
    (listConfig x) : ℝ) : ℂ)) sym.orbit sym.factor fun i => (s i : ℤ)

/-- The same for a square lattice; configurations are given flattened.
(util.py:57-84, sym_wrapper.py:50-61, rnn2d_general.py:159-191) -/
noncomputable def povmRnn2D {C : Type} {H L : ℕ} (logProbFactor : ℝ)
    (cells : (List String → Option (List Dbl)) → C → C → (ℕ → ℝ) → (ℕ → ℝ) → C × (Fin H → ℝ)) (zeroCarry : ℕ → C)
    (sym : LatticeSymmetry (L * L)) (params : ParamTree Dbl) (s : Fin (L * L) → Fin 4) : ℂ :=
  symNet avgSep (fun x => ((rnn2dD 4 logProbFactor (denseOf 3 params) (cells (cellParams params)) zeroCarry L
    (rowsConfig x) : ℝ) : ℂ)) sym.orbit sym.factor fun i => (s i : ℤ)

end JVMC
