import Mathlib.Analysis.SpecialFunctions.Complex.Log
import Mathlib.Data.List.Sort
import Verif.Model.Py

/-!
# Model of `jVMC/operator/base.py`

One device; the `pmap`s act on each device separately. `S` is the type of configurations; a *kernel*
is the function `compile()` returns, with its arguments already preprocessed.
-/

namespace JVMC

/-- base.py:96: `jnp.abs(x) > 1e-6`. -/
noncomputable def isNonzero (x : ℂ) : Bool := by
  classical exact decide ((1e-6 : ℝ) < ‖x‖)

/-- base.py:95-101: the scan of `_find_nonzero` with carry `(count, position)`; the second entry of
`x` is always `m.shape[0] - 1`. -/
noncomputable def findNonzeroScan (last : ℕ) : ℕ × ℕ → List ℂ → List ℕ × (ℕ × ℕ)
  | c, [] => ([], c)
  | c, x :: xs =>
    let b := isNonzero x
    let out := if b then c.2 else last
    let c' := if b then (c.1 + 1, c.2 + 1) else (c.1, c.2 + 1)
    let r := findNonzeroScan last c' xs
    (out :: r.1, r.2)

/-- base.py:91-103 `_find_nonzero`. -/
noncomputable def findNonzero (m : List ℂ) : List ℕ × ℕ :=
  let r := findNonzeroScan (m.length - 1) (0, 0) m
  (r.1.insertionSort (· ≤ ·), r.2.1)

/-- `data[idx]` for an index array. All indices that occur are in range. (base.py:112, 158) -/
def gatherIdx {A : Type} (data : List A) (idx : List ℕ) : List A := idx.filterMap fun k => data[k]?

/-- base.py:107-112: the scan of `set_zero_to_zero`; the carry is `(numNonzero, position)`. -/
noncomputable def setZeroScan (numNonzero : ℕ) : ℕ → List ℂ → List ℂ
  | _, [] => []
  | k, x :: xs => (if k < numNonzero then x else 0 * x) :: setZeroScan numNonzero (k + 1) xs

/-- base.py:105-114 `set_zero_to_zero`. -/
noncomputable def setZeroToZero (m : List ℂ) (idx : List ℕ) (numNonzero : ℕ) : List ℂ :=
  setZeroScan numNonzero 0 (gatherIdx m idx)

/-- base.py:153-160: the matrix elements of a batch of samples, reduced to as many entries as the
sample with most non-zero elements has. `jnp.max` of an empty batch is not modelled (`0` here). -/
noncomputable def getSPrimes {S : Type} (kernel : S → List (S × ℂ)) (samples : List S) :
    List (List (S × ℂ)) :=
  let rows := samples.map kernel
  let nz := rows.map fun r => findNonzero (r.map Prod.snd)
  let most := (nz.map Prod.snd).foldl max 0
  List.zipWith (fun r z =>
    let idx := z.1.take most
    (gatherIdx (r.map Prod.fst) idx).zip (setZeroToZero (r.map Prod.snd) idx z.2)) rows nz

/-- A network as the operator sees it: what `psi(s)` returns, and `psi.logarithmic`.
(base.py:166-192) -/
structure Net (S : Type) where
  val : S → ℂ
  logarithmic : Bool

/-- base.py:189-191 and 249-251: `logPsiSP`. -/
noncomputable def Net.logPsiSP {S : Type} (psi : Net S) (s : S) : ℂ :=
  if psi.logarithmic then psi.val s else Complex.log (psi.val s)

/-- base.py:162-164 `_get_O_loc` on one sample: `jnp.sum(matEl * exp(logPsiSP - logPsiS))`. -/
noncomputable def oLocRow {S : Type} (row : List (S × ℂ)) (logPsiS : ℂ) (logPsiSP : S → ℂ) : ℂ :=
  (row.map fun e => e.2 * Complex.exp (logPsiSP e.1 - logPsiS)).sum

/-- base.py:188-192, 212 and 248-253: one call of `get_s_primes` followed by
`get_O_loc_unbatched`. -/
noncomputable def oLocOn {S : Type} (kernel : S → List (S × ℂ)) (logPsiSP : S → ℂ)
    (samples : List S) (logPsiS : List ℂ) : List ℂ :=
  List.zipWith (fun row l => oLocRow row l logPsiSP) (getSPrimes kernel samples) logPsiS

/-- base.py:233-241: `(batchSize, numBatches, remainder)`; Python's `//` and `%` are only evaluated
for positive divisors here. -/
def oLocPlan (numSamples batchSize : ℕ) : ℕ × ℕ × ℕ :=
  let numBatches := numSamples / batchSize
  let remainder := numSamples % batchSize
  if 0 < remainder then
    let batchSize := numSamples / (numBatches + 1)
    (batchSize, numSamples / batchSize, numSamples % batchSize)
  else (batchSize, numBatches, remainder)

/-- `jax.lax.dynamic_slice_in_dim(d, start, size)` within bounds. (base.py:80-81, 86-89) -/
def dynSlice {A : Type} (d : List A) (start size : ℕ) : List A := (d.drop start).take size

/-- `jax.lax.dynamic_update_slice(dst, src, [beg])` within bounds. (base.py:82-85) -/
def dynUpdate {A : Type} (dst src : List A) (beg : ℕ) : List A :=
  dst.take beg ++ src ++ dst.drop (beg + src.length)

/-- base.py:14-18 `expand_batch`: padding with zeros. -/
def expandBatch {A : Type} (zero : A) (batch : List A) (batchSize : ℕ) : List A :=
  batch ++ List.replicate (batchSize - batch.length) zero

/-- base.py:243-261: the loop over full batches; the state is `Oloc` (initially `None`). -/
noncomputable def oLocLoop {S : Type} (kernel : S → List (S × ℂ)) (psi : Net S) (samples : List S)
    (logPsiS : List ℂ) (batchSize : ℕ) (numBatches : ℕ) : Option (List ℂ) :=
  (List.range numBatches).foldl (fun acc b =>
    let out := oLocOn kernel psi.logPsiSP (dynSlice samples (b * batchSize) batchSize)
      (dynSlice logPsiS (b * batchSize) batchSize)
    some (dynUpdate (acc.getD (List.replicate samples.length 0)) out (b * batchSize))) none

/-- base.py:214-278 `get_O_loc_batched`. `None` is returned if there are no samples. In the
remainder batch `psi(sp)` is used as it is (line 272). If there is a remainder there is at least
one full batch, so `Oloc` is not `None` in line 276. -/
noncomputable def getOLocBatched {S : Type} (kernel : S → List (S × ℂ)) (psi : Net S)
    (zeroCfg : S) (samples : List S) (logPsiS : List ℂ) (batchSize : ℕ) : Option (List ℂ) :=
  let plan := oLocPlan samples.length batchSize
  let bs := plan.1
  let nb := plan.2.1
  let rem := plan.2.2
  let oloc := oLocLoop kernel psi samples logPsiS bs nb
  if 0 < rem then
    let batch := expandBatch zeroCfg (dynSlice samples (nb * bs) rem) bs
    let lbatch := expandBatch 0 (dynSlice logPsiS (nb * bs) (samples.length % bs)) bs
    let out := dynSlice (oLocOn kernel psi.val batch lbatch) 0 rem
    oloc.map fun o => dynUpdate o out (nb * bs)
  else oloc

/-- base.py:214-278: the batches that are passed to `get_s_primes` and the network. -/
def oLocBatches {S : Type} (zeroCfg : S) (samples : List S) (batchSize : ℕ) : List (List S) :=
  let plan := oLocPlan samples.length batchSize
  let bs := plan.1
  let nb := plan.2.1
  let rem := plan.2.2
  (List.range nb).map (fun b => dynSlice samples (b * bs) bs)
    ++ if 0 < rem then [expandBatch zeroCfg (dynSlice samples (nb * bs) rem) bs] else []

/-- base.py:166-192 `get_O_loc`; `logPsiS` is `None` by default. -/
noncomputable def getOLoc {S : Type} (kernel : S → List (S × ℂ)) (psi : Net S) (zeroCfg : S)
    (elocBatchSize : ℤ) (samples : List S) (logPsiS : Option (List ℂ)) : Option (List ℂ) :=
  let logPsiS := logPsiS.getD (samples.map psi.val)
  if 0 < elocBatchSize then
    getOLocBatched kernel psi zeroCfg samples logPsiS elocBatchSize.toNat
  else some (oLocOn kernel psi.logPsiSP samples logPsiS)

/-! ## `get_estimator_function` -/

/-- What `compile()` returns: one function of configuration and arguments, or a pair of a function
and a preprocessor of the arguments. (base.py:27-38) -/
inductive Compiled (S Arg Pre : Type) where
  | single (f : S → List Arg → List (S × ℂ))
  | pair (f : S → Pre → List (S × ℂ)) (pre : List Arg → Pre)

/-- base.py:132-153: the kernel `get_s_primes` uses. -/
def Compiled.kernel {S Arg Pre : Type} (c : Compiled S Arg Pre) (args : List Arg) :
    S → List (S × ℂ) :=
  match c with
  | .single f => fun s => f s args
  | .pair f pre => fun s => f s (pre args)

/-- base.py:287-317 `get_estimator_function`: calling the returned function for one configuration.
`op_fun_args` is only assigned if `compile()` returned a tuple. `net` is `psi.net.apply(params, ·)`. -/
noncomputable def estimator {S Arg Pre : Type} (c : Compiled S Arg Pre) (args : List Arg)
    (net : S → ℂ) (s : S) : Except PyErr ℂ :=
  match c with
  | .single _ => .error .unboundLocalError
  | .pair f pre => .ok (oLocRow (f s (pre args)) (net s) net)

/-! ## Recompilation -/

/-- The part of an operator object that decides which kernel is used: base.py:65-70 and
branch_free.py:325. `Term` is an operator string; `kern` stands for `_get_s_primes_pmapd`, `argf` for
`arg_fun`: the lists of terms they were compiled from, and the number of arguments. -/
structure OpState (Term : Type) where
  ops : List Term
  compiled : Bool
  compiledArgnum : ℤ
  kern : Option (List Term × ℕ)
  argf : Option (List Term)

/-- base.py:61-70: a new operator. -/
def OpState.new {Term : Type} : OpState Term := ⟨[], false, -1, none, none⟩

/-- branch_free.py:330-339 `add` (povm.py:351-360 is the same in this respect). -/
def OpState.add {Term : Type} (st : OpState Term) (t : Term) : OpState Term :=
  { st with ops := st.ops ++ [t], compiled := false }

/-- base.py:132-153 `get_s_primes` with `n` arguments, up to the call of the kernel. `argOk ts`
says whether preprocessing the arguments with the prefactors of `ts` succeeds (it can raise, e.g. for
a wrong number of arguments). `kernelOk` says whether a kernel for the terms `ks` accepts the
prefactors computed for the terms `ts` (one per term). Returns the terms and argument number of the
kernel that is run and the terms the prefactors are computed from. -/
def OpState.eval {Term : Type} (argOk : List Term → Bool) (st : OpState Term) (n : ℕ) :
    Except PyErr (List Term × ℕ × List Term) × OpState Term :=
  if !st.compiled || st.compiledArgnum != (n : ℤ) then
    let st1 := { st with compiled := true, compiledArgnum := (n : ℤ), argf := some st.ops }
    if argOk st.ops then
      (.ok (st.ops, n, st.ops), { st1 with kern := some (st.ops, n) })
    else (.error .typeError, st1)
  else
    match st.argf, st.kern with
    | some ts, some (ks, m) =>
      if argOk ts then
        if ks.length = ts.length then (.ok (ks, m, ts), st) else (.error .valueError, st)
      else (.error .typeError, st)
    | some ts, none => if argOk ts then (.error .typeError, st) else (.error .typeError, st)
    | none, _ => (.error .attributeError, st)

/-- A call of the API: adding a term or evaluating with a number of arguments (and whether
preprocessing those arguments succeeds, per list of terms). (base.py:116-192) -/
inductive OpCall (Term : Type) where
  | add (t : Term)
  | eval (argOk : List Term → Bool) (n : ℕ)

/-- A history of calls: the final state and the results of the evaluations, each with the terms
present at that time. (base.py:116-192) -/
def OpState.run {Term : Type} : OpState Term → List (OpCall Term) →
    OpState Term × List (List Term × ℕ × Except PyErr (List Term × ℕ × List Term))
  | st, [] => (st, [])
  | st, .add t :: cs => (st.add t).run cs
  | st, .eval argOk n :: cs =>
    let r := st.eval argOk n
    let q := r.2.run cs
    (q.1, (st.ops, n, r.1) :: q.2)

end JVMC
