import Verif.Model.Pipeline
import Verif.Model.BranchFree

/-!
# Model of `measure` on whole dictionaries (`jVMC/util/util.py:91-157`)

Operators are objects with state (compiled kernels, `OpState`), so they live in a heap: `Op` is the
type of references and `Op → OpState Term` the heap. All ranks run in lock-step as in `measureOne`.
-/

namespace JVMC

/-- The Python values that can occur in the dictionary: operators, sequences (lists and tuples), and
everything else, which is neither iterable nor has a method `get_O_loc` (numbers). Strings and
dictionaries are not modelled. (util.py:91-103, 130-142) -/
inductive ObsVal (Op Arg : Type) where
  | op (o : Op)
  | obj (a : Arg)
  | seq (l : List (ObsVal Op Arg))

/-- util.py:19-23 `get_iterable`. -/
def getIterable {Op Arg : Type} : ObsVal Op Arg → List (ObsVal Op Arg)
  | .seq l => l
  | v => [v]

/-- util.py:138-143: operator and further arguments of an entry. `op[0]` of an empty sequence is an
`IndexError`; anything but an operator has no attribute `get_O_loc`. -/
def itemRequest {Op Arg : Type} : ObsVal Op Arg → Except PyErr (Op × List (ObsVal Op Arg))
  | .op o => .ok (o, [])
  | .obj _ => .error .attributeError
  | .seq [] => .error .indexError
  | .seq (.op o :: args) => .ok (o, args)
  | .seq (_ :: _) => .error .attributeError

/-- What the class of an operator provides: the second component of `compile()`, which turns the
arguments into prefactors, and the first one, the matrix elements (base.py:137-153, branch_free.py:
413-486), as functions of the terms they were compiled from. -/
structure OpClass (S Term V Pre : Type) where
  prep : List Term → List V → Except PyErr Pre
  fn : List Term → Pre → S → List (S × ℂ)

/-- Whether a computation succeeds. (base.py:141) -/
def succeeds {A : Type} : Except PyErr A → Bool
  | .ok _ => true
  | .error _ => false

/-- base.py:132-153: the matrix elements `get_s_primes` computes with, and the state of the operator
afterwards. -/
def opKernel {S Term V Pre : Type} (C : OpClass S Term V Pre) (st : OpState Term) (args : List V) :
    Except PyErr (S → List (S × ℂ)) × OpState Term :=
  let r := st.eval (fun ts => succeeds (C.prep ts args)) args.length
  match r.1 with
  | .error e => (.error e, r.2)
  | .ok (ks, _, ts) =>
    match C.prep ts args with
    | .error e => (.error e, r.2)
    | .ok p => (.ok (C.fn ks p), r.2)

variable {S Term Op Arg Pre σ : Type} [DecidableEq Op]

/-- util.py:136-150: the loop over the operators of one entry; per operator the values of all ranks.
`batch` holds `ElocBatchSize` of every operator. Simplification: a batched `get_O_loc` calls
`get_s_primes` once per batch; the calls after the first find the operator compiled. -/
noncomputable def measureOps (C : OpClass S Term (ObsVal Op Arg) Pre) (batch : Op → ℤ) (psi : Net S)
    (zeroCfg : S) (lastN : Option ℕ) (w : World (S × ℂ × ℝ)) :
    (Op → OpState Term) → List (ObsVal Op Arg) →
      Except PyErr (List (List MeasResult)) × (Op → OpState Term)
  | h, [] => (.ok [], h)
  | h, v :: vs =>
    match itemRequest v with
    | .error e => (.error e, h)
    | .ok (o, args) =>
      let k := opKernel C (h o) args
      let h' := Function.update h o k.2
      match k.1 with
      | .error e => (.error e, h')
      | .ok kern =>
        match measureOp kern psi zeroCfg (batch o) lastN w with
        | .error e => (.error e, h')
        | .ok r =>
          match measureOps C batch psi zeroCfg lastN w h' vs with
          | (.error e, h'') => (.error e, h'')
          | (.ok rs, h'') => (.ok (r :: rs), h'')

/-- `result[name] = …` for a dictionary in insertion order. (util.py:152) -/
def dictSet {A : Type} (d : List (String × A)) (name : String) (x : A) : List (String × A) :=
  if d.any (fun e => e.1 == name) then d.map fun e => if e.1 == name then (name, x) else e
  else d ++ [(name, x)]

/-- util.py:128-157: the loop over the dictionary. -/
noncomputable def measureDict (C : OpClass S Term (ObsVal Op Arg) Pre) (batch : Op → ℤ) (psi : Net S)
    (zeroCfg : S) (lastN : Option ℕ) (w : World (S × ℂ × ℝ)) :
    (Op → OpState Term) → List (String × ObsVal Op Arg) → List (String × List (List MeasResult)) →
      Except PyErr (List (String × List (List MeasResult))) × (Op → OpState Term)
  | h, [], result => (.ok result, h)
  | h, (name, ops) :: obs, result =>
    match measureOps C batch psi zeroCfg lastN w h (getIterable ops) with
    | (.error e, h') => (.error e, h')
    | (.ok rs, h') => measureDict C batch psi zeroCfg lastN w h' obs (dictSet result name rs)

/-- A sampler: `sample(numSamples)` for the current wave function and
`get_last_number_of_samples()` (`none`: infinity). (sampler.py:167-229, 504-526) -/
structure SamplerObj (S σ : Type) where
  sample : σ → Net S → Option ℕ → Except PyErr (World (S × ℂ × ℝ) × σ)
  lastN : σ → Option ℕ

/-- util.py:91-157 `measure(observables, psi, sampler, numSamples)`. Simplification: the state of a
sampler that raises is not tracked. -/
noncomputable def measureAll (C : OpClass S Term (ObsVal Op Arg) Pre) (batch : Op → ℤ) (zeroCfg : S)
    (smp : SamplerObj S σ) (h : Op → OpState Term) (st : σ) (psi : Net S) (numSamples : Option ℕ)
    (observables : List (String × ObsVal Op Arg)) :
    Except PyErr (List (String × List (List MeasResult))) × (Op → OpState Term) × σ :=
  match smp.sample st psi numSamples with
  | .error e => (.error e, h, st)
  | .ok (w, st') =>
    let r := measureDict C batch psi zeroCfg (smp.lastN st') w h observables []
    (r.1, r.2, st')

/-! ## Scripts -/

/-- What a script does with its operators: add a term (base.py:116-130, branch_free.py:330-343), or
measure. -/
inductive MeasAct (S Term Op Arg : Type) where
  | add (o : Op) (t : Term)
  | measure (psi : Net S) (numSamples : Option ℕ) (observables : List (String × ObsVal Op Arg))

/-- A script: the results of its measurements, and the states of operators and sampler at its end. A
measurement that raises does not end the script (the exception may be handled).
(util.py:91-157, branch_free.py:330-343) -/
noncomputable def measScript (C : OpClass S Term (ObsVal Op Arg) Pre) (batch : Op → ℤ) (zeroCfg : S)
    (smp : SamplerObj S σ) : (Op → OpState Term) → σ → List (MeasAct S Term Op Arg) →
      List (Except PyErr (List (String × List (List MeasResult)))) × (Op → OpState Term) × σ
  | h, st, [] => ([], h, st)
  | h, st, .add o t :: acts =>
    measScript C batch zeroCfg smp (Function.update h o ((h o).add t)) st acts
  | h, st, .measure psi n obs :: acts =>
    let r := measureAll C batch zeroCfg smp h st psi n obs
    let q := measScript C batch zeroCfg smp r.2.1 r.2.2 acts
    (r.1 :: q.1, q.2)

/-! ## Branch-free operators -/

/-- branch_free.py:310-486: the class `BranchFreeOperator`, on `commSize` ranks. -/
noncomputable def branchFreeClass (N d : ℕ) [NeZero N] (V : Type) (commSize : ℕ) :
    OpClass (Config N d) (OpStr V N d) V (List ℂ) where
  prep ts args := do
    let pre ← evalPrefactors args 0 ts
    argFun pre (List.replicate ts.length 1) commSize
  fn ts vec s := branchFreeKernel (ts.map OpStr.localOps) vec s

end JVMC
