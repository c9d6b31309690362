import Mathlib.Data.Complex.Basic
import Mathlib.Data.Fintype.Pi
import Mathlib.Data.Fin.VecNotation
import Mathlib.Algebra.BigOperators.Group.Finset.Basic
import Mathlib.Data.Fintype.BigOperators
import Verif.Model.Py

/-!
# Model of `jVMC/operator/branch_free.py`

Configurations are flattened: `N` sites with local states `0, …, d-1`. Site indices are assumed to
be in range; Model/SiteIndex has arbitrary ones.
-/

namespace JVMC

/-- A flattened computational basis configuration. (the array `s` in base.py:28-34) -/
abbrev Config (N d : ℕ) := Fin N → Fin d

/-- branch_free.py:279-308 `LocalOp`: a dictionary with these entries; `fermionic` may be absent,
which is the same as `False` (branch_free.py:386-391). -/
structure LocalOp (N d : ℕ) where
  idx : Fin N
  map : Fin d → Fin d
  matEls : Fin d → ℂ
  diag : Bool
  fermionic : Bool := false

/-! ## The predefined local operators -/

/-- branch_free.py:17-33 `Id`; `idx` defaults to 0. -/
def opId {N d : ℕ} (i : Fin N) : LocalOp N d := ⟨i, id, fun _ => 1, true, false⟩

/-- The array `[a, b]` indexed by a local state of a two-level system. (branch_free.py:48-50) -/
def arr2 {A : Type} (a b : A) : Fin 2 → A := ![a, b]

/-- branch_free.py:36-51 `Sx`. -/
noncomputable def opSx {N : ℕ} (i : Fin N) : LocalOp N 2 := ⟨i, arr2 1 0, arr2 1 1, false, false⟩

/-- branch_free.py:54-69 `Sy`. -/
noncomputable def opSy {N : ℕ} (i : Fin N) : LocalOp N 2 :=
  ⟨i, arr2 1 0, arr2 Complex.I (-Complex.I), false, false⟩

/-- branch_free.py:72-87 `Sz`. -/
noncomputable def opSz {N : ℕ} (i : Fin N) : LocalOp N 2 := ⟨i, arr2 0 1, arr2 (-1) 1, true, false⟩

/-- branch_free.py:90-105 `Sp`. -/
noncomputable def opSp {N : ℕ} (i : Fin N) : LocalOp N 2 := ⟨i, arr2 1 0, arr2 1 0, false, false⟩

/-- branch_free.py:108-123 `Sm`. -/
noncomputable def opSm {N : ℕ} (i : Fin N) : LocalOp N 2 := ⟨i, arr2 0 0, arr2 0 1, false, false⟩

/-- branch_free.py:128-146 `number`. -/
noncomputable def opNumber {N : ℕ} (i : Fin N) : LocalOp N 2 := ⟨i, arr2 0 1, arr2 0 1, true, false⟩

/-- branch_free.py:150-168 `creation`. -/
noncomputable def opCreation {N : ℕ} (i : Fin N) : LocalOp N 2 :=
  ⟨i, arr2 1 0, arr2 1 0, false, true⟩

/-- branch_free.py:172-190 `annihilation`. -/
noncomputable def opAnnihilation {N : ℕ} (i : Fin N) : LocalOp N 2 :=
  ⟨i, arr2 1 0, arr2 0 1, false, true⟩

/-! ## The kernel -/

/-- branch_free.py:452 `mask = tril(ones, -1).T` for one-dimensional configurations: `mask[i][j] = 1`
iff `j > i`. -/
def triMask {N : ℕ} (i j : Fin N) : ℤ := if i < j then 1 else 0

/-- branch_free.py:462-465: the `jnp.prod(…)` factor. -/
def fermiFactor {N d : ℕ} (mask : Fin N → Fin N → ℤ) (fermionic : Bool) (idx : Fin N)
    (c : Config N d) : ℤ :=
  ∏ j : Fin N,
    let fermi : ℤ := if fermionic then 1 else 0
    (1 - 2 * fermi) * (2 * fermi * mask idx j + (1 - 2 * fermi)) * ((c j : ℕ) : ℤ)
      + (1 - |((c j : ℕ) : ℤ)|)

/-- branch_free.py:455-469 `apply_fun`. -/
noncomputable def applyFun {N d : ℕ} (mask : Fin N → Fin N → ℤ) (c : Config N d × ℂ)
    (op : LocalOp N d) : Config N d × ℂ :=
  (Function.update c.1 op.idx (op.map (c.1 op.idx)),
    c.2 * op.matEls (c.1 op.idx) * ((fermiFactor mask op.fermionic op.idx c.1 : ℤ) : ℂ))

/-- branch_free.py:378-399: the loop over `k in range(maxOpStrLength)`: operators of the string
from the last to the first, then identities on site 0. -/
def compileStr {N d : ℕ} [NeZero N] (maxLen : ℕ) (ops : List (LocalOp N d)) :
    List (LocalOp N d) :=
  (List.range maxLen).map fun k =>
    if h : k < ops.length then ops[ops.length - 1 - k] else opId 0

/-- branch_free.py:358-364 `maxOpStrLength`. -/
def maxOpStrLength {N d : ℕ} (strs : List (List (LocalOp N d))) : ℕ :=
  (strs.map List.length).foldl max 0

/-- branch_free.py:377-402: indices of the strings all of whose operators are diagonal. -/
def diagIndices {N d : ℕ} (strs : List (List (LocalOp N d))) : List ℕ :=
  (List.range strs.length).filter fun k => (strs.getD k []).all fun o => o.diag

/-- branch_free.py:472-481: `apply_multi` for every string, starting from the prefactors. -/
noncomputable def rawSPrimes {N d : ℕ} [NeZero N] (mask : Fin N → Fin N → ℤ)
    (strs : List (List (LocalOp N d))) (prefactors : List ℂ) (s : Config N d) :
    List (Config N d × ℂ) :=
  List.zipWith
    (fun ops pf => (compileStr (maxOpStrLength strs) ops).foldl (applyFun mask) (s, pf))
    strs prefactors

/-- branch_free.py:482-484: the elements of the diagonal strings are summed up in the first one. -/
noncomputable def mergeDiag (diag : List ℕ) (matEl : List ℂ) : List ℂ :=
  match diag with
  | d0 :: d1 :: ds =>
    let summed := matEl.set d0 (((d0 :: d1 :: ds).map fun k => matEl.getD k 0).sum)
    (d1 :: ds).foldl (fun m k => m.set k 0) summed
  | _ => matEl

/-- branch_free.py:443-486 `_get_s_primes` on one configuration, with `mask` of line 452 as a
parameter. -/
noncomputable def kernelMasked {N d : ℕ} [NeZero N] (mask : Fin N → Fin N → ℤ)
    (strs : List (List (LocalOp N d))) (prefactors : List ℂ) (s : Config N d) :
    List (Config N d × ℂ) :=
  let raw := rawSPrimes mask strs prefactors s
  (raw.map Prod.fst).zip (mergeDiag (diagIndices strs) (raw.map Prod.snd))

/-- branch_free.py:443-486 `_get_s_primes` on a one-dimensional configuration. -/
noncomputable def branchFreeKernel {N d : ℕ} [NeZero N] (strs : List (List (LocalOp N d)))
    (prefactors : List ℂ) (s : Config N d) : List (Config N d × ℂ) :=
  kernelMasked triMask strs prefactors s

/-! ## Shapes of configurations -/

/-- branch_free.py:452, 462-465: `mask` has shape `(s.shape[-1], s.shape[-1])`; `mask[idx]` is
combined elementwise with the flattened configuration of `N` entries. A single entry broadcasts
(`mask = [[0]]`, the index is clamped); any other length mismatch is an error. -/
def maskFor {N : ℕ} (lastDim : ℕ) : Except PyErr (Fin N → Fin N → ℤ) :=
  if lastDim = N then .ok triMask
  else if lastDim = 1 then .ok fun _ _ => 0
  else .error .broadcastError

/-- branch_free.py:443-486 for a configuration of shape `shape` (non-empty, with `N` entries). -/
noncomputable def branchFreeKernelShaped {N d : ℕ} [NeZero N] (shape : List ℕ)
    (strs : List (List (LocalOp N d))) (prefactors : List ℂ) (s : Config N d) :
    Except PyErr (List (Config N d × ℂ)) := do
  let mask ← maskFor (shape.getLastD 1)
  return kernelMasked mask strs prefactors s

/-! ## Operator strings (`OpStr`) -/

/-- Prefactor callables: what the user passes (a function of the positional arguments), a scalar
wrapped by `functools.partial(_id_prefactor, val=v)` (branch_free.py:196-197) and
`functools.partial(_prod_fun, f1=f1, f2=f2)` (branch_free.py:199-200). -/
inductive PreFun (Arg : Type) where
  | user (f : List Arg → ℂ)
  | const (v : ℂ)
  | prod (f1 f2 : PreFun Arg)

/-- Calling a prefactor. `_prod_fun(f1, f2, *args, **kwargs)` with `f1`, `f2` bound by keyword: the
first positional argument is a second value for `f1`, a `TypeError`.
(branch_free.py:199-200) -/
noncomputable def PreFun.call {Arg : Type} : PreFun Arg → List Arg → Except PyErr ℂ
  | .user f, args => .ok (f args)
  | .const v, _ => .ok v
  | .prod f1 f2, args =>
    match args with
    | [] => do return (← f1.call []) * (← f2.call [])
    | _ :: _ => .error .typeError

/-- An element of the tuple: a callable or a local operator. (branch_free.py:212-228) -/
inductive StrItem (Arg : Type) (N d : ℕ) where
  | fn (f : PreFun Arg)
  | op (o : LocalOp N d)

/-- An `OpStr` is a tuple of items. (branch_free.py:203-228) -/
abbrev OpStr (Arg : Type) (N d : ℕ) := List (StrItem Arg N d)

/-- What `OpStr(*args)` accepts: a local operator (or dict), a callable, or a number.
(branch_free.py:214-223) -/
inductive StrArg (Arg : Type) (N d : ℕ) where
  | item (i : StrItem Arg N d)
  | num (v : ℂ)

/-- branch_free.py:214-223: sorting of the arguments, numbers become callables. -/
noncomputable def strFactors {Arg : Type} {N d : ℕ} :
    List (StrArg Arg N d) → List (PreFun Arg)
  | [] => []
  | .item (.op _) :: l => strFactors l
  | .item (.fn f) :: l => f :: strFactors l
  | .num v :: l => .const v :: strFactors l

/-- branch_free.py:215-218: the local operators among the arguments. -/
def strOps {Arg : Type} {N d : ℕ} : List (StrArg Arg N d) → List (LocalOp N d)
  | [] => []
  | .item (.op o) :: l => o :: strOps l
  | _ :: l => strOps l

/-- branch_free.py:225-226: `while len(factors) > 1: factors[0] = prod(factors[0], factors.pop())`. -/
def foldFactors {Arg : Type} (first : PreFun Arg) (rest : List (PreFun Arg)) : PreFun Arg :=
  rest.foldr (fun last acc => .prod acc last) first

/-- branch_free.py:212-228 `OpStr.__new__`. -/
noncomputable def OpStr.new {Arg : Type} {N d : ℕ} (args : List (StrArg Arg N d)) :
    OpStr Arg N d :=
  let ops := (strOps args).map StrItem.op
  match strFactors args with
  | [] => ops
  | f :: rest => .fn (foldFactors f rest) :: ops

/-- branch_free.py:241-255 `__rmul__` with a scalar or callable `a`. `newOp[0]` of an empty string
is an `IndexError`. -/
noncomputable def OpStr.rmul {Arg : Type} {N d : ℕ} (a : PreFun Arg) (self : OpStr Arg N d) :
    Except PyErr (OpStr Arg N d) :=
  match self with
  | [] => .error .indexError
  | .fn f :: l => .ok (OpStr.new ((StrItem.fn (.prod a f) :: l).map .item))
  | .op o :: l => .ok (OpStr.new ((StrItem.fn a :: .op o :: l).map .item))

/-- branch_free.py:231-239 `__mul__` of two strings (a factor that is no tuple is wrapped by
`OpStr(…)` first). -/
noncomputable def OpStr.mul {Arg : Type} {N d : ℕ} (self other : OpStr Arg N d) :
    Except PyErr (OpStr Arg N d) :=
  match other with
  | [] => .error .indexError
  | .fn f :: l => do
    let left ← OpStr.rmul f self
    return OpStr.new ((left ++ l).map .item)
  | .op o :: l => .ok (OpStr.new ((self ++ .op o :: l).map .item))

/-- branch_free.py:258-276 `scal_opstr`, for tuples: the tuple is turned into an `OpStr` first. -/
noncomputable def scalOpstr {Arg : Type} {N d : ℕ} (a : PreFun Arg) (op : OpStr Arg N d) :
    Except PyErr (OpStr Arg N d) :=
  OpStr.rmul a (OpStr.new (op.map .item))

/-- branch_free.py:372-376: the prefactor of a string, `None` if the string has none. -/
def OpStr.prefactor {Arg : Type} {N d : ℕ} : OpStr Arg N d → Option (PreFun Arg)
  | .fn f :: _ => some f
  | _ => none

/-- branch_free.py:376-380: the local operators of a string (`k0` skips the prefactor). -/
def OpStr.localOps {Arg : Type} {N d : ℕ} (o : OpStr Arg N d) : List (LocalOp N d) :=
  o.filterMap fun i => match i with
    | .op o => some o
    | .fn _ => none

/-! ## Evaluation of the prefactors -/

/-- `res[i] = v` for a list with Python's bounds check (`i` is never negative here).
(branch_free.py:418, 434) -/
def setChecked {A : Type} (res : List A) (i : ℤ) (v : A) : Except PyErr (List A) :=
  if 0 ≤ i ∧ i < res.length then .ok (res.set i.toNat v) else .error .indexError

/-- The loop `for i, f in prefactor: res[i - off] = f(*args)`; `vals` holds `(i, f(*args))`.
(branch_free.py:417-418, 432-434) -/
def writeAll {A : Type} (off : ℤ) : List (ℕ × A) → List A → Except PyErr (List A)
  | [], res => .ok res
  | (i, v) :: l, res => do
    let res ← setChecked res ((i : ℤ) - off) v
    writeAll off l res

/-- branch_free.py:414-418, 438: fewer than 50 prefactors. -/
def argFunSequential {A : Type} (prefactor : List (ℕ × A)) (init : List A) :
    Except PyErr (List A) :=
  writeAll 0 prefactor init

/-- `prefactor[k][0] - 1` with Python's bounds check. (branch_free.py:428-429) -/
def preIdx {A : Type} (prefactor : List (ℕ × A)) (k : ℕ) : Except PyErr ℤ :=
  match prefactor[k]? with
  | none => .error .indexError
  | some p => .ok ((p.1 : ℤ) - 1)

/-- branch_free.py:428: `firstIdx`, computed by every rank for all ranks. -/
def firstIdxs {A : Type} (prefactor : List (ℕ × A)) (commSize nEls : ℕ) :
    Except PyErr (List ℤ) := do
  let l ← (List.range' 1 (commSize - 1)).mapM fun r => preIdx prefactor (nEls * r)
  return 0 :: l

/-- branch_free.py:429: `lastIdx`. -/
def lastIdxs {A : Type} (prefactor : List (ℕ × A)) (commSize nEls lenInit : ℕ) :
    Except PyErr (List ℤ) := do
  let l ← (List.range (commSize - 1)).mapM fun r =>
    preIdx prefactor (min (nEls * (r + 1)) (prefactor.length - 1))
  return l ++ [(lenInit : ℤ)]

/-- branch_free.py:420-434 on one rank: the slice this rank contributes. The slice bounds are never
negative: strings are numbered from zero and `firstIdx`, `lastIdx` refer to later prefactors. -/
def argFunRank {A : Type} (prefactor : List (ℕ × A)) (init : List A) (commSize rank : ℕ) :
    Except PyErr (List A) := do
  let n := prefactor.length
  let nEls := (n + commSize - 1) / commSize
  let myStart := nEls * rank
  let myEnd := min (myStart + nEls) n
  let first ← firstIdxs prefactor commSize nEls
  let last ← lastIdxs prefactor commSize nEls init.length
  let f := first.getD rank 0
  let l := last.getD rank 0
  let res := (init.drop f.toNat).take (l.toNat - f.toNat)
  writeAll f ((prefactor.drop myStart).take (myEnd - myStart)) res

/-- branch_free.py:413-438 `arg_fun` on `commSize` ranks: every rank gets the concatenation of all
slices (`allgather`). An exception on any rank is an exception of the collective call. -/
def argFun {A : Type} (prefactor : List (ℕ × A)) (init : List A) (commSize : ℕ) :
    Except PyErr (List A) :=
  if prefactor.length < 50 then argFunSequential prefactor init
  else do
    let parts ← (List.range commSize).mapM fun r => argFunRank prefactor init commSize r
    return parts.flatten

/-- branch_free.py:366-375, 417-418: the list `prefactor` of `(o, f)` with `f(*args)` evaluated. The
code evaluates each `f` right before writing its value; evaluating all of them first can only change
which of several exceptions is raised. -/
noncomputable def evalPrefactors {Arg : Type} {N d : ℕ} (args : List Arg) :
    ℕ → List (OpStr Arg N d) → Except PyErr (List (ℕ × ℂ))
  | _, [] => .ok []
  | o, str :: strs =>
    match str with
    | [] => .error .indexError
    | .fn f :: _ => do
      let v ← f.call args
      let l ← evalPrefactors args (o + 1) strs
      return (o, v) :: l
    | .op _ :: _ => evalPrefactors args (o + 1) strs

/-- branch_free.py:345-486: a whole `BranchFreeOperator` with strings `strs` evaluated for one
configuration with further arguments `args` on `commSize` ranks: all strings start with prefactor 1
(`init=np.ones(…)`), `arg_fun` fills in the others. -/
noncomputable def branchFreeElements {Arg : Type} {N d : ℕ} [NeZero N]
    (strs : List (OpStr Arg N d)) (args : List Arg) (commSize : ℕ) (s : Config N d) :
    Except PyErr (List (Config N d × ℂ)) := do
  let pre ← evalPrefactors args 0 strs
  let vec ← argFun pre (List.replicate strs.length 1) commSize
  return branchFreeKernel (strs.map OpStr.localOps) vec s

end JVMC
