import Mathlib.Data.Fintype.Pi
import Mathlib.Algebra.Ring.Defs
import Mathlib.Logic.Function.Iterate
import Mathlib.Logic.Function.Basic
import Verif.Model.BranchFree

/-!
# Model of the operator registry and of `POVMOperator` (`jVMC/operator/povm.py:272-432`)

The entries of the matrices are elements of an arbitrary ring `R` (floating point numbers in the
code). Configurations are flattened, sites are in range (Model/PovmSites has arbitrary ones).
-/

namespace JVMC

/-! ## The registry of `POVM` -/

/-- A Python dictionary: keys in insertion order. (povm.py:171-232, 274-304) -/
abbrev PyDict (V : Type) := List (String × V)

/-- `d[k] = v`. (povm.py:291-304) -/
def PyDict.insert {V : Type} (d : PyDict V) (k : String) (v : V) : PyDict V :=
  if k ∈ d.map Prod.fst then d.map fun e => if e.1 = k then (k, v) else e else d ++ [(k, v)]

/-- `d[k]`, `none` for a `KeyError`. (povm.py:413) -/
def PyDict.get? {V : Type} (d : PyDict V) (k : String) : Option V := List.lookup k d

/-- `k in d.keys()`. (povm.py:277-289) -/
def PyDict.has {V : Type} (d : PyDict V) (k : String) : Bool := (d.map Prod.fst).contains k

/-- `{**a, **b}`. (povm.py:275) -/
def PyDict.merge {V : Type} (a b : PyDict V) : PyDict V := b.foldl (fun d e => d.insert e.1 e.2) a

/-- The attributes `unitaries`, `dissipators`, `imaginaries`, `operators` (povm.py:261-272). -/
structure PovmReg (V : Type) where
  unitaries : PyDict V
  dissipators : PyDict V
  imaginaries : PyDict V
  operators : PyDict V

/-- povm.py:274-275 `_update_operators`. -/
def PovmReg.updateOperators {V : Type} (r : PovmReg V) : PovmReg V :=
  { r with operators := ((PyDict.merge [] r.unitaries).merge r.dissipators).merge r.imaginaries }

/-- povm.py:261-272 `set_standard_povm_operators`, as far as the registry is concerned. -/
def PovmReg.standard {V : Type} (unitaries dissipators : PyDict V) : PovmReg V :=
  (PovmReg.mk unitaries dissipators [] []).updateOperators

/-- povm.py:277-289 `_check_name_availabilty`. -/
def PovmReg.checkName {V : Type} (r : PovmReg V) (name : String) : Except PyErr Unit :=
  if r.unitaries.has name then .error .valueError
  else if r.dissipators.has name then .error .valueError
  else if r.imaginaries.has name then .error .valueError
  else if r.operators.has name then .error .valueError
  else .ok ()

/-- Which of the three `add_…` methods. (povm.py:291-304) -/
inductive RegKind where
  | unitary
  | dissipator
  | imaginary

/-- povm.py:291-304 `add_unitary`, `add_dissipator`, `add_imaginary`. -/
def PovmReg.add {V : Type} (r : PovmReg V) (kind : RegKind) (name : String) (ω : V) :
    PovmReg V × Except PyErr Unit :=
  match r.checkName name with
  | .error e => (r, .error e)
  | .ok () =>
    (match kind with
      | .unitary => { r with unitaries := r.unitaries.insert name ω }.updateOperators
      | .dissipator => { r with dissipators := r.dissipators.insert name ω }.updateOperators
      | .imaginary => { r with imaginaries := r.imaginaries.insert name ω }.updateOperators, .ok ())

/-- User code `povm.operators[name] = ω`, which the error message in povm.py:287-289 speaks of. -/
def PovmReg.direct {V : Type} (r : PovmReg V) (name : String) (ω : V) : PovmReg V :=
  { r with operators := r.operators.insert name ω }

/-- A history of `add_…` calls. (povm.py:291-304) -/
def PovmReg.run {V : Type} (r : PovmReg V) (calls : List (RegKind × String × V)) : PovmReg V :=
  calls.foldl (fun r c => (r.add c.1 c.2.1 c.2.2).1) r

/-! ## Terms and operators -/

variable {N : ℕ} {R : Type} [Ring R]

/-- A matrix acting on `k` outcomes: entry `A[s][t]` for index tuples `s`, `t` (the row/column index of
the `4^k × 4^k` array, reshaped to `(4,)*k`). (povm.py:410-416) -/
abbrev LocMat (R : Type) := List (Fin 4) → List (Fin 4) → R

/-- An operator dictionary (povm.py:351-360) as a mutable object; `id` is set by `add`. -/
structure OpDict (N : ℕ) (R : Type) where
  name : String
  strength : R
  sites : List (Fin N)
  id : ℕ := 0

/-- All dictionaries that exist and, for every `POVMOperator` object, the list `self.ops` of
references to dictionaries. (povm.py:351-360) -/
structure PovmOps (N : ℕ) (R : Type) where
  heap : List (OpDict N R)
  ops : ℕ → List ℕ

/-- povm.py:351-360 `add`: operator object number `o`, dictionary number `ref`. The dictionary of the
caller is modified. -/
def PovmOps.add (w : PovmOps N R) (o ref : ℕ) : PovmOps N R :=
  { heap := w.heap.modify ref fun d => { d with id := (w.ops o).length + 1 }
    ops := Function.update w.ops o (w.ops o ++ [ref]) }

/-- The dictionaries of operator object `o`. (povm.py:351-360) -/
def PovmOps.dicts (w : PovmOps N R) (o : ℕ) : List (OpDict N R) :=
  (w.ops o).filterMap fun ref => w.heap[ref]?

/-- A history of calls `operator_o.add(dictionary_ref)`. (povm.py:351-360) -/
def PovmOps.run (w : PovmOps N R) (calls : List (ℕ × ℕ)) : PovmOps N R :=
  calls.foldl (fun w c => w.add c.1 c.2) w

/-- Dictionaries as the user creates them, no operator contains a term yet. (povm.py:351-360) -/
def PovmOps.fresh (heap : List (OpDict N R)) : PovmOps N R := ⟨heap, fun _ => []⟩

/-! ## `compile` -/

/-- How `compile` can fail: an exception, or the loop in povm.py:422-426 that never ends. -/
inductive PovmFail where
  | raises (e : PyErr)
  | diverges
  deriving DecidableEq, Repr

/-- `jnp.kron(A, eye(4))` (povm.py:415) on index tuples. -/
def kronEye (A : LocMat R) : LocMat R := fun s t =>
  A s.dropLast t.dropLast * if s.getLast? = t.getLast? then 1 else 0

/-- povm.py:413-416: one summand of `neighbour_op_comp`. `operators name` is the number of bodies and
the matrix of `povm.operators[name]`. A matrix of the wrong size cannot be added. -/
def opTerm (operators : String → Option (ℕ × LocMat R)) (maxInt j : ℕ) (op : OpDict N R) :
    Except PyErr (LocMat R) :=
  match operators op.name with
  | none => .error .keyError
  | some (k, A) =>
    if k = j + 1 then .ok fun s t => op.strength * (kronEye^[maxInt - j - 1] A) s t
    else .error .broadcastError

/-- povm.py:404-405 `ops_same_indices`. -/
def opsSame (oo : List (List (OpDict N R))) (n : ℕ) (indices : List (Fin N)) :
    List (List (OpDict N R)) :=
  (List.range (n + 1)).map fun j =>
    (oo.getD j []).filter fun op => decide (op.sites = indices.take (j + 1))

/-- povm.py:410-416 `neighbour_op_comp`. -/
def neighbourComp (operators : String → Option (ℕ × LocMat R)) (maxInt : ℕ)
    (same : List (List (OpDict N R))) : Except PyErr (LocMat R) :=
  ((List.range same.length).flatMap fun j => (same.getD j []).map fun op => (j, op)).foldlM
    (fun acc e => do
      let t ← opTerm operators maxInt e.1 e.2
      return fun s s' => acc s s' + t s s') (fun _ _ => 0)

/-- povm.py:419-420: the list comprehension that removes the used operators. `used_op_ids[k]` is only
evaluated if `ops_ordered[k]` is not empty, and does not exist for `k > n`. -/
def removeUsed (maxInt n : ℕ) (used : List (List ℕ)) (oo : List (List (OpDict N R))) :
    Except PyErr (List (List (OpDict N R))) :=
  (List.range maxInt).mapM fun k =>
    if oo.getD k [] = [] then .ok []
    else if k ≤ n then .ok ((oo.getD k []).filter fun op => decide (op.id ∉ used.getD k []))
    else .error .indexError

/-- povm.py:424-425: the next site, cyclically after the last one, that is not yet used; `none` if
there is none, in which case the loop never ends. -/
def nextFree (maxSite : ℕ) (indices : List (Fin N)) : Option (Fin N) :=
  match indices.getLast? with
  | none => none
  | some last =>
    ((List.range (maxSite + 1)).filterMap fun k =>
      if h : (last.val + 1 + k) % (maxSite + 1) < N then some ⟨_, h⟩ else none).find?
      fun i => decide (i ∉ indices)

/-- povm.py:422-426: append `r` free sites. -/
def padIndices (maxSite : ℕ) : ℕ → List (Fin N) → Option (List (Fin N))
  | 0, indices => some indices
  | r + 1, indices =>
    match nextFree maxSite indices with
    | none => none
    | some i => padIndices maxSite r (indices ++ [i])

/-- The local variables of `compile` that change in the loops: `ops_ordered`, and `siteCouplings`
zipped with `matEls`. (povm.py:393-428) -/
structure CompState (N : ℕ) (R : Type) where
  oo : List (List (OpDict N R))
  couplings : List (List (Fin N) × LocMat R)

/-- povm.py:401-428: the body of the innermost loop. -/
def compileIndices (operators : String → Option (ℕ × LocMat R)) (maxInt maxSite n : ℕ)
    (st : CompState N R) (indices : List (Fin N)) : Except PovmFail (CompState N R) :=
  let same := opsSame st.oo n indices
  let used := same.map fun l => l.map OpDict.id
  match neighbourComp operators maxInt same with
  | .error e => .error (.raises e)
  | .ok A =>
    match removeUsed maxInt n used st.oo with
    | .error e => .error (.raises e)
    | .ok oo =>
      match padIndices maxSite (maxInt - indices.length) indices with
      | none => .error .diverges
      | some idx => .ok { oo := oo, couplings := st.couplings ++ [(idx, A)] }

/-- povm.py:399-428: the loop over `all_indices` for one `n`. `enum` is the order in which Python
iterates over a set. -/
def compileLen (operators : String → Option (ℕ × LocMat R))
    (enum : List (List (Fin N)) → List (List (Fin N))) (maxInt maxSite : ℕ)
    (st : CompState N R) (n : ℕ) : Except PovmFail (CompState N R) :=
  (enum ((st.oo.getD n []).map OpDict.sites)).foldlM
    (compileIndices operators maxInt maxSite n) st

/-- povm.py:393-428: the body of the outer loop. -/
def compileSite (operators : String → Option (ℕ × LocMat R))
    (enum : List (List (Fin N)) → List (List (Fin N))) (maxInt maxSite : ℕ)
    (ops : List (OpDict N R)) (couplings : List (List (Fin N) × LocMat R)) (idx : ℕ) :
    Except PovmFail (List (List (Fin N) × LocMat R)) := do
  let oo := (List.range maxInt).map fun n =>
    ops.filter fun op => decide (op.sites.head?.map Fin.val = some idx ∧ op.sites.length = n + 1)
  let st ← (List.range maxInt).reverse.foldlM (compileLen operators enum maxInt maxSite)
    { oo := oo, couplings := couplings }
  return st.couplings

/-- Python's `max` of a list of natural numbers. (povm.py:383, 390) -/
def pyMax : List ℕ → Except PyErr ℕ
  | [] => .error .valueError
  | x :: xs => .ok (xs.foldl max x)

/-- povm.py:376-432 `compile`: `max_int_size` and the pairs of `siteCouplings` and `matEls`. -/
def compilePovm (operators : String → Option (ℕ × LocMat R))
    (enum : List (List (Fin N)) → List (List (Fin N))) (ops : List (OpDict N R)) :
    Except PovmFail (ℕ × List (List (Fin N) × LocMat R)) :=
  match pyMax (ops.map fun op => op.sites.length), ops.mapM fun op => pyMax (op.sites.map Fin.val) with
  | .error e, _ => .error (.raises e)
  | _, .error e => .error (.raises e)
  | .ok maxInt, .ok maxima =>
    match pyMax maxima with
    | .error e => .error (.raises e)
    | .ok maxSite => do
      let couplings ← (List.range (maxSite + 1)).foldlM
        (compileSite operators enum maxInt maxSite ops) []
      return (maxInt, couplings)

/-- `itertools.product([0, 1, 2, 3], repeat=m)` (povm.py:385-386): `idxbase`, which is what
`stateCouplings[stateIndices]` is for every `stateIndices`. -/
def tuples : ℕ → List (List (Fin 4))
  | 0 => [[]]
  | m + 1 => (List.finRange 4).flatMap fun a => (tuples m).map fun t => a :: t

/-- povm.py:366: `OffdConfig.at[:, siteCoupling].set(…)` for one row. -/
def setSites (s : Config N 4) (sites : List (Fin N)) (t : List (Fin 4)) : Config N 4 :=
  (sites.zip t).foldl (fun c e => Function.update c e.1 e.2) s

/-- povm.py:362-374 `_get_s_primes`. -/
def povmSPrimes (c : ℕ × List (List (Fin N) × LocMat R)) (s : Config N 4) :
    List (Config N 4 × R) :=
  c.2.flatMap fun e => (tuples c.1).map fun t => (setSites s e.1 t, e.2 (e.1.map s) t)

end JVMC
