import Verif.Model.PovmOperator
import Verif.Model.SiteIndex

/-!
# `POVMOperator` with arbitrary site indices

`Model/PovmOperator` assumes that sites are in range. Here the tuples `sites` consist of arbitrary integers, with the
semantics of Python for `%` and comparisons and of JAX for indices (Model/SiteIndex).
-/

namespace JVMC

variable {N : ℕ} {R : Type} [Ring R]

/-- An operator dictionary with any integers as sites. (povm.py:351-360) -/
structure OpDictZ (R : Type) where
  name : String
  strength : R
  sites : List ℤ
  id : ℕ := 0

/-- povm.py:413-416: one summand of `neighbour_op_comp`, as in `opTerm`. -/
def opTermZ (operators : String → Option (ℕ × LocMat R)) (maxInt j : ℕ) (op : OpDictZ R) : Except PyErr (LocMat R) :=
  match operators op.name with
  | none => .error .keyError
  | some (k, A) =>
    if k = j + 1 then .ok fun s t => op.strength * (kronEye^[maxInt - j - 1] A) s t
    else .error .broadcastError

/-- povm.py:404-405 `ops_same_indices`. -/
def opsSameZ (oo : List (List (OpDictZ R))) (n : ℕ) (indices : List ℤ) : List (List (OpDictZ R)) :=
  (List.range (n + 1)).map fun j =>
    (oo.getD j []).filter fun op => decide (op.sites = indices.take (j + 1))

/-- povm.py:410-416 `neighbour_op_comp`. -/
def neighbourCompZ (operators : String → Option (ℕ × LocMat R)) (maxInt : ℕ)
    (same : List (List (OpDictZ R))) : Except PyErr (LocMat R) :=
  ((List.range same.length).flatMap fun j => (same.getD j []).map fun op => (j, op)).foldlM
    (fun acc e => do
      let t ← opTermZ operators maxInt e.1 e.2
      return fun s s' => acc s s' + t s s') (fun _ _ => 0)

/-- povm.py:419-420, as in `removeUsed`. -/
def removeUsedZ (maxInt n : ℕ) (used : List (List ℕ)) (oo : List (List (OpDictZ R))) :
    Except PyErr (List (List (OpDictZ R))) :=
  (List.range maxInt).mapM fun k =>
    if (oo.getD k []).isEmpty then .ok []
    else if k ≤ n then .ok ((oo.getD k []).filter fun op => decide (op.id ∉ used.getD k []))
    else .error .indexError

/-- povm.py:424-425: the next of the sites `0, …, max_site`, cyclically after the last one, that is not used; `none` if
there is none, in which case the loop never ends. -/
def nextFreeZ (maxSite : ℤ) (indices : List ℤ) : Option ℤ :=
  match indices.getLast? with
  | none => none
  | some last =>
    ((List.range (maxSite + 1).toNat).map fun k : ℕ => (last + 1 + (k : ℤ)) % (maxSite + 1)).find?
      fun i => decide (i ∉ indices)

/-- povm.py:422-426: append `r` free sites. -/
def padIndicesZ (maxSite : ℤ) : ℕ → List ℤ → Option (List ℤ)
  | 0, indices => some indices
  | r + 1, indices =>
    match nextFreeZ maxSite indices with
    | none => none
    | some i => padIndicesZ maxSite r (indices ++ [i])

/-- The local variables of `compile`, as in `CompState`. (povm.py:393-428) -/
structure CompStateZ (R : Type) where
  oo : List (List (OpDictZ R))
  couplings : List (List ℤ × LocMat R)

/-- povm.py:401-428: the body of the innermost loop. -/
def compileIndicesZ (operators : String → Option (ℕ × LocMat R)) (maxInt : ℕ) (maxSite : ℤ) (n : ℕ)
    (st : CompStateZ R) (indices : List ℤ) : Except PovmFail (CompStateZ R) :=
  let same := opsSameZ st.oo n indices
  let used := same.map fun l => l.map OpDictZ.id
  match neighbourCompZ operators maxInt same with
  | .error e => .error (.raises e)
  | .ok A =>
    match removeUsedZ maxInt n used st.oo with
    | .error e => .error (.raises e)
    | .ok oo =>
      match padIndicesZ maxSite (maxInt - indices.length) indices with
      | none => .error .diverges
      | some idx => .ok { oo := oo, couplings := st.couplings ++ [(idx, A)] }

/-- povm.py:399-428: the loop over `all_indices` for one `n`; `enum` as in `compileLen`. -/
def compileLenZ (operators : String → Option (ℕ × LocMat R)) (enum : List (List ℤ) → List (List ℤ))
    (maxInt : ℕ) (maxSite : ℤ) (st : CompStateZ R) (n : ℕ) : Except PovmFail (CompStateZ R) :=
  (enum ((st.oo.getD n []).map OpDictZ.sites)).foldlM (compileIndicesZ operators maxInt maxSite n) st

/-- povm.py:396-397 `ops_ordered`. -/
def opsOrderedZ (maxInt : ℕ) (ops : List (OpDictZ R)) (idx : ℕ) : List (List (OpDictZ R)) :=
  (List.range maxInt).map fun n =>
    ops.filter fun op => decide (op.sites.head? = some (idx : ℤ) ∧ op.sites.length = n + 1)

/-- povm.py:393-428: the body of the outer loop. -/
def compileSiteZ (operators : String → Option (ℕ × LocMat R)) (enum : List (List ℤ) → List (List ℤ))
    (maxInt : ℕ) (maxSite : ℤ) (ops : List (OpDictZ R)) (couplings : List (List ℤ × LocMat R)) (idx : ℕ) :
    Except PovmFail (List (List ℤ × LocMat R)) := do
  let st ← (List.range maxInt).reverse.foldlM (compileLenZ operators enum maxInt maxSite)
    { oo := opsOrderedZ maxInt ops idx, couplings := couplings }
  return st.couplings

/-- Python's `max` of a list of integers. (povm.py:390) -/
def pyMaxZ : List ℤ → Except PyErr ℤ
  | [] => .error .valueError
  | x :: xs => .ok (xs.foldl max x)

/-- povm.py:376-432 `compile`. The range in line 393 is empty if all sites are negative. -/
def compilePovmZ (operators : String → Option (ℕ × LocMat R)) (enum : List (List ℤ) → List (List ℤ))
    (ops : List (OpDictZ R)) : Except PovmFail (ℕ × List (List ℤ × LocMat R)) :=
  match pyMax (ops.map fun op => op.sites.length), ops.mapM fun op => pyMaxZ op.sites with
  | .error e, _ => .error (.raises e)
  | _, .error e => .error (.raises e)
  | .ok maxInt, .ok maxima =>
    match pyMaxZ maxima with
    | .error e => .error (.raises e)
    | .ok maxSite => do
      let couplings ← (List.range (maxSite + 1).toNat).foldlM
        (compileSiteZ operators enum maxInt maxSite ops) []
      return (maxInt, couplings)

/-- povm.py:366: `OffdConfig.at[:, siteCoupling].set(…)` for one row: what is out of range is skipped. -/
def setSitesZ (s : Config N 4) (sites : List ℤ) (t : List (Fin 4)) : Config N 4 :=
  (sites.zip t).foldl (fun c e => match writeIdx N e.1 with
    | none => c
    | some j => Function.update c j e.2) s

/-- povm.py:362-374 `_get_s_primes`: reading is clamped. Without couplings the array of indices is an empty array of
floating point numbers, which is no index. (povm.py:430-431) -/
def povmSPrimesZ [NeZero N] (c : ℕ × List (List ℤ × LocMat R)) (s : Config N 4) : Except PyErr (List (Config N 4 × R)) :=
  if c.2.isEmpty then .error .typeError
  else .ok (c.2.flatMap fun e => (tuples c.1).map fun t =>
    (setSitesZ s e.1 t, e.2 (e.1.map fun z => s (readIdx N z)) t))

end JVMC
