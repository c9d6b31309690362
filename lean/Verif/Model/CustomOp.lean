import Verif.Model.Operator

/-!
# Operators defined by a user, with the shapes of all arrays

`jVMC/operator/base.py` for an arbitrary function returned by `compile()`, and the operator of
`examples/ex1_custom_operator.py`, which is the example in the documentation of `Operator`. In `Model/Operator.lean` the
connected configurations are a list; here they are an array, and its leading axis is taken for the list. One device.
-/

namespace JVMC

/-- An array of integers: its shape and its numbers in row-major order. (base.py:27-38) -/
structure IntArr where
  shape : List ℕ
  data : List ℤ
  deriving DecidableEq

/-- `a[k]`. Indices beyond the end are clipped, as inside `jax.jit`; an array without axes cannot be indexed.
(base.py:73, ex1_custom_operator.py:35) -/
def IntArr.item (a : IntArr) (k : ℕ) : Except PyErr IntArr :=
  match a.shape with
  | [] => .error .indexError
  | d :: rest => .ok ⟨rest, (a.data.drop (min k (d - 1) * rest.prod)).take rest.prod⟩

/-- The function returned by `compile()`, applied to one configuration: `sp, matEls`. (base.py:27-38) -/
abbrev OpFun := IntArr → Except PyErr (IntArr × List ℂ)

/-- base.py:153-160: `get_s_primes` for the samples of one device: connected configurations (`_flatten_pmapd` joins the two
leading axes, so these are a list of arrays) and matrix elements. -/
noncomputable def getSPrimesArr (f : OpFun) (samples : List IntArr) :
    Except PyErr (List IntArr × List (List ℂ)) := do
  let outs ← samples.mapM f
  let nz := outs.map fun o => findNonzero o.2
  let most := (nz.map Prod.snd).foldl max 0
  let mats := List.zipWith (fun o z => setZeroToZero o.2 (z.1.take most) z.2) outs nz
  let sps ← (outs.zip nz).mapM fun oz => (oz.2.1.take most).mapM oz.1.1.item
  .ok (sps.flatten, mats)

/-- `logPsiSP.reshape(matEl.shape)`, row by row. (base.py:164) -/
def reshapeRows : List (List ℂ) → List ℂ → List (List ℂ)
  | [], _ => []
  | m :: ms, l => l.take m.length :: reshapeRows ms (l.drop m.length)

/-- base.py:162-164 `_get_O_loc` of one sample. -/
noncomputable def oLocOf (m : List ℂ) (logPsiS : ℂ) (logPsiSP : List ℂ) : ℂ :=
  (List.zipWith (fun x z => x * Complex.exp (z - logPsiS)) m logPsiSP).sum

/-- base.py:166-192, 212 `get_O_loc` without batches; `net` is the network applied to one configuration (it can reject the
shape), its values are logarithmic. -/
noncomputable def getOLocArr (f : OpFun) (net : IntArr → Except PyErr ℂ) (samples : List IntArr) :
    Except PyErr (List ℂ) := do
  let logPsiS ← samples.mapM net
  let (sp, mats) ← getSPrimesArr f samples
  let logPsiSP ← sp.mapM net
  .ok ((mats.zip (logPsiS.zip (reshapeRows mats logPsiSP))).map fun x => oLocOf x.1 x.2.1 x.2.2)

/-- examples/ex1_custom_operator.py:16-44 `SxOperator(siteIdx).compile()`. `indexUpdate` says whether this version of JAX
has `jax.ops.index_update` (it was removed in 0.3.2; setup.py:10 requires at least 0.4.12). `s[idx]` is a number only
if the configuration has one axis; otherwise an array would be written to one entry of `sp`. Entries are 0 or 1. -/
def sxCompile (indexUpdate : Bool) (siteIdx : ℕ) : OpFun := fun s => do
  let sp := s.data
  let configShape := s.shape
  if !indexUpdate then .error .attributeError
  let x ← s.item siteIdx
  if x.shape ≠ [] then .error .valueError
  .ok (⟨configShape, sp.set siteIdx (if x.data.headD 0 = 0 then 1 else 0)⟩, [1])

/-- The example with `sp.reshape((1,) + configShape)`: a list with one configuration. (Not in the repository; for
comparison with examples/ex1_custom_operator.py:37.) -/
def sxRepaired (siteIdx : ℕ) : OpFun := fun s => do
  let (sp, m) ← sxCompile true siteIdx s
  .ok (⟨1 :: sp.shape, sp.data⟩, m)

end JVMC
