import Verif.Model.BranchFree

/-!
# Operators with arbitrary site indices

`Model/BranchFree` assumes that site indices are in range. Here they are arbitrary integers, with the semantics of JAX for
traced indices: negative ones count from the end, reading clamps what is still out of range, writing skips it.
-/

namespace JVMC

/-- `LocalOp(idx=...)` with any integer. (branch_free.py:279-308) -/
structure LocalOpZ (d : ℕ) where
  idx : ℤ
  map : Fin d → Fin d
  matEls : Fin d → ℂ
  diag : Bool
  fermionic : Bool := false

/-- Negative indices of an array with `N` entries. (branch_free.py:462, 467) -/
def normIdx (N : ℕ) (i : ℤ) : ℤ := if i < 0 then i + N else i

/-- The entry that is read for the index `i`: `config[idx]`, `mask[idx]`. (branch_free.py:462-465, 467) -/
def readIdx (N : ℕ) [NeZero N] (i : ℤ) : Fin N :=
  ⟨min (normIdx N i).toNat (N - 1), by have := NeZero.pos N; omega⟩

/-- The entry that is written for the index `i`: `config.at[idx].set(...)`. (branch_free.py:467) -/
def writeIdx (N : ℕ) (i : ℤ) : Option (Fin N) :=
  if h : 0 ≤ normIdx N i ∧ normIdx N i < N then some ⟨(normIdx N i).toNat, by omega⟩ else none

/-- branch_free.py:455-469 `apply_fun`. -/
noncomputable def applyFunZ {N d : ℕ} [NeZero N] (mask : Fin N → Fin N → ℤ) (c : Config N d × ℂ) (op : LocalOpZ d) :
    Config N d × ℂ :=
  let i := readIdx N op.idx
  let config := match writeIdx N op.idx with
    | none => c.1
    | some j => Function.update c.1 j (op.map (c.1 i))
  (config, c.2 * op.matEls (c.1 i) * ((fermiFactor mask op.fermionic i c.1 : ℤ) : ℂ))

/-- branch_free.py:378-399: the operators of a string from the last to the first, then identities on site 0. -/
def compileStrZ {d : ℕ} (maxLen : ℕ) (ops : List (LocalOpZ d)) : List (LocalOpZ d) :=
  (List.range maxLen).map fun k =>
    if h : k < ops.length then ops[ops.length - 1 - k] else ⟨0, id, fun _ => 1, true, false⟩

/-- branch_free.py:358-364 `maxOpStrLength`. -/
def maxOpStrLengthZ {d : ℕ} (strs : List (List (LocalOpZ d))) : ℕ := (strs.map List.length).foldl max 0

/-- branch_free.py:377-402: the diagonal strings. -/
def diagIndicesZ {d : ℕ} (strs : List (List (LocalOpZ d))) : List ℕ :=
  (List.range strs.length).filter fun k => (strs.getD k []).all fun o => o.diag

/-- branch_free.py:443-486 `_get_s_primes` on a one-dimensional configuration of `N` sites. -/
noncomputable def kernelZ {N d : ℕ} [NeZero N] (strs : List (List (LocalOpZ d))) (prefactors : List ℂ) (s : Config N d) :
    List (Config N d × ℂ) :=
  let raw := List.zipWith
    (fun ops pf => (compileStrZ (maxOpStrLengthZ strs) ops).foldl (applyFunZ triMask) (s, pf)) strs prefactors
  (raw.map Prod.fst).zip (mergeDiag (diagIndicesZ strs) (raw.map Prod.snd))

/-- branch_free.py:36-51 `Sx(idx)`. -/
noncomputable def opSxZ (i : ℤ) : LocalOpZ 2 := ⟨i, arr2 1 0, arr2 1 1, false, false⟩

/-- branch_free.py:72-87 `Sz(idx)`. -/
noncomputable def opSzZ (i : ℤ) : LocalOpZ 2 := ⟨i, arr2 0 1, arr2 (-1) 1, true, false⟩

end JVMC
