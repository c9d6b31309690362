import Mathlib.Data.Int.Basic
import Mathlib.Data.List.Basic
import Mathlib.Algebra.Order.Ring.Int
import Mathlib.Order.Interval.Finset.Nat
import Mathlib.Data.Int.Interval
import Mathlib.Data.Finset.Prod
import Verif.Model.Py

/-!
# Model of the update proposers (`jVMC/sampler.py:15-64`)

Configurations are flattened lists of integers; `unravel_index` composed with the
multi-index access is access to the flattened list. The random draws are explicit arguments:
`random.randint(key, (1,), lo, hi)` is an arbitrary integer `lo ≤ x < hi`.
-/

namespace JVMC

/-- sampler.py:15-19, `propose_spin_flip`; `idx` is drawn from `0 ≤ idx < s.size`. -/
def proposeSpinFlip (idx : ℕ) (s : List ℤ) : List ℤ :=
  s.set idx ((s.getD idx 0 + 1) % 2)

/-- sampler.py:22-27, `propose_POVM_outcome`; `r` is drawn from `{0, 1, 2}`. By Python's
operator precedence the update is `s[idx] + (r % 4)`. -/
def proposePovmOutcome (idx : ℕ) (r : ℤ) (s : List ℤ) : List ℤ :=
  s.set idx (s.getD idx 0 + r % 4)

/-- sampler.py:38-39 and 63-64: the global flip `1 - x` if the draw from `{0,…,4}` is zero. -/
def globalFlip (doFlip : ℕ) (s : List ℤ) : List ℤ :=
  if doFlip = 0 then s.map fun x => 1 - x else s

/-- sampler.py:30-39, `propose_spin_flip_Z2`. -/
def proposeSpinFlipZ2 (idx doFlip : ℕ) (s : List ℤ) : List ℤ :=
  globalFlip doFlip (s.set idx ((s.getD idx 0 + 1) % 2))

/-- `jnp.cumsum` of a flattened array, starting from `c`. (sampler.py:52-53) -/
def cumsumFrom (c : ℤ) : List ℤ → List ℤ
  | [] => []
  | x :: xs => (c + x) :: cumsumFrom (c + x) xs

/-- `jnp.searchsorted(a, v)` (side left) on a sorted array: the number of leading entries
smaller than `v`. (sampler.py:52-53) -/
def searchsorted (a : List ℤ) (v : ℤ) : ℕ := (a.takeWhile (· < v)).length

/-- sampler.py:42-64, `propose_spin_flip_zeroMag` on a two-dimensional configuration given as
flattened list; `boundUp`, `boundDown` are drawn from `1 ≤ b < size/2 + 1`. `unravel_index`
clips out-of-range indices to the last entry. -/
def proposeSpinFlipZeroMag (boundUp boundDown : ℤ) (doFlip : ℕ) (s : List ℤ) : List ℤ :=
  let idUp := min (searchsorted (cumsumFrom 0 s) boundUp) (s.length - 1)
  let idDown := min (searchsorted (cumsumFrom 0 (s.map fun x => 1 - x)) boundDown) (s.length - 1)
  globalFlip doFlip ((s.set idUp 0).set idDown 1)

/-- sampler.py:49-50, 63: the (equally likely) draws of `propose_spin_flip_zeroMag` on `n` sites.
The float bound `n / 2 + 1` is truncated to an integer by `random.randint`. -/
def zeroMagDraws (n : ℕ) : Finset (ℤ × ℤ × ℕ) :=
  Finset.Icc 1 ((n : ℤ) / 2) ×ˢ Finset.Icc 1 ((n : ℤ) / 2) ×ˢ Finset.range 5

/-- sampler.py:32, 38: the (equally likely) draws of `propose_spin_flip_Z2`. -/
def z2Draws (n : ℕ) : Finset (ℕ × ℕ) := Finset.range n ×ˢ Finset.range 5

/-- sampler.py:16: the (equally likely) draws of `propose_spin_flip`. -/
def spinFlipDraws (n : ℕ) : Finset ℕ := Finset.range n

/-- sampler.py:24-26: the (equally likely) draws of `propose_POVM_outcome`: `randint(0, 3)` has an
exclusive upper bound. -/
def povmDraws (n : ℕ) : Finset (ℕ × ℤ) := Finset.range n ×ˢ Finset.Ico 0 3

end JVMC
