import Verif.Model.CovarRounding

/-!
# Model of `MinSR.solve` with rounding errors

`SampledObs.tangent_kernel` (`jVMC/stats.py:332-336`) and `MinSR.solve` (`jVMC/util/minsr.py:60-73`) in floating point
arithmetic, on top of Model/CovarRounding. Results are relations: matrix products add up real products in any order, fused
or not. Simplifications: no overflow and no underflow; `jnp.linalg.pinv` is an arbitrary function.
-/

namespace JVMC

variable {n : ℕ}

/-- One entry of a product of complex matrices: the sum of `x * y` over the given pairs, as a sum of real products in any
order. (stats.py:336, minsr.py:71) -/
def CDotR (r : Rounding) (l : List (ℂ × ℂ)) (v : ℂ) : Prop :=
  DotR r (l.flatMap fun s => [(s.1.re, s.2.re), (-s.1.im, s.2.im)]) v.re ∧
  DotR r (l.flatMap fun s => [(s.1.re, s.2.im), (s.1.im, s.2.re)]) v.im

/-- The rows that `mpi.gather` yields on every rank; copying is exact. (stats.py:334, minsr.py:69-70) -/
def gatheredRows {ι : Type} (o : SObs ι) : List (ι → ℂ) := (List.flatten (List.flatten o.rows)).map fun s => s.2

/-- Row `a`. (stats.py:334, minsr.py:69-70) -/
def gatheredAt {ι : Type} (o : SObs ι) (a : ℕ) : ι → ℂ := (gatheredRows o).getD a fun _ => 0

/-- stats.py:332-336 `tangent_kernel`: the values that the entries of `T` can have. -/
def TangentKernelR (r : Rounding) (gradients : SObs (Fin (n + 1))) (N : ℕ) (T : Matrix (Fin N) (Fin N) ℂ) : Prop :=
  (gatheredRows gradients).length = N ∧ ∀ a b : Fin N,
    CDotR r (List.ofFn fun i => (gatheredAt gradients a i, (starRingEnd ℂ) (gatheredAt gradients b i))) (T a b)

/-- minsr.py:60-73 `solve`: the updates `U` that can result when the tangent kernel is `T`. The products are evaluated from
left to right: `(-gradients_all.conj().T @ T_inv) @ eloc_all`. -/
def MinsrSolveR (r : Rounding) (pinv : ∀ N : ℕ, Matrix (Fin N) (Fin N) ℂ → Matrix (Fin N) (Fin N) ℂ) (eloc : SObs (Fin 1))
    (gradients : SObs (Fin (n + 1))) (N : ℕ) (T : Matrix (Fin N) (Fin N) ℂ) (U : Fin (n + 1) → ℂ) : Prop :=
  TangentKernelR r gradients N T ∧ (gatheredRows eloc).length = N ∧
  ∃ M : Fin (n + 1) → Fin N → ℂ,
    (∀ i b, CDotR r (List.ofFn fun a : Fin N => (-(starRingEnd ℂ) (gatheredAt gradients a i), pinv N T a b)) (M i b)) ∧
    ∀ i, CDotR r (List.ofFn fun b : Fin N => (M i b, gatheredAt eloc b 0)) (U i)

end JVMC
