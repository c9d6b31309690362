import Verif.Model.StepRounding

/-!
# Model of adaptive time steps with rounding errors

`AdaptiveHeun.step` (`jVMC/util/stepper.py:112-182`) on arrays of floating point numbers. As in `Model/Rounding` results may or
may not be rounded, so the step is a relation. Simplifications: no overflow or underflow; the right-hand side returns new arrays
(see `Model/Stepper` for others); the constants 0.2, 0.9 and 0.33333 are exact.
-/

namespace JVMC

variable {σ : Type} {d : ℕ}

/-- An operation on arrays: every entry is rounded. (stepper.py:147-159) -/
def Rounding.RdV (r : Rounding) (x y : Fin d → ℝ) : Prop := ∀ i, r.Rd (x i) (y i)

/-- The values which one pass of the loop computes: `t + dt`, `0.5 * dt`, `t + 0.5 * dt`, `0.25 * dt`; the products, sums and
values of `y` (`a1` to `a4`), the evaluations `k0` to `k11`, `dy0`, `dy1` and the difference. (stepper.py:145-162) -/
structure AhVals (d : ℕ) where
  t1 : ℝ
  hd : ℝ
  th : ℝ
  qd : ℝ
  k0 : Fin d → ℝ
  p0 : Fin d → ℝ
  a1 : Fin d → ℝ
  k1 : Fin d → ℝ
  sum0 : Fin d → ℝ
  dy0 : Fin d → ℝ
  b0 : Fin d → ℝ
  a2 : Fin d → ℝ
  k10 : Fin d → ℝ
  sum1 : Fin d → ℝ
  dyh : Fin d → ℝ
  a3 : Fin d → ℝ
  k01 : Fin d → ℝ
  p1 : Fin d → ℝ
  a4 : Fin d → ℝ
  k11 : Fin d → ℝ
  sum2 : Fin d → ℝ
  dyq : Fin d → ℝ
  dy1 : Fin d → ℝ
  diff : Fin d → ℝ

/-- stepper.py:145-162: one pass of the loop up to `dy1 - dy0`, with rounding. -/
structure AhAttemptRnd (r : Rounding) (f : VRhs (Fin d → ℝ) σ) (t : ℝ) (yInitial : Fin d → ℝ) (dt : ℝ) (s : σ) (x : AhVals d)
    (s' : σ) : Prop where
  t1 : r.Rd (t + dt) x.t1
  hd : r.Rd (1 / 2 * dt) x.hd
  th : r.Rd (t + x.hd) x.th
  qd : r.Rd (1 / 4 * dt) x.qd
  calls : ∃ s1 s2 s3 s4, f yInitial t 0 s = (x.k0, s1) ∧ f x.a1 x.t1 1 s1 = (x.k1, s2) ∧ f x.a2 x.th 2 s2 = (x.k10, s3) ∧
    f x.a3 x.th 3 s3 = (x.k01, s4) ∧ f x.a4 x.t1 4 s4 = (x.k11, s')
  p0 : r.RdV (dt • x.k0) x.p0
  a1 : r.RdV (yInitial + x.p0) x.a1
  sum0 : r.RdV (x.k0 + x.k1) x.sum0
  dy0 : r.RdV (x.hd • x.sum0) x.dy0
  b0 : r.RdV (x.hd • x.k0) x.b0
  a2 : r.RdV (x.a1 - x.b0) x.a2
  sum1 : r.RdV (x.k0 + x.k10) x.sum1
  dyh : r.RdV (x.qd • x.sum1) x.dyh
  a3 : r.RdV (yInitial + x.dyh) x.a3
  p1 : r.RdV (x.hd • x.k01) x.p1
  a4 : r.RdV (x.a3 + x.p1) x.a4
  sum2 : r.RdV (x.k01 + x.k11) x.sum2
  dyq : r.RdV (x.qd • x.sum2) x.dyq
  dy1 : r.RdV (x.dyh + x.dyq) x.dy1
  diff : r.RdV (x.dy1 - x.dy0) x.diff

/-- stepper.py:163: `fe = self.tolerance / updateDiff`. -/
def FeRnd (r : Rounding) (tol upd : ℝ) (fe : Num) : Prop :=
  if upd = 0 then fe = Num.quot tol 0 else ∃ q, r.Rd (tol / upd) q ∧ fe = .fin q

/-- stepper.py:165-176: the next time step; `pow` is the function `x**0.33333` of the machine. -/
def NextDtRnd (r : Rounding) (pow : ℝ → ℝ) (maxStep dt : ℝ) (fe : Num) (dt' : ℝ) : Prop :=
  ∃ tmp m : ℝ, (match fe with
    | .nan => False
    | .inf => tmp = 2
    | .fin x => ∃ c, r.Rd (0.9 * pow x) c ∧
        tmp = if (if 0.2 > c then 0.2 else c) > 2 then 2 else (if 0.2 > c then 0.2 else c)) ∧
    r.Rd (dt * tmp) m ∧ dt' = if m > maxStep then maxStep else m

/-- stepper.py:145-176: one pass of the loop with the step `dt`; `dt'` is the next step. -/
def AhPassRnd (r : Rounding) (pow : ℝ → ℝ) (norm : (Fin d → ℝ) → ℝ) (obj : AHeun) (f : VRhs (Fin d → ℝ) σ) (t : ℝ)
    (yInitial : Fin d → ℝ) (dt : ℝ) (s : σ) (x : AhVals d) (fe : Num) (dt' : ℝ) (s' : σ) : Prop :=
  AhAttemptRnd r f t yInitial dt s x s' ∧ FeRnd r obj.tolerance (norm x.diff) fe ∧ NextDtRnd r pow obj.maxStep dt fe dt'

/-- stepper.py:143-178: the loop. `AhLoopRnd r pow norm obj f t yInitial dt s n x realDt dt' s'`: started with the step `dt`, it
rejects `n` attempts and accepts the values `x` with the step `realDt`; `dt'` is the next step. -/
inductive AhLoopRnd (r : Rounding) (pow : ℝ → ℝ) (norm : (Fin d → ℝ) → ℝ) (obj : AHeun) (f : VRhs (Fin d → ℝ) σ) (t : ℝ)
    (yInitial : Fin d → ℝ) : ℝ → σ → ℕ → AhVals d → ℝ → ℝ → σ → Prop
  | accept {dt s x s' fe dt'} (hp : AhPassRnd r pow norm obj f t yInitial dt s x fe dt' s') (hb : ¬ fe.below 1) :
      AhLoopRnd r pow norm obj f t yInitial dt s 0 x dt dt' s'
  | reject {dt s x s' fe dt' n X realDt dt'' s''} (hp : AhPassRnd r pow norm obj f t yInitial dt s x fe dt' s')
      (hb : fe.below 1) (hl : AhLoopRnd r pow norm obj f t yInitial dt' s' n X realDt dt'' s'') :
      AhLoopRnd r pow norm obj f t yInitial dt s (n + 1) X realDt dt'' s''

/-- stepper.py:112-182 `AdaptiveHeun.step` with rounding: new value, time step, object and state; `n` counts the rejected
attempts. -/
def AhStepRnd (r : Rounding) (pow : ℝ → ℝ) (norm : (Fin d → ℝ) → ℝ) (obj : AHeun) (f : VRhs (Fin d → ℝ) σ) (t : ℝ)
    (y : Fin d → ℝ) (s : σ) (n : ℕ) (out : ((Fin d → ℝ) × ℝ × AHeun) × σ) : Prop :=
  ∃ x realDt dt' s' y', AhLoopRnd r pow norm obj f t y obj.dt s n x realDt dt' s' ∧ r.RdV (y + x.dy1) y' ∧
    out = ((y', realDt, { obj with dt := dt' }), s')

/-- ex2:71-78: the loop `dp, dt = stepper.step(0, ...); psi.set_parameters(dp); t += dt` with rounding.
`AhEvolutionRnd r pow norm f obj y s n τ y' obj' s'`: `n` passes lead from `y` to `y'`, and the time steps they return add up to
`τ`. Simplification: `τ` is their exact sum; measurements and output are left out.
(examples/ex2_unitary_time_evolution.py:71-78) -/
inductive AhEvolutionRnd (r : Rounding) (pow : ℝ → ℝ) (norm : (Fin d → ℝ) → ℝ) (f : VRhs (Fin d → ℝ) σ) :
    AHeun → (Fin d → ℝ) → σ → ℕ → ℝ → (Fin d → ℝ) → AHeun → σ → Prop
  | done {obj y s} : AhEvolutionRnd r pow norm f obj y s 0 0 y obj s
  | pass {obj y s k y1 h obj1 s1 n τ y' obj' s'} (hs : AhStepRnd r pow norm obj f 0 y s k ((y1, h, obj1), s1))
      (hl : AhEvolutionRnd r pow norm f obj1 y1 s1 n τ y' obj' s') :
      AhEvolutionRnd r pow norm f obj y s (n + 1) (h + τ) y' obj' s'

/-- ex2:71-78: one pass of the loop, as a step of `TimeLoop` (ex2:71 and 77): the values are the parameters and the stepper, which
remembers the next time step. (examples/ex2_unitary_time_evolution.py:71-78) -/
def AhTimeStep (r : Rounding) (pow : ℝ → ℝ) (norm : (Fin d → ℝ) → ℝ) (f : VRhs (Fin d → ℝ) σ) (x : AHeun × (Fin d → ℝ)) (s : σ)
    (out : ((AHeun × (Fin d → ℝ)) × ℝ) × σ) : Prop :=
  ∃ k, AhStepRnd r pow norm x.1 f 0 x.2 s k ((out.1.1.2, out.1.2, out.1.1.1), out.2)

end JVMC
