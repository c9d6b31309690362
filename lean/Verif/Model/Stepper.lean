import Mathlib.Analysis.SpecialFunctions.Pow.Real
import Verif.Model.Tdvp

/-!
# Model of `jVMC/util/stepper.py`

Numbers are exact reals, the arrays are elements of a real vector space `M`. `AdaptiveHeun.step` uses
`y += ...`, which changes a NumPy array in place, so it is modelled with a heap of arrays; a right-hand
side gets and returns references.
-/

namespace JVMC

variable {M σ : Type} [AddCommGroup M] [Module ℝ M]

/-- A right-hand side `f(y, t, intStep=k)` whose results are new arrays. `σ` is everything it reads and
changes (e.g. the random state of a sampler). (stepper.py:38, 87-89, 146-158) -/
abbrev VRhs (M σ : Type) := M → ℝ → ℕ → σ → M × σ

/-- stepper.py:14-40 `Euler.step`: new value, time step, state of the right-hand side. -/
def eulerStep (dt t : ℝ) (f : VRhs M σ) (yInitial : M) (s : σ) : (M × ℝ) × σ :=
  let (dy, s) := f yInitial t 0 s
  ((yInitial + dt • dy, dt), s)

/-- stepper.py:62-92 `Heun.step`; `selfDt` is `self.dt`, `dtArg` the keyword argument `dt` (which is
passed on to `f`, like all of them). -/
noncomputable def heunStep (selfDt : ℝ) (dtArg : Option ℝ) (t : ℝ) (f : VRhs M σ) (yInitial : M) (s : σ) :
    (M × ℝ) × σ :=
  let dt := match dtArg with
    | some d => d
    | none => selfDt
  let (k0, s) := f yInitial t 0 s
  let y := yInitial + dt • k0
  let (k1, s) := f y (t + dt) 1 s
  let dy0 := ((1 / 2) * dt) • (k0 + k1)
  ((yInitial + dy0, dt), s)

/-- The heap of arrays and the state of the right-hand side. (stepper.py:141-182) -/
abbrev ArrM (M σ A : Type) := StateM (List M × σ) A

/-- A right-hand side on references. (stepper.py:141-182) -/
abbrev RRhs (M σ : Type) := ℕ → ℝ → ℕ → List M × σ → ℕ × (List M × σ)

/-- The content of an array. (Python has no dangling references.) (stepper.py:141-182) -/
def readArr (r : ℕ) : ArrM M σ M := fun w => (w.1.getD r 0, w)

/-- A new array. (stepper.py:141-182) -/
def newArr (v : M) : ArrM M σ ℕ := fun w => (w.1.length, (w.1 ++ [v], w.2))

/-- `y += v`: in place for NumPy arrays, a new array for JAX arrays.
(stepper.py:147, 152, 157) -/
def addArr (inplace : Bool) (r : ℕ) (v : M) : ArrM M σ ℕ := fun w =>
  if inplace then (r, (w.1.set r (w.1.getD r 0 + v), w.2))
  else (w.1.length, (w.1 ++ [w.1.getD r 0 + v], w.2))

/-- stepper.py:145-159: one pass of the loop, up to `dy0` and `dy1`. `y₀` refers to `yInitial`. -/
noncomputable def ahAttempt (inplace : Bool) (f : RRhs M σ) (t : ℝ) (y₀ : ℕ) (dt : ℝ) :
    ArrM M σ (M × M) := do
  let y ← newArr (← readArr y₀)
  let k0 ← f y t 0
  let y ← addArr inplace y (dt • (← readArr k0))
  let k1 ← f y (t + dt) 1
  let dy0 := ((1 / 2) * dt) • ((← readArr k0) + (← readArr k1))
  let y ← addArr inplace y (-(((1 / 2) * dt) • (← readArr k0)))
  let k10 ← f y (t + (1 / 2) * dt) 2
  let dy1 := ((1 / 4) * dt) • ((← readArr k0) + (← readArr k10))
  let y ← newArr ((← readArr y₀) + dy1)
  let k01 ← f y (t + (1 / 2) * dt) 3
  let y ← addArr inplace y (((1 / 2) * dt) • (← readArr k01))
  let k11 ← f y (t + dt) 4
  let dy1 := dy1 + ((1 / 4) * dt) • ((← readArr k01) + (← readArr k11))
  return (dy0, dy1)

/-- `fe < 1.` (false for NaN). (stepper.py:143) -/
noncomputable def Num.below (x : Num) (c : ℝ) : Bool :=
  match x with
  | .nan => false
  | .inf => false
  | .fin y => decide (y < c)

/-- stepper.py:165-170: the factor on the time step; `none` is NaN. -/
noncomputable def ahFactor (fe : Num) : Flt ℝ :=
  match fe with
  | .nan => none
  | .inf => some 2
  | .fin x =>
    let tmp := if 0.2 > 0.9 * x ^ (0.33333 : ℝ) then 0.2 else 0.9 * x ^ (0.33333 : ℝ)
    some (if tmp > 2 then 2 else tmp)

/-- The object: `dt`, `tolerance`, `maxStep`. Tolerances are not negative.
(stepper.py:107-110) -/
structure AHeun where
  dt : ℝ
  tolerance : ℝ
  maxStep : ℝ

/-- The local variables of the loop: `fe`, `dt` (`none`: NaN, which ends the loop), `dy1` and `realDt`
(unbound before the first pass), heap and state. (stepper.py:137-176) -/
structure AHState (M σ : Type) where
  fe : Num
  dt : Flt ℝ
  out : Option (M × ℝ)
  w : List M × σ

/-- stepper.py:145-176: the body of the loop. -/
noncomputable def ahBody (inplace : Bool) (obj : AHeun) (f : RRhs M σ) (norm : M → ℝ) (t : ℝ) (y₀ : ℕ)
    (s : AHState M σ) : AHState M σ :=
  match s.dt with
  | none => s
  | some dt =>
    let (dy, w) := ahAttempt inplace f t y₀ dt s.w
    let updateDiff := norm (dy.2 - dy.1)
    let fe := Num.quot obj.tolerance updateDiff
    let dt' := (ahFactor fe).map fun tmp => if dt * tmp > obj.maxStep then obj.maxStep else dt * tmp
    ⟨fe, dt', some (dy.2, dt), w⟩

/-- stepper.py:112-182 `AdaptiveHeun.step`: new value, time step and object (`none`: its `dt` is NaN),
heap and state. `y` refers to the array passed in. -/
noncomputable def ahStep (inplace : Bool) (obj : AHeun) (t : ℝ) (f : RRhs M σ) (y : ℕ) (norm : M → ℝ)
    (w : List M × σ) : Except PyErr ((M × ℝ × Flt AHeun) × (List M × σ)) :=
  let (y₀, w) := newArr (w.1.getD y 0) w
  match whileLoop (fun s => s.fe.below 1) (ahBody inplace obj f norm t y₀) ⟨.fin 0.5, some obj.dt, none, w⟩ with
  | none => .error .noReturn
  | some s =>
    match s.out with
    | none => .error .unboundLocalError
    | some (dy1, realDt) =>
      .ok ((s.w.1.getD y₀ 0 + dy1, realDt, s.dt.map fun d => { obj with dt := d }), s.w)

/-- A right-hand side whose results are new arrays, on references. (stepper.py:146-158, jVMC/util/tdvp.py:326) -/
def refRhs (g : VRhs M σ) : RRhs M σ := fun r t k w =>
  (w.1.length, (w.1 ++ [(g (w.1.getD r 0) t k w.2).1], (g (w.1.getD r 0) t k w.2).2))

end JVMC
