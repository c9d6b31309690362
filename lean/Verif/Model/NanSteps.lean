import Verif.Model.Stepper
import Verif.Model.FloatRange

/-!
# Integration steps with infinities and NaN

`jVMC/util/stepper.py` for arrays of floating point numbers that can be infinite or NaN (a right-hand side can return
such numbers: C45, C119, C120). Finite numbers are exact. Simplification: arrays are values; `y += ...` on shared arrays
is in `Model/Stepper.lean`.
-/

namespace JVMC

variable {n : ℕ} {σ : Type}

/-- An array of floating point numbers. (stepper.py:141-182) -/
abbrev DVec (n : ℕ) := Fin n → Dbl

/-- `a + b` of arrays. (stepper.py:38, 89-92, 147-159) -/
noncomputable def DVec.add (a b : DVec n) : DVec n := fun i => (a i).add (b i)

/-- `a - b` of arrays. (stepper.py:152, 162) -/
noncomputable def DVec.sub (a b : DVec n) : DVec n := fun i => (a i).sub (b i)

/-- `c * a` for a number `c`. (stepper.py:38, 88-90, 147-159) -/
noncomputable def DVec.scale (c : Dbl) (a : DVec n) : DVec n := fun i => c.mul (a i)

/-- `a < b`; false if one of them is NaN. (stepper.py:143, 165, 169, 175) -/
noncomputable def Dbl.lt : Dbl → Dbl → Bool
  | .nan, _ => false
  | _, .nan => false
  | .fin a, .fin b => decide (a < b)
  | .ninf, .ninf => false
  | .ninf, _ => true
  | _, .ninf => false
  | .inf, _ => false
  | _, .inf => true

/-- `a**0.33333`: NaN for negative numbers. (stepper.py:165, 168) -/
noncomputable def Dbl.pow13 : Dbl → Dbl
  | .nan => .nan
  | .inf => .inf
  | .ninf => .inf
  | .fin a => open Classical in if a < 0 then .nan else .fin (a ^ (0.33333 : ℝ))

/-- `jnp.sqrt`. (stepper.py:112: `jnp.linalg.norm`) -/
noncomputable def Dbl.sqrt : Dbl → Dbl
  | .nan => .nan
  | .inf => .inf
  | .ninf => .nan
  | .fin a => open Classical in if a < 0 then .nan else .fin (Real.sqrt a)

/-- `jnp.linalg.norm`, the default `normFunction`. (stepper.py:112) -/
noncomputable def jnpNorm (v : DVec n) : Dbl := (Dbl.sum (List.ofFn fun i => (v i).mul (v i))).sqrt

/-- A right-hand side `f(y, t, intStep=k)`; `σ` is everything it reads and changes. (stepper.py:38, 87-89, 146-158) -/
abbrev DRhs (n : ℕ) (σ : Type) := DVec n → Dbl → ℕ → σ → DVec n × σ

/-- stepper.py:14-40 `Euler.step`: new value, time step, state of the right-hand side. -/
noncomputable def eulerStepD (dt t : Dbl) (f : DRhs n σ) (yInitial : DVec n) (s : σ) : (DVec n × Dbl) × σ :=
  let (dy, s) := f yInitial t 0 s
  ((yInitial.add (dy.scale dt), dt), s)

/-- stepper.py:62-92 `Heun.step` with the time step of the object. -/
noncomputable def heunStepD (dt t : Dbl) (f : DRhs n σ) (yInitial : DVec n) (s : σ) : (DVec n × Dbl) × σ :=
  let (k0, s) := f yInitial t 0 s
  let y := yInitial.add (k0.scale dt)
  let (k1, s) := f y (t.add dt) 1 s
  let dy0 := (k0.add k1).scale ((Dbl.fin 0.5).mul dt)
  ((yInitial.add dy0, dt), s)

/-- stepper.py:145-159: one pass of the loop, up to `dy0` and `dy1`. -/
noncomputable def ahAttemptD (f : DRhs n σ) (t : Dbl) (yInitial : DVec n) (dt : Dbl) (s : σ) :
    (DVec n × DVec n) × σ :=
  let (k0, s) := f yInitial t 0 s
  let y := yInitial.add (k0.scale dt)
  let (k1, s) := f y (t.add dt) 1 s
  let dy0 := (k0.add k1).scale ((Dbl.fin 0.5).mul dt)
  let y := y.sub (k0.scale ((Dbl.fin 0.5).mul dt))
  let (k10, s) := f y (t.add ((Dbl.fin 0.5).mul dt)) 2 s
  let dy1 := (k0.add k10).scale ((Dbl.fin 0.25).mul dt)
  let y := yInitial.add dy1
  let (k01, s) := f y (t.add ((Dbl.fin 0.5).mul dt)) 3 s
  let y := y.add (k01.scale ((Dbl.fin 0.5).mul dt))
  let (k11, s) := f y (t.add dt) 4 s
  let dy1 := dy1.add ((k01.add k11).scale ((Dbl.fin 0.25).mul dt))
  ((dy0, dy1), s)

/-- stepper.py:165-170: the factor `tmp` on the time step. -/
noncomputable def ahFactorD (fe : Dbl) : Dbl :=
  let tmp := if ((Dbl.fin 0.9).mul fe.pow13).lt (.fin 0.2) then .fin 0.2 else (Dbl.fin 0.9).mul fe.pow13
  if (Dbl.fin 2).lt tmp then .fin 2 else tmp

/-- The object: `dt`, `tolerance`, `maxStep`. (stepper.py:107-110) -/
structure AHeunD where
  dt : Dbl
  tolerance : ℝ
  maxStep : ℝ

/-- The local variables of the loop, as `AHState`. (stepper.py:137-176) -/
structure AHStateD (n : ℕ) (σ : Type) where
  fe : Dbl
  dt : Dbl
  out : Option (DVec n × Dbl)
  s : σ

/-- stepper.py:145-176: the body of the loop. -/
noncomputable def ahBodyD (obj : AHeunD) (f : DRhs n σ) (norm : DVec n → Dbl) (t : Dbl) (yInitial : DVec n)
    (x : AHStateD n σ) : AHStateD n σ :=
  let (dy, s) := ahAttemptD f t yInitial x.dt x.s
  let updateDiff := norm (dy.2.sub dy.1)
  let fe := (Dbl.fin obj.tolerance).div updateDiff
  let realDt := x.dt
  let dt := x.dt.mul (ahFactorD fe)
  let dt := if (Dbl.fin obj.maxStep).lt dt then .fin obj.maxStep else dt
  ⟨fe, dt, some (dy.2, realDt), s⟩

/-- stepper.py:112-182 `AdaptiveHeun.step`: new value, time step, object and state. -/
noncomputable def ahStepD (obj : AHeunD) (t : Dbl) (f : DRhs n σ) (y : DVec n) (norm : DVec n → Dbl) (s : σ) :
    Except PyErr ((DVec n × Dbl × AHeunD) × σ) :=
  match whileLoop (fun x => x.fe.lt (.fin 1)) (ahBodyD obj f norm t y) ⟨.fin 0.5, obj.dt, none, s⟩ with
  | none => .error .noReturn
  | some x =>
    match x.out with
    | none => .error .unboundLocalError
    | some (dy1, realDt) => .ok ((y.add dy1, realDt, { obj with dt := x.dt }), x.s)

/-! ## Evolutions -/

/-- The variables of the script: time, parameters, integrator, and the state of the right-hand side.
(examples/ex2_unitary_time_evolution.py:71-78) -/
structure EvolveD (n : ℕ) (σ : Type) where
  t : Dbl
  y : DVec n
  obj : AHeunD
  s : σ

/-- examples/ex2_unitary_time_evolution.py:75-78: one pass with `AdaptiveHeun`. -/
noncomputable def evolvePassD (f : DRhs n σ) (norm : DVec n → Dbl) (x : EvolveD n σ) : Except PyErr (EvolveD n σ) :=
  match ahStepD x.obj (.fin 0) f x.y norm x.s with
  | .error e => .error e
  | .ok ((dp, dt, obj), s) => .ok ⟨x.t.add dt, dp, obj, s⟩

/-- `t < tmax`; an exception ends the loop. (examples/ex2_unitary_time_evolution.py:71) -/
noncomputable def evolveGoesOn (tmax : ℝ) : Except PyErr (EvolveD n σ) → Bool
  | .error _ => false
  | .ok x => x.t.lt (.fin tmax)

/-- examples/ex2_unitary_time_evolution.py:71-78: the whole loop. -/
noncomputable def evolveD (f : DRhs n σ) (norm : DVec n → Dbl) (tmax : ℝ) (x : EvolveD n σ) :
    Except PyErr (EvolveD n σ) :=
  match whileLoop (evolveGoesOn tmax) (fun r => r.bind (evolvePassD f norm)) (.ok x) with
  | none => .error .noReturn
  | some r => r

/-- `k` passes with `Euler` (or `Heun`), whose step is `step`. (stepper.py:14-40, 62-92,
examples/ex2_unitary_time_evolution.py:71-78) -/
noncomputable def fixedLoopD (step : Dbl → DVec n → σ → (DVec n × Dbl) × σ) : ℕ → Dbl → DVec n → σ → Dbl × DVec n × σ
  | 0, t, y, s => (t, y, s)
  | k + 1, t, y, s =>
    let ((y', d), s') := step t y s
    fixedLoopD step k (t.add d) y' s'

end JVMC
