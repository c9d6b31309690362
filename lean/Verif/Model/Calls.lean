import Verif.Model.Stepper

/-!
# Calls with keyword arguments

How Python binds the arguments of the calls users write: the constructors of the package, and the keyword arguments
that go through `step` of an integrator to the right-hand side.
-/

namespace JVMC

/-- The signature of a Python function: parameters that can be given by position or name, parameters that can only be
given by name (each with: has it a default value), and whether it ends with `**kwargs`.
(stepper.py:10, 14, 52, 62, 107, 112; tdvp.py:74, 219; minsr.py:29, 75) -/
structure PySig where
  pos : List (String × Bool)
  kwOnly : List (String × Bool) := []
  varKw : Bool := false

/-- All names. (as `PySig`: stepper.py:14, tdvp.py:219) -/
def PySig.names (g : PySig) : List String := (g.pos ++ g.kwOnly).map Prod.fst

/-- The arguments of a function when its body starts: those given for its parameters, and the content of `kwargs`.
(stepper.py:14, tdvp.py:219) -/
structure Bound (V : Type) where
  vals : List (String × V)
  extra : List (String × V)

/-- The entry with name `k`; `none`: there is none. (tdvp.py:248-254, stepper.py:85-86) -/
def kwGet {V : Type} (l : List (String × V)) (k : String) : Option V := (l.find? fun p => p.1 == k).map Prod.snd

/-- The keyword arguments of a call, one after the other: unknown names go to `**kwargs` if there is one and raise
`TypeError` otherwise; a second value for a parameter raises `TypeError`. (as `PySig`) -/
def bindKw {V : Type} (g : PySig) : List (String × V) → Bound V → Except PyErr (Bound V)
  | [], b => .ok b
  | (k, v) :: rest, b =>
    if g.names.contains k then
      if (kwGet b.vals k).isSome then .error .typeError
      else bindKw g rest { b with vals := b.vals ++ [(k, v)] }
    else if g.varKw then bindKw g rest { b with extra := b.extra ++ [(k, v)] }
    else .error .typeError

/-- A call: positional arguments, keyword arguments, then the check that no parameter without default value is
missing. (as `PySig`) -/
def bindCall {V : Type} (g : PySig) (args : List V) (kw : List (String × V)) : Except PyErr (Bound V) :=
  if g.pos.length < args.length then .error .typeError
  else do
    let b ← bindKw g kw ⟨(g.pos.map Prod.fst).zip args, []⟩
    if (g.pos ++ g.kwOnly).all fun p => p.2 || (kwGet b.vals p.1).isSome then .ok b else .error .typeError

/-- `f(..., **d, k=v)`: a name given twice raises `TypeError`. (stepper.py:38, 87, 89, 146-158) -/
def withKw {V : Type} (d : List (String × V)) (k : String) (v : V) : Except PyErr (List (String × V)) :=
  if (kwGet d k).isSome then .error .typeError else .ok (d ++ [(k, v)])

/-! ## The constructors -/

/-- tdvp.py:74 -/
def tdvpInitSig : PySig :=
  ⟨[("self", false), ("sampler", false), ("snrTol", true), ("pinvTol", true), ("pinvCutoff", true), ("makeReal", true),
    ("rhsPrefactor", true), ("diagonalShift", true), ("crossValidation", true), ("diagonalizeOnDevice", true)], [], false⟩

/-- minsr.py:29 -/
def minsrInitSig : PySig :=
  ⟨[("self", false), ("sampler", false), ("pinvTol", true), ("makeReal", true), ("diagonalizeOnDevice", true)], [], false⟩

/-- stepper.py:10 and 52 -/
def eulerInitSig : PySig := ⟨[("self", false), ("timeStep", true)], [], false⟩

/-- stepper.py:107 -/
def ahInitSig : PySig := ⟨[("self", false), ("timeStep", true), ("tol", true), ("maxStep", true)], [], false⟩

/-- vqs.py:115-120 -/
def nqsInitSig : PySig :=
  ⟨[("self", false), ("net", false), ("logarithmic", true), ("batchSize", true), ("seed", true), ("orbit", true),
    ("avgFun", true)], [], false⟩

/-- sampler.py:103-104 -/
def mcInitSig : PySig :=
  ⟨[("self", false), ("net", false), ("sampleShape", false), ("key", false), ("updateProposer", true), ("numChains", true),
    ("updateProposerArg", true), ("numSamples", true), ("thermalizationSweeps", true), ("sweepSteps", true),
    ("initState", true), ("mu", true), ("logProbFactor", true)], [], false⟩

/-- sampler.py:392 -/
def exactInitSig : PySig :=
  ⟨[("self", false), ("net", false), ("sampleShape", false), ("lDim", true), ("logProbFactor", true)], [], false⟩

/-- symmetries.py:22 -/
def symmetryInitSig : PySig := ⟨[("self", false), ("orbit", false), ("factor", false)], [], false⟩

/-- output_manager.py:10 -/
def outpInitSig : PySig := ⟨[("self", false), ("dataFileName", false), ("group", true), ("append", true)], [], false⟩

/-- stats.py:147-153 -/
def obsInitSig : PySig :=
  ⟨[("self", false), ("observations", true), ("weights", true), ("estimator", true), ("params", true)], [], false⟩

/-- povm.py:245 -/
def povmInitSig : PySig :=
  ⟨[("self", false), ("system_data", false), ("theta", true), ("phi", true), ("name", true)], [], false⟩

/-- base.py:61 -/
def operatorInitSig : PySig := ⟨[("self", false), ("ElocBatchSize", true)], [], false⟩

/-- branch_free.py:319 -/
def branchFreeInitSig : PySig := ⟨[("self", false), ("lDim", true)], [], true⟩

/-- povm.py:343 -/
def povmOperatorInitSig : PySig := ⟨[("self", false), ("povm", false), ("ldim", true)], [], true⟩

/-- The constructor of an operator: what is left goes to `super().__init__(**kwargs)`.
(branch_free.py:319-328, povm.py:343-349, base.py:61) -/
def operatorInit {V : Type} (g : PySig) (self : V) (args : List V) (kw : List (String × V)) :
    Except PyErr (Bound V × Bound V) := do
  let b ← bindCall g (self :: args) kw
  let c ← bindCall operatorInitSig [self] b.extra
  .ok (b, c)

/-! ## The arguments of a time step -/

/-- The values that are passed as arguments of a time step: numbers, norms, other objects, `None`.
(stepper.py:112, tdvp.py:219) -/
inductive RVal (M : Type) where
  | num (x : ℝ)
  | fn (f : M → ℝ)
  | obj (i : ℕ)
  | none

/-- tdvp.py:219, minsr.py:75 -/
def rhsSig : PySig :=
  ⟨[("self", false), ("netParameters", false), ("t", false)], [("psi", false), ("hamiltonian", false)], true⟩

/-- What the right-hand side uses of its keyword arguments; `numSamples` and `outp` are `None` if they are not given.
(tdvp.py:219, 247-254, 292-293; minsr.py:75, 105-112, 150-151) -/
structure RhsUse (M : Type) where
  psi : RVal M
  hamiltonian : RVal M
  numSamples : RVal M
  outp : RVal M
  intStep : Option (RVal M)

variable {M σ : Type} [AddCommGroup M] [Module ℝ M]

/-- tdvp.py:219-254, 292-293 (and minsr.py:75-112, 150-151): `TDVP.__call__(y, t, **kw)`. `body` is the rest of the
function, as a function of the arguments it uses. -/
def rhsCall (body : RhsUse M → M → ℝ → σ → M × σ) (kw : List (String × RVal M)) (y : M) (t : ℝ) (s : σ) :
    Except PyErr (M × σ) := do
  let b ← bindCall rhsSig [.obj 0, .obj 1, .num t] kw
  match kwGet b.vals "psi", kwGet b.vals "hamiltonian" with
  | some psi, some ham =>
    let outp := match kwGet b.extra "outp" with
      | some o => o
      | none => .none
    let numSamples := match kwGet b.extra "numSamples" with
      | some n => n
      | none => .none
    .ok (body ⟨psi, ham, numSamples, outp, kwGet b.extra "intStep"⟩ y t s)
  | _, _ => .error .typeError

/-- stepper.py:14, 62: `step(self, t, f, yInitial, **rhsArgs)` of `Euler` and `Heun`. -/
def stepSig : PySig := ⟨[("self", false), ("t", false), ("f", false), ("yInitial", false)], [], true⟩

/-- stepper.py:112: `step(self, t, f, y, normFunction=jnp.linalg.norm, **rhsArgs)` of `AdaptiveHeun`. -/
def ahStepSig : PySig :=
  ⟨[("self", false), ("t", false), ("f", false), ("y", false), ("normFunction", true)], [], true⟩

/-- stepper.py:14-40: `Euler.step(t, f, yInitial, **kw)` with `f` such an object. -/
def eulerKw (dt : ℝ) (body : RhsUse M → M → ℝ → σ → M × σ) (t : ℝ) (yInitial : M) (kw : List (String × RVal M)) (s : σ) :
    Except PyErr ((M × ℝ) × σ) := do
  let b ← bindCall stepSig [.obj 0, .num t, .obj 1, .obj 2] kw
  let (dy, s) ← rhsCall body (← withKw b.extra "intStep" (.num 0)) yInitial t s
  .ok ((yInitial + dt • dy, dt), s)

/-- A number, or `TypeError` in the arithmetic that follows. (stepper.py:88) -/
def RVal.toNum : RVal M → Except PyErr ℝ
  | .num x => .ok x
  | _ => .error .typeError

/-- stepper.py:62-92: `Heun.step(t, f, yInitial, **kw)`. -/
noncomputable def heunKw (selfDt : ℝ) (body : RhsUse M → M → ℝ → σ → M × σ) (t : ℝ) (yInitial : M)
    (kw : List (String × RVal M)) (s : σ) : Except PyErr ((M × ℝ) × σ) := do
  let b ← bindCall stepSig [.obj 0, .num t, .obj 1, .obj 2] kw
  let dtArg := match kwGet b.extra "dt" with
    | some d => d
    | none => .num selfDt
  let (k0, s) ← rhsCall body (← withKw b.extra "intStep" (.num 0)) yInitial t s
  let dt ← dtArg.toNum
  let y := yInitial + dt • k0
  let (k1, s) ← rhsCall body (← withKw b.extra "intStep" (.num 1)) y (t + dt) s
  let dy0 := ((1 / 2) * dt) • (k0 + k1)
  .ok ((yInitial + dy0, dt), s)

/-- The right-hand side that all calls with these arguments use: whether the arguments can be bound does not depend on
the values of `y`, `t` and `intStep`. (tdvp.py:219-254; stepper.py:146-158) -/
def rhsResolve (body : RhsUse M → M → ℝ → σ → M × σ) (kw : List (String × RVal M)) : Except PyErr (VRhs M σ) := do
  let b ← bindCall rhsSig [.obj 0, .obj 1, .obj 2] (← withKw kw "intStep" .none)
  match kwGet b.vals "psi", kwGet b.vals "hamiltonian" with
  | some psi, some ham =>
    .ok fun y t k s => body ⟨psi, ham, (kwGet b.extra "numSamples").getD .none, (kwGet b.extra "outp").getD .none,
      some (.num k)⟩ y t s
  | _, _ => .error .typeError

/-- A right-hand side that returns new arrays. (stepper.py:141-182) -/
def newArrRhs (g : VRhs M σ) : RRhs M σ := fun r t k w =>
  let (v, s) := g (w.1.getD r 0) t k w.2
  newArr v (w.1, s)

/-- stepper.py:112-182: `AdaptiveHeun.step(t, f, y, **kw)`. `norm₀` is `jnp.linalg.norm`. The right-hand side returns new
arrays (see `ahStep` for those that do not); the exceptions of its calls are raised by the first one, see
`rhsResolve`. -/
noncomputable def ahKw (norm₀ : M → ℝ) (obj : AHeun) (body : RhsUse M → M → ℝ → σ → M × σ) (t : ℝ) (y : ℕ)
    (kw : List (String × RVal M)) (w : List M × σ) : Except PyErr ((M × ℝ × Flt AHeun) × (List M × σ)) := do
  let b ← bindCall ahStepSig [.obj 0, .num t, .obj 1, .obj 2] kw
  let g ← rhsResolve body b.extra
  let norm ← match kwGet b.vals "normFunction" with
    | none => .ok norm₀
    | some (.fn n) => .ok n
    | some _ => .error .typeError
  ahStep false obj t (newArrRhs g) y norm w

end JVMC
