import Mathlib.Analysis.Calculus.Deriv.Basic
import Mathlib.Analysis.Complex.Basic
import Mathlib.Data.Complex.Basic
import Verif.Model.Py

/-!
# Model of `NQS` (`jVMC/vqs.py`) and of the parameter handling of the samplers

A parameter tree is the list of its leaves in `tree_flatten` order, each leaf is the list of its
entries in `ravel` order (so `reshape` only checks the number of entries).
The devices of a `pmap` are independent and identical; one device is modelled.
-/

namespace JVMC

/-! ## Batched evaluation -/

/-- `x.reshape((-1, b))`: consecutive rows of length `b`. (vqs.py:27-32) -/
def rows {A : Type} (b : ℕ) (l : List A) : List (List A) :=
  (List.range (l.length / b)).map fun i => (l.drop (i * b)).take b

/-- vqs.py:27-32 `create_batches`: pad with zeros to a multiple of `b`, reshape to `(-1, b)`.
`b = 0` is a division by zero in Python. -/
def createBatches {A : Type} (zero : A) (configs : List A) (b : ℕ) :
    Except PyErr (List (List A)) :=
  if b = 0 then .error .zeroDivisionError
  else
    let append := b * ((configs.length + b - 1) / b) - configs.length
    .ok (rows b (configs ++ List.replicate append zero))

/-- vqs.py:35-44 `eval_batched`, vqs.py:242-251 `_eval` and vqs.py:256-268 `_get_gradients`
(one model: they differ only in the function `f` that is mapped and in whether the rows that are
joined hold numbers or vectors): scan over the batches, map `f` over each, join, cut to length. -/
def evalBatched {A B : Type} (zero : A) (batchSize : ℕ) (f : A → B) (s : List A) :
    Except PyErr (List B) := do
  let sb ← createBatches zero s batchSize
  let res := (sb.map fun x => x.map f).flatten
  return res.take s.length

/-! ## Parameters -/

/-- `self.parameters["params"]`: leaves of a real or of a complex network. Mixed trees are
rejected by `init_net` (vqs.py:193-194). -/
inductive Params where
  | real (leaves : List (List ℝ))
  | cpx (leaves : List (List ℂ))

/-- Number of entries of every leaf (`paramShapes`, vqs.py:214). -/
def Params.sizes : Params → List ℕ
  | .real l => l.map List.length
  | .cpx l => l.map List.length

/-- `realParams` (vqs.py:192-197). -/
def Params.isReal : Params → Bool
  | .real _ => true
  | .cpx _ => false

/-- vqs.py:449-466 `get_parameters` for an initialised network. -/
def flattenParams : Params → List ℝ
  | .real l => l.flatten
  | .cpx l => l.flatMap fun p => p.map Complex.re ++ p.map Complex.im

/-- `P[a:b]` for `0 ≤ a ≤ b` (Python slices are cut at the end of the array). (vqs.py:430-444) -/
def pySlice {A : Type} (P : List A) (a b : ℕ) : List A := (P.drop a).take (b - a)

/-- `x + 1.j * y` for one-dimensional arrays, with broadcasting of length one. (vqs.py:437) -/
noncomputable def addImag (x y : List ℝ) : Except PyErr (List ℂ) :=
  if x.length = y.length then .ok (List.zipWith (fun a b => (⟨a, b⟩ : ℂ)) x y)
  else if x.length = 1 then .ok (y.map fun b => (⟨x.headD 0, b⟩ : ℂ))
  else if y.length = 1 then .ok (x.map fun a => (⟨a, y.headD 0⟩ : ℂ))
  else .error .broadcastError

/-- `x.reshape(shape)` with `shape` holding `n` entries. (vqs.py:437, 440) -/
def reshapeTo {A : Type} (n : ℕ) (x : List A) : Except PyErr (List A) :=
  if x.length = n then .ok x else .error .typeError

/-- vqs.py:430-444 `_param_unflatten`, real networks. -/
def unflattenReal : List ℕ → ℕ → List ℝ → Except PyErr (List (List ℝ))
  | [], _, _ => .ok []
  | n :: ns, start, P => do
    let leaf ← reshapeTo n (pySlice P start (start + n))
    let rest ← unflattenReal ns (start + n) P
    return leaf :: rest

/-- vqs.py:430-444 `_param_unflatten`, complex networks. -/
noncomputable def unflattenCpx : List ℕ → ℕ → List ℝ → Except PyErr (List (List ℂ))
  | [], _, _ => .ok []
  | n :: ns, start, P => do
    let z ← addImag (pySlice P start (start + n)) (pySlice P (start + n) (start + 2 * n))
    let leaf ← reshapeTo n z
    let rest ← unflattenCpx ns (start + 2 * n) P
    return leaf :: rest

/-- vqs.py:430-444 `_param_unflatten`. -/
noncomputable def paramUnflatten (realParams : Bool) (sizes : List ℕ) (P : List ℝ) :
    Except PyErr Params :=
  if realParams then do return .real (← unflattenReal sizes 0 P)
  else do return .cpx (← unflattenCpx sizes 0 P)

/-- `tree_map(lax.add, p, q)` (vqs.py:398-401): both trees have the same structure, `lax.add`
insists on equal shapes and types. -/
noncomputable def addParams : Params → Params → Except PyErr Params
  | .real p, .real q =>
    if p.map List.length = q.map List.length then
      .ok (.real (List.zipWith (List.zipWith (· + ·)) p q)) else .error .typeError
  | .cpx p, .cpx q =>
    if p.map List.length = q.map List.length then
      .ok (.cpx (List.zipWith (List.zipWith (· + ·)) p q)) else .error .typeError
  | _, _ => .error .typeError

/-! ## The object -/

/-- What `init_net` fixes (vqs.py:187-218) together with the current parameters. -/
structure NqsInit where
  realParams : Bool
  sizes : List ℕ
  params : Params

/-- The mutable state of an `NQS`: `none` until `init_net` has run (`initialized`).
(vqs.py:187-218) -/
abbrev NqsState := Option NqsInit

/-- A method of `NQS`: it may raise, and whatever it assigned before stays assigned.
(vqs.py:187-487) -/
abbrev PsiM (A : Type) := ExceptT PyErr (StateM NqsState) A

/-- vqs.py:187-218 `init_net`: the parameters drawn by `net.init` (a function of the seed and of
the probe configuration, here given as `p₀`) are installed on the first call only. -/
def initNet (p₀ : Params) : PsiM Unit := do
  match ← get with
  | none => set (some (⟨p₀.isReal, p₀.sizes, p₀⟩ : NqsInit))
  | some _ => return ()

/-- vqs.py:474-478, property `params`; `none` is Python's `None`. -/
def getParams : PsiM (Option Params) := do
  match ← get with
  | none => return none
  | some st => return (some st.params)

/-- vqs.py:480-487, setter of `params`. Before initialisation `self.parameters` is `None`:
`ps["params"] = …` is a `TypeError`. -/
def setParams (p : Params) : PsiM Unit := do
  match ← get with
  | none => throw .typeError
  | some st => set (some { st with params := p })

/-- vqs.py:449-466 `get_parameters`. -/
def getParameters : PsiM (Option (List ℝ)) := do
  match ← get with
  | none => return none
  | some st => return (some (flattenParams st.params))

/-- The argument of `set_parameters`: a `FrozenDict` or a vector. (vqs.py:409-425) -/
inductive ParamArg where
  | dict (p : Params)
  | vec (v : List ℝ)

/-- vqs.py:409-425 `set_parameters`. -/
noncomputable def setParameters (P : ParamArg) : PsiM Unit := do
  match ← get with
  | none => throw .runtimeError
  | some st =>
    match P with
    | .dict p => setParams p
    | .vec v =>
      match paramUnflatten st.realParams st.sizes v with
      | .error e => throw e
      | .ok p => setParams p

/-- vqs.py:384-404 `update_parameters`. Before initialisation the call of `set_parameters` in
line 395 raises; the code after it is only reached when initialised. -/
noncomputable def updateParameters (deltaP : List ℝ) : PsiM Unit := do
  match ← get with
  | none => setParameters (.vec deltaP)
  | some st =>
    match paramUnflatten st.realParams st.sizes deltaP with
    | .error e => throw e
    | .ok d =>
      match addParams st.params d with
      | .error e => throw e
      | .ok p => setParams p

/-- vqs.py:223-239 `__call__`: initialise if necessary, evaluate with the current parameters.
`eval` is the batched network evaluation, which may itself raise. -/
def callNet {B : Type} (p₀ : Params) (eval : Params → Except PyErr B) : PsiM B := do
  initNet p₀
  match ← get with
  | none => throw .attributeError
  | some st =>
    match eval st.params with
    | .error e => throw e
    | .ok b => return b

/-- Call a method on the state `st`: result or exception, and the state afterwards.
(vqs.py:187-487) -/
def PsiM.call {A : Type} (m : PsiM A) (st : NqsState) : Except PyErr A × NqsState :=
  StateT.run (ExceptT.run m) st

/-! ## Sampling with given parameters -/

/-- sampler.py:504-509, the part of `ExactSampler.sample` that touches `psi`. `eval` evaluates
the network on the basis. `tmpP` is `None` only if `psi` is not initialised, in which case
`set_parameters` has raised. -/
noncomputable def exactSamplePsi {B : Type} (p₀ : Params) (eval : Params → Except PyErr B)
    (parameters : Option ParamArg) : PsiM B := do
  match parameters with
  | none => callNet p₀ eval
  | some P =>
    let tmpP ← getParameters
    setParameters P
    let logPsi ← callNet p₀ eval
    match tmpP with
    | none => throw .typeError
    | some v => setParameters (.vec v)
    return logPsi

/-- sampler.py:216 and 230-250, the part of `_get_samples_gen` that touches `psi`: `gen` draws
the configurations (`net.sample` with the current parameters) and `eval` is `self.net(samples)`. -/
def mcGenBody {C B : Type} (p₀ : Params) (gen : Params → Except PyErr C)
    (eval : C → Params → Except PyErr B) : PsiM (C × B) := do
  match ← get with
  | none => throw .attributeError
  | some st =>
    match gen st.params with
    | .error e => throw e
    | .ok configs =>
      let coeffs ← callNet p₀ (eval configs)
      return (configs, coeffs)

/-- sampler.py:212-219, `MCSampler.sample` for direct sampling. -/
noncomputable def mcSampleGenPsi {C B : Type} (p₀ : Params) (gen : Params → Except PyErr C)
    (eval : C → Params → Except PyErr B) (parameters : Option ParamArg) : PsiM (C × B) := do
  match parameters with
  | none => mcGenBody p₀ gen eval
  | some P =>
    let tmpP ← getParams
    setParameters P
    let r ← mcGenBody p₀ gen eval
    match tmpP with
    | none => throw .typeError
    | some p => setParams p
    return r

/-- sampler.py:252-287 `_get_samples_mcmc`: the parameters handed to the Markov chains are taken
after `set_parameters`, the old ones are put back at once and again after the evaluation of the
coefficients. `run` is the Markov chain run with the given parameters. -/
noncomputable def mcSampleMcmcPsi {C B : Type} (p₀ : Params) (run : Params → Except PyErr C)
    (eval : C → Params → Except PyErr B) (parameters : Option ParamArg) : PsiM (C × B) := do
  let tmpP ← (match parameters with
    | none => pure none
    | some P => do
      let tmpP ← getParams
      setParameters P
      return tmpP : PsiM (Option Params))
  match ← getParams with
  | none => throw .typeError
  | some params =>
    match tmpP with
    | none => pure ()
    | some p => setParams p
    match run params with
    | .error e => throw e
    | .ok configs =>
      let tmpP ← getParams
      setParams params
      let coeffs ← callNet p₀ (eval configs)
      match tmpP with
      | none => throw .typeError
      | some p => setParams p
      return (configs, coeffs)

/-! ## Gradients

`jax.grad` is modelled by its documented meaning: for a real function `u` of real arguments the
partial derivatives, for a real function of complex arguments `z = x + i y` the numbers
`∂u/∂x - i ∂u/∂y`. The network at a fixed configuration is a function of the leaves. -/

/-- Leaf `l` of a tree. (vqs.py:46-69) -/
def leafOf {F : Type} (L : List (List F)) (l : ℕ) : List F := L.getD l []

/-- The tree with entry `j` of leaf `l` replaced. (vqs.py:46-69) -/
def setEntry {F : Type} (L : List (List F)) (l j : ℕ) (z : F) : List (List F) :=
  L.set l ((leafOf L l).set j z)

/-- `jax.grad(u)(params)`, real parameters. (vqs.py:46-69) -/
noncomputable def jaxGradReal (u : List (List ℝ) → ℝ) (L : List (List ℝ)) : List (List ℝ) :=
  (List.range L.length).map fun l =>
    (List.range (leafOf L l).length).map fun j =>
      deriv (fun t : ℝ => u (setEntry L l j ((leafOf L l).getD j 0 + t))) 0

/-- `jax.grad(u)(params)`, complex parameters. (vqs.py:46-69) -/
noncomputable def jaxGradCpx (u : List (List ℂ) → ℝ) (L : List (List ℂ)) : List (List ℂ) :=
  (List.range L.length).map fun l =>
    (List.range (leafOf L l).length).map fun j =>
      (⟨deriv (fun t : ℝ => u (setEntry L l j ((leafOf L l).getD j 0 + (t : ℂ)))) 0,
        -deriv (fun t : ℝ => u (setEntry L l j ((leafOf L l).getD j 0 + Complex.I * (t : ℂ)))) 0⟩
        : ℂ)

/-- vqs.py:46-51 `flat_gradient` (real parameters). -/
noncomputable def flatGradient (f : List (List ℝ) → ℂ) (L : List (List ℝ)) : List ℂ :=
  List.zipWith (fun a b : ℝ => (a : ℂ) + Complex.I * (b : ℂ))
    (jaxGradReal (fun p => (f p).re) L).flatten (jaxGradReal (fun p => (f p).im) L).flatten

/-- vqs.py:53-58 `flat_gradient_cpx_nonholo`. -/
noncomputable def flatGradientCpxNonholo (f : List (List ℂ) → ℂ) (L : List (List ℂ)) : List ℂ :=
  let split : List (List ℂ) → List ℝ := fun g =>
    g.flatMap fun x => x.map Complex.re ++ x.map fun z => -z.im
  List.zipWith (fun a b : ℝ => (a : ℂ) + Complex.I * (b : ℂ))
    (split (jaxGradCpx (fun p => (f p).re) L)) (split (jaxGradCpx (fun p => (f p).im) L))

/-- vqs.py:66-69 `flat_gradient_holo`, complex parameters. -/
noncomputable def flatGradientHolo (f : List (List ℂ) → ℂ) (L : List (List ℂ)) : List ℂ :=
  (jaxGradCpx (fun p => (f p).re) L).flatMap fun x => x ++ x.map (Complex.I * ·)

/-- vqs.py:66-69 `flat_gradient_holo` applied to a network with real parameters. -/
noncomputable def flatGradientHoloReal (f : List (List ℝ) → ℂ) (L : List (List ℝ)) : List ℂ :=
  (jaxGradReal (fun p => (f p).re) L).flatMap fun x =>
    x.map (fun r : ℝ => (r : ℂ)) ++ x.map fun r : ℝ => Complex.I * (r : ℂ)

/-- The gradient function chosen by `init_net`. (vqs.py:199-212) -/
inductive GradMode where
  | holo
  | real
  | cpxNonholo
  deriving DecidableEq, Repr

/-- `jnp.linalg.norm(grads_r - 1.j * grads_i) / n` (vqs.py:204). -/
noncomputable def crDefect (gr gi : List ℂ) : ℝ :=
  Real.sqrt ((List.zipWith (fun a b => Complex.normSq (a - Complex.I * b)) gr gi).sum) / gr.length

/-- vqs.py:199-212 of `init_net`: `isclose(x, 0.0, abs_tol=1e-14)` is
`|x| ≤ max(1e-9 |x|, 1e-14)`. -/
noncomputable def gradMode (realParams : Bool) (gr gi : List ℂ) : GradMode :=
  if |crDefect gr gi| ≤ max (1e-9 * |crDefect gr gi|) 1e-14 then .holo
  else if realParams then .real else .cpxNonholo

/-- The mode `init_net` picks for a network with real parameters `L` and probe network `f`.
(vqs.py:187-218) -/
noncomputable def initModeReal (f : List (List ℝ) → ℂ) (L : List (List ℝ)) : GradMode :=
  gradMode true ((jaxGradReal (fun p => (f p).re) L).flatten.map fun r : ℝ => (r : ℂ))
    ((jaxGradReal (fun p => (f p).im) L).flatten.map fun r : ℝ => (r : ℂ))

/-- The mode `init_net` picks for a network with complex parameters. (vqs.py:187-218) -/
noncomputable def initModeCpx (f : List (List ℂ) → ℂ) (L : List (List ℂ)) : GradMode :=
  gradMode false (jaxGradCpx (fun p => (f p).re) L).flatten
    (jaxGradCpx (fun p => (f p).im) L).flatten

/-- vqs.py:271-287 `gradients` on one configuration, real parameters. `flat_gradient_cpx_nonholo`
(vqs.py:53-58) would append the (vanishing) imaginary parts to each leaf. -/
noncomputable def gradientsReal (mode : GradMode) (f : List (List ℝ) → ℂ) (L : List (List ℝ)) :
    List ℂ :=
  match mode with
  | .holo => flatGradientHoloReal f L
  | .real => flatGradient f L
  | .cpxNonholo =>
    let split : List (List ℝ) → List ℝ := fun g => g.flatMap fun x => x ++ x.map fun _ => 0
    List.zipWith (fun a b : ℝ => (a : ℂ) + Complex.I * (b : ℂ))
      (split (jaxGradReal (fun p => (f p).re) L)) (split (jaxGradReal (fun p => (f p).im) L))

/-- vqs.py:271-287 `gradients` on one configuration, complex parameters. `flat_gradient`
(vqs.py:46-51) would add the two complex gradients. -/
noncomputable def gradientsCpx (mode : GradMode) (f : List (List ℂ) → ℂ) (L : List (List ℂ)) :
    List ℂ :=
  match mode with
  | .holo => flatGradientHolo f L
  | .real => List.zipWith (fun a b => a + Complex.I * b)
      (jaxGradCpx (fun p => (f p).re) L).flatten (jaxGradCpx (fun p => (f p).im) L).flatten
  | .cpxNonholo => flatGradientCpxNonholo f L

/-! ## Gradients as dictionaries -/

/-- vqs.py:292-314 `gradients_dict` on one configuration, real parameters. The function is
`dict_gradient` (vqs.py:71-76), or `dict_gradient_real` (vqs.py:79-82) with `_append_gradients_dict`
(vqs.py:181) in the holomorphic mode. -/
noncomputable def gradientsDictReal (mode : GradMode) (f : List (List ℝ) → ℂ)
    (L : List (List ℝ)) : List (List ℂ) :=
  let gr := jaxGradReal (fun p => (f p).re) L
  match mode with
  | .holo => gr.map fun x => x.map (fun r : ℝ => (r : ℂ)) ++ x.map fun r : ℝ => Complex.I * (r : ℂ)
  | _ => List.zipWith (List.zipWith fun a b : ℝ => (a : ℂ) + Complex.I * (b : ℂ)) gr
      (jaxGradReal (fun p => (f p).im) L)

/-- vqs.py:292-314 `gradients_dict`, complex parameters: `dict_gradient_function` is never changed
from its default `dict_gradient_real` (vqs.py:157, 204-212). -/
noncomputable def gradientsDictCpx (mode : GradMode) (f : List (List ℂ) → ℂ)
    (L : List (List ℂ)) : List (List ℂ) :=
  let gr := jaxGradCpx (fun p => (f p).re) L
  match mode with
  | .holo => gr.map fun x => x ++ x.map (Complex.I * ·)
  | _ => gr

/-- The loop of vqs.py:319-334 `grad_dict_to_vec_map`. -/
def dictToVecLoop (holomorphic : Bool) (P : List ℕ) : List ℕ → ℕ → List (List ℕ)
  | [], _ => []
  | n :: ns, start =>
    let w := if holomorphic then 2 * n else n
    pySlice P start (start + w) :: dictToVecLoop holomorphic P ns (start + w)

/-- vqs.py:319-334 `grad_dict_to_vec_map`: for every leaf the positions of its entries in the
gradient vector. -/
def gradDictToVecMap (holomorphic : Bool) (sizes : List ℕ) : List (List ℕ) :=
  dictToVecLoop holomorphic (List.range (2 * sizes.sum)) sizes 0

end JVMC
