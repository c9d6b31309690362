import Mathlib.Algebra.Order.Archimedean.Basic
import Mathlib.Analysis.Real.Sqrt
import Mathlib.LinearAlgebra.Matrix.ConjTranspose
import Mathlib.LinearAlgebra.Matrix.Notation
import Verif.Model.Stats
import Verif.Model.Vqs

/-!
# Model of `jVMC/util/tdvp.py`

Numbers are exact reals and complex numbers. Results that are not finite numbers are kept apart:
`Flt A` is `none` for an array with a NaN or infinite entry, and the quotients in the regularisers,
where infinities are legitimate, are computed in `Num`.
-/

namespace JVMC

/-- A value of type `A`, or (`none`) an array in which some entry is not a finite number.
(tdvp.py:134-213) -/
abbrev Flt (A : Type) := Option A

/-- A non-negative floating point number: finite, infinite, or NaN. (tdvp.py:173-209) -/
inductive Num where
  | nan
  | inf
  | fin (x : ℝ)

/-- `a / b` for finite `a, b ≥ 0`. (tdvp.py:201) -/
noncomputable def Num.quot (a b : ℝ) : Num :=
  if b = 0 then (if a = 0 then .nan else .inf) else .fin (a / b)

/-- `a / x` for finite `a ≥ 0`. (tdvp.py:201-205) -/
noncomputable def Num.under (a : ℝ) : Num → Num
  | .nan => .nan
  | .inf => .fin 0
  | .fin x => Num.quot a x

/-- `sqrt(x)`. (tdvp.py:181) -/
noncomputable def Num.sqrt : Num → Num
  | .nan => .nan
  | .inf => .inf
  | .fin x => .fin (Real.sqrt x)

/-- `1 / (1 + x**6)`. (tdvp.py:201-205) -/
noncomputable def Num.damp : Num → Flt ℝ
  | .nan => none
  | .inf => some 0
  | .fin x => some (1 / (1 + x ^ 6))

/-- `x > c` (false for NaN). (tdvp.py:198) -/
noncomputable def Num.gt (x : Num) (c : ℝ) : Bool :=
  match x with
  | .nan => false
  | .inf => true
  | .fin y => decide (y > c)

/-- A Python `while` loop whose condition and body are pure: the first state at which the condition
fails, or `none` if it never does. (tdvp.py:198) -/
noncomputable def whileLoop {S : Type} (cond : S → Bool) (body : S → S) (s : S) : Option S :=
  open Classical in
  if h : ∃ n : ℕ, cond (body^[n] s) = false then some (body^[Nat.find h] s) else none

/-- The element of a rank. (tdvp.py:134-148) -/
def atRank {A : Type} (r : ℕ) (l : List A) : Except PyErr A :=
  match l[r]? with
  | some a => .ok a
  | none => .error .indexError

variable {n : ℕ}

/-- tdvp.py:74-94: the constructor arguments. `isExact`: the sampler is an `ExactSampler`
(line 203); `eigh`: the eigendecomposition (lines 153-171, three ways of calling the same LAPACK
function); `numSamples`: `mpi.globNumSamples` (line 181). -/
structure TdvpCfg (n : ℕ) where
  snrTol : ℝ
  pinvTol : ℝ
  pinvCutoff : ℝ
  makeReal : String
  rhsPrefactor : ℂ
  diagonalShift : ℝ
  crossValidation : Bool
  isExact : Bool
  numSamples : ℕ
  eigh : Matrix (Fin (n + 1)) (Fin (n + 1)) ℂ → (Fin (n + 1) → ℝ) × Matrix (Fin (n + 1)) (Fin (n + 1)) ℂ

/-- tdvp.py:14-19, 88-90: `realFun` or `imagFun`. -/
noncomputable def TdvpCfg.q (cfg : TdvpCfg n) (z : ℂ) : ℂ :=
  if cfg.makeReal = "imag" then (1 / 2 : ℂ) * (z - (starRingEnd ℂ) z) else (z.re : ℂ)

/-- The attributes assigned in `get_tdvp_equation`: `ElocMean`, `ElocVar`, `F0`, `S0`.
(tdvp.py:134-148) -/
structure TdvpEqn (n : ℕ) where
  elocMean : ℂ
  elocVar : ℝ
  F0 : Fin (n + 1) → ℂ
  S0 : Matrix (Fin (n + 1)) (Fin (n + 1)) ℂ

/-- The attributes assigned in `_transform_to_eigenbasis` and in line 193.
(tdvp.py:153-181, 193) -/
structure TdvpSpectrum (n : ℕ) where
  ev : Fin (n + 1) → ℝ
  V : Matrix (Fin (n + 1)) (Fin (n + 1)) ℂ
  VtF : Fin (n + 1) → ℂ
  invEv : Fin (n + 1) → ℝ

/-- `self.metaData` (tdvp.py:298-304, 321-322). -/
structure TdvpMeta (n : ℕ) where
  tdvpError : Flt ℝ
  tdvpResidual : Flt ℝ
  pinvCutoff : ℝ
  snr : Fin (n + 1) → Num
  spectrum : Flt (Fin (n + 1) → ℝ)
  crossValidation : Option (Flt ℝ × Flt ℝ)

/-- The attributes of a `TDVP` object that calls assign; the outer `none` is an attribute that does
not exist yet. (tdvp.py:134-193, 284-304) -/
structure TdvpAttrs (n : ℕ) where
  eqn : Option (Flt (TdvpEqn n)) := none
  S : Option (Flt (Matrix (Fin (n + 1)) (Fin (n + 1)) ℂ)) := none
  spectrum : Option (Flt (TdvpSpectrum n)) := none
  snr : Option (Fin (n + 1) → Num) := none
  eloc0 : Option (Flt (ℂ × ℝ)) := none
  metaData : Option (TdvpMeta n) := none

/-- `(Eloc, gradients)`; `none` if the weights of a subset add up to zero and all is NaN.
(tdvp.py:306-324) -/
abbrev TdvpData (n : ℕ) := Flt (SObs (Fin 1) × SObs (Fin (n + 1)))

/-- A method of `TDVP` that does not touch `psi`. Simplification: what it assigned before raising is
not recorded. (tdvp.py:102-213) -/
abbrev TdvpFn (n : ℕ) (A : Type) := TdvpAttrs n → Except PyErr (A × TdvpAttrs n)

/-- tdvp.py:134-148 `get_tdvp_equation`, on rank `r`: `S` and `F`. -/
noncomputable def getTdvpEquation (cfg : TdvpCfg n) (r : ℕ) (data : TdvpData n) :
    TdvpFn n (Flt (Matrix (Fin (n + 1)) (Fin (n + 1)) ℂ × (Fin (n + 1) → ℂ))) := fun at₀ =>
  match data with
  | none => .ok (none, { at₀ with eqn := some none })
  | some (Eloc, gradients) => do
    let mean ← atRank r Eloc.mean
    let var ← atRank r (← Eloc.var)
    let force ← atRank r (← gradients.covar Eloc)
    let F0 : Fin (n + 1) → ℂ := fun i => (-cfg.rhsPrefactor) * force i 0
    let F := fun i => cfg.q (F0 i)
    let S0 ← atRank r (← gradients.covar gradients)
    let S : Matrix (Fin (n + 1)) (Fin (n + 1)) ℂ := Matrix.of fun i j => cfg.q (S0 i j)
    let S' := if cfg.diagonalShift > 1e-10 then
        S + Matrix.diagonal (fun i => (cfg.diagonalShift : ℂ) * S i i) else S
    return (some (S', F), { at₀ with eqn := some (some ⟨mean 0, var 0, F0, Matrix.of S0⟩) })

/-- The keyword check of a Python call: a keyword that is no parameter raises `TypeError`.
(tdvp.py:151) -/
def checkKeywords (parameters keywords : List String) : Except PyErr Unit :=
  if keywords.all fun k => parameters.contains k then .ok () else .error .typeError

/-- tdvp.py:150-151 `get_sr_equation`: calls `get_tdvp_equation(Eloc, gradients, rhsPrefactor=1.)`. -/
noncomputable def getSrEquation (cfg : TdvpCfg n) (r : ℕ) (data : TdvpData n) :
    TdvpFn n (Flt (Matrix (Fin (n + 1)) (Fin (n + 1)) ℂ × (Fin (n + 1) → ℂ))) := fun at₀ => do
  checkKeywords ["self", "Eloc", "gradients"] ["rhsPrefactor"]
  getTdvpEquation { cfg with rhsPrefactor := 1 } r data at₀

/-- tdvp.py:153-171 and 193: eigenvalues, eigenvectors, `V† F`, inverse eigenvalues. -/
noncomputable def tdvpEigenbasis (cfg : TdvpCfg n) (S : Matrix (Fin (n + 1)) (Fin (n + 1)) ℂ)
    (F : Fin (n + 1) → ℂ) : TdvpSpectrum n :=
  let eV := cfg.eigh S
  ⟨eV.1, eV.2, Matrix.mulVec eV.2.conjTranspose F, fun k =>
    if (Num.quot |eV.1 k| |eV.1 (Fin.last n)|).gt 1e-14 then 1 / eV.1 k else 0⟩

/-- tdvp.py:173-181 `_get_snr`, on rank `r`. -/
noncomputable def tdvpSnr (cfg : TdvpCfg n) (r : ℕ) (Eloc : SObs (Fin 1))
    (gradients : SObs (Fin (n + 1))) (sp : TdvpSpectrum n) : Except PyErr (Fin (n + 1) → Num) := do
  match ← gradients.covarData Eloc with
  | none => return fun _ => .nan
  | some cd =>
    match ← cd.transformLinear (fun k i => (starRingEnd ℂ) (sp.V i k))
        (fun z => cfg.q ((-cfg.rhsPrefactor) * z)) with
    | none => return fun _ => .nan
    | some EO =>
      let rhoVar ← atRank r (← EO.var)
      return fun k => (Num.quot (cfg.numSamples * Complex.normSq (sp.VtF k)) (rhoVar (k, 0))).sqrt

/-- The local variables of the loop in `solve`. `pinvEv` does not exist before the first pass.
(tdvp.py:195-209) -/
structure PinvState (n : ℕ) where
  residual : Flt ℝ
  cutoff : ℝ
  pinvEv : Option (Fin (n + 1) → Flt ℝ)

/-- `‖v‖` (`jnp.linalg.norm`). (tdvp.py:209) -/
noncomputable def vecNorm {m : ℕ} (v : Fin m → ℂ) : ℝ := Real.sqrt (∑ i, Complex.normSq (v i))

/-- All entries, if all are finite numbers. (tdvp.py:195-213) -/
def allFinite {m : ℕ} (v : Fin m → Flt ℝ) : Flt (Fin m → ℝ) :=
  if ∀ i, (v i).isSome then some fun i => (v i).getD 0 else none

/-- tdvp.py:201-205: the factors on the inverse eigenvalues. -/
noncomputable def tdvpRegularizer (cfg : TdvpCfg n) (sp : TdvpSpectrum n) (snr : Fin (n + 1) → Num)
    (cutoff : ℝ) (k : Fin (n + 1)) : Flt ℝ := do
  let a ← (Num.under (max cutoff cfg.pinvCutoff)
    (Num.quot |sp.ev k| |sp.ev (Fin.last n)|)).damp
  if cfg.isExact then return a
  else
    let b ← (Num.under cfg.snrTol (snr k)).damp
    return a * b

/-- tdvp.py:198: the condition of the loop. -/
noncomputable def pinvCond (cfg : TdvpCfg n) (s : PinvState n) : Bool :=
  (match s.residual with
   | none => false
   | some x => decide (x > cfg.pinvTol)) && decide (s.cutoff > cfg.pinvCutoff)

/-- tdvp.py:199-209: the body of the loop. -/
noncomputable def pinvBody (cfg : TdvpCfg n) (sp : TdvpSpectrum n) (snr : Fin (n + 1) → Num)
    (F : Fin (n + 1) → ℂ) (s : PinvState n) : PinvState n :=
  let cutoff := s.cutoff * (4 / 5)
  let pinvEv : Fin (n + 1) → Flt ℝ := fun k =>
    (tdvpRegularizer cfg sp snr cutoff k).map fun g => sp.invEv k * g
  let residual : Flt ℝ :=
    match allFinite pinvEv with
    | none => none
    | some p =>
      if vecNorm F = 0 then none
      else some (vecNorm (fun k => ((p k * sp.ev k - 1 : ℝ) : ℂ) * sp.VtF k) / vecNorm F)
  ⟨residual, cutoff, some pinvEv⟩

/-- tdvp.py:195-209: the loop. -/
noncomputable def pinvLoop (cfg : TdvpCfg n) (sp : TdvpSpectrum n) (snr : Fin (n + 1) → Num)
    (F : Fin (n + 1) → ℂ) : Option (PinvState n) :=
  whileLoop (pinvCond cfg) (pinvBody cfg sp snr F) ⟨some 1, 1e-2, none⟩

/-- What `solve` returns: update, residual, cutoff. (tdvp.py:213) -/
structure SolveRes (n : ℕ) where
  update : Flt (Fin (n + 1) → ℝ)
  residual : Flt ℝ
  cutoff : ℝ

/-- tdvp.py:211-213: the end of `solve`. -/
noncomputable def tdvpUpdate (cfg : TdvpCfg n) (sp : TdvpSpectrum n) (s : PinvState n) :
    Except PyErr (SolveRes n) :=
  match s.pinvEv with
  | none => .error .unboundLocalError
  | some pinvEv =>
    .ok ⟨(allFinite pinvEv).map fun p => fun i =>
      (Matrix.mulVec sp.V (fun k => (p k : ℂ) * sp.VtF k) i).re, s.residual, max s.cutoff cfg.pinvCutoff⟩

/-- tdvp.py:183-213 `solve`, on rank `r`. With NaN data the loop ends after one pass. -/
noncomputable def tdvpSolve (cfg : TdvpCfg n) (r : ℕ) (data : TdvpData n) :
    TdvpFn n (SolveRes n) := fun at₀ => do
  let (eq, at₁) ← getTdvpEquation cfg r data at₀
  match eq, data with
  | some (S, F), some (Eloc, gradients) =>
    let sp := tdvpEigenbasis cfg S F
    let snr ← tdvpSnr cfg r Eloc gradients sp
    let at₂ := { at₁ with S := some (some S), spectrum := some (some sp), snr := some snr }
    match pinvLoop cfg sp snr F with
    | none => .error .noReturn
    | some s =>
      let res ← tdvpUpdate cfg sp s
      return (res, at₂)
  | _, _ =>
    let at₂ := { at₁ with S := some none, spectrum := some none, snr := some fun _ => .nan }
    if 1 > cfg.pinvTol ∧ 1e-2 > cfg.pinvCutoff then
      return (⟨none, none, max (1e-2 * (4 / 5)) cfg.pinvCutoff⟩, at₂)
    else .error .unboundLocalError

/-- tdvp.py:102-104 `_get_tdvp_error`. -/
noncomputable def getTdvpError (at₀ : TdvpAttrs n) (update : Flt (Fin (n + 1) → ℝ)) :
    Except PyErr (Flt ℝ) :=
  match at₀.eqn, at₀.eloc0 with
  | some (some e), some (some E0) =>
    match update with
    | none => .ok none
    | some u =>
      if E0.2 = 0 then .ok none
      else .ok (some |1 + ((∑ i, (u i : ℂ) * ∑ j, e.S0 i j * (u j : ℂ))
        - ((2 * (∑ i, (u i : ℂ) * e.F0 i).re : ℝ) : ℂ)).re / E0.2|)
  | some _, some _ => .ok none
  | _, _ => .error .attributeError

/-- What a call of the sampler, of `get_O_loc` and of `psi.gradients` yields for the current
parameters of `psi`: weights, local energies and gradients of all samples of all ranks.
`smp` is the state of the sampler. (tdvp.py:266-284) -/
structure TdvpEnv (n : ℕ) (smp : Type) where
  measure : Params → smp → ℝ → Except PyErr (World (ℝ × (Fin 1 → ℂ) × (Fin (n + 1) → ℂ)) × smp)

/-- An exception raised in a part that does not touch `psi`. (tdvp.py:219-326) -/
def PsiM.lift {A : Type} (x : Except PyErr A) : PsiM A :=
  match x with
  | .ok a => return a
  | .error e => throw e

/-- Python `and` of two arrays of which one may be NaN. (tdvp.py:306-324) -/
def bothFinite {A B : Type} (a : Flt A) (b : Flt B) : Flt (A × B) :=
  match a, b with
  | some x, some y => some (x, y)
  | _, _ => none

/-- tdvp.py:306-324: cross validation; returns the update. -/
noncomputable def crossValidate (cfg : TdvpCfg n) (r : ℕ) (Eloc : SObs (Fin 1))
    (gradients : SObs (Fin (n + 1))) (metaData : TdvpMeta n) :
    TdvpFn n (Flt (Fin (n + 1) → ℝ)) := fun at₀ => do
  let Eloc1 ← Eloc.subset (some 0) none (some 2)
  let gradients1 ← gradients.subset (some 0) none (some 2)
  let Eloc2 ← Eloc.subset (some 1) none (some 2)
  let gradients2 ← gradients.subset (some 1) none (some 2)
  let (res1, at₁) ← tdvpSolve cfg r (bothFinite Eloc1 gradients1) at₀
  let (eq2, at₂) ← getTdvpEquation cfg r (bothFinite Eloc2 gradients2) at₁
  let validationErr ← getTdvpError at₂ res1.update
  let (res, at₃) ← tdvpSolve cfg r (some (Eloc, gradients)) at₂
  let validationRes : Flt ℝ := do
    let (S2, F2) ← eq2
    let u ← res1.update
    let R ← res.residual
    if vecNorm F2 = 0 ∨ R = 0 then none
    else some (vecNorm (fun i => Matrix.mulVec S2 (fun j => (u j : ℂ)) i - F2 i) / vecNorm F2 / R)
  let errRatio : Flt ℝ := do
    let a ← validationErr
    let b ← metaData.tdvpError
    if b = 0 then none else some (a / b)
  let at₄ := { at₃ with metaData := some { metaData with
    crossValidation := some (validationRes, errRatio) } }
  let (eq, at₅) ← getTdvpEquation cfg r (some (Eloc, gradients)) at₄
  return (res.update, { at₅ with S := some (eq.map Prod.fst) })

/-- tdvp.py:219-326 `__call__`, on rank `r`. Simplifications: timings are not modelled, the sampler
samples from the same `psi`. -/
noncomputable def tdvpCall {smp : Type} (env : TdvpEnv n smp) (cfg : TdvpCfg n) (r : ℕ)
    (netParameters : List ℝ) (t : ℝ) (intStep : Option ℕ) (sm : smp) (at₀ : TdvpAttrs n) :
    PsiM (Flt (Fin (n + 1) → ℝ) × TdvpAttrs n × smp) := do
  let tmpParameters ← getParameters
  setParameters (.vec netParameters)
  let params ← getParams
  let (joint, sm') ← match params with
    | none => throw .attributeError
    | some p => PsiM.lift (env.measure p sm t)
  let Eloc ← PsiM.lift (SObs.create (World.map (fun s => (s.1, s.2.1)) joint))
  let gradients ← PsiM.lift (SObs.create (World.map (fun s => (s.1, s.2.2)) joint))
  let (res, at₁) ← PsiM.lift (tdvpSolve cfg r (some (Eloc, gradients)) at₀)
  match tmpParameters with
  | none => throw .typeError
  | some v => setParameters (.vec v)
  if intStep = some 0 then
    let at₂ := { at₁ with eloc0 := at₁.eqn.map fun e => e.map fun x => (x.elocMean, x.elocVar) }
    let err ← PsiM.lift (getTdvpError at₂ res.update)
    let metaData : TdvpMeta n := ⟨err, res.residual, res.cutoff, at₂.snr.getD fun _ => .nan,
      (at₂.spectrum.getD none).map fun sp => sp.ev, none⟩
    let at₃ := { at₂ with metaData := some metaData }
    if cfg.crossValidation then
      let (update, at₄) ← PsiM.lift (crossValidate cfg r Eloc gradients metaData at₃)
      return (update, at₄, sm')
    else return (res.update, at₃, sm')
  else return (res.update, at₁, sm')

end JVMC
