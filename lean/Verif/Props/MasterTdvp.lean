import Mathlib.Analysis.ODE.Gronwall
import Mathlib.Analysis.Calculus.Deriv.Prod
import Mathlib.Analysis.SpecialFunctions.ExpDeriv
import Verif.Props.Accuracy
import Verif.Props.PovmMany
import Verif.Props.PovmObs
import Verif.Spec.MasterTdvp

/-!
# C101 — TDVP for distributions follows the master equation

The network is real, the samples are weighted with the distribution `exp(log P) / ∑ exp(log P)` and
`rhsPrefactor = -1`. `distribution`, `probVelocity`, `fisherLength`, `Conserves`, `RateSolution` are
defined in `Spec/MasterTdvp`.
-/

namespace JVMC

open Spec Matrix Set

section

variable {n : ℕ} {C : Type} [Fintype C] [DecidableEq C] {kernel : C → List (C × ℂ)} {A : Matrix C C ℝ}

/-- What a TDVP step for a distribution works with: a generator with real matrix elements that conserves
the total probability, a real network with its gradients, and samples weighted with its distribution. -/
structure MasterStep (kernel : C → List (C × ℂ)) (A : Matrix C C ℝ)
    (logP : (Fin (n + 1) → ℝ) → C → ℝ) (θ : Fin (n + 1) → ℝ) (grads : C → Fin (n + 1) → ℂ)
    (w : World (C × ℂ × ℝ)) : Prop where
  operator : OperatorOf kernel (A.map Complex.ofReal)
  conserves : Conserves A
  differentiable : ∀ s, DifferentiableAt ℝ (fun p => logP p s) θ
  gradients : ∀ s k, grads s k = ((fderiv ℝ (fun p => logP p s) θ (Pi.single k 1) : ℝ) : ℂ)
  samples : SamplesOf (fun c => (logP θ c : ℂ)) w
  weights : ExactWeights (distribution (logP θ)) (weighted w)

theorem MasterStep.nonneg {logP : (Fin (n + 1) → ℝ) → C → ℝ} {θ : Fin (n + 1) → ℝ}
    {grads : C → Fin (n + 1) → ℂ} {w : World (C × ℂ × ℝ)}
    (h : MasterStep kernel A logP θ grads w) : ∀ x ∈ allSamples w, 0 ≤ x.2.2 :=
  fun x hx => h.weights.nonneg (x.2.2, x.1) (List.mem_map.mpr ⟨x, hx, rfl⟩)

omit [DecidableEq C] in
theorem distribution_pos (logP : C → ℝ) (s : C) : 0 < distribution logP s := by
  unfold distribution
  have : 0 < ∑ c, Real.exp (logP c) :=
    Finset.sum_pos (fun _ _ => Real.exp_pos _) ⟨s, Finset.mem_univ s⟩
  have := Real.exp_pos (logP s)
  positivity

omit [DecidableEq C] in
theorem distribution_total [Nonempty C] (logP : C → ℝ) : ∑ s, distribution logP s = 1 := by
  unfold distribution
  rw [← Finset.sum_div, div_self]
  obtain ⟨s⟩ := ‹Nonempty C›
  exact (Finset.sum_pos (fun _ _ => Real.exp_pos _) ⟨s, Finset.mem_univ s⟩).ne'

omit [DecidableEq C] in
/-- The derivative of the distribution along a curve of parameters. -/
theorem distribution_deriv {logP : (Fin (n + 1) → ℝ) → C → ℝ} {θ : ℝ → Fin (n + 1) → ℝ}
    {u : Fin (n + 1) → ℝ} {S : Set ℝ} {t : ℝ} (hθ : HasDerivWithinAt θ u S t)
    (hd : ∀ s, DifferentiableAt ℝ (fun p => logP p s) (θ t)) (s : C) :
    HasDerivWithinAt (fun τ => distribution (logP (θ τ)) s)
      (distribution (logP (θ t)) s * (fderiv ℝ (fun p => logP p s) (θ t) u
        - ∑ c, distribution (logP (θ t)) c * fderiv ℝ (fun p => logP p c) (θ t) u)) S t := by
  have h1 : ∀ c, HasDerivWithinAt (fun τ => Real.exp (logP (θ τ) c))
      (Real.exp (logP (θ t) c) * fderiv ℝ (fun p => logP p c) (θ t) u) S t := fun c =>
    ((hd c).hasFDerivAt.comp_hasDerivWithinAt t hθ).exp
  have hZ : (∑ c, Real.exp (logP (θ t) c)) ≠ 0 :=
    (Finset.sum_pos (fun _ _ => Real.exp_pos _) ⟨s, Finset.mem_univ s⟩).ne'
  have h2 : HasDerivWithinAt (fun τ => ∑ c, Real.exp (logP (θ τ) c))
      (∑ c, Real.exp (logP (θ t) c) * fderiv ℝ (fun p => logP p c) (θ t) u) S t :=
    HasDerivWithinAt.fun_sum fun c _ => h1 c
  refine ((h1 s).fun_div h2 hZ).congr_deriv ?_
  unfold distribution
  have h3 : ∑ c, Real.exp (logP (θ t) c) / (∑ c, Real.exp (logP (θ t) c))
        * fderiv ℝ (fun p => logP p c) (θ t) u
      = (∑ c, Real.exp (logP (θ t) c) * fderiv ℝ (fun p => logP p c) (θ t) u)
        / ∑ c, Real.exp (logP (θ t) c) := by
    rw [Finset.sum_div]
    exact Finset.sum_congr rfl fun c _ => by ring
  rw [h3]
  field_simp

omit [DecidableEq C] in
theorem probVelocity_fderiv {logP : (Fin (n + 1) → ℝ) → C → ℝ} {θ : Fin (n + 1) → ℝ}
    (hd : ∀ s, DifferentiableAt ℝ (fun p => logP p s) θ) (v : Fin (n + 1) → ℝ) (s : C) :
    probVelocity logP θ v s = distribution (logP θ) s * (fderiv ℝ (fun p => logP p s) θ v
        - ∑ c, distribution (logP θ) c * fderiv ℝ (fun p => logP p c) θ v) := by
  have h1 : HasDerivAt (fun τ : ℝ => θ + τ • v) v 0 := by
    have := ((hasDerivAt_id (0 : ℝ)).smul_const v).const_add θ
    simpa using this
  have h2 := distribution_deriv (logP := logP) (h1.hasDerivWithinAt (s := univ))
    (by simpa using hd) s
  rw [hasDerivWithinAt_univ] at h2
  unfold probVelocity
  rw [h2.deriv]
  simp

omit [DecidableEq C] in
/-- No probability is created. -/
theorem probVelocity_total [Nonempty C] {logP : (Fin (n + 1) → ℝ) → C → ℝ} {θ : Fin (n + 1) → ℝ}
    (hd : ∀ s, DifferentiableAt ℝ (fun p => logP p s) θ) (v : Fin (n + 1) → ℝ) :
    ∑ s, probVelocity logP θ v s = 0 := by
  simp only [probVelocity_fderiv hd, mul_sub, Finset.sum_sub_distrib]
  rw [← Finset.sum_mul, distribution_total, one_mul, sub_self]

omit [DecidableEq C] in
theorem conserves_total {A : Matrix C C ℝ} (hA : Conserves A) (p : C → ℝ) : ∑ s, (A *ᵥ p) s = 0 := by
  unfold Matrix.mulVec dotProduct
  rw [Finset.sum_comm]
  simp only [← Finset.sum_mul, hA _, zero_mul, Finset.sum_const_zero]

theorem fderiv_gradients {logP : (Fin (n + 1) → ℝ) → C → ℝ} {θ : Fin (n + 1) → ℝ}
    {grads : C → Fin (n + 1) → ℂ} {w : World (C × ℂ × ℝ)}
    (hst : MasterStep kernel A logP θ grads w) (v : Fin (n + 1) → ℝ) (s : C) :
    ∑ k, (v k : ℂ) * grads s k = ((fderiv ℝ (fun p => logP p s) θ v : ℝ) : ℂ) := by
  have hv : v = ∑ k, v k • (Pi.single k (1 : ℝ) : Fin (n + 1) → ℝ) := by
    funext i
    simp [Finset.sum_apply, Pi.single_apply]
  conv_rhs => rw [hv]
  rw [map_sum, Complex.ofReal_sum]
  refine Finset.sum_congr rfl fun k _ => ?_
  rw [map_smul, hst.gradients s k]
  simp

omit [DecidableEq C] in
/-- The local estimators of a rate equation. -/
theorem localValue_rate (A : Matrix C C ℝ) (logP : C → ℝ) (s : C) :
    localValue (A.map Complex.ofReal) (fun c => Complex.exp (logP c)) s
      = (((A *ᵥ distribution logP) s / distribution logP s : ℝ) : ℂ) := by
  set p := distribution logP with hp
  set ψ : C → ℂ := fun c => Complex.exp (logP c) with hψ
  obtain ⟨Z, hZd⟩ : ∃ Z, Z = ∑ c, Real.exp (logP c) := ⟨_, rfl⟩
  have hZ : 0 < Z := by
    rw [hZd]
    exact Finset.sum_pos (fun _ _ => Real.exp_pos _) ⟨s, Finset.mem_univ s⟩
  have hpos : ∀ s, 0 < p s := fun s => distribution_pos _ s
  have hpψ : ∀ s, ψ s = (Z : ℂ) * (p s : ℂ) := by
    intro s
    rw [hψ, hp]
    unfold distribution
    beta_reduce
    rw [← hZd, ← Complex.ofReal_exp, ← Complex.ofReal_mul, mul_div_cancel₀ _ hZ.ne']
  have hZc : (Z : ℂ) ≠ 0 := by exact_mod_cast hZ.ne'
  have hpc : (p s : ℂ) ≠ 0 := by exact_mod_cast (hpos s).ne'
  have h1 : (A.map Complex.ofReal *ᵥ ψ) s
      = (Z : ℂ) * (((A *ᵥ p) s : ℝ) : ℂ) := by
    change ∑ c, (A.map Complex.ofReal) s c * ψ c = (Z : ℂ) * ((∑ c, A s c * p c : ℝ) : ℂ)
    rw [Complex.ofReal_sum, Finset.mul_sum]
    refine Finset.sum_congr rfl fun c _ => ?_
    rw [hpψ c, Matrix.map_apply]
    push_cast
    ring
  unfold localValue
  rw [h1, hpψ s]
  push_cast
  field_simp

/-- C101: with exactly weighted samples, the distance computed from the samples is the distance, in the
Fisher-Rao metric, between the velocity of the distribution if the parameters move with `v`, and the
right-hand side `A P` of the rate equation. -/
theorem c101_distance [Nonempty C] {logP : (Fin (n + 1) → ℝ) → C → ℝ} {θ : Fin (n + 1) → ℝ}
    {grads : C → Fin (n + 1) → ℂ} {w : World (C × ℂ × ℝ)}
    (hst : MasterStep kernel A logP θ grads w) (v : Fin (n + 1) → ℝ) :
    tdvpDistance (allSamples (tdvpJoint (A.map Complex.ofReal) (fun c => Complex.exp (logP θ c)) grads w))
        (-1) v
      = fisherLength (distribution (logP θ)) fun s => probVelocity logP θ v s
        - (A *ᵥ distribution (logP θ)) s := by
  set p := distribution (logP θ) with hp
  set ψ : C → ℂ := fun c => Complex.exp (logP θ c) with hψ
  set f : C → ℝ := fun s => fderiv ℝ (fun p => logP p s) θ v with hf
  have hpos : ∀ s, 0 < p s := fun s => distribution_pos _ s
  have hloc : ∀ s, localValue (A.map Complex.ofReal) ψ s = (((A *ᵥ p) s / p s : ℝ) : ℂ) :=
    localValue_rate A (logP θ)
  have hmean : ∀ {ι : Type} (g : C → ι → ℂ) (i : ι),
      wMean (allSamples (World.map (fun x => (x.2.2, g x.1)) w)) i = ∑ s, (p s : ℂ) * g s i := by
    intro ι g i
    have h := sum_weighted (weighted w) fun s => g s i
    simp only [hst.weights.exact] at h
    rw [← h]
    unfold wMean weighted
    rw [allSamples_wmap, List.map_map, List.map_map]
    induction allSamples w with
    | nil => simp
    | cons a l ih =>
      rw [List.map_cons, List.sum_cons, List.map_cons, List.sum_cons, ← ih, Pi.add_apply]
      simp
  have m1 := fun k => hmean grads k
  have m2 := hmean (fun s (_ : Fin 1) => localValue (A.map Complex.ofReal) ψ s) 0
  unfold tdvpDistance tdvpJoint
  rw [allSamples_wmap]
  simp only [allSamples_wmap] at m1 m2
  simp only [List.map_map, Function.comp_def] at m1 m2 ⊢
  simp only [m1, m2]
  have hE : ∑ s, (p s : ℂ) * localValue (A.map Complex.ofReal) ψ s = 0 := by
    have h0 := conserves_total hst.conserves p
    have h1 : ∀ s, (p s : ℂ) * localValue (A.map Complex.ofReal) ψ s = (((A *ᵥ p) s : ℝ) : ℂ) := by
      intro s
      rw [hloc s, ← Complex.ofReal_mul, mul_div_cancel₀ _ (hpos s).ne']
    simp only [h1]
    rw [← Complex.ofReal_sum, h0, Complex.ofReal_zero]
  have hcen : ∀ s, ∑ k, (v k : ℂ) * (grads s k - ∑ s', (p s' : ℂ) * grads s' k)
      + (-1) * (localValue (A.map Complex.ofReal) ψ s
        - ∑ s', (p s' : ℂ) * localValue (A.map Complex.ofReal) ψ s')
      = ((f s - ∑ c, p c * f c - (A *ᵥ p) s / p s : ℝ) : ℂ) := by
    intro s
    have e1 : ∑ k, (v k : ℂ) * ∑ s', (p s' : ℂ) * grads s' k = ((∑ c, p c * f c : ℝ) : ℂ) := by
      rw [Complex.ofReal_sum]
      simp only [Finset.mul_sum]
      rw [Finset.sum_comm]
      refine Finset.sum_congr rfl fun c _ => ?_
      rw [Complex.ofReal_mul, hf, ← fderiv_gradients hst v c, Finset.mul_sum]
      exact Finset.sum_congr rfl fun k _ => by ring
    rw [hE, hloc s]
    simp only [mul_sub, Finset.sum_sub_distrib]
    rw [e1, fderiv_gradients hst v s]
    change ((f s : ℝ) : ℂ) - _ + _ = _
    push_cast
    ring
  have hsum := sum_weighted_real (weighted w) fun s =>
    Complex.normSq ((f s - ∑ c, p c * f c - (A *ᵥ p) s / p s : ℝ) : ℂ)
  simp only [hst.weights.exact] at hsum
  have hR : fisherLength p (fun s => probVelocity logP θ v s - (A *ᵥ p) s)
      = ∑ s, p s * Complex.normSq ((f s - ∑ c, p c * f c - (A *ᵥ p) s / p s : ℝ) : ℂ) := by
    unfold fisherLength
    refine Finset.sum_congr rfl fun s _ => ?_
    rw [Complex.normSq_ofReal]
    beta_reduce
    rw [probVelocity_fderiv hst.differentiable, ← hp]
    change (p s * (f s - ∑ c, p c * f c) - (A *ᵥ p) s) ^ 2 / p s = _
    have := (hpos s).ne'
    field_simp
  rw [hR]
  refine Eq.trans ?_ hsum
  unfold weighted
  rw [List.map_map]
  congr 1
  apply List.map_congr_left
  intro y _
  rw [hcen y.1]
  rfl

/-! ## The update -/

/-- C101: without diagonal shift and with `makeReal="real"`, if the eigenvalues other than zero are at
least `κ > 1e-14` of the largest, then for all velocities `v` of the parameters: the distribution moving
with the update is at least as close to the rate equation as the distribution moving with `v`, up to `δ²`
times the distance when standing still; `δ = 1 - 1 / (1 + (cutoff/κ)^6)`. -/
theorem c101_best [Nonempty C] (logP : (Fin (n + 1) → ℝ) → C → ℝ)
    (θ : Fin (n + 1) → ℝ) (grads : C → Fin (n + 1) → ℂ) (w : World (C × ℂ × ℝ))
    (hst : MasterStep kernel A logP θ grads w) (cfg : TdvpCfg n) (heigh : EighCorrect cfg)
    (hpre : cfg.rhsPrefactor = -1)
    (hq : cfg.makeReal ≠ "imag") (hs : 0 ≤ cfg.diagonalShift ∧ cfg.diagonalShift ≤ 1e-10)
    (hex : cfg.isExact = true) (hc : 0 < cfg.pinvCutoff) (zeroCfg : C) (b : ℤ) (r : ℕ)
    (hr : r < List.length w) (at₀ at₁ : TdvpAttrs n) (res : SolveRes n)
    (hres : tdvpSolveSamples cfg r kernel ⟨fun c => (logP θ c : ℂ), true⟩ zeroCfg b grads w at₀
      = .ok (res, at₁))
    (sp : TdvpSpectrum n) (hsp : at₁.spectrum = some (some sp)) (hmax : sp.ev (Fin.last n) ≠ 0)
    (κ : ℝ) (hκ : 1e-14 < κ) (hgap : ∀ k, sp.ev k = 0 ∨ κ ≤ |sp.ev k| / |sp.ev (Fin.last n)|) :
    ∃ u, res.update = some u ∧ ∀ v : Fin (n + 1) → ℝ,
      fisherLength (distribution (logP θ)) (fun s => probVelocity logP θ u s
          - (A *ᵥ distribution (logP θ)) s)
        ≤ (1 - missOf 1 res.cutoff κ ^ 2) * fisherLength (distribution (logP θ))
            (fun s => probVelocity logP θ v s - (A *ᵥ distribution (logP θ)) s)
          + missOf 1 res.cutoff κ ^ 2
            * fisherLength (distribution (logP θ)) (A *ᵥ distribution (logP θ)) := by
  obtain ⟨E, G, hi, heq⟩ := solveSamples_input hst.operator ⟨fun c => (logP θ c : ℂ), true⟩ rfl zeroCfg b w
    hst.samples hst.nonneg cfg r hr grads
  rw [heq] at hres
  have hSF := getTdvpEquation_eq cfg r _ hi.devices hi.weights hi.rank E G hi.data at₀
  have hspec : sp = tdvpEigenbasis cfg (specQS cfg (allSamples
        (tdvpJoint (A.map Complex.ofReal) (fun c => Complex.exp (logP θ c)) grads w)))
      (specQF cfg (allSamples
        (tdvpJoint (A.map Complex.ofReal) (fun c => Complex.exp (logP θ c)) grads w))) := by
    have h := solve_spectrum cfg r _ E G hi at₀ at₁ res hres
    rw [hsp] at h
    exact Option.some.inj (Option.some.inj h)
  have hev : cfg.eigh (specQS cfg (allSamples
        (tdvpJoint (A.map Complex.ofReal) (fun c => Complex.exp (logP θ c)) grads w)))
      = (sp.ev, sp.V) := by rw [hspec]; rfl
  obtain ⟨u, hu, hopt⟩ := c88_optimal cfg heigh hq hs r _ E G hi at₀ at₁ _ _ _ hSF res hres sp.ev sp.V hev
    hmax hc κ 1 hκ hgap zero_le_one le_rfl (fun _ => 1) (Or.inl hex)
  refine ⟨u, hu, fun v => ?_⟩
  have h := hopt v
  rw [hpre, c101_distance hst, c101_distance hst, c101_distance hst] at h
  have h0 : fisherLength (distribution (logP θ)) (fun s => probVelocity logP θ 0 s
      - (A *ᵥ distribution (logP θ)) s)
      = fisherLength (distribution (logP θ)) (A *ᵥ distribution (logP θ)) := by
    unfold fisherLength
    refine Finset.sum_congr rfl fun s _ => ?_
    beta_reduce
    rw [probVelocity_fderiv hst.differentiable]
    simp
  rw [h0] at h
  exact h

/-- C101: if some velocities `v` of the parameters follow the rate equation exactly and no eigenvalue is
below `κ > 1e-14` of the largest, the update is `v` up to `δ ‖v‖`, whatever `makeReal`. -/
theorem c101_exact [Nonempty C] (logP : (Fin (n + 1) → ℝ) → C → ℝ)
    (θ : Fin (n + 1) → ℝ) (grads : C → Fin (n + 1) → ℂ) (w : World (C × ℂ × ℝ))
    (hst : MasterStep kernel A logP θ grads w) (cfg : TdvpCfg n) (heigh : EighCorrect cfg)
    (hpre : cfg.rhsPrefactor = -1) (hs : cfg.diagonalShift ≤ 1e-10)
    (hex : cfg.isExact = true) (hc : 0 < cfg.pinvCutoff) (zeroCfg : C) (b : ℤ) (r : ℕ)
    (hr : r < List.length w) (at₀ at₁ : TdvpAttrs n) (res : SolveRes n)
    (hres : tdvpSolveSamples cfg r kernel ⟨fun c => (logP θ c : ℂ), true⟩ zeroCfg b grads w at₀
      = .ok (res, at₁))
    (sp : TdvpSpectrum n) (hsp : at₁.spectrum = some (some sp)) (hmax : sp.ev (Fin.last n) ≠ 0)
    (κ : ℝ) (hκ : 1e-14 < κ) (hgap : ∀ k, κ ≤ |sp.ev k| / |sp.ev (Fin.last n)|)
    (v : Fin (n + 1) → ℝ)
    (hv : ∀ s, probVelocity logP θ v s = (A *ᵥ distribution (logP θ)) s) :
    ∃ u, res.update = some u ∧
      euclid (fun i => ((u i - v i : ℝ) : ℂ)) ≤ missOf 1 res.cutoff κ * euclid fun i => (v i : ℂ) := by
  obtain ⟨E, G, hi, heq⟩ := solveSamples_input hst.operator ⟨fun c => (logP θ c : ℂ), true⟩ rfl zeroCfg b w
    hst.samples hst.nonneg cfg r hr grads
  rw [heq] at hres
  have hSF := getTdvpEquation_eq cfg r _ hi.devices hi.weights hi.rank E G hi.data at₀
  have hspec : sp = tdvpEigenbasis cfg (specQS cfg (allSamples
        (tdvpJoint (A.map Complex.ofReal) (fun c => Complex.exp (logP θ c)) grads w)))
      (specQF cfg (allSamples
        (tdvpJoint (A.map Complex.ofReal) (fun c => Complex.exp (logP θ c)) grads w))) := by
    have h := solve_spectrum cfg r _ E G hi at₀ at₁ res hres
    rw [hsp] at h
    exact Option.some.inj (Option.some.inj h)
  have hev : cfg.eigh (specQS cfg (allSamples
        (tdvpJoint (A.map Complex.ofReal) (fun c => Complex.exp (logP θ c)) grads w)))
      = (sp.ev, sp.V) := by rw [hspec]; rfl
  refine c88_exact_velocity cfg heigh hs r _ E G hi at₀ at₁ _ _ _ hSF res hres sp.ev sp.V hev
    hmax hc κ 1 hκ hgap zero_le_one le_rfl (fun _ => 1) (Or.inl hex) v ?_
  rw [hpre, c101_distance hst]
  unfold fisherLength
  exact Finset.sum_eq_zero fun s _ => by simp [hv s]

/-! ## Averages of observables -/

omit [DecidableEq C] in
/-- A small change of the distribution changes all averages little. -/
theorem mean_change (p r o : C → ℝ) (hp : ∀ s, 0 < p s) (hr : ∑ s, r s = 0) :
    (∑ s, r s * o s) ^ 2 ≤ outcomeVar p o * fisherLength p r := by
  have h1 : ∑ s, r s * o s = ∑ s, (r s / √(p s)) * (√(p s) * (o s - outcomeMean p o)) := by
    have h2 : ∀ s, (r s / √(p s)) * (√(p s) * (o s - outcomeMean p o))
        = r s * o s - r s * outcomeMean p o := by
      intro s
      have := (Real.sqrt_pos.mpr (hp s)).ne'
      field_simp
    simp only [h2, Finset.sum_sub_distrib]
    rw [← Finset.sum_mul, hr, zero_mul, sub_zero]
  rw [h1]
  refine (Finset.sum_mul_sq_le_sq_mul_sq _ _ _).trans (le_of_eq ?_)
  unfold outcomeVar fisherLength
  rw [mul_comm]
  congr 1
  · refine Finset.sum_congr rfl fun s _ => ?_
    rw [mul_pow, Real.sq_sqrt (hp s).le]
  · refine Finset.sum_congr rfl fun s _ => ?_
    rw [div_pow, Real.sq_sqrt (hp s).le]

/-- A call of a `TDVP` object with `intStep=0` and `rhsPrefactor=-1` for the parameters `θ`, with exactly
weighted samples: it returned the velocities `u`; afterwards `"tdvp_error"` in its metadata is `d` and
`ElocVar0` is `var`. Everything else (regularisation, real or imaginary parts, cross validation, earlier
calls, state of the network and the sampler, ranks) is arbitrary. -/
def RateReport (kernel : C → List (C × ℂ)) (A : Matrix C C ℝ) (logP : (Fin (n + 1) → ℝ) → C → ℝ)
    (θ u : Fin (n + 1) → ℝ) (d var : ℝ) : Prop :=
  ∃ (smp : Type) (env : TdvpEnv n smp) (cfg : TdvpCfg n) (r : ℕ) (time : ℝ) (sm sm' : smp)
    (at₀ at₁ : TdvpAttrs n) (st : NqsInit) (st' : NqsState) (p : Params)
    (grads : C → Fin (n + 1) → ℂ) (w : World (C × ℂ × ℝ)) (m : TdvpMeta n) (E : ℂ),
    cfg.rhsPrefactor = -1 ∧ paramUnflatten st.realParams st.sizes (List.ofFn θ) = .ok p ∧
    MasterStep kernel A logP θ grads w ∧ r < List.length w ∧
    env.measure p sm time = .ok (tdvpJoint (A.map Complex.ofReal)
      (fun c => Complex.exp (logP θ c)) grads w, sm') ∧
    (tdvpCall env cfg r (List.ofFn θ) time (some 0) sm at₀).call (some st)
      = (.ok (some u, at₁, sm'), st') ∧
    at₁.metaData = some m ∧ m.tdvpError = some d ∧ at₁.eloc0 = some (some (E, var))

/-- C101: the product of the reported error and variance is the distance of the distribution moving with
the update from the rate equation. -/
theorem c101_reported [Nonempty C] {logP : (Fin (n + 1) → ℝ) → C → ℝ} {θ u : Fin (n + 1) → ℝ}
    {d var : ℝ} (h : RateReport kernel A logP θ u d var) :
    fisherLength (distribution (logP θ)) (fun s => probVelocity logP θ u s
      - (A *ᵥ distribution (logP θ)) s) = d * var ∧
      (∀ s, DifferentiableAt ℝ (fun p => logP p s) θ) ∧ Conserves A := by
  obtain ⟨smp, env, cfg, r, time, sm, sm', at₀, at₁, st, st', p, grads, w, m, E, hpre, hp, hst, hr, hm,
    hcall, hmeta, herr, hel⟩ := h
  refine ⟨?_, hst.differentiable, hst.conserves⟩
  set joint := tdvpJoint (A.map Complex.ofReal) (fun c => Complex.exp (logP θ c)) grads w with hj
  have h1 : ∀ rk ∈ joint, rk ≠ [] := World.map_ne _ _ hst.samples.devices
  have h2 : ∀ s ∈ allSamples joint, 0 ≤ s.1 := by
    intro s hs
    rw [hj] at hs
    unfold tdvpJoint at hs
    rw [allSamples_wmap] at hs
    obtain ⟨y, hy, rfl⟩ := List.mem_map.mp hs
    exact hst.nonneg y hy
  have h3 : r < List.length joint := by simpa [hj, tdvpJoint, World.map] using hr
  obtain ⟨hv, hnan⟩ := call_variance env cfg r _ time sm sm' at₀ at₁ st st' _ p hp joint hm h1 h2 h3 hcall
  rw [hel] at hv
  have hvar : var = wVar ((allSamples joint).map fun s => (s.1, s.2.1)) 0 :=
    congrArg Prod.snd (Option.some.inj (Option.some.inj hv))
  by_cases h0 : wVar ((allSamples joint).map fun s => (s.1, s.2.1)) 0 = 0
  · obtain ⟨m', hm', hd'⟩ := hnan h0
    rw [hmeta] at hm'
    obtain rfl := Option.some.inj hm'
    rw [herr] at hd'
    cases hd'
  · obtain ⟨m', hm', hd'⟩ := c46_metadata env cfg (by rw [hpre]; simp) r _ time sm sm' at₀ at₁ st st' u p
      hp joint hm h1 h2 h3 h0 hcall
    rw [hmeta] at hm'
    obtain rfl := Option.some.inj hm'
    rw [herr] at hd'
    rw [Option.some.inj hd', hvar, div_mul_cancel₀ _ h0, hpre, hj, c101_distance hst]

/-- C101 for observables: the rate of change of the average of any function of the outcomes deviates from
what the rate equation demands by at most its standard deviation times the root of the product of the
reported error and variance. -/
theorem c101_observable_rate [Nonempty C] {logP : (Fin (n + 1) → ℝ) → C → ℝ} {θ u : Fin (n + 1) → ℝ}
    {d var : ℝ} (h : RateReport kernel A logP θ u d var) (o : C → ℝ) :
    |deriv (fun τ : ℝ => outcomeMean (distribution (logP (θ + τ • u))) o) 0
        - outcomeMean (A *ᵥ distribution (logP θ)) o|
      ≤ √(outcomeVar (distribution (logP θ)) o * (d * var)) := by
  obtain ⟨h1, hd, hA⟩ := c101_reported h
  have hder : deriv (fun τ : ℝ => outcomeMean (distribution (logP (θ + τ • u))) o) 0
      = ∑ s, probVelocity logP θ u s * o s := by
    have hl : HasDerivAt (fun τ : ℝ => θ + τ • u) u 0 := by
      have := ((hasDerivAt_id (0 : ℝ)).smul_const u).const_add θ
      simpa using this
    have h2 := fun s => distribution_deriv (logP := logP) (hl.hasDerivWithinAt (s := univ))
      (by simpa using hd) s
    simp only [hasDerivWithinAt_univ] at h2
    have h3 : HasDerivAt (fun τ : ℝ => outcomeMean (distribution (logP (θ + τ • u))) o) _ 0 :=
      HasDerivAt.fun_sum fun s _ => (h2 s).mul_const (o s)
    rw [h3.deriv]
    refine Finset.sum_congr rfl fun s _ => ?_
    rw [probVelocity_fderiv hd]
    simp
  rw [hder]
  apply Real.abs_le_sqrt
  rw [← h1]
  have h4 := mean_change (distribution (logP θ)) (fun s => probVelocity logP θ u s
    - (A *ᵥ distribution (logP θ)) s) o (fun s => distribution_pos _ s) (by
      rw [Finset.sum_sub_distrib, probVelocity_total hd, conserves_total hA, sub_self])
  refine le_trans (le_of_eq ?_) h4
  unfold outcomeMean
  rw [← Finset.sum_sub_distrib]
  congr 1
  exact Finset.sum_congr rfl fun s _ => by ring

/-! ## Whole trajectories -/

omit [DecidableEq C] in
theorem l1_fisher (p r : C → ℝ) (hp : ∀ s, 0 < p s) (hp1 : ∑ s, p s = 1) :
    ∑ s, |r s| ≤ √(fisherLength p r) := by
  apply Real.le_sqrt_of_sq_le
  have h1 : ∑ s, |r s| = ∑ s, (|r s| / √(p s)) * √(p s) :=
    Finset.sum_congr rfl fun s _ => by
      have := (Real.sqrt_pos.mpr (hp s)).ne'
      field_simp
  rw [h1]
  refine (Finset.sum_mul_sq_le_sq_mul_sq _ _ _).trans (le_of_eq ?_)
  have h2 : ∑ s, √(p s) ^ 2 = 1 := by
    rw [← hp1]
    exact Finset.sum_congr rfl fun s _ => Real.sq_sqrt (hp s).le
  rw [h2, mul_one]
  unfold fisherLength
  refine Finset.sum_congr rfl fun s _ => ?_
  rw [div_pow, Real.sq_sqrt (hp s).le, sq_abs]

/-- Functions with the norm `∑ |r|`. -/
noncomputable def toL1 (r : C → ℝ) : PiLp 1 fun _ : C => ℝ := WithLp.toLp 1 r

omit [DecidableEq C] in
theorem toL1_norm (r : C → ℝ) : ‖toL1 r‖ = ∑ s, |r s| := by
  rw [PiLp.norm_eq_of_nat 1 (by norm_num)]
  simp [toL1]

omit [DecidableEq C] in
theorem toL1_deriv {f : ℝ → C → ℝ} {f' : C → ℝ} {S : Set ℝ} {t : ℝ}
    (h : ∀ s, HasDerivWithinAt (fun τ => f τ s) (f' s) S t) :
    HasDerivWithinAt (fun τ => toL1 (f τ)) (toL1 f') S t := by
  have h1 : HasDerivWithinAt f f' S t := hasDerivWithinAt_pi.mpr h
  exact ((PiLp.continuousLinearEquiv 1 ℝ fun _ : C => ℝ).symm.toContinuousLinearMap.hasFDerivAt
    |>.comp_hasDerivWithinAt t h1)

omit [DecidableEq C] in
theorem rate_bound (A : Matrix C C ℝ) (M : ℝ) (hM : ∀ s', ∑ s, |A s s'| ≤ M) (r : C → ℝ) :
    ∑ s, |(A *ᵥ r) s| ≤ M * ∑ s, |r s| := by
  calc ∑ s, |(A *ᵥ r) s| ≤ ∑ s, ∑ s', |A s s'| * |r s'| := by
        refine Finset.sum_le_sum fun s _ => ?_
        change |∑ s', A s s' * r s'| ≤ _
        refine (Finset.abs_sum_le_sum_abs _ _).trans (le_of_eq ?_)
        exact Finset.sum_congr rfl fun s' _ => abs_mul _ _
    _ = ∑ s', (∑ s, |A s s'|) * |r s'| := by
        rw [Finset.sum_comm]
        exact Finset.sum_congr rfl fun s' _ => by rw [Finset.sum_mul]
    _ ≤ _ := by
        rw [Finset.mul_sum]
        exact Finset.sum_le_sum fun s' _ => mul_le_mul_of_nonneg_right (hM s') (abs_nonneg _)

/-- C101 for whole trajectories: let the parameters move with TDVP velocities. If the reported numbers
satisfy `tdvp_error * ElocVar0 ≤ ε²` along the way and the columns of `A` have `∑ |A| ≤ M`, then the
distribution of the network stays close to the solution `q` of the rate equation. -/
theorem c101_trajectory [Nonempty C] (logP : (Fin (n + 1) → ℝ) → C → ℝ) {T : ℝ} (hT : 0 ≤ T)
    (θ u : ℝ → Fin (n + 1) → ℝ) (d var : ℝ → ℝ)
    (hθ : ∀ t ∈ Icc 0 T, HasDerivWithinAt θ (u t) (Icc 0 T) t)
    (hcall : ∀ t ∈ Icc 0 T, RateReport kernel A logP (θ t) (u t) (d t) (var t))
    (ε : ℝ) (hε0 : 0 ≤ ε) (hε : ∀ t ∈ Icc 0 T, d t * var t ≤ ε ^ 2)
    (M : ℝ) (hM0 : 0 < M) (hM : ∀ s', ∑ s, |A s s'| ≤ M) (q : ℝ → C → ℝ) (hq : RateSolution A q T) :
    l1Distance (distribution (logP (θ T))) (q T)
      ≤ l1Distance (distribution (logP (θ 0))) (q 0) * Real.exp (M * T)
        + ε / M * (Real.exp (M * T) - 1) := by
  set f : ℝ → C → ℝ := fun t s => distribution (logP (θ t)) s - q t s with hf
  set f' : ℝ → C → ℝ := fun t s => probVelocity logP (θ t) (u t) s - (A *ᵥ q t) s with hf'
  have hder : ∀ t ∈ Icc 0 T, HasDerivWithinAt (fun τ => toL1 (f τ)) (toL1 (f' t)) (Icc 0 T) t := by
    intro t ht
    apply toL1_deriv
    intro s
    have hd := (c101_reported (hcall t ht)).2.1
    have h1 := distribution_deriv (logP := logP) (hθ t ht) hd s
    rw [← probVelocity_fderiv hd] at h1
    exact h1.fun_sub (hq t ht s)
  have hb : ∀ t ∈ Ico 0 T, ‖toL1 (f' t)‖ ≤ M * ‖toL1 (f t)‖ + ε := by
    intro t ht
    have ht' := Ico_subset_Icc_self ht
    obtain ⟨h1, hd, -⟩ := c101_reported (hcall t ht')
    rw [toL1_norm, toL1_norm]
    have h2 : ∀ s, f' t s = (probVelocity logP (θ t) (u t) s - (A *ᵥ distribution (logP (θ t))) s)
        + (A *ᵥ f t) s := by
      intro s
      have : f t = distribution (logP (θ t)) - q t := rfl
      rw [this, Matrix.mulVec_sub, hf']
      simp
    have h3 : ∑ s, |probVelocity logP (θ t) (u t) s - (A *ᵥ distribution (logP (θ t))) s| ≤ ε := by
      refine (l1_fisher (distribution (logP (θ t))) _ (fun s => distribution_pos _ s)
        (distribution_total _)).trans ?_
      rw [h1]
      exact Real.sqrt_le_iff.mpr ⟨hε0, hε t ht'⟩
    calc ∑ s, |f' t s| ≤ ∑ s, (|probVelocity logP (θ t) (u t) s - (A *ᵥ distribution (logP (θ t))) s|
            + |(A *ᵥ f t) s|) := Finset.sum_le_sum fun s _ => by rw [h2 s]; exact abs_add_le _ _
      _ ≤ ε + M * ∑ s, |f t s| := by
          rw [Finset.sum_add_distrib]
          exact add_le_add h3 (rate_bound A M hM (f t))
      _ = _ := add_comm _ _
  have hg := norm_le_gronwallBound_of_norm_deriv_right_le (δ := ‖toL1 (f 0)‖) (K := M) (ε := ε)
    (fun t ht => (hder t ht).continuousWithinAt)
    (fun t ht => (hder t (Ico_subset_Icc_self ht)).mono_of_mem_nhdsWithin (Icc_mem_nhdsGE_of_mem ht))
    le_rfl hb T (right_mem_Icc.mpr hT)
  rw [gronwallBound_of_K_ne_0 hM0.ne', sub_zero, toL1_norm, toL1_norm] at hg
  exact hg

/-- C101, in particular: averages over the outcomes stay close to those of the solution of the rate
equation. -/
theorem c101_trajectory_average [Nonempty C] (logP : (Fin (n + 1) → ℝ) → C → ℝ) {T : ℝ} (hT : 0 ≤ T)
    (θ u : ℝ → Fin (n + 1) → ℝ) (d var : ℝ → ℝ)
    (hθ : ∀ t ∈ Icc 0 T, HasDerivWithinAt θ (u t) (Icc 0 T) t)
    (hcall : ∀ t ∈ Icc 0 T, RateReport kernel A logP (θ t) (u t) (d t) (var t))
    (ε : ℝ) (hε0 : 0 ≤ ε) (hε : ∀ t ∈ Icc 0 T, d t * var t ≤ ε ^ 2)
    (M : ℝ) (hM0 : 0 < M) (hM : ∀ s', ∑ s, |A s s'| ≤ M) (q : ℝ → C → ℝ) (hq : RateSolution A q T)
    (h0 : q 0 = distribution (logP (θ 0))) (o : C → ℝ) (B : ℝ) (hB : ∀ s, |o s| ≤ B) :
    |outcomeMean (distribution (logP (θ T))) o - outcomeMean (q T) o|
      ≤ B * (ε / M * (Real.exp (M * T) - 1)) := by
  have h1 := c101_trajectory logP hT θ u d var hθ hcall ε hε0 hε M hM0 hM q hq
  have h2 : l1Distance (distribution (logP (θ 0))) (q 0) = 0 := by
    rw [h0]
    simp [l1Distance]
  rw [h2, zero_mul, zero_add] at h1
  obtain ⟨s₀⟩ := ‹Nonempty C›
  have hB0 : 0 ≤ B := (abs_nonneg _).trans (hB s₀)
  refine le_trans ?_ (mul_le_mul_of_nonneg_left h1 hB0)
  unfold outcomeMean l1Distance
  rw [← Finset.sum_sub_distrib, Finset.mul_sum]
  refine (Finset.abs_sum_le_sum_abs _ _).trans (Finset.sum_le_sum fun s _ => ?_)
  rw [← sub_mul, abs_mul, mul_comm]
  exact mul_le_mul_of_nonneg_right (hB s) (abs_nonneg _)

/-! ## Networks that can follow the rate equation -/

section follow

/-- All configurations on one device, with the weights of the exact sampler. -/
noncomputable def followWorld (logP : (Fin 1 → ℝ) → C → ℝ) (θ : Fin 1 → ℝ) : World (C × ℂ × ℝ) :=
  [[Finset.univ.toList.map fun s => (s, (logP θ s : ℂ), distribution (logP θ) s)]]

noncomputable def followGrads (A : Matrix C C ℝ) (logP : (Fin 1 → ℝ) → C → ℝ) (θ : Fin 1 → ℝ) (s : C) :
    Fin 1 → ℂ :=
  fun _ => (((A *ᵥ distribution (logP θ)) s / distribution (logP θ) s : ℝ) : ℂ)

/-- `TDVP(sampler, rhsPrefactor=-1, pinvTol=-1, pinvCutoff=1e-6, makeReal="real")` with an exact sampler. -/
noncomputable def followCfg : TdvpCfg 0 :=
  ⟨2, -1, 1e-6, "real", -1, 0, false, true, 2, someEigh⟩

omit [DecidableEq C] in
theorem followWorld_samples (logP : (Fin 1 → ℝ) → C → ℝ) (θ : Fin 1 → ℝ) :
    allSamples (followWorld logP θ)
      = Finset.univ.toList.map fun s => (s, (logP θ s : ℂ), distribution (logP θ) s) := by
  simp [followWorld, allSamples]

theorem follow_step [Nonempty C] {logP : (Fin 1 → ℝ) → C → ℝ} {θ : Fin 1 → ℝ}
    (hop : OperatorOf kernel (A.map Complex.ofReal)) (hA : Conserves A)
    (hd : ∀ s, HasFDerivAt (fun p => logP p s) (((A *ᵥ distribution (logP θ)) s / distribution (logP θ) s) •
      (ContinuousLinearMap.proj 0 : (Fin 1 → ℝ) →L[ℝ] ℝ)) θ) :
    MasterStep kernel A logP θ (followGrads A logP θ) (followWorld logP θ) := by
  refine ⟨hop, hA, fun s => (hd s).differentiableAt, ?_, ⟨by simp [followWorld], ?_, ?_⟩, ?_, ?_⟩
  · intro s k
    rw [(hd s).fderiv, Fin.fin_one_eq_zero k]
    simp [followGrads]
  · intro rk hrk dev hdev
    simp only [followWorld, List.mem_singleton] at hrk
    subst hrk
    rw [List.mem_singleton] at hdev
    subst hdev
    simp [Finset.univ_eq_empty_iff]
  · intro x hx
    rw [followWorld_samples] at hx
    obtain ⟨s, -, rfl⟩ := List.mem_map.mp hx
    rfl
  · intro x hx
    unfold weighted at hx
    rw [followWorld_samples] at hx
    simp only [List.map_map, List.mem_map] at hx
    obtain ⟨s, -, rfl⟩ := hx
    exact (distribution_pos _ s).le
  · intro s
    unfold weightOf weighted
    rw [followWorld_samples, List.map_map]
    have hn : (Finset.univ : Finset C).toList.Nodup := Finset.nodup_toList _
    have hm : s ∈ (Finset.univ : Finset C).toList := Finset.mem_toList.mpr (Finset.mem_univ s)
    have e : (List.filter (fun x : ℝ × C => decide (x.2 = s)) ((Finset.univ : Finset C).toList.map
        ((fun x : C × ℂ × ℝ => (x.2.2, x.1)) ∘ fun s => (s, (logP θ s : ℂ), distribution (logP θ) s))))
        = [(distribution (logP θ) s, s)] := by
      rw [List.filter_map]
      have : List.filter ((fun x : ℝ × C => decide (x.2 = s)) ∘ ((fun x : C × ℂ × ℝ => (x.2.2, x.1)) ∘
          fun s => (s, (logP θ s : ℂ), distribution (logP θ) s))) (Finset.univ : Finset C).toList = [s] := by
        have h2 := List.filter_eq (l := (Finset.univ : Finset C).toList) s
        rw [List.count_eq_one_of_mem hn hm] at h2
        rw [List.replicate_one] at h2
        rw [← h2]
        apply List.filter_congr
        intro x _
        simp [eq_comm]
      rw [this]
      rfl
    rw [e]
    simp

theorem follow_equation (l : List (ℝ × (Fin 1 → ℂ) × (Fin 1 → ℂ))) (hsame : ∀ s ∈ l, s.2.1 = s.2.2) :
    specQS followCfg l = (Matrix.of fun _ _ => ((wVar (l.map fun s => (s.1, s.2.1)) 0 : ℝ) : ℂ)) ∧
    specQF followCfg l = fun _ => ((wVar (l.map fun s => (s.1, s.2.1)) 0 : ℝ) : ℂ) := by
  have hm : (l.map fun s => (s.1, s.2.2)) = l.map fun s => (s.1, s.2.1) :=
    List.map_congr_left fun s hs => by rw [hsame s hs]
  have hS : wCross (l.map fun s => (s.1, s.2.2, s.2.2)) 0 0
      = ((wVar (l.map fun s => (s.1, s.2.1)) 0 : ℝ) : ℂ) := by
    unfold wCross wVar
    simp only [List.map_map, Function.comp_def]
    rw [hm]
    generalize wMean (l.map fun s => (s.1, s.2.1)) 0 = z
    induction l with
    | nil => simp
    | cons a l ih => 
      have ih' := ih (fun s hs => hsame s (List.mem_cons_of_mem _ hs))
        (List.map_congr_left fun s hs => by rw [hsame s (List.mem_cons_of_mem _ hs)])
      simp only [List.map_cons, List.sum_cons, ih', Complex.ofReal_add]
      rw [← hsame a List.mem_cons_self, ← Complex.normSq_eq_conj_mul_self]
      push_cast
      ring
  have hF : (l.map fun s => (s.1, s.2.2, s.2.1)) = l.map fun s => (s.1, s.2.2, s.2.2) :=
    List.map_congr_left fun s hs => by rw [hsame s hs]
  constructor
  · unfold specQS
    rw [if_neg (by norm_num [followCfg])]
    ext i j
    rw [Fin.fin_one_eq_zero i, Fin.fin_one_eq_zero j]
    have e : specS l 0 0 = _ := hS
    simp only [Matrix.of_apply, e]
    simp only [TdvpCfg.q, followCfg]
    simp
  · funext i
    rw [Fin.fin_one_eq_zero i]
    have e : specF l 0 = _ := (congrArg (fun l => wCross l 0 0) hF).trans hS
    simp only [specQF, e]
    simp only [TdvpCfg.q, followCfg, neg_neg, one_mul]
    simp

theorem follow_distance (l : List (ℝ × (Fin 1 → ℂ) × (Fin 1 → ℂ))) (hsame : ∀ s ∈ l, s.2.1 = s.2.2)
    (c : ℝ) : tdvpDistance l (-1) (fun _ => c)
      = (1 - c) ^ 2 * wVar (l.map fun s => (s.1, s.2.1)) 0 := by
  have hm : (l.map fun s => (s.1, s.2.2)) = l.map fun s => (s.1, s.2.1) :=
    List.map_congr_left fun s hs => by rw [hsame s hs]
  unfold tdvpDistance wVar
  rw [hm, List.map_map, ← List.sum_map_mul_left]
  congr 1
  apply List.map_congr_left
  intro s hs
  rw [← hsame s hs, Fin.sum_univ_one]
  simp only [Function.comp_def]
  rw [← add_mul, Complex.normSq_mul, show (c : ℂ) + -1 = ((c - 1 : ℝ) : ℂ) by push_cast; ring,
    Complex.normSq_ofReal]
  ring

/-- `solve` with one parameter and `pinvTol < 0`. -/
theorem follow_solve (joint : World (ℝ × (Fin 1 → ℂ) × (Fin 1 → ℂ)))
    (hsame : ∀ s ∈ allSamples joint, s.2.1 = s.2.2)
    (hσ : 0 < wVar ((allSamples joint).map fun s => (s.1, s.2.1)) 0) (E : SObs (Fin 1)) (G : SObs (Fin 1))
    (hi : TdvpInput joint 0 E G) (at₀ at₁ : TdvpAttrs 0) (res : SolveRes 0)
    (hres : tdvpSolve followCfg 0 (some (E, G)) at₀ = .ok (res, at₁)) :
    res.update = some fun _ => 1 / (1 + (1e-6) ^ 6) := by
  obtain ⟨σ, hs⟩ : ∃ σ : ℝ, σ = wVar ((allSamples joint).map fun s => (s.1, s.2.1)) 0 := ⟨_, rfl⟩
  obtain ⟨hQS, hQF⟩ := follow_equation _ hsame
  rw [← hs] at hQS hQF hσ
  have hSF := getTdvpEquation_eq followCfg 0 joint hi.devices hi.weights hi.rank E G hi.data at₀
  rw [hQS, hQF] at hSF
  have hE : EighCorrect followCfg := someEigh_correct _ rfl
  have hH : (Matrix.of fun _ _ => (σ : ℂ) : Matrix (Fin 1) (Fin 1) ℂ).IsHermitian := by
    ext i j
    simp [Matrix.conjTranspose_apply]
  obtain ⟨ev, V, hVe⟩ : ∃ ev V, followCfg.eigh (Matrix.of fun _ _ => (σ : ℂ)) = (ev, V) := ⟨_, _, rfl⟩
  have hEi := hE _ hH
  rw [hVe] at hEi
  have hun : (starRingEnd ℂ) (V 0 0) * V 0 0 = 1 := by
    have := congrFun (congrFun hEi.unitary 0) 0
    simpa [Matrix.mul_apply] using this
  have hV0 : V 0 0 ≠ 0 := fun h => by rw [h] at hun; simp at hun
  have hev : ev 0 = σ := by
    have := congrFun (congrFun hEi.decomp 0) 0
    rw [Matrix.mul_diagonal, Matrix.mul_apply] at this
    simp at this
    have h2 : (σ : ℂ) = (ev 0 : ℂ) := by
      refine mul_right_cancel₀ hV0 (this.trans ?_)
      ring
    exact_mod_cast h2.symm
  have hlast : ev (Fin.last 0) = σ := hev
  have hup := c45_formula_snr followCfg 0 joint E G hi at₀ at₁ _ _ _ hSF res hres ev V hVe
    (by rw [hlast]; exact hσ.ne') (by norm_num [followCfg]) (fun _ => 1) (Or.inl rfl)
  have hcut : res.cutoff = 1e-6 := by
    obtain ⟨u, hu⟩ : ∃ u, res.update = some u := ⟨_, hup⟩
    obtain ⟨snr, s₀, _, _, _, hf, hu'⟩ := solve_ok followCfg 0 joint E G hi at₀ at₁ res hres
    rw [hQS, hQF] at hf hu'
    set sp := tdvpEigenbasis followCfg (Matrix.of fun _ _ => (σ : ℂ)) (fun _ => (σ : ℂ)) with hsp
    have hu'' := Except.ok.inj hu'
    have hc' : res.cutoff = max (s₀.cutoff * (4 / 5)) 1e-6 := by rw [← hu'']; rfl
    rw [← hu''] at hu
    dsimp only at hu
    unfold pinvCond pinvBody at hf
    dsimp only at hf
    cases hp : allFinite (fun k => (tdvpRegularizer followCfg sp snr (s₀.cutoff * (4 / 5)) k).map
        fun g => sp.invEv k * g) with
    | none =>
      rw [hp] at hu
      cases hu
    | some p =>
      rw [hp] at hf
      have hF : vecNorm (fun _ : Fin 1 => (σ : ℂ)) ≠ 0 := by
        have h5 : 0 < σ * σ := mul_pos hσ hσ
        simp [vecNorm, (Real.sqrt_pos.mpr h5).ne']
      simp only [if_neg hF, Bool.and_eq_false_iff, decide_eq_false_iff_not, not_lt] at hf
      rcases hf with h | h
      · exfalso
        have h3 : (0 : ℝ) ≤ vecNorm (fun k => ((p k * sp.ev k - 1 : ℝ) : ℂ) * sp.VtF k)
            / vecNorm (fun _ : Fin 1 => (σ : ℂ)) := by
          unfold vecNorm
          positivity
        have h4 : followCfg.pinvTol = -1 := rfl
        linarith
      · have h4 : followCfg.pinvCutoff = 1e-6 := rfl
        rw [h4] at h
        rw [hc', max_eq_right h]
  rw [hup, hcut]
  congr 1
  funext i
  have hi0 : i = 0 := Fin.fin_one_eq_zero i
  subst hi0
  have e1 : |ev 0| / |ev (Fin.last 0)| = 1 := by
    rw [hlast, hev, div_self (abs_ne_zero.mpr hσ.ne')]
  change (∑ k : Fin 1, V 0 k * _ * (∑ j : Fin 1, (starRingEnd ℂ) (V j k) * (σ : ℂ))).re = _
  rw [Fin.sum_univ_one]
  rw [Fin.sum_univ_one, e1]
  rw [if_pos (by norm_num), hev]
  have e2 : V 0 0 * (((1 / σ * (1 / (1 + (1e-6 / 1) ^ 6)) * if followCfg.isExact = true then 1 else 1 : ℝ)) : ℂ)
      * ((starRingEnd ℂ) (V 0 0) * (σ : ℂ)) = ((1 / (1 + (1e-6) ^ 6) : ℝ) : ℂ) := by
    have : (σ : ℂ) ≠ 0 := by exact_mod_cast hσ.ne'
    rw [ite_self]
    push_cast
    have h3 : ∀ x : ℂ, V 0 0 * (1 / σ * x * 1) * ((starRingEnd ℂ) (V 0 0) * σ) = x := by
      intro x
      calc _ = ((starRingEnd ℂ) (V 0 0) * V 0 0) * x * (1 / σ * σ) := by ring
        _ = x := by rw [hun, one_div_mul_cancel this]; ring
    rw [h3, div_one]
  rw [e2, Complex.ofReal_re]

omit [DecidableEq C] in
theorem follow_same (A : Matrix C C ℝ) (logP : (Fin 1 → ℝ) → C → ℝ) (θ : Fin 1 → ℝ) :
    ∀ s ∈ allSamples (tdvpJoint (A.map Complex.ofReal) (fun c => Complex.exp (logP θ c))
      (followGrads A logP θ) (followWorld logP θ)), s.2.1 = s.2.2 := by
  intro x hx
  unfold tdvpJoint at hx
  rw [allSamples_wmap] at hx
  obtain ⟨y, -, rfl⟩ := List.mem_map.mp hx
  funext i
  exact localValue_rate A (logP θ) y.1

theorem follow_var [Nonempty C] {logP : (Fin 1 → ℝ) → C → ℝ} {θ : Fin 1 → ℝ}
    (hstep : MasterStep kernel A logP θ (followGrads A logP θ) (followWorld logP θ)) :
    wVar ((allSamples (tdvpJoint (A.map Complex.ofReal) (fun c => Complex.exp (logP θ c))
      (followGrads A logP θ) (followWorld logP θ))).map fun s => (s.1, s.2.1)) 0
      = fisherLength (distribution (logP θ)) (A *ᵥ distribution (logP θ)) := by
  have h := c101_distance hstep 0
  rw [distance_expand _ _ (by simp)] at h
  have hz : ∀ s, probVelocity logP θ 0 s = 0 := fun s => by
    rw [probVelocity_fderiv hstep.differentiable]
    simp
  simp only [hz, zero_sub] at h
  have : fisherLength (distribution (logP θ)) (fun s => -(A *ᵥ distribution (logP θ)) s)
      = fisherLength (distribution (logP θ)) (A *ᵥ distribution (logP θ)) := by
    simp [fisherLength]
  rw [this] at h
  rw [← h]
  simp

omit [DecidableEq C] in
theorem fisherLength_pos (p r : C → ℝ) (hp : ∀ s, 0 < p s) (hne : r ≠ 0) : 0 < fisherLength p r := by
  obtain ⟨s, hs⟩ := Function.ne_iff.mp hne
  exact Finset.sum_pos' (fun c _ => div_nonneg (sq_nonneg _) (hp c).le)
    ⟨s, Finset.mem_univ s, div_pos (sq_pos_of_ne_zero hs) (hp s)⟩

/-- C101: a network with one parameter that can follow the rate equation exactly does so: the call returns
the velocity `1/(1 + 10^-36)` instead of `1`. -/
theorem c101_follows [Nonempty C] {logP : (Fin 1 → ℝ) → C → ℝ} {θ : Fin 1 → ℝ}
    (hop : OperatorOf kernel (A.map Complex.ofReal)) (hA : Conserves A)
    (hd : ∀ s, HasFDerivAt (fun p => logP p s) (((A *ᵥ distribution (logP θ)) s / distribution (logP θ) s) •
      (ContinuousLinearMap.proj 0 : (Fin 1 → ℝ) →L[ℝ] ℝ)) θ)
    (hne : A *ᵥ distribution (logP θ) ≠ 0) :
    RateReport kernel A logP θ (fun _ => 1 / (1 + (1e-6) ^ 6)) ((1 - 1 / (1 + (1e-6) ^ 6)) ^ 2)
      (fisherLength (distribution (logP θ)) (A *ᵥ distribution (logP θ))) := by
  have hstep := follow_step hop hA hd
  set joint := tdvpJoint (A.map Complex.ofReal) (fun c => Complex.exp (logP θ c)) (followGrads A logP θ)
    (followWorld logP θ) with hj
  have hpos : 0 < fisherLength (distribution (logP θ)) (A *ᵥ distribution (logP θ)) :=
    fisherLength_pos _ _ (distribution_pos _) hne
  have hsame : ∀ s ∈ allSamples joint, s.2.1 = s.2.2 := follow_same A logP θ
  have hvarE := follow_var hstep
  rw [← hvarE] at hpos ⊢
  obtain ⟨E, G, hi⟩ := tdvpInput_exists joint 0 (World.map_ne _ _ hstep.samples.devices) (by
    intro x hx
    rw [hj] at hx
    unfold tdvpJoint at hx
    rw [allSamples_wmap] at hx
    obtain ⟨y, hy, rfl⟩ := List.mem_map.mp hx
    exact hstep.nonneg y hy) (by simp [hj, tdvpJoint, World.map, followWorld])
  have hp : paramUnflatten (Params.real [[(0 : ℝ)]]).isReal (Params.real [[(0 : ℝ)]]).sizes (List.ofFn θ)
      = .ok (.real [[θ 0]]) := by
    have := flattenParams_unflatten (.real [[θ 0]])
    simpa [flattenParams, Params.isReal, Params.sizes] using this
  let env : TdvpEnv 0 Unit := ⟨fun _ _ _ => .ok (joint, ())⟩
  have hinit : nqsRun (.real [[0]]) [.eval] ≠ none :=
    (c25_initialised_iff _ _).mpr ⟨.eval, List.mem_singleton_self _, rfl⟩
  obtain ⟨u', at₁, hc⟩ := c44_returns env followCfg (by norm_num [followCfg]) (by norm_num [followCfg])
    (by norm_num [followCfg]) 0 (List.ofFn θ) 0 (some 0) () () {} (.real [[0]]) [.eval]
    (by simp [NqsOp.Fits]) hinit _ hp joint rfl hi.devices hi.weights hi.rank
  obtain ⟨st, hst⟩ := Option.ne_none_iff_exists'.mp hinit
  have hw := wf_run _ _ (by simp [NqsOp.Fits]) st hst
  rw [hst] at hc
  have hp' : paramUnflatten st.realParams st.sizes (List.ofFn θ) = .ok (.real [[θ 0]]) := by
    rw [hw.1, hw.2.1]
    exact hp
  have huu : u' = some fun _ => 1 / (1 + (1e-6) ^ 6) := by
    obtain ⟨q, joint₂, E', G', res', atS', p', -, hm₂, hd, hs, -, -, -, hz⟩ :=
      tdvpCall_ok env followCfg 0 (List.ofFn θ) 0 (some 0) () () {} at₁ st (some st) u' hc
    obtain ⟨rfl, -⟩ := Prod.mk.inj (Except.ok.inj hm₂)
    obtain ⟨err, -, hf, -⟩ := hz rfl
    have h1' := hi.data
    obtain rfl : E' = E := Except.ok.inj (hd.1.symm.trans h1'.1)
    obtain rfl : G' = G := Except.ok.inj (hd.2.symm.trans h1'.2)
    rw [(hf rfl).1, follow_solve joint hsame hpos E' G' hi {} _ res' hs]
  rw [huu] at hc
  have hv := call_variance env followCfg 0 (List.ofFn θ) 0 () () {} at₁ st (some st) _ _ hp' joint rfl
    hi.devices hi.weights hi.rank hc
  obtain ⟨m, hm1, hm2⟩ := c46_metadata env followCfg (by simp [followCfg]) 0 (List.ofFn θ) 0 () () {} at₁ st
    (some st) _ _ hp' joint rfl hi.devices hi.weights hi.rank hpos.ne' hc
  have hm3 : m.tdvpError = some ((1 - 1 / (1 + (1e-6 : ℝ) ^ 6)) ^ 2) := by
    rw [hm2]
    congr 1
    rw [show followCfg.rhsPrefactor = -1 from rfl, follow_distance _ hsame, mul_div_assoc, div_self hpos.ne',
      mul_one]
  exact ⟨Unit, env, followCfg, 0, 0, (), (), {}, at₁, st, some st, _, followGrads A logP θ,
    followWorld logP θ, m, _, rfl, hp', hstep, by simp [followWorld], rfl, hc, hm1, hm3, hv.1⟩

/-- The network with one parameter `t` whose distribution is `q(t)`. -/
noncomputable def curveLog (q : ℝ → C → ℝ) (θ : Fin 1 → ℝ) (s : C) : ℝ := Real.log (q (θ 0) s)

omit [DecidableEq C] in
theorem curveLog_distribution (q : ℝ → C → ℝ) (θ : Fin 1 → ℝ) (hpos : ∀ s, 0 < q (θ 0) s)
    (hone : ∑ s, q (θ 0) s = 1) : distribution (curveLog q θ) = q (θ 0) := by
  funext s
  unfold distribution curveLog
  simp only [Real.exp_log (hpos _)]
  rw [hone, div_one]

/-- C101: the same for the network that parametrises a solution of the rate equation by the time. -/
theorem c101_follows_solution [Nonempty C] (hop : OperatorOf kernel (A.map Complex.ofReal)) (hA : Conserves A)
    (q : ℝ → C → ℝ) (t : ℝ) (hpos : ∀ s, 0 < q t s) (hone : ∑ s, q t s = 1)
    (hq : ∀ s, HasDerivAt (fun τ => q τ s) ((A *ᵥ q t) s) t) (hne : A *ᵥ q t ≠ 0) :
    RateReport kernel A (curveLog q) (fun _ => t) (fun _ => 1 / (1 + (1e-6) ^ 6))
      ((1 - 1 / (1 + (1e-6) ^ 6)) ^ 2) (fisherLength (q t) (A *ᵥ q t)) := by
  have hdis : distribution (curveLog q fun _ => t) = q t := curveLog_distribution q _ hpos hone
  have h := c101_follows (logP := curveLog q) (θ := fun _ => t) hop hA (fun s => by
    rw [hdis]
    have h1 := (hq s).log (hpos s).ne'
    have h2 := HasDerivAt.comp_hasFDerivAt (h₂ := fun τ => Real.log (q τ s)) (fun _ : Fin 1 => t) h1
      (ContinuousLinearMap.proj (R := ℝ) (φ := fun _ : Fin 1 => ℝ) 0).hasFDerivAt
    exact h2) (by rw [hdis]; exact hne)
  rw [hdis] at h
  exact h

end follow

end

/-! ## Samples -/

/-- C101: with `logProbFactor=1` the exact sampler returns every outcome with its probability, for every
number of ranks and devices for which the split of the basis is even (see C09), whatever was sampled
before. -/
theorem c101_exact_sampler (d N D s : ℕ) [NeZero d] (hl : 2 ≤ d) (hD : 0 < D) (hs : 0 < s)
    (hbig : s ≤ d ^ N)
    (hdiv : ∀ r < s, ∀ n g, distributeSampling s r (d ^ N) none 1 = .ok (n, g) → D ∣ n)
    (lastNorm : ℝ) (logP : (Fin N → Fin d) → ℝ) :
    ∃ ln' w, exactSampleWorld d N D s (toConfig N d) 1 lastNorm (fun c => (logP c : ℂ)) = .ok (ln', w) ∧
      List.length w = s ∧ SamplesOf (fun c => (logP c : ℂ)) w ∧
      ExactWeights (distribution logP) (weighted w) := by
  obtain ⟨W, basis, ln', hb, hlen, hdev, hfull, hkept, hw⟩ :=
    exactSampleWorld_eq d N D s hl hD hs (toConfig N d) 1 lastNorm (by norm_num) fun c => (logP c : ℂ)
  obtain ⟨basis', hb', hnd, hcount, hcov⟩ := c09_exactly_once_divisible d N D s hl hD hs hdiv
  obtain rfl := Except.ok.inj (hb.symm.trans hb')
  refine ⟨ln', _, hw, by simpa [World.map] using hlen, ⟨?_, ?_, ?_⟩, ?_⟩
  · apply World.map_ne
    intro rk hrk he
    have := hdev rk hrk
    rw [he] at this
    simp at this
    omega
  · intro rk hrk dev hd
    obtain ⟨rk', h', rfl⟩ := List.mem_map.mp hrk
    obtain ⟨dev', h'', rfl⟩ := List.mem_map.mp hd
    simpa using hfull hbig rk' h' dev' h''
  · intro x hx
    rw [allSamples_wmap] at hx
    obtain ⟨e, _, rfl⟩ := List.mem_map.mp hx
    rfl
  · have hdn : (basis.map (toConfig N d)).Nodup := by
      apply List.Nodup.map_on _ hnd
      intro x hx y hy h
      exact toConfig_inj N d x y ((hcov x).1 hx) ((hcov y).1 hy) h
    have hall : ∀ c, c ∈ basis.map (toConfig N d) := by
      intro c
      obtain ⟨l, hl, rfl⟩ := toConfig_surj N d c
      exact List.mem_map.mpr ⟨l, (hcov l).2 hl, rfl⟩
    have hZ : partitionSum 1 (basis.map fun c => ((logP (toConfig N d c) : ℝ) : ℂ))
        = ∑ c, Real.exp (logP c) := by
      unfold partitionSum
      have h1 := List.sum_toFinset (fun c => Real.exp (logP c)) hdn
      rw [show (basis.map (toConfig N d)).toFinset = Finset.univ from
        Finset.eq_univ_iff_forall.2 fun c => List.mem_toFinset.2 (hall c)] at h1
      rw [h1, List.map_map, List.map_map]
      simp only [Function.comp_def, Complex.ofReal_re, div_one]
    have hwt : weighted (World.map (fun e => (toConfig N d e.2, ((logP (toConfig N d e.2) : ℝ) : ℂ),
        if e.1 = true then bornProb 1 (basis.map fun c => ((logP (toConfig N d c) : ℝ) : ℂ))
          ((logP (toConfig N d e.2) : ℝ) : ℂ) else 0)) W)
        = (allSamples W).map fun e => ((if e.1 then distribution logP (toConfig N d e.2) else 0),
          toConfig N d e.2) := by
      unfold weighted
      rw [allSamples_wmap, List.map_map]
      apply List.map_congr_left
      intro e _
      simp only [Function.comp_apply, bornProb, hZ, Complex.ofReal_re, div_one, distribution]
    rw [hwt]
    constructor
    · intro x hx
      obtain ⟨e, _, rfl⟩ := List.mem_map.mp hx
      dsimp only
      split
      · exact (distribution_pos _ _).le
      · exact le_rfl
    · intro c
      refine (weight_kept (allSamples W) (toConfig N d) (distribution logP) c).trans ?_
      rw [hkept, List.count_eq_one_of_mem hdn (hall c)]
      simp

/-- Case: two spins (16 outcomes) on two ranks with two devices each. -/
example : 2 ≤ 4 ^ 2 ∧ ∀ r < 2, ∀ n g, distributeSampling 2 r (4 ^ 2) none 1 = .ok (n, g) → 2 ∣ n := by
  refine ⟨by norm_num, ?_⟩
  intro r hr n g h
  rcases (by omega : r = 0 ∨ r = 1) with rfl | rfl <;>
  · simp [distributeSampling, samplesPerProcess] at h
    omega

/-! ## Master equations -/

section povm

variable {N : ℕ}

/-- Every list of numbers is the list of outcome "probabilities" of a matrix `ρ`. -/
theorem outcomeProb_surjective {V : Type} [Fintype V] [DecidableEq V]
    (M : Fin 4 → Matrix (Fin 2) (Fin 2) ℂ) (Tinv : Matrix (Fin 4) (Fin 4) ℂ)
    (hT : povmOverlap M * Tinv = 1) (p : (V → Fin 4) → ℂ) :
    ∃ ρ, ∀ s, outcomeProb (productPovm M) ρ s = p s := by
  have hT' : Tinv * povmOverlap M = 1 := mul_eq_one_comm.mp hT
  have hD : ∀ a c, ((∑ b, Tinv a b • M b) * M c).trace = if a = c then 1 else 0 := by
    intro a c
    have h := congrFun (congrFun hT' a) c
    rw [Matrix.mul_apply, Matrix.one_apply] at h
    rw [← h, Matrix.sum_mul, Matrix.trace_sum]
    refine Finset.sum_congr rfl fun b _ => ?_
    rw [Matrix.smul_mul, Matrix.trace_smul, povmOverlap_eq_trace, smul_eq_mul]
  refine ⟨∑ a : V → Fin 4, p a • siteMat fun k => ∑ b, Tinv (a k) b • M b, fun s => ?_⟩
  unfold outcomeProb
  rw [Matrix.sum_mul, Matrix.trace_sum]
  have h : ∀ a : V → Fin 4, ((p a • siteMat fun k => ∑ b, Tinv (a k) b • M b) * productPovm M s).trace
      = if a = s then p a else 0 := by
    intro a
    rw [Matrix.smul_mul, Matrix.trace_smul, productPovm, siteMat_mul, siteMat_trace, smul_eq_mul]
    simp only [hD]
    by_cases has : a = s
    · subst has
      simp
    · rw [if_neg has]
      obtain ⟨k, hk⟩ := Function.ne_iff.mp has
      rw [Finset.prod_eq_zero (Finset.mem_univ k) (if_neg hk), mul_zero]
  simp only [h]
  simp

/-- The matrix of the rate equation that a compiled `POVMOperator` stands for. -/
noncomputable def rateMatrix (c : ℕ × List (List (Fin N) × LocMat ℝ)) :
    Matrix (Config N 4) (Config N 4) ℝ :=
  Matrix.of fun s s' => elementOf (povmSPrimes c s) s'

theorem rateMatrix_kernel (c : ℕ × List (List (Fin N) × LocMat ℝ)) (s s' : Config N 4) :
    elementOf (povmKernel c s) s' = ((rateMatrix c s s' : ℝ) : ℂ) := by
  unfold povmKernel rateMatrix
  rw [Matrix.of_apply]
  induction povmSPrimes c s with
  | nil => simp [elementOf]
  | cons e l ih =>
    unfold elementOf at ih ⊢
    by_cases h : e.1 = s'
    · simp [h, ih]
    · simp [h, ih]

theorem rateMatrix_operator (c : ℕ × List (List (Fin N) × LocMat ℝ))
    (habove : ∀ s, AboveThreshold (povmKernel c s)) :
    OperatorOf (povmKernel c) ((rateMatrix c).map Complex.ofReal) :=
  ⟨fun s s' => by rw [rateMatrix_kernel]; rfl, ⟨_, povmKernel_length c⟩, habove⟩

/-- C101: the rate equations of all master equations conserve the total probability, for all real
vectors, not only for those that belong to states. -/
theorem c101_conserves {M : Fin 4 → Matrix (Fin 2) (Fin 2) ℂ} (hM : IsPovm M)
    (Tinv : Matrix (Fin 4) (Fin 4) ℂ) (hT : povmOverlap M * Tinv = 1)
    (c : ℕ × List (List (Fin N) × LocMat ℝ)) (ts : List (ℝ × MasterTerm N))
    (hc : Generates (productPovm M) (fun s s' => elementOf (povmKernel c s) s') (masterEquation ts)) :
    Conserves (rateMatrix c) := by
  intro s'
  obtain ⟨ρ, hρ⟩ := outcomeProb_surjective (V := Fin N) M Tinv hT (Pi.single s' 1)
  have h := c94_probability hM _ ts hc ρ
  simp only [hρ, rateMatrix_kernel] at h
  have h2 : ∀ s, ∑ x, ((rateMatrix c s x : ℝ) : ℂ) * (Pi.single s' 1 : Config N 4 → ℂ) x
      = ((rateMatrix c s s' : ℝ) : ℂ) := by
    intro s
    rw [Finset.sum_eq_single s']
    · simp
    · intro b _ hb
      simp [Pi.single_eq_of_ne hb]
    · simp
  simp only [h2] at h
  rw [← Complex.ofReal_sum] at h
  exact_mod_cast h

/-- C101: the distribution of the outcomes of a solution of the master equation solves the rate
equation. -/
theorem c101_rate_solution {M : Fin 4 → Matrix (Fin 2) (Fin 2) ℂ} (hM : IsPovm M)
    (c : ℕ × List (List (Fin N) × LocMat ℝ)) (ts : List (ℝ × MasterTerm N))
    (hc : Generates (productPovm M) (fun s s' => elementOf (povmKernel c s) s') (masterEquation ts))
    {T : ℝ} (ρ : ℝ → Matrix (Fin N → Fin 2) (Fin N → Fin 2) ℂ) (hH : ∀ t ∈ Icc 0 T, (ρ t).IsHermitian)
    (hρ : ∀ t ∈ Icc 0 T, ∀ x y, HasDerivWithinAt (fun τ => ρ τ x y) (masterEquation ts (ρ t) x y)
      (Icc 0 T) t) :
    RateSolution (rateMatrix c) (fun t s => (outcomeProb (productPovm M) (ρ t) s).re) T ∧
      ∀ t ∈ Icc 0 T, ∀ s, (outcomeProb (productPovm M) (ρ t) s).im = 0 := by
  have hMH : ∀ s : Config N 4, (productPovm M s).IsHermitian := by
    intro s
    ext i j
    simp only [productPovm, siteMat, Matrix.conjTranspose_apply, Matrix.of_apply, star_prod]
    refine Finset.prod_congr rfl fun k _ => ?_
    exact congrFun (congrFun (hermitian_of_isPovm hM (s k)) (i k)) (j k)
  have him : ∀ t ∈ Icc 0 T, ∀ s, (outcomeProb (productPovm M) (ρ t) s).im = 0 := by
    intro t ht s
    exact c38_prob_real (productPovm M) hMH (ρ t) (hH t ht) s
  refine ⟨?_, him⟩
  intro t ht s
  have h1 : HasDerivWithinAt (fun τ => outcomeProb (productPovm M) (ρ τ) s)
      (outcomeProb (productPovm M) (masterEquation ts (ρ t)) s) (Icc 0 T) t := by
    unfold outcomeProb
    simp only [Matrix.trace, Matrix.diag_apply, Matrix.mul_apply]
    exact HasDerivWithinAt.fun_sum fun x _ => HasDerivWithinAt.fun_sum fun y _ =>
      (hρ t ht x y).mul_const _
  have h2 := (Complex.reCLM.hasFDerivAt.comp_hasDerivWithinAt t h1)
  refine h2.congr_deriv ?_
  rw [← hc (ρ t) s]
  change (∑ b, elementOf (povmKernel c s) b * outcomeProb (productPovm M) (ρ t) b).re
    = ∑ b, rateMatrix c s b * (outcomeProb (productPovm M) (ρ t) b).re
  rw [Complex.re_sum]
  refine Finset.sum_congr rfl fun b _ => ?_
  rw [rateMatrix_kernel, Complex.re_ofReal_mul]

/-- C101 for open quantum systems: after any registrations and `add` calls, let `c` be the compiled
operator, and let the parameters of a real network move with TDVP velocities computed from it, with
`tdvp_error * ElocVar0 ≤ ε²` along the way. If the network starts as the distribution of the outcomes in
the state `ρ(0)`, then for every function of the outcomes its average at time `T` deviates from that in
the solution `ρ(T)` of the master equation by at most `B (ε/K) (e^{KT} - 1)`. -/
theorem c101_master_equation (α β : ℝ) :
    ∃ M, povmInit α β "SIC" = .ok (M, standardReg M) ∧
      ∀ (regCalls : List (RegKind × String × (ℕ × LocMat ℝ)))
        (enum : List (List (Fin N)) → List (List (Fin N))), (∀ l x, x ∈ enum l ↔ x ∈ l) →
      ∀ (terms : List (ℝ × MasterTerm N)), (∀ t ∈ terms, t.2.Proper) →
      ∀ (calls : List (ℕ × Fin terms.length)),
        (∀ c ∈ calls, ∀ c' ∈ calls, c.2 = c'.2 → c.1 = c'.1) →
      ∀ o, (∃ c ∈ calls, c.1 = o) →
      ∃ c, compilePovm ((standardReg M).run regCalls).operators.get? enum
          (((PovmOps.fresh (terms.map termDict)).run
            (calls.map fun c => (c.1, c.2.val))).dicts o) = .ok c ∧
        ∀ (n : ℕ) (logP : (Fin (n + 1) → ℝ) → Config N 4 → ℝ) (T : ℝ), 0 ≤ T →
        ∀ (θ u : ℝ → Fin (n + 1) → ℝ) (d var : ℝ → ℝ) (A : Matrix (Config N 4) (Config N 4) ℝ),
          (∀ t ∈ Icc 0 T, HasDerivWithinAt θ (u t) (Icc 0 T) t) →
          (∀ t ∈ Icc 0 T, RateReport (povmKernel c) A logP (θ t) (u t) (d t) (var t)) →
        ∀ ε, 0 ≤ ε → (∀ t ∈ Icc 0 T, d t * var t ≤ ε ^ 2) →
        ∀ K, 0 < K → (∀ s', ∑ s, |A s s'| ≤ K) →
        ∀ ρ : ℝ → Matrix (Fin N → Fin 2) (Fin N → Fin 2) ℂ, (∀ t ∈ Icc 0 T, (ρ t).IsHermitian) →
          (∀ t ∈ Icc 0 T, ∀ x y, HasDerivWithinAt (fun τ => ρ τ x y)
            (masterEquation ((calls.filter fun c => decide (c.1 = o)).map fun c => terms[c.2]) (ρ t) x y)
            (Icc 0 T) t) →
          (∀ s, outcomeProb (productPovm M) (ρ 0) s = ((distribution (logP (θ 0)) s : ℝ) : ℂ)) →
        ∀ (f : Config N 4 → ℝ) (B : ℝ), (∀ s, |f s| ≤ B) →
          ‖((outcomeMean (distribution (logP (θ T))) f : ℝ) : ℂ)
            - ∑ s, (f s : ℂ) * outcomeProb (productPovm M) (ρ T) s‖
            ≤ B * (ε / K * (Real.exp (K * T) - 1)) := by
  obtain ⟨M, hM, h⟩ := c94_master_equation (N := N) α β
  obtain ⟨M', hM', hP, -, -, hT'⟩ := sic_hypotheses α β
  have hMM : M' = M := by
    unfold povmInit at hM
    rw [hM'] at hM
    exact (Prod.mk.inj (Except.ok.inj hM)).1
  subst hMM
  refine ⟨M', hM, ?_⟩
  intro regCalls enum henum terms hp calls hown o ho
  obtain ⟨c, hc, hgen⟩ := h regCalls enum henum terms hp calls hown o ho
  refine ⟨c, hc, ?_⟩
  intro n logP T hT θ u d var A hθ hcall ε hε0 hε K hK0 hK ρ hH hρ h0 f B hB
  have hA : A = rateMatrix c := by
    obtain ⟨smp, env, cfg, r, time, sm, sm', at₀, at₁, st, st', p, grads, w, m, E, hpre, hp, hst, -⟩ :=
      hcall 0 (left_mem_Icc.mpr hT)
    ext s s'
    have := hst.operator.elements s s'
    rw [rateMatrix_kernel] at this
    exact (Complex.ofReal_inj.mp this).symm
  subst hA
  obtain ⟨hq, him⟩ := c101_rate_solution hP c _ hgen ρ hH hρ
  have hmain := c101_trajectory_average logP hT θ u d var hθ hcall ε hε0 hε K hK0 hK _ hq (by
    funext s
    rw [h0 s, Complex.ofReal_re]) f B hB
  have e : ((outcomeMean (distribution (logP (θ T))) f : ℝ) : ℂ)
      - ∑ s, (f s : ℂ) * outcomeProb (productPovm M') (ρ T) s
      = ((outcomeMean (distribution (logP (θ T))) f
        - outcomeMean (fun s => (outcomeProb (productPovm M') (ρ T) s).re) f : ℝ) : ℂ) := by
    unfold outcomeMean
    push_cast
    congr 1
    refine Finset.sum_congr rfl fun s _ => ?_
    rw [mul_comm]
    congr 1
    exact Complex.ext rfl (by simp [him T (right_mem_Icc.mpr hT) s])
  rw [e, Complex.norm_real, Real.norm_eq_abs]
  exact hmain

end povm


/-! ## A case: two outcomes that relax to equal probabilities -/

def relaxMatrix : Matrix (Fin 2) (Fin 2) ℝ := !![-1, 1; 1, -1]

noncomputable def relaxKernel (s : Fin 2) : List (Fin 2 × ℂ) := [(s, -1), (if s = 0 then 1 else 0, 1)]

theorem relax_conserves : Conserves relaxMatrix := by
  intro s'
  fin_cases s' <;> simp [relaxMatrix, Fin.sum_univ_two]

theorem relax_operator : OperatorOf relaxKernel (relaxMatrix.map Complex.ofReal) := by
  refine ⟨?_, ⟨2, fun _ => rfl⟩, ?_⟩
  · intro s s'
    fin_cases s <;> fin_cases s' <;> simp [relaxKernel, relaxMatrix, elementOf]
  · intro s e he
    right
    simp only [relaxKernel, List.mem_cons, List.not_mem_nil, or_false] at he
    rcases he with rfl | rfl <;> norm_num

/-- `P(s) = (1 ± e^{-2t}/2)/2`. -/
noncomputable def relaxCurve (t : ℝ) (s : Fin 2) : ℝ :=
  (1 + (if s = 0 then -1 else 1) * (Real.exp (-2 * t) / 2)) / 2

theorem relax_deriv (t : ℝ) (s : Fin 2) :
    HasDerivAt (fun τ => relaxCurve τ s) ((relaxMatrix *ᵥ relaxCurve t) s) t := by
  have e1 : HasDerivAt (fun x : ℝ => Real.exp (-2 * x)) (Real.exp (-2 * t) * (-2)) t := by
    have := ((hasDerivAt_id t).const_mul (-2 : ℝ)).exp
    simpa using this
  have e2 := ((((e1.div_const 2).const_mul (if s = 0 then -1 else 1)).const_add 1).div_const 2)
  refine e2.congr_deriv ?_
  unfold relaxCurve
  generalize Real.exp (-2 * t) = a
  fin_cases s <;> simp [relaxMatrix, Matrix.mulVec, dotProduct, Fin.sum_univ_two] <;> ring

theorem relax_pos (t : ℝ) (ht : 0 ≤ t) (s : Fin 2) : 0 < relaxCurve t s := by
  have h1 := Real.exp_pos (-2 * t)
  have h2 : Real.exp (-2 * t) ≤ 1 := Real.exp_le_one_iff.mpr (by linarith)
  unfold relaxCurve
  generalize Real.exp (-2 * t) = a at *
  fin_cases s <;> simp <;> linarith

theorem relax_total (t : ℝ) : ∑ s, relaxCurve t s = 1 := by
  unfold relaxCurve
  rw [Fin.sum_univ_two]
  simp
  ring

theorem relax_moves (t : ℝ) : relaxMatrix *ᵥ relaxCurve t ≠ 0 := by
  intro h
  have h1 := congrFun h 0
  have h2 := Real.exp_pos (-2 * t)
  unfold relaxCurve at h1
  generalize Real.exp (-2 * t) = a at *
  simp [relaxMatrix, Matrix.mulVec, dotProduct, Fin.sum_univ_two] at h1
  linarith

theorem relax_report (t : ℝ) (ht : 0 ≤ t) :
    RateReport relaxKernel relaxMatrix (curveLog relaxCurve) (fun _ => t) (fun _ => 1 / (1 + (1e-6) ^ 6))
      ((1 - 1 / (1 + (1e-6) ^ 6)) ^ 2) (fisherLength (relaxCurve t) (relaxMatrix *ᵥ relaxCurve t)) := by
  exact c101_follows_solution relax_operator relax_conserves relaxCurve t (relax_pos t ht) (relax_total t)
    (relax_deriv t) (relax_moves t)

theorem relax_variance (t : ℝ) (ht : 0 ≤ t) : fisherLength (relaxCurve t) (relaxMatrix *ᵥ relaxCurve t) ≤ 4 := by
  have h1 := Real.exp_pos (-2 * t)
  have h2 : Real.exp (-2 * t) ≤ 1 := Real.exp_le_one_iff.mpr (by linarith)
  unfold fisherLength relaxCurve
  generalize Real.exp (-2 * t) = a at *
  have h3 : (0 : ℝ) < 1 - a / 2 := by linarith
  have h4 : (0 : ℝ) < 1 + a / 2 := by linarith
  have e : ∀ s, (relaxMatrix *ᵥ fun s => (1 + (if s = 0 then -1 else 1) * (a / 2)) / 2) s
      = (if s = 0 then 1 else -1) * (a / 2) := by
    intro s
    fin_cases s <;> simp [relaxMatrix, Matrix.mulVec, dotProduct, Fin.sum_univ_two] <;> ring
  simp only [e, Fin.sum_univ_two]
  simp only [if_true, Fin.isValue, one_ne_zero, if_false, one_mul, neg_one_mul, even_two, Even.neg_pow,
    ← sub_eq_add_neg]
  rw [div_add_div _ _ (by linarith) (by linarith), div_le_iff₀ (by positivity)]
  nlinarith

/-- Case for `c101_trajectory` and `c101_trajectory_average`: the trajectory that follows the velocities
returned by the calls stays within `ε (e^{2T} - 1)/2` of the exact solution, with `ε = 2(1 - c)`,
`c = 1/(1 + 10^-36)`. -/
example (T : ℝ) (hT : 0 ≤ T) (o : Fin 2 → ℝ) (ho : ∀ s, |o s| ≤ 1) :
    ∃ θ : ℝ → Fin 1 → ℝ, (∀ t ∈ Icc 0 T, ∃ u d var, HasDerivWithinAt θ u (Icc 0 T) t ∧
        RateReport relaxKernel relaxMatrix (curveLog relaxCurve) (θ t) u d var) ∧
      |outcomeMean (distribution (curveLog relaxCurve (θ T))) o - outcomeMean (relaxCurve T) o|
        ≤ 1 * (2 * (1 - 1 / (1 + (1e-6) ^ 6)) / 2 * (Real.exp (2 * T) - 1)) := by
  obtain ⟨c, hc⟩ : ∃ c : ℝ, c = 1 / (1 + (1e-6) ^ 6) := ⟨_, rfl⟩
  have hc0 : 0 ≤ c := by rw [hc]; positivity
  have hc1 : c ≤ 1 := by rw [hc]; norm_num
  have hrep : ∀ t ∈ Icc 0 T, _ := fun t ht => relax_report (t * c) (mul_nonneg ht.1 hc0)
  simp only [← hc] at hrep ⊢
  have hder : ∀ t ∈ Icc 0 T, HasDerivWithinAt (fun t : ℝ => fun _ : Fin 1 => t * c) (fun _ => c) (Icc 0 T) t :=
    fun t _ => hasDerivWithinAt_pi.mpr fun _ => by
      simpa using ((hasDerivAt_id t).mul_const c).hasDerivWithinAt
  refine ⟨fun t _ => t * c, fun t ht => ⟨_, _, _, hder t ht, hrep t ht⟩, ?_⟩
  refine c101_trajectory_average (curveLog relaxCurve) hT (fun t _ => t * c) (fun _ _ => c) _ _ hder hrep
    (2 * (1 - c)) (by linarith) ?_ 2 two_pos ?_ _
    (fun t _ s => (relax_deriv t s).hasDerivWithinAt) ?_ o 1 ho
  · intro t ht
    have ha := relax_variance (t * c) (mul_nonneg ht.1 hc0)
    have := mul_le_mul_of_nonneg_left ha (sq_nonneg (1 - c))
    linarith
  · intro s'
    fin_cases s' <;> norm_num [relaxMatrix, Fin.sum_univ_two]
  · rw [curveLog_distribution _ _ (relax_pos _ (by simp)) (relax_total _)]
    simp

/-- Case for `c101_observable_rate`. -/
example : ∃ u d var, RateReport relaxKernel relaxMatrix (curveLog relaxCurve) (fun _ => 0) u d var :=
  ⟨_, _, _, relax_report _ le_rfl⟩

/-- Case for `c101_best` and `c101_exact`: `solve` returns, its only eigenvalue is not zero, and with the
velocity `1` the distribution would follow the rate equation. -/
example : ∃ (res : SolveRes 0) (at₁ : TdvpAttrs 0) (sp : TdvpSpectrum 0) (θ : Fin 1 → ℝ)
      (grads : Fin 2 → Fin 1 → ℂ) (w : World (Fin 2 × ℂ × ℝ)),
    MasterStep relaxKernel relaxMatrix (curveLog relaxCurve) θ grads w ∧ EighCorrect followCfg ∧
    tdvpSolveSamples followCfg 0 relaxKernel ⟨fun c => (curveLog relaxCurve θ c : ℂ), true⟩ 0 1 grads w {}
      = .ok (res, at₁) ∧ at₁.spectrum = some (some sp) ∧ sp.ev (Fin.last 0) ≠ 0 ∧
    (∀ k, 1 ≤ |sp.ev k| / |sp.ev (Fin.last 0)|) ∧
    ∀ s, probVelocity (curveLog relaxCurve) θ 1 s
      = (relaxMatrix *ᵥ distribution (curveLog relaxCurve θ)) s := by
  have hdis : distribution (curveLog relaxCurve fun _ => 0) = relaxCurve 0 :=
    curveLog_distribution _ _ (relax_pos 0 le_rfl) (relax_total 0)
  have hd : ∀ s, HasFDerivAt (fun p => curveLog relaxCurve p s)
      (((relaxMatrix *ᵥ distribution (curveLog relaxCurve fun _ => 0)) s
        / distribution (curveLog relaxCurve fun _ => 0) s) •
      (ContinuousLinearMap.proj 0 : (Fin 1 → ℝ) →L[ℝ] ℝ)) (fun _ => 0) := by
    intro s
    rw [hdis]
    exact HasDerivAt.comp_hasFDerivAt (h₂ := fun τ => Real.log (relaxCurve τ s)) (fun _ : Fin 1 => 0)
      ((relax_deriv 0 s).log (relax_pos 0 le_rfl s).ne')
      (ContinuousLinearMap.proj (R := ℝ) (φ := fun _ : Fin 1 => ℝ) 0).hasFDerivAt
  have hst := follow_step relax_operator relax_conserves hd
  have hvel : ∀ s, probVelocity (curveLog relaxCurve) (fun _ => 0) 1 s
      = (relaxMatrix *ᵥ distribution (curveLog relaxCurve fun _ => 0)) s := by
    intro s
    rw [probVelocity_fderiv hst.differentiable]
    simp only [(hd _).fderiv]
    have h0 : ∀ c, distribution (curveLog relaxCurve fun _ => 0) c ≠ 0 := fun c => (distribution_pos _ c).ne'
    have h1 : ∀ c, ((((relaxMatrix *ᵥ distribution (curveLog relaxCurve fun _ => 0)) c
        / distribution (curveLog relaxCurve fun _ => 0) c) •
        (ContinuousLinearMap.proj 0 : (Fin 1 → ℝ) →L[ℝ] ℝ)) 1)
        = (relaxMatrix *ᵥ distribution (curveLog relaxCurve fun _ => 0)) c
          / distribution (curveLog relaxCurve fun _ => 0) c := fun c => by simp
    simp only [h1]
    simp only [mul_div_cancel₀ _ (h0 _)]
    rw [conserves_total relax_conserves, sub_zero, mul_div_cancel₀ _ (h0 _)]
  obtain ⟨E, G, hi, heq⟩ := solveSamples_input hst.operator
    ⟨fun c => (curveLog relaxCurve (fun _ => 0) c : ℂ), true⟩ rfl 0 1 _
    hst.samples hst.nonneg followCfg 0 (by simp [followWorld]) (followGrads relaxMatrix (curveLog relaxCurve) fun _ => 0)
  obtain ⟨res, at₁, hres⟩ := c45_returns_partial followCfg (by norm_num [followCfg])
    (by norm_num [followCfg]) (by norm_num [followCfg]) 0 _ E G hi {}
  have hsp := solve_spectrum followCfg 0 _ E G hi {} at₁ res hres
  have hE : EighCorrect followCfg := someEigh_correct _ rfl
  have hne : relaxMatrix *ᵥ distribution (curveLog relaxCurve fun _ => 0) ≠ 0 := by
    rw [hdis]
    exact relax_moves 0
  have hvar := follow_var hst
  have hpos := fisherLength_pos _ _ (distribution_pos (curveLog relaxCurve fun _ => 0)) hne
  rw [← hvar] at hpos
  obtain ⟨hQS, hQF⟩ := follow_equation _ (follow_same relaxMatrix (curveLog relaxCurve) fun _ => 0)
  rw [hQS, hQF] at hsp
  generalize wVar ((allSamples (tdvpJoint (relaxMatrix.map Complex.ofReal)
    (fun c => Complex.exp (curveLog relaxCurve (fun _ => 0) c))
    (followGrads relaxMatrix (curveLog relaxCurve) fun _ => 0)
    (followWorld (curveLog relaxCurve) fun _ => 0))).map fun s => (s.1, s.2.1)) 0 = σ at hsp hpos
  have hlast : (tdvpEigenbasis followCfg (Matrix.of fun _ _ => (σ : ℂ)) fun _ => (σ : ℂ)).ev (Fin.last 0)
      ≠ 0 := by
    have h := hE (Matrix.of fun _ _ => (σ : ℂ)) (by
      ext i j
      simp [Matrix.conjTranspose_apply])
    intro h0
    have h1 := congrFun (congrFun h.decomp 0) 0
    have h2 := congrFun (congrFun h.unitary 0) 0
    rw [Matrix.mul_diagonal] at h1
    change (followCfg.eigh (Matrix.of fun _ _ => (σ : ℂ))).1 0 = 0 at h0
    rw [h0] at h1
    simp [Matrix.mul_apply, hpos.ne'] at h1 h2
    rw [h1] at h2
    simp at h2
  refine ⟨res, at₁, _, fun _ => 0, _, _, hst, hE, (heq {}).trans hres, hsp, hlast, ?_, hvel⟩
  intro k
  rw [show k = Fin.last 0 from Fin.fin_one_eq_zero k, div_self (abs_ne_zero.mpr hlast)]

/-- Case for `c101_master_equation`: a spin under dephasing, with the network that parametrises its
distributions by the time. -/
example (T : ℝ) : ∃ c, compilePovm (N := 1)
      ((standardReg fun a => blochElement (povmVectors 0 0 a)).run []).operators.get? id
      (((PovmOps.fresh ([((1 : ℝ), MasterTerm.loss Loss.dephasing 0)].map termDict)).run
        [(0, 0)]).dicts 0) = .ok c ∧
    ∃ (logP : (Fin 1 → ℝ) → Config 1 4 → ℝ) (θ u : ℝ → Fin 1 → ℝ) (d var : ℝ → ℝ),
      (∀ t ∈ Icc 0 T, HasDerivWithinAt θ (u t) (Icc 0 T) t) ∧
      (∀ t ∈ Icc 0 T, RateReport (povmKernel c) (rateMatrix c) logP (θ t) (u t) (d t) (var t)) ∧
      (∀ t ∈ Icc 0 T, (dephasingState t).IsHermitian) ∧
      (∀ s, outcomeProb (productPovm fun a => blochElement (povmVectors 0 0 a)) (dephasingState 0) s
        = ((distribution (logP (θ 0)) s : ℝ) : ℂ)) := by
  obtain ⟨M, hM, h⟩ := c94_master_equation (N := 1) 0 0
  have hM' : M = fun a => blochElement (povmVectors 0 0 a) := by
    have e : povmInit 0 0 "SIC" = .ok ((fun a => blochElement (povmVectors 0 0 a)),
      standardReg fun a => blochElement (povmVectors 0 0 a)) := rfl
    rw [e] at hM
    exact (Prod.mk.inj (Except.ok.inj hM)).1.symm
  subst hM'
  obtain ⟨c, h1, h2⟩ := h [] id (fun _ _ => Iff.rfl) [((1 : ℝ), MasterTerm.loss Loss.dephasing 0)]
    (by simp [MasterTerm.Proper]) [(0, 0)] (by simp) 0 (by simp)
  obtain ⟨M', hM', hP, -, -, hTi⟩ := sic_hypotheses 0 0
  have e : M' = fun a => blochElement (povmVectors 0 0 a) := by
    rw [getM_sic] at hM'
    exact (Except.ok.inj hM').symm
  subst e
  have hop : OperatorOf (povmKernel c) ((rateMatrix c).map Complex.ofReal) := by
    apply rateMatrix_operator
    have hg : ((standardReg fun a => blochElement (povmVectors 0 0 a)).run []).operators.get?
        "dephasing" = some (oneBody (matrixToPovmDis (getPaulis 2)
          (fun a => blochElement (povmVectors 0 0 a))
          (povmTInv fun a => blochElement (povmVectors 0 0 a)))) := by
      change (standardReg fun a => blochElement (povmVectors 0 0 a)).operators.get? "dephasing" = _
      rw [standard_get]
      rfl
    have hc := (dephasing_compiled _ _ hg).symm.trans h1
    obtain rfl := Except.ok.inj hc
    intro s e he
    simp only [povmKernel, povmSPrimes, List.mem_map, List.mem_flatMap] at he
    obtain ⟨_, ⟨_, hx, y, -, rfl⟩, rfl⟩ := he
    rw [List.mem_singleton] at hx
    subst hx
    simp only [dephasing_entries]
    rcases dephasing_above ((([0] : List (Fin 1)).map s).getD 0 0) (y.getD 0 0) with h | h
    · left
      rw [h, Complex.ofReal_zero]
    · right
      rw [Complex.norm_real, Real.norm_eq_abs]
      linarith
  have hcons := c101_conserves hP _ hTi c _ h2
  have hH : ∀ t, (dephasingState t).IsHermitian := by
    intro t
    ext x y
    by_cases hxy : x = y
    · simp [dephasingState, Matrix.conjTranspose_apply, hxy]
    · simp only [dephasingState, Matrix.conjTranspose_apply, Matrix.of_apply, hxy, Ne.symm hxy, if_false]
      rw [Complex.star_def, ← Complex.ofReal_ofNat, ← Complex.ofReal_div, Complex.conj_ofReal]
  have hq : ∀ t, ∀ s, HasDerivAt (fun τ => (1 + sicVectors (s 0) 0 * Real.exp (-2 * τ)) / 4)
      ((rateMatrix c *ᵥ fun s => (1 + sicVectors (s 0) 0 * Real.exp (-2 * t)) / 4) s) t := by
    intro t s
    have h3 := hasDerivAt_outcomeProb (productPovm fun a => blochElement (povmVectors 0 0 a))
      dephasingState _ t (dephasing_solves t) s
    have h4 := h2 (dephasingState t) s
    simp only [dephasing_prob] at h3 h4
    have h5 := Complex.reCLM.hasFDerivAt.comp_hasDerivAt t h3
    refine (h5.congr_deriv ?_)
    have h6 := congrArg Complex.re h4
    change _ = ∑ s', rateMatrix c s s' * ((1 + sicVectors (s' 0) 0 * Real.exp (-2 * t)) / 4)
    simp only [rateMatrix_kernel, ← Complex.ofReal_mul, ← Complex.ofReal_sum, Complex.ofReal_re] at h6
    exact h6.symm
  have hpos : ∀ t, 0 ≤ t → ∀ s : Config 1 4, 0 < (1 + sicVectors (s 0) 0 * Real.exp (-2 * t)) / 4 := by
    intro t ht s
    have h2 : Real.sqrt 2 < 3 / 2 := by
      rw [Real.sqrt_lt' (by norm_num)]
      norm_num
    have h2' := Real.sqrt_nonneg 2
    have he : Real.exp (-2 * t) ≤ 1 := Real.exp_le_one_iff.mpr (by linarith)
    have he' := Real.exp_pos (-2 * t)
    have hx : -1 < sicVectors (s 0) 0 := by
      generalize s 0 = a
      fin_cases a <;> simp [sicVectors] <;> linarith
    have := mul_lt_mul_of_pos_right hx he'
    linarith
  have hone : ∀ t, ∑ s : Config 1 4, (1 + sicVectors (s 0) 0 * Real.exp (-2 * t)) / 4 = 1 := by
    intro t
    rw [← (Equiv.funUnique (Fin 1) (Fin 4)).symm.sum_comp]
    simp [Fin.sum_univ_four, sicVectors]
    ring
  have hmove : ∀ t, (rateMatrix c *ᵥ fun s => (1 + sicVectors (s 0) 0 * Real.exp (-2 * t)) / 4) ≠ 0 := by
    intro t h0
    have h3 := hq t (fun _ => 1)
    rw [h0] at h3
    have h4 : HasDerivAt (fun τ : ℝ => Real.exp (-2 * τ)) (Real.exp (-2 * t) * (-2)) t := by
      have := ((hasDerivAt_id t).const_mul (-2 : ℝ)).exp
      simpa using this
    have h5 := h3.unique (((h4.const_mul (sicVectors 1 0)).const_add 1).div_const 4)
    have h6 : sicVectors 1 0 ≠ 0 := by simp [sicVectors]
    rw [Pi.zero_apply, eq_comm] at h5
    simp [h6] at h5
  refine ⟨c, h1, curveLog fun t s => (1 + sicVectors (s 0) 0 * Real.exp (-2 * t)) / 4,
    fun t _ => t * (1 / (1 + (1e-6) ^ 6)), fun _ _ => 1 / (1 + (1e-6) ^ 6), fun _ => _, fun t => _,
    fun t _ => hasDerivWithinAt_pi.mpr fun _ =>
      (((hasDerivAt_id t).mul_const (1 / (1 + (1e-6 : ℝ) ^ 6))).congr_deriv (one_mul _)).hasDerivWithinAt,
    fun t ht => c101_follows_solution hop hcons _ _ (hpos _ (mul_nonneg ht.1 (by positivity))) (hone _) (hq _)
      (hmove _), fun t _ => hH t, ?_⟩
  intro s
  rw [dephasing_prob, curveLog_distribution _ _ (hpos _ (by simp)) (hone _)]
  simp

end JVMC
