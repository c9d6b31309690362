import Verif.Lemmas.NearBorn
import Verif.Props.Accuracy
import Verif.Props.McmcSampling

/-!
# C104 — TDVP steps from a finite number of samples

`NearBorn ε` (`Spec/NearBorn`): the samples give every configuration its probability up to the relative
error `ε`. What the theorems say about the state does not refer to samples: `offRay` (`Spec/Projection`)
measures how far a velocity of the state is from the exact evolution, up to norm and phase, `expect` and
`spread` are the expectation value and the variance of an operator.
-/

namespace JVMC

open Spec Matrix Set

section

variable {n : ℕ} {C : Type} [Fintype C] [DecidableEq C] {kernel : C → List (C × ℂ)} {O : Matrix C C ℂ}

/-- The situation of C104: samples of `exp(log ψ_θ)` with relative errors `ε`, a Hermitian Hamiltonian, a
differentiable network with gradients `grads`. -/
structure SampledStep (ε : ℝ) (kernel : C → List (C × ℂ)) (O : Matrix C C ℂ)
    (logPsi : (Fin (n + 1) → ℝ) → C → ℂ) (θ : Fin (n + 1) → ℝ) (grads : C → Fin (n + 1) → ℂ)
    (w : World (C × ℂ × ℝ)) : Prop where
  operator : OperatorOf kernel O
  hermitian : O.IsHermitian
  differentiable : ∀ s, DifferentiableAt ℝ (fun p => logPsi p s) θ
  gradients : ∀ s k, grads s k = fderiv ℝ (fun p => logPsi p s) θ (Pi.single k 1)
  samples : SamplesOf (logPsi θ) w
  weights : NearBorn ε (fun c => Complex.exp (logPsi θ c)) (weighted w)

variable {ε : ℝ} {logPsi : (Fin (n + 1) → ℝ) → C → ℂ} {θ : Fin (n + 1) → ℝ}
  {grads : C → Fin (n + 1) → ℂ} {w : World (C × ℂ × ℝ)}

theorem SampledStep.nonneg (h : SampledStep ε kernel O logPsi θ grads w) : ∀ x ∈ allSamples w, 0 ≤ x.2.2 :=
  fun x hx => h.weights.nonneg (x.2.2, x.1) (List.mem_map.mpr ⟨x, hx, rfl⟩)

/-- Exactly weighted samples for the same parameters. -/
theorem SampledStep.exact [Nonempty C] (h : SampledStep ε kernel O logPsi θ grads w) :
    ∃ w₀, TdvpStep kernel O logPsi θ grads w₀ := by
  obtain ⟨w₀, h1, h2⟩ := born_world (logPsi θ)
  exact ⟨w₀, h.operator, h.hermitian, h.differentiable, h.gradients, h1, h2⟩

theorem SampledStep.eps_nonneg [Nonempty C] (h : SampledStep ε kernel O logPsi θ grads w) : 0 ≤ ε := by
  obtain ⟨s⟩ := ‹Nonempty C›
  have hZ := norm2_pos (fun c => Complex.exp (logPsi θ c)) s (Complex.exp_ne_zero _)
  have hp := div_pos (Complex.normSq_pos.mpr (Complex.exp_ne_zero (logPsi θ s))) hZ
  exact nonneg_of_mul_nonneg_left ((abs_nonneg _).trans (h.weights.near s)) hp

/-- The distance computed from samples is the distance of the states up to the relative error. -/
theorem sampled_offRay [Nonempty C] (hst : SampledStep ε kernel O logPsi θ grads w) (hε : ε ≤ 1) (x : ℂ)
    (v : Fin (n + 1) → ℝ) :
    (1 - ε) * offRay (fun c => Complex.exp (logPsi θ c)) (fun s => stateVelocity logPsi θ v s
        + x * (O *ᵥ fun c => Complex.exp (logPsi θ c)) s)
      ≤ tdvpDistance (allSamples (tdvpJoint O (fun c => Complex.exp (logPsi θ c)) grads w)) x v ∧
    tdvpDistance (allSamples (tdvpJoint O (fun c => Complex.exp (logPsi θ c)) grads w)) x v
      ≤ (1 + ε) * offRay (fun c => Complex.exp (logPsi θ c)) (fun s => stateVelocity logPsi θ v s
        + x * (O *ᵥ fun c => Complex.exp (logPsi θ c)) s) := by
  obtain ⟨w₀, h₀⟩ := hst.exact
  rw [← distance_offRay h₀]
  exact distance_near O (logPsi θ) grads w w₀ ε hε hst.weights h₀.weights x v

theorem stateVelocity_zero (hst : SampledStep ε kernel O logPsi θ grads w) [Nonempty C] (s : C) :
    stateVelocity logPsi θ 0 s = 0 := by
  obtain ⟨w₀, h₀⟩ := hst.exact
  rw [stateVelocity_eq h₀]
  simp

theorem sampled_still [Nonempty C] (hst : SampledStep ε kernel O logPsi θ grads w) (x : ℂ) :
    offRay (fun c => Complex.exp (logPsi θ c)) (fun s => stateVelocity logPsi θ 0 s
        + x * (O *ᵥ fun c => Complex.exp (logPsi θ c)) s)
      = Complex.normSq x * spread O fun c => Complex.exp (logPsi θ c) := by
  have hZ := norm2_pos (fun c => Complex.exp (logPsi θ c)) (Classical.arbitrary C) (Complex.exp_ne_zero _)
  rw [← offRay_generator _ hZ]
  simp only [stateVelocity_zero hst, zero_add]

/-- C104: with samples of relative error `ε`, the update of `solve` is nearly the best velocity: for all
velocities `v` of the parameters, up to norm and phase, the state moving with the update is at least as close
to the exact evolution `dψ/dt = - x O ψ` as the state moving with `v`, up to the factor `(1+ε)/(1-ε)` and the
regularisation: `m = 1 - β / (1 + (cutoff/κ)^6)`, where the eigenvalues other than zero are at least
`κ > 1e-14` of the largest and `β` bounds the signal-to-noise damping from below. -/
theorem c104_update [Nonempty C] (hst : SampledStep ε kernel O logPsi θ grads w) (hε : ε ≤ 1)
    (cfg : TdvpCfg n) (heigh : EighCorrect cfg)
    (hq : cfg.makeReal ≠ "imag") (hs : 0 ≤ cfg.diagonalShift ∧ cfg.diagonalShift ≤ 1e-10)
    (hc : 0 < cfg.pinvCutoff) (zeroCfg : C) (b : ℤ) (r : ℕ)
    (hr : r < List.length w) (at₀ at₁ : TdvpAttrs n) (res : SolveRes n)
    (hres : tdvpSolveSamples cfg r kernel ⟨logPsi θ, true⟩ zeroCfg b grads w at₀ = .ok (res, at₁))
    (sp : TdvpSpectrum n) (hsp : at₁.spectrum = some (some sp)) (hmax : sp.ev (Fin.last n) ≠ 0)
    (κ β : ℝ) (hκ : 1e-14 < κ) (hgap : ∀ k, sp.ev k = 0 ∨ κ ≤ |sp.ev k| / |sp.ev (Fin.last n)|)
    (hβ : 0 ≤ β) (hβ' : β ≤ 1) (damping : Fin (n + 1) → ℝ)
    (hsnr : cfg.isExact = true ∨ ∃ snr, at₁.snr = some snr ∧
      ∀ k, SnrDamping cfg.snrTol (snr k) (damping k) ∧ β ≤ damping k) :
    ∃ u, res.update = some u ∧ ∀ v : Fin (n + 1) → ℝ,
      (1 - ε) * offRay (fun c => Complex.exp (logPsi θ c)) (fun s => stateVelocity logPsi θ u s
          + cfg.rhsPrefactor * (O *ᵥ fun c => Complex.exp (logPsi θ c)) s)
        ≤ (1 + ε) * ((1 - missOf β res.cutoff κ ^ 2) * offRay (fun c => Complex.exp (logPsi θ c))
            (fun s => stateVelocity logPsi θ v s
              + cfg.rhsPrefactor * (O *ᵥ fun c => Complex.exp (logPsi θ c)) s)
          + missOf β res.cutoff κ ^ 2
            * (Complex.normSq cfg.rhsPrefactor * spread O fun c => Complex.exp (logPsi θ c))) := by
  obtain ⟨E, G, hi, heq⟩ := solveSamples_input hst.operator ⟨logPsi θ, true⟩ rfl zeroCfg b w hst.samples
    hst.nonneg cfg r hr grads
  rw [heq] at hres
  have hSF := getTdvpEquation_eq cfg r _ hi.devices hi.weights hi.rank E G hi.data at₀
  have hspec : sp = tdvpEigenbasis cfg
      (specQS cfg (allSamples (tdvpJoint O (fun c => Complex.exp (logPsi θ c)) grads w)))
      (specQF cfg (allSamples (tdvpJoint O (fun c => Complex.exp (logPsi θ c)) grads w))) := by
    have h := solve_spectrum cfg r _ E G hi at₀ at₁ res hres
    rw [hsp] at h
    exact Option.some.inj (Option.some.inj h)
  have hev : cfg.eigh (specQS cfg (allSamples (tdvpJoint O (fun c => Complex.exp (logPsi θ c)) grads w)))
      = (sp.ev, sp.V) := by rw [hspec]; rfl
  obtain ⟨_, _, hm0, hm1, _⟩ := solve_factors cfg r _ E G hi at₀ at₁ _ _ _ hSF res hres
    sp.ev sp.V hev hmax hc κ β hκ hβ hβ' damping hsnr
  obtain ⟨u, hu, hopt⟩ := c88_optimal cfg heigh hq hs r _ E G hi at₀ at₁ _ _ _ hSF res hres sp.ev sp.V hev
    hmax hc κ β hκ hgap hβ hβ' damping hsnr
  refine ⟨u, hu, fun v => ?_⟩
  rw [← sampled_still hst]
  have hm2 : missOf β res.cutoff κ ^ 2 ≤ 1 := pow_le_one₀ hm0 hm1
  refine (sampled_offRay hst hε _ u).1.trans ((hopt v).trans ?_)
  have h1 := mul_le_mul_of_nonneg_left (sampled_offRay hst hε cfg.rhsPrefactor v).2
    (sub_nonneg.mpr hm2)
  have h2 := mul_le_mul_of_nonneg_left (sampled_offRay hst hε cfg.rhsPrefactor 0).2
    (sq_nonneg (missOf β res.cutoff κ))
  refine (add_le_add h1 h2).trans (le_of_eq ?_)
  ring

/-! ## Energies -/

/-- The cross term of the distances. -/
theorem distance_cross (l : List (ℝ × (Fin 1 → ℂ) × (Fin (n + 1) → ℂ))) (u : Fin (n + 1) → ℝ) (τ : ℝ) :
    tdvpDistance l 1 (τ • u) - tdvpDistance l 1 (-(τ • u)) = 4 * τ * ∑ k, u k * (specF l k).re := by
  have hre : ∀ v : Fin (n + 1) → ℝ, (∑ i, (v i : ℂ) * (-1 * specF l i)).re = -∑ k, v k * (specF l k).re := by
    intro v
    rw [Complex.re_sum, ← Finset.sum_neg_distrib]
    refine Finset.sum_congr rfl fun k _ => ?_
    rw [Complex.re_ofReal_mul]
    simp
  have hneg : (∑ i, ∑ j, (starRingEnd ℂ) ((-(τ • u)) i : ℂ) * (specS l i j * ((-(τ • u)) j : ℂ)))
      = ∑ i, ∑ j, (starRingEnd ℂ) ((τ • u) i : ℂ) * (specS l i j * ((τ • u) j : ℂ)) := by
    refine Finset.sum_congr rfl fun i _ => Finset.sum_congr rfl fun j _ => ?_
    simp only [Pi.neg_apply, Complex.ofReal_neg, map_neg]
    ring
  have e1 := distance_split l 1 (τ • u)
  have e2 := distance_split l 1 (-(τ • u))
  rw [hre] at e1 e2
  rw [hneg] at e2
  have e3 : ∑ k, (τ • u) k * (specF l k).re = τ * ∑ k, u k * (specF l k).re := by
    rw [Finset.mul_sum]
    exact Finset.sum_congr rfl fun k _ => by simp [mul_assoc]
  have e4 : ∑ k, (-(τ • u)) k * (specF l k).re = -(τ * ∑ k, u k * (specF l k).re) := by
    rw [← e3, ← Finset.sum_neg_distrib]
    exact Finset.sum_congr rfl fun k _ => by simp
  rw [e3] at e1
  rw [e4] at e2
  linarith

/-- The distances for opposite velocities. -/
theorem distance_parallelogram (l : List (ℝ × (Fin 1 → ℂ) × (Fin (n + 1) → ℂ))) (u : Fin (n + 1) → ℝ) (τ : ℝ) :
    tdvpDistance l 1 (τ • u) + tdvpDistance l 1 (-(τ • u))
      = 2 * (τ ^ 2 * tdvpDistance l 0 u + tdvpDistance l 1 0) := by
  have hq : ∀ (x : ℂ) (σ : ℝ), tdvpDistance l x (σ • u) = tdvpDistance l x 0
      + σ ^ 2 * (∑ i, ∑ j, (starRingEnd ℂ) (u i : ℂ) * (specS l i j * (u j : ℂ))).re
      - 2 * σ * (∑ i, (u i : ℂ) * (-x * specF l i)).re := by
    intro x σ
    rw [distance_split l x (σ • u)]
    have a1 : (∑ i, ∑ j, (starRingEnd ℂ) ((σ • u) i : ℂ) * (specS l i j * ((σ • u) j : ℂ)))
        = ((σ ^ 2 : ℝ) : ℂ) * ∑ i, ∑ j, (starRingEnd ℂ) (u i : ℂ) * (specS l i j * (u j : ℂ)) := by
      simp only [Finset.mul_sum]
      refine Finset.sum_congr rfl fun i _ => Finset.sum_congr rfl fun j _ => ?_
      simp only [Pi.smul_apply, smul_eq_mul, Complex.conj_ofReal]
      push_cast
      ring
    have a2 : (∑ i, ((σ • u) i : ℂ) * (-x * specF l i)) = (σ : ℂ) * ∑ i, (u i : ℂ) * (-x * specF l i) := by
      rw [Finset.mul_sum]
      refine Finset.sum_congr rfl fun i _ => ?_
      simp only [Pi.smul_apply, smul_eq_mul]
      push_cast
      ring
    rw [a1, a2, Complex.re_ofReal_mul, Complex.re_ofReal_mul]
    ring
  have e1 := hq 1 τ
  have e2 := hq 1 (-τ)
  have e3 := hq 0 1
  have e4 : tdvpDistance l 0 0 = 0 := by simp [tdvpDistance]
  rw [neg_smul] at e2
  simp only [one_smul, neg_zero, zero_mul, mul_zero, Finset.sum_const_zero, Complex.zero_re, e4] at e3
  rw [e1, e2, e3]
  ring

/-- A quantity below `a τ + b / τ` for all `τ`. -/
theorem le_of_scaled (x a b : ℝ) (ha : 0 ≤ a) (hb : 0 ≤ b) (h : ∀ τ > 0, τ * x ≤ τ ^ 2 * a + b) :
    x ≤ 2 * (√a * √b) := by
  rcases ha.eq_or_lt with rfl | ha
  · by_contra hx
    simp only [Real.sqrt_zero, zero_mul, mul_zero, not_le] at hx
    have := h ((b + 1) / x) (by positivity)
    rw [div_mul_cancel₀ _ hx.ne'] at this
    linarith
  · rcases hb.eq_or_lt with rfl | hb
    · simp only [Real.sqrt_zero, mul_zero]
      by_contra hx
      push Not at hx
      have := h (x / (2 * a)) (by positivity)
      have e : x / (2 * a) * x - (x / (2 * a)) ^ 2 * a = x ^ 2 / (4 * a) := by
        field_simp
        ring
      have : 0 < x ^ 2 / (4 * a) := by positivity
      linarith
    · have hsa := Real.sqrt_pos.mpr ha
      have hsb := Real.sqrt_pos.mpr hb
      have := h (√b / √a) (by positivity)
      have e : (√b / √a) ^ 2 * a = b := by
        rw [div_pow, Real.sq_sqrt ha.le, Real.sq_sqrt hb.le]
        field_simp
      rw [e] at this
      have h2 : √b * x ≤ √a * (2 * b) := by
        have := mul_le_mul_of_nonneg_left this hsa.le
        have e2 : √a * (√b / √a * x) = √b * x := by field_simp
        rw [e2] at this
        linarith
      have h3 : √a * (2 * b) = √b * (2 * (√a * √b)) := by
        nlinarith [Real.mul_self_sqrt hb.le]
      rw [h3] at h2
      exact le_of_mul_le_mul_left h2 hsb

/-- The rate of change of the energy computed from the samples. -/
noncomputable def sampledRate (l : List (ℝ × (Fin 1 → ℂ) × (Fin (n + 1) → ℂ))) (u : Fin (n + 1) → ℝ) : ℝ :=
  2 * ∑ k, u k * (specF l k).re

/-- The true and the sampled rates differ by at most `2 ε` times the speed of the state times the energy
spread. -/
theorem rate_near [Nonempty C] (hst : SampledStep ε kernel O logPsi θ grads w) (hε : ε ≤ 1)
    (u : Fin (n + 1) → ℝ) :
    ∃ e : ℝ, HasDerivAt (fun τ : ℝ => Spec.expect O fun c => Complex.exp (logPsi (θ + τ • u) c)) (e : ℂ) 0 ∧
      |e - sampledRate (allSamples (tdvpJoint O (fun c => Complex.exp (logPsi θ c)) grads w)) u|
        ≤ 2 * ε * (√(offRay (fun c => Complex.exp (logPsi θ c)) (stateVelocity logPsi θ u))
          * √(spread O fun c => Complex.exp (logPsi θ c))) := by
  have h0 := hst.eps_nonneg
  obtain ⟨w₀, h₀⟩ := hst.exact
  refine ⟨_, energy_derivative hst.hermitian logPsi θ u hst.differentiable grads hst.gradients, ?_⟩
  set ψ : C → ℂ := fun c => Complex.exp (logPsi θ c) with hψ
  set l := allSamples (tdvpJoint O ψ grads w) with hl
  set l₀ := allSamples (tdvpJoint O ψ grads w₀) with hl₀
  have he : (2 * ∑ k, u k * (bornCov O ψ fun s => grads s k).re : ℝ) = sampledRate l₀ u := by
    unfold sampledRate
    simp only [hl₀, specF_born O ψ (fun s => Complex.exp_ne_zero _) grads w₀ h₀.weights]
  rw [he]
  have hL : offRay ψ (stateVelocity logPsi θ u) = tdvpDistance l₀ 0 u := by
    rw [hl₀, distance_offRay h₀]
    simp only [zero_mul, add_zero]
    rfl
  have hS : spread O ψ = tdvpDistance l₀ 1 0 := by
    rw [hl₀, distance_offRay h₀, sampled_still hst]
    simp [hψ]
  rw [hL, hS]
  have hnn : ∀ (x : ℂ) (v : Fin (n + 1) → ℝ), 0 ≤ tdvpDistance l₀ x v := by
    intro x v
    refine distance_nonneg l₀ ?_ x v
    intro s hs
    rw [hl₀] at hs
    unfold tdvpJoint at hs
    rw [allSamples_wmap] at hs
    obtain ⟨y, hy, rfl⟩ := List.mem_map.mp hs
    exact h₀.nonneg y hy
  have key : ∀ τ > 0, τ * |sampledRate l₀ u - sampledRate l u|
      ≤ τ ^ 2 * (ε * tdvpDistance l₀ 0 u) + ε * tdvpDistance l₀ 1 0 := by
    intro τ hτ
    have c1 := distance_cross l u τ
    have c0 := distance_cross l₀ u τ
    have p0 := distance_parallelogram l₀ u τ
    have n1 := distance_near O (logPsi θ) grads w w₀ ε hε hst.weights h₀.weights 1 (τ • u)
    have n2 := distance_near O (logPsi θ) grads w w₀ ε hε hst.weights h₀.weights 1 (-(τ • u))
    rw [← hψ, ← hl, ← hl₀] at n1 n2
    have e1 : sampledRate l u = 2 * ∑ k, u k * (specF l k).re := rfl
    have e0 : sampledRate l₀ u = 2 * ∑ k, u k * (specF l₀ k).re := rfl
    have e : τ * |sampledRate l₀ u - sampledRate l u|
        = |(tdvpDistance l₀ 1 (τ • u) - tdvpDistance l₀ 1 (-(τ • u)))
          - (tdvpDistance l 1 (τ • u) - tdvpDistance l 1 (-(τ • u)))| / 2 := by
      rw [c1, c0, e1, e0, ← abs_of_pos hτ, ← abs_mul, abs_of_pos hτ,
        ← abs_of_pos (show (0 : ℝ) < 2 by norm_num), ← abs_div, abs_of_pos (show (0 : ℝ) < 2 by norm_num)]
      congr 1
      ring
    rw [e, div_le_iff₀ two_pos, abs_le]
    constructor <;> nlinarith [n1.1, n1.2, n2.1, n2.2, p0]
  have := le_of_scaled _ _ _ (mul_nonneg h0 (hnn 0 u)) (mul_nonneg h0 (hnn 1 0)) key
  refine this.trans (le_of_eq ?_)
  rw [Real.sqrt_mul h0, Real.sqrt_mul h0]
  have := Real.mul_self_sqrt h0
  calc 2 * (√ε * √(tdvpDistance l₀ 0 u) * (√ε * √(tdvpDistance l₀ 1 0)))
      = 2 * (√ε * √ε) * (√(tdvpDistance l₀ 0 u) * √(tdvpDistance l₀ 1 0)) := by ring
    _ = _ := by rw [this]

/-- C104, imaginary time: with samples of relative error `ε`, whenever `solve` returns a numerical update, for
every regularisation, diagonal shift and signal-to-noise damping, the energy changes in the direction of the
update at most at the rate `-(1-ε) ℓ² / x + 2 ε ℓ σ`: `ℓ` is the speed of the state, `σ` the energy spread.
Hence the energy falls unless the step is of the size of the sampling error. -/
theorem c104_energy [Nonempty C] (hst : SampledStep ε kernel O logPsi θ grads w) (hε : ε ≤ 1)
    (cfg : TdvpCfg n) (heigh : EighCorrect cfg)
    (hq : cfg.makeReal ≠ "imag") (x : ℝ) (hx : 0 < x) (hpre : cfg.rhsPrefactor = (x : ℂ))
    (hshift : 0 ≤ cfg.diagonalShift) (zeroCfg : C) (b : ℤ) (r : ℕ) (hr : r < List.length w)
    (at₀ at₁ : TdvpAttrs n) (res : SolveRes n)
    (hres : tdvpSolveSamples cfg r kernel ⟨logPsi θ, true⟩ zeroCfg b grads w at₀ = .ok (res, at₁))
    (u : Fin (n + 1) → ℝ) (hu : res.update = some u) :
    ∃ e : ℝ, HasDerivAt (fun τ : ℝ => Spec.expect O fun c => Complex.exp (logPsi (θ + τ • u) c)) (e : ℂ) 0 ∧
      e ≤ -((1 - ε) * offRay (fun c => Complex.exp (logPsi θ c)) (stateVelocity logPsi θ u)) / x
        + 2 * ε * (√(offRay (fun c => Complex.exp (logPsi θ c)) (stateVelocity logPsi θ u))
          * √(spread O fun c => Complex.exp (logPsi θ c))) := by
  obtain ⟨e, hd, hn⟩ := rate_near hst hε u
  refine ⟨e, hd, ?_⟩
  obtain ⟨E, G, hi, heq⟩ := solveSamples_input hst.operator ⟨logPsi θ, true⟩ rfl zeroCfg b w hst.samples
    hst.nonneg cfg r hr grads
  rw [heq] at hres
  have hw := c88_never_worse cfg heigh hq hshift r _ E G hi at₀ at₁ res hres u hu
  have hL := (sampled_offRay hst hε 0 u).1
  simp only [zero_mul, add_zero] at hL
  change (1 - ε) * offRay _ (stateVelocity logPsi θ u) ≤ _ at hL
  set l := allSamples (tdvpJoint O (fun c => Complex.exp (logPsi θ c)) grads w) with hl
  have h1 := distance_split l x u
  have h2 := distance_split l 0 u
  have h3 : tdvpDistance l 0 0 = 0 := by simp [tdvpDistance]
  have h4 : (∑ i, (u i : ℂ) * (-(x : ℂ) * specF l i)).re = -x * ∑ k, u k * (specF l k).re := by
    rw [Complex.re_sum, Finset.mul_sum]
    refine Finset.sum_congr rfl fun k _ => ?_
    rw [Complex.re_ofReal_mul, show -(x : ℂ) = ((-x : ℝ) : ℂ) by push_cast; ring, Complex.re_ofReal_mul]
    ring
  have h5 : (∑ i, (u i : ℂ) * (-(0 : ℂ) * specF l i)).re = 0 := by simp
  rw [h4] at h1
  rw [h5, h3] at h2
  rw [hpre] at hw
  have h6 : x * sampledRate l u ≤ -((1 - ε) * offRay (fun c => Complex.exp (logPsi θ c))
      (stateVelocity logPsi θ u)) := by
    unfold sampledRate
    nlinarith
  have h7 : sampledRate l u ≤ -((1 - ε) * offRay (fun c => Complex.exp (logPsi θ c))
      (stateVelocity logPsi θ u)) / x := by
    rw [le_div_iff₀ hx]
    linarith
  have := (abs_le.mp hn).2
  linarith

/-- C104, real time: with samples of relative error `ε` and `makeReal="imag"`, whenever `solve` returns a
numerical update, for every regularisation, diagonal shift and signal-to-noise damping, the energy changes in
the direction of the update at most at the rate `2 ε ℓ σ`. -/
theorem c104_conserved [Nonempty C] (hst : SampledStep ε kernel O logPsi θ grads w) (hε : ε ≤ 1)
    (cfg : TdvpCfg n)
    (hq : cfg.makeReal = "imag") (y : ℝ) (hy : y ≠ 0) (hpre : cfg.rhsPrefactor = Complex.I * (y : ℂ))
    (zeroCfg : C) (b : ℤ) (r : ℕ) (hr : r < List.length w)
    (at₀ at₁ : TdvpAttrs n) (res : SolveRes n)
    (hres : tdvpSolveSamples cfg r kernel ⟨logPsi θ, true⟩ zeroCfg b grads w at₀ = .ok (res, at₁))
    (u : Fin (n + 1) → ℝ) (hu : res.update = some u) :
    ∃ e : ℝ, HasDerivAt (fun τ : ℝ => Spec.expect O fun c => Complex.exp (logPsi (θ + τ • u) c)) (e : ℂ) 0 ∧
      |e| ≤ 2 * ε * (√(offRay (fun c => Complex.exp (logPsi θ c)) (stateVelocity logPsi θ u))
          * √(spread O fun c => Complex.exp (logPsi θ c))) := by
  obtain ⟨e, hd, hn⟩ := rate_near hst hε u
  refine ⟨e, hd, ?_⟩
  obtain ⟨E, G, hi, heq⟩ := solveSamples_input hst.operator ⟨logPsi θ, true⟩ rfl zeroCfg b w hst.samples
    hst.nonneg cfg r hr grads
  rw [heq] at hres
  obtain ⟨snr, p, _, hp, hup, _⟩ := solve_pinv cfg r _ E G hi at₀ at₁ res hres u hu
  set l := allSamples (tdvpJoint O (fun c => Complex.exp (logPsi θ c)) grads w) with hl
  have hF : ∀ k, specQF cfg l k = Complex.I * ((-y * (specF l k).re : ℝ) : ℂ) := by
    intro k
    unfold specQF TdvpCfg.q
    rw [if_pos hq, hpre]
    generalize specF l k = z
    apply Complex.ext
    · simp
    · simp; ring
  set V := (cfg.eigh (specQS cfg l)).2 with hV
  have hquad := congrArg Complex.im (pinv_quad V p (specQF cfg l))
  rw [Complex.ofReal_im, Complex.im_sum] at hquad
  have hsum : y * ∑ k, u k * (specF l k).re = 0 := by
    rw [← hquad, Finset.mul_sum]
    apply Finset.sum_congr rfl
    intro k _
    have hz : u k = ((V *ᵥ fun k => (p k : ℂ) * (Vᴴ *ᵥ specQF cfg l) k) k).re := congrFun hup k
    rw [hz, hF k]
    generalize (V *ᵥ fun k => (p k : ℂ) * (Vᴴ *ᵥ specQF cfg l) k) k = z
    simp
    ring
  have : sampledRate l u = 0 := by
    unfold sampledRate
    rw [(mul_eq_zero.1 hsum).resolve_left hy, mul_zero]
  rwa [this, sub_zero] at hn

/-! ## Reported numbers -/

theorem sampled_variance [Nonempty C] (hst : SampledStep ε kernel O logPsi θ grads w) (hε : ε ≤ 1) :
    (1 - ε) * (spread O fun c => Complex.exp (logPsi θ c))
      ≤ wVar ((allSamples (tdvpJoint O (fun c => Complex.exp (logPsi θ c)) grads w)).map fun s => (s.1, s.2.1)) 0 ∧
    wVar ((allSamples (tdvpJoint O (fun c => Complex.exp (logPsi θ c)) grads w)).map fun s => (s.1, s.2.1)) 0
      ≤ (1 + ε) * spread O fun c => Complex.exp (logPsi θ c) := by
  have h := sampled_offRay hst hε 1 0
  rw [sampled_still hst, distance_expand _ 1 (by simp)] at h
  simpa using h

/-- The weighted mean of the local energies. -/
theorem sampled_mean [Nonempty C] (hst : SampledStep ε kernel O logPsi θ grads w) :
    ‖wMean ((allSamples (tdvpJoint O (fun c => Complex.exp (logPsi θ c)) grads w)).map fun s => (s.1, s.2.1)) 0
      - Spec.expect O fun c => Complex.exp (logPsi θ c)‖ ≤ ε * √(spread O fun c => Complex.exp (logPsi θ c)) := by
  have h0 := hst.eps_nonneg
  have hb := hst.weights
  set ψ : C → ℂ := fun c => Complex.exp (logPsi θ c) with hψ
  have hne : ∀ s, ψ s ≠ 0 := fun s => Complex.exp_ne_zero _
  have hZ : 0 < norm2 ψ := norm2_pos ψ (Classical.arbitrary C) (hne _)
  have hm : wMean ((allSamples (tdvpJoint O ψ grads w)).map fun s => (s.1, s.2.1)) 0
      = ∑ s, (weightOf (weighted w) s : ℂ) * localValue O ψ s := by
    rw [← wMean_weights w (fun s (_ : Fin 1) => localValue O ψ s) 0]
    unfold tdvpJoint
    rw [allSamples_wmap, allSamples_wmap, List.map_map]
    rfl
  rw [hm]
  set E := Spec.expect O ψ with hE
  set q := weightOf (weighted w) with hq
  set p : C → ℝ := fun s => Complex.normSq (ψ s) / norm2 ψ with hp
  have hp1 : ∑ s, p s = 1 := sum_born (logPsi θ)
  have hp0 : ∀ s, 0 ≤ p s := fun s => div_nonneg (Complex.normSq_nonneg _) hZ.le
  have hq1 : ∑ s, q s = 1 := by rw [hq, sum_weightOf]; exact hb.total
  have hpm : ∑ s, (p s : ℂ) * localValue O ψ s = E := born_mean O ψ hne
  have e1 : ∑ s, (q s : ℂ) * localValue O ψ s - E
      = ∑ s, ((q s - p s : ℝ) : ℂ) * (localValue O ψ s - E) := by
    have : ∀ s, ((q s - p s : ℝ) : ℂ) * (localValue O ψ s - E)
        = (q s : ℂ) * localValue O ψ s - (p s : ℂ) * localValue O ψ s - ((q s : ℂ) * E - (p s : ℂ) * E) := by
      intro s
      push_cast
      ring
    simp only [this, Finset.sum_sub_distrib, ← Finset.sum_mul, hpm, ← Complex.ofReal_sum, hq1, hp1]
    ring
  have hsp : spread O ψ = ∑ s, p s * Complex.normSq (localValue O ψ s - E) := by
    rw [weighted_variance _ _ (born_total ψ hZ) _ (born_mean O ψ hne), born_second O ψ hne]
    rfl
  rw [e1]
  have h1 : ‖∑ s, ((q s - p s : ℝ) : ℂ) * (localValue O ψ s - E)‖
      ≤ ∑ s, ε * (p s * ‖localValue O ψ s - E‖) := by
    refine (norm_sum_le _ _).trans (Finset.sum_le_sum fun s _ => ?_)
    rw [norm_mul, Complex.norm_real, Real.norm_eq_abs, ← mul_assoc]
    exact mul_le_mul_of_nonneg_right (hb.near s) (norm_nonneg _)
  refine h1.trans ?_
  rw [← Finset.mul_sum]
  refine mul_le_mul_of_nonneg_left ?_ h0
  apply Real.le_sqrt_of_sq_le
  rw [hsp]
  have hcs := Finset.sum_mul_sq_le_sq_mul_sq Finset.univ (fun s => √(p s))
    fun s => √(p s) * ‖localValue O ψ s - E‖
  have a1 : ∀ s, √(p s) * (√(p s) * ‖localValue O ψ s - E‖) = p s * ‖localValue O ψ s - E‖ := by
    intro s
    rw [← mul_assoc, Real.mul_self_sqrt (hp0 s)]
  have a2 : ∀ s, √(p s) ^ 2 = p s := fun s => Real.sq_sqrt (hp0 s)
  have a3 : ∀ s, (√(p s) * ‖localValue O ψ s - E‖) ^ 2 = p s * Complex.normSq (localValue O ψ s - E) := by
    intro s
    rw [mul_pow, a2, Complex.normSq_eq_norm_sq]
  simp only [a1, a2, a3, hp1, one_mul] at hcs
  exact hcs

/-- A call of a `TDVP` object with `intStep=0` for the parameters `θ`, with samples of relative error `ε`: it
returned the velocities `u`; afterwards `"tdvp_error"` in its metadata is `d`, `ElocMean0` is `E` and
`ElocVar0` is `var`. Everything else is arbitrary, as in `TdvpReport`. -/
def SampledReport (ε : ℝ) (kernel : C → List (C × ℂ)) (O : Matrix C C ℂ) (logPsi : (Fin (n + 1) → ℝ) → C → ℂ)
    (x : ℂ) (θ u : Fin (n + 1) → ℝ) (d : ℝ) (E : ℂ) (var : ℝ) : Prop :=
  ∃ (smp : Type) (env : TdvpEnv n smp) (cfg : TdvpCfg n) (r : ℕ) (time : ℝ) (sm sm' : smp)
    (at₀ at₁ : TdvpAttrs n) (st : NqsInit) (st' : NqsState) (p : Params)
    (grads : C → Fin (n + 1) → ℂ) (w : World (C × ℂ × ℝ)) (m : TdvpMeta n),
    cfg.rhsPrefactor = x ∧ paramUnflatten st.realParams st.sizes (List.ofFn θ) = .ok p ∧
    SampledStep ε kernel O logPsi θ grads w ∧ r < List.length w ∧
    env.measure p sm time = .ok (tdvpJoint O (fun c => Complex.exp (logPsi θ c)) grads w, sm') ∧
    (tdvpCall env cfg r (List.ofFn θ) time (some 0) sm at₀).call (some st)
      = (.ok (some u, at₁, sm'), st') ∧
    at₁.metaData = some m ∧ m.tdvpError = some d ∧ at₁.eloc0 = some (some (E, var))

/-- C104 for the numbers reported after a call: the energy is right up to `ε` times its spread, the variance
up to the factor `1 ± ε`, and `tdvp_error * ElocVar0` is the distance of the evolution with the returned
velocities from the exact one up to the factor `1 ± ε`. -/
theorem c104_reported [Nonempty C] {x : ℂ} (hx : Complex.normSq x = 1) (hε : ε ≤ 1) {u : Fin (n + 1) → ℝ}
    {d : ℝ} {E : ℂ} {var : ℝ} (h : SampledReport ε kernel O logPsi x θ u d E var) :
    ‖E - Spec.expect O fun c => Complex.exp (logPsi θ c)‖ ≤ ε * √(spread O fun c => Complex.exp (logPsi θ c)) ∧
    (1 - ε) * (spread O fun c => Complex.exp (logPsi θ c)) ≤ var ∧
    var ≤ (1 + ε) * (spread O fun c => Complex.exp (logPsi θ c)) ∧
    (1 - ε) * offRay (fun c => Complex.exp (logPsi θ c)) (fun s => stateVelocity logPsi θ u s
      + x * (O *ᵥ fun c => Complex.exp (logPsi θ c)) s) ≤ d * var ∧
    d * var ≤ (1 + ε) * offRay (fun c => Complex.exp (logPsi θ c)) (fun s => stateVelocity logPsi θ u s
      + x * (O *ᵥ fun c => Complex.exp (logPsi θ c)) s) := by
  obtain ⟨smp, env, cfg, r, time, sm, sm', at₀, at₁, st, st', p, grads, w, m, hpre, hp, hst, hr, hm,
    hcall, hmeta, herr, hel⟩ := h
  have hvv := sampled_variance hst hε
  have hmm := sampled_mean hst
  have hdd := sampled_offRay hst hε x u
  set joint := tdvpJoint O (fun c => Complex.exp (logPsi θ c)) grads w with hj
  have h1 : ∀ rk ∈ joint, rk ≠ [] := World.map_ne _ _ hst.samples.devices
  have h2 : ∀ s ∈ allSamples joint, 0 ≤ s.1 := by
    intro s hs
    rw [hj] at hs
    unfold tdvpJoint at hs
    rw [allSamples_wmap] at hs
    obtain ⟨y, hy, rfl⟩ := List.mem_map.mp hs
    exact hst.nonneg y hy
  have h3 : r < List.length joint := by simpa [hj, tdvpJoint, World.map] using hr
  obtain ⟨hv, hnan⟩ := call_variance env cfg r _ time sm sm' at₀ at₁ st st' _ p hp joint hm h1 h2 h3 hcall
  rw [hel] at hv
  have hvar : var = wVar ((allSamples joint).map fun s => (s.1, s.2.1)) 0 :=
    congrArg Prod.snd (Option.some.inj (Option.some.inj hv))
  have hmean : E = wMean ((allSamples joint).map fun s => (s.1, s.2.1)) 0 :=
    congrArg Prod.fst (Option.some.inj (Option.some.inj hv))
  by_cases h0 : wVar ((allSamples joint).map fun s => (s.1, s.2.1)) 0 = 0
  · obtain ⟨m', hm', hd'⟩ := hnan h0
    rw [hmeta] at hm'
    obtain rfl := Option.some.inj hm'
    rw [herr] at hd'
    cases hd'
  · obtain ⟨m', hm', hd'⟩ := c46_metadata env cfg (by rw [hpre]; exact hx) r _ time sm sm' at₀ at₁ st st' u p
      hp joint hm h1 h2 h3 h0 hcall
    rw [hmeta] at hm'
    obtain rfl := Option.some.inj hm'
    rw [herr] at hd'
    rw [Option.some.inj hd', hvar, div_mul_cancel₀ _ h0, hpre, hmean]
    exact ⟨hmm, hvv.1, hvv.2, hdd.1, hdd.2⟩

/-- C104 along trajectories: let parameters move with TDVP velocities for real-time evolution
(`rhsPrefactor=1j`) from samples of relative error `ε < 1`, whatever the regularisation. Then the distance of
the variational state from the exact solution `φ` of the Schrödinger equation grows at most at the rate
`√(tdvp_error * ElocVar0 / (1-ε))`. -/
theorem c104_real_time [Nonempty C] {kernel : ℝ → C → List (C × ℂ)} {H : ℝ → Matrix C C ℂ}
    (logPsi : (Fin (n + 1) → ℝ) → C → ℂ) {T : ℝ} (hT : 0 ≤ T) (hε : ε < 1)
    (θ u : ℝ → Fin (n + 1) → ℝ) (d : ℝ → ℝ) (E : ℝ → ℂ) (var : ℝ → ℝ)
    (hθ : ∀ t ∈ Icc 0 T, HasDerivWithinAt θ (u t) (Icc 0 T) t)
    (hcall : ∀ t ∈ Icc 0 T, SampledReport ε (kernel t) (H t) logPsi Complex.I (θ t) (u t) (d t) (E t) (var t))
    (B : ℝ → ℝ) (hB : ∀ t ∈ Icc 0 T, HasDerivWithinAt B (√(d t * var t / (1 - ε))) (Icc 0 T) t)
    (φ : ℝ → C → ℂ) (hφ : Evolves H Complex.I φ T) (hφ0 : φ 0 ≠ 0) :
    stateDistance (φ T) (fun c => Complex.exp (logPsi (θ T) c))
      ≤ stateDistance (φ 0) (fun c => Complex.exp (logPsi (θ 0) c)) + (B T - B 0) := by
  have hI : Complex.I = Complex.I * ((1 : ℝ) : ℂ) := by simp
  have hx : Complex.normSq Complex.I = 1 := by simp
  have hrep := fun t ht => c104_reported hx hε.le (hcall t ht)
  have hdiff : ∀ t ∈ Icc 0 T, ∀ s, DifferentiableAt ℝ (fun p => logPsi p s) (θ t) := by
    intro t ht
    obtain ⟨_, _, _, _, _, _, _, _, _, _, _, _, _, _, _, _, _, hst, _⟩ := hcall t ht
    exact hst.differentiable
  have hO : ∀ t ∈ Icc 0 T, (H t).IsHermitian := by
    intro t ht
    obtain ⟨_, _, _, _, _, _, _, _, _, _, _, _, _, _, _, _, _, hst, _⟩ := hcall t ht
    exact hst.hermitian
  have hpos : 0 < 1 - ε := by linarith
  obtain ⟨s₀⟩ := ‹Nonempty C›
  refine c97_distance 1 hT hO φ (fun t c => Complex.exp (logPsi (θ t) c))
    (fun t => stateVelocity logPsi (θ t) (u t)) (by rw [← hI]; exact hφ) hφ0 ?_ ?_
    (fun t => √(d t * var t / (1 - ε))) B (fun t _ => Real.sqrt_nonneg _) hB ?_
  · intro t ht s
    have h2 := (hdiff t ht s).hasFDerivAt
    have h3 := (h2.comp_hasDerivWithinAt t (hθ t ht)).cexp
    refine h3.congr_deriv ?_
    have h1 : HasDerivAt (fun τ : ℝ => θ t + τ • u t) (u t) 0 := by
      have := ((hasDerivAt_id (0 : ℝ)).smul_const (u t)).const_add (θ t)
      simpa using this
    have h2' : HasFDerivAt (fun p => logPsi p s) (fderiv ℝ (fun p => logPsi p s) (θ t))
        (θ t + (0 : ℝ) • u t) := by
      rw [zero_smul, add_zero]
      exact h2
    have h4 := (h2'.comp_hasDerivAt (0 : ℝ) h1).cexp
    have h5 : deriv (fun τ : ℝ => Complex.exp (logPsi (θ t + τ • u t) s)) 0 = _ := h4.deriv
    unfold stateVelocity
    rw [h5]
    simp
  · intro t _ h0
    exact Complex.exp_ne_zero _ (congrFun h0 s₀)
  · intro t ht
    have h1 := (hrep t ht).2.2.2.1
    have h2 : 0 ≤ offRay (fun c => Complex.exp (logPsi (θ t) c)) (fun s => stateVelocity logPsi (θ t) (u t) s
        + Complex.I * (H t *ᵥ fun c => Complex.exp (logPsi (θ t) c)) s) := by
      unfold offRay norm2
      exact div_nonneg (Finset.sum_nonneg fun _ _ => Complex.normSq_nonneg _)
        (Finset.sum_nonneg fun _ _ => Complex.normSq_nonneg _)
    have h3 : 0 ≤ d t * var t := (mul_nonneg hpos.le h2).trans h1
    rw [Real.sq_sqrt (div_nonneg h3 hpos.le), Complex.ofReal_one, mul_one, le_div_iff₀ hpos, mul_comm]
    exact h1

end

/-! ## How probable small errors are -/

section

variable {C : Type} [Fintype C] [DecidableEq C]

omit [Fintype C] [DecidableEq C] in
theorem average_finset {A : Type} (d : WDist A) (T : Finset C) (f : C → A → ℝ) :
    average d (fun a => ∑ c ∈ T, f c a) = ∑ c ∈ T, average d (f c) := by
  unfold average
  induction d with
  | nil => simp
  | cons e d ih =>
    rw [List.map_cons, List.sum_cons, ih, Finset.mul_sum, ← Finset.sum_add_distrib]
    rfl

/-- If all probabilities are estimated well in the mean square, large relative errors are improbable. -/
theorem near_chance [Nonempty C] {A : Type} {d : WDist A} (hd : IsLaw d) (logPsi : C → ℂ) (l : A → List (ℝ × C))
    (hnn : ∀ e ∈ d, ∀ x ∈ l e.1, 0 ≤ x.1) (htot : ∀ e ∈ d, ((l e.1).map Prod.fst).sum = 1) (B : C → ℝ)
    (hB : ∀ c, average d (fun a => (weightOf (l a) c
      - Complex.normSq (Complex.exp (logPsi c)) / norm2 fun c => Complex.exp (logPsi c)) ^ 2) ≤ B c)
    (ε : ℝ) (hε : 0 < ε) :
    chance d (fun a => ¬ NearBorn ε (fun c => Complex.exp (logPsi c)) (l a))
      ≤ ∑ c, B c / (ε * (Complex.normSq (Complex.exp (logPsi c)) / norm2 fun c => Complex.exp (logPsi c))) ^ 2 := by
  classical
  set ψ : C → ℂ := fun c => Complex.exp (logPsi c) with hψ
  set p : C → ℝ := fun c => Complex.normSq (ψ c) / norm2 ψ with hp
  have hp0 : ∀ c, 0 < p c := fun c => div_pos (Complex.normSq_pos.mpr (Complex.exp_ne_zero _))
    (norm2_pos ψ (Classical.arbitrary C) (Complex.exp_ne_zero _))
  have h1 : chance d (fun a => ¬ NearBorn ε ψ (l a))
      ≤ average d fun a => ∑ c, if ε * p c ≤ |weightOf (l a) c - p c| then 1 else 0 := by
    unfold chance
    apply average_mono hd.nonneg
    intro e he
    split_ifs with h
    · have : ∃ c, ε * p c < |weightOf (l e.1) c - p c| := by
        by_contra hcon
        push Not at hcon
        exact h ⟨hnn e he, htot e he, hcon⟩
      obtain ⟨c, hc⟩ := this
      have hs := Finset.single_le_sum (f := fun c => if ε * p c ≤ |weightOf (l e.1) c - p c| then (1 : ℝ) else 0)
        (fun i _ => by split_ifs <;> norm_num) (Finset.mem_univ c)
      rw [if_pos hc.le] at hs
      exact hs
    · exact Finset.sum_nonneg fun c _ => by split_ifs <;> norm_num
  have h2 : average d (fun a => ∑ c, if ε * p c ≤ |weightOf (l a) c - p c| then (1 : ℝ) else 0)
      = ∑ c, chance d fun a => ε * p c ≤ |weightOf (l a) c - p c| := by
    rw [average_finset]
    refine Finset.sum_congr rfl fun c _ => ?_
    unfold chance
    congr
  refine h1.trans (h2.le.trans (Finset.sum_le_sum fun c _ => ?_))
  refine (chebyshev hd.nonneg (fun a => weightOf (l a) c - p c) (ε * p c) (mul_pos hε (hp0 c))).trans ?_
  exact div_le_div_of_nonneg_right (hB c) (sq_nonneg _)

omit [Fintype C] [DecidableEq C] in
theorem flatten_length (l : List (List C)) (ks : List ℕ) (h : List.Forall₂ (fun a k => a.length = k) l ks) :
    l.flatten.length = ks.sum := by
  induction h with
  | nil => rfl
  | cons h _ ih => rw [List.flatten_cons, List.length_append, h, ih, List.sum_cons]

omit [Fintype C] [DecidableEq C] in
theorem flatten_forall₂ {A B : Type} {R : A → B → Prop} {l : List (List A)} {l' : List (List B)}
    (h : List.Forall₂ (List.Forall₂ R) l l') : List.Forall₂ R l.flatten l'.flatten := by
  induction h with
  | nil => exact List.Forall₂.nil
  | cons h _ ih =>
    rw [List.flatten_cons, List.flatten_cons]
    exact List.rel_append h ih

theorem weightOf_indicator (l : List (ℝ × C)) (c : C) :
    weightOf l c = (l.map fun x => x.1 * if x.2 = c then 1 else 0).sum := by
  have h := sum_weighted_real l fun x => if x = c then 1 else 0
  rw [h]
  simp

/-- C104, directly drawn samples on any number of ranks and devices: with `n ≥ N` samples, all configurations
have their probability up to the relative error `ε`, except with a probability of at most
`Σ_c (1/p_c - 1) / (n ε²)`. -/
theorem c104_direct [Nonempty C] (logPsi : C → ℂ) (s D N : ℕ) (hs : 0 < s) (hD : 0 < D) (hN : s ≤ N)
    (sample : WDist C) (hb : BornLaw (fun c => Complex.exp (logPsi c)) sample) :
    ∃ W n, genSampleWorld s D N 1 sample logPsi = .ok W ∧ N ≤ n ∧ IsLaw W ∧
      (∀ e ∈ W, SamplesOf logPsi e.1 ∧ List.length e.1 = s) ∧
      ∀ ε > 0, chance W (fun w => ¬ NearBorn ε (fun c => Complex.exp (logPsi c)) (weighted w))
        ≤ (∑ c, ((norm2 fun c => Complex.exp (logPsi c)) / Complex.normSq (Complex.exp (logPsi c)) - 1))
          / (n * ε ^ 2) := by
  obtain ⟨nss, n, hW, hsum, hNn, hlen, hD', hpos⟩ := genSampleWorld_eq s D N hs hD sample logPsi
  have hn : (0 : ℝ) < n := by
    have : 0 < n := by omega
    exact_mod_cast this
  set ψ : C → ℂ := fun c => Complex.exp (logPsi c) with hψ
  set p : C → ℝ := fun c => Complex.normSq (ψ c) / norm2 ψ with hp
  have hp0 : ∀ c, 0 < p c := fun c => div_pos (Complex.normSq_pos.mpr (Complex.exp_ne_zero _))
    (norm2_pos ψ (Classical.arbitrary C) (Complex.exp_ne_zero _))
  set W := WDist.each (nss.map fun ns => WDist.map (List.map (List.map fun x => (x, logPsi x, 1 / (n : ℝ))))
        (WDist.each (ns.map (WDist.many sample)))) with hWd
  have hlaw : IsLaw W := by
    apply isLaw_each
    intro d hd
    obtain ⟨ns, _, rfl⟩ := List.mem_map.mp hd
    apply isLaw_map
    apply isLaw_each
    intro d' hd'
    obtain ⟨k, _, rfl⟩ := List.mem_map.mp hd'
    exact isLaw_many hb.law k
  have hsamp := genSampleWorld_samples sample logPsi D n hD nss hD' (hpos hN)
  have hsq : ∀ c, average W (fun w => (weightOf (weighted w) c - p c) ^ 2) ≤ p c * (1 - p c) / n := by
    intro c
    set g : C → ℝ := fun x => if x = c then 1 else 0 with hg
    have e1 : average W (fun w => (weightOf (weighted w) c - p c) ^ 2)
        = average W fun w => (((allSamples w).map fun x => g x.1).sum / n - p c) ^ 2 := by
      apply average_congr
      intro e he
      have h4 := (hsamp e he).2.2.2
      rw [weightOf_indicator]
      congr 2
      unfold weighted
      rw [List.map_map, div_eq_mul_inv, ← List.sum_map_mul_right]
      congr 1
      apply List.map_congr_left
      intro x hx
      simp only [Function.comp_apply, h4 x hx, hg]
      ring
    have e2 := average_each_ranks sample (fun x => (x, logPsi x, 1 / (n : ℝ))) nss
      (fun l => ((l.map fun x => g x.1).sum / n - p c) ^ 2)
    rw [hsum] at e2
    rw [e1]
    refine (e2.trans ?_).le
    simp only [List.map_map, Function.comp_def]
    have hgp : average sample g = p c := by
      rw [average_born hb]
      simp [hg, hp]
    have h0 : average sample (fun x => g x - p c) = 0 := by
      rw [average_sub, average_const hb.law, hgp, sub_self]
    have h2 := average_sum_sq hb.law (fun x => g x - p c) h0 n
    have e : average (WDist.many sample n) (fun l => ((l.map g).sum / n - p c) ^ 2)
        = average (WDist.many sample n) (fun l => (1 / (n : ℝ)) ^ 2 * ((l.map fun x => g x - p c).sum) ^ 2) := by
      apply average_congr
      intro e he
      have hl := many_length sample n e he
      rw [list_sum_map_sub, List.map_const', List.sum_replicate, hl, nsmul_eq_mul]
      field_simp
    have h3 : average sample (fun x => (g x - p c) ^ 2) = p c * (1 - p c) := by
      have : (fun x => (g x - p c) ^ 2) = fun x => (1 - 2 * p c) * g x + p c ^ 2 := by
        funext x
        simp only [hg]
        split_ifs <;> ring
      rw [this, average_add, average_mul, average_const hb.law, hgp]
      ring
    refine e.trans ?_
    rw [average_mul, h2, h3]
    field_simp
  refine ⟨W, n, hW, hNn, hlaw, fun e he => ⟨(hsamp e he).1, by rw [(hsamp e he).2.1, hlen]⟩, fun ε hε => ?_⟩
  have hcount : ∀ e ∈ W, (allSamples e.1).length = n := by
    intro e he
    rw [← hsum]
    have h := each_spec _ e he
    rw [List.forall₂_map_right_iff] at h
    unfold allSamples
    rw [flatten_length e.1.flatten nss.flatten]
    refine flatten_forall₂ (h.imp fun rk ns hrk => ?_)
    obtain ⟨q, hq⟩ := hrk
    obtain ⟨e', he', heq⟩ := List.mem_map.mp hq
    have hd := each_spec _ e' he'
    rw [List.forall₂_map_right_iff] at hd
    rw [← (Prod.mk.inj heq).1, List.forall₂_map_left_iff]
    refine hd.imp fun dev k hdev => ?_
    obtain ⟨q', hq'⟩ := hdev
    rw [List.length_map]
    exact many_length sample k _ hq'
  refine (near_chance hlaw logPsi weighted ?_ ?_ (fun c => p c * (1 - p c) / n) hsq ε hε).trans (le_of_eq ?_)
  · intro e he x hx
    obtain ⟨y, hy, rfl⟩ := List.mem_map.mp hx
    rw [show ((y.2.2, y.1) : ℝ × C).1 = y.2.2 from rfl, (hsamp e he).2.2.2 y hy]
    positivity
  · intro e he
    unfold weighted
    rw [List.map_map, List.map_congr_left (f := Prod.fst ∘ fun x : C × ℂ × ℝ => (x.2.2, x.1))
      (g := fun _ => 1 / (n : ℝ)) fun x hx => (hsamp e he).2.2.2 x hx, List.map_const', List.sum_replicate, hcount e he, nsmul_eq_mul]
    field_simp
  · rw [Finset.sum_div]
    refine Finset.sum_congr rfl fun c _ => ?_
    have hpc := hp0 c
    change p c * (1 - p c) / n / (ε * p c) ^ 2 = _
    have : norm2 ψ / Complex.normSq (Complex.exp (logPsi c)) = 1 / p c := by
      rw [hp, one_div_div]
    rw [this]
    field_simp

/-- C104, Markov chains (`mu` arbitrary), on any number of ranks and devices: all configurations have their
probability up to the relative error `ε`, except with a probability of at most `A / (N ε²)` for `N` requested
samples; `A` does not depend on `N`, `ε`, the initial states and the number of thermalisation sweeps. The
conditions on the proposer are those of C93. -/
theorem c104_mcmc_partial {Ω S : Type} [DecidableEq S] [Nonempty C] (logPsi : C → ℂ)
    (W : Finset Ω) (propose : Ω → S → S) (hW : W.Nonempty)
    (X : Finset S) (hne : X.Nonempty) (hX : ∀ ω ∈ W, ∀ s ∈ X, propose ω s ∈ X)
    (hsym : ∀ s ∈ X, ∀ s' ∈ X, (W.filter fun ω => propose ω s = s').card = (W.filter fun ω => propose ω s' = s).card)
    (hirr : ∀ s ∈ X, ∀ t ∈ X, Relation.ReflTransGen (fun a b => ∃ ω ∈ W, propose ω a = b) s t)
    (decode : S → C) (hdec : Set.BijOn decode X Set.univ) (mu : ℝ)
    (hap : (∃ s ∈ X, ∃ t ∈ X, mu * (logPsi (decode s)).re ≠ mu * (logPsi (decode t)).re) ∨
      ∃ s ∈ X, ∃ ds : List Ω, (∀ d ∈ ds, d ∈ W) ∧ Odd ds.length ∧ ds.foldl (fun s d => propose d s) s = s)
    (sweepSteps : ℕ) (hsw : 0 < sweepSteps) (s D nc m : ℕ) (hs : 0 < s) (hD : 0 < D) (hnc : 0 < nc) (hm : 0 < m) :
    ∃ A : ℝ, ∀ (therm N : ℕ) (states : ℕ → List (Fin nc → S)), s ≤ N → (∀ r < s, (states r).length = D) →
      (∀ r < s, ∀ st ∈ states r, ∀ i, st i ∈ X) →
      ∃ (L : WDist (World S)) (smp : World S → World (C × ℂ × ℝ)),
        mcmcConfigWorld s nc W (metropolisStep propose fun x => mu * (logPsi (decode x)).re) X therm sweepSteps N m
          states = .ok L ∧ IsLaw L ∧
        (∀ e ∈ L, mcmcSampleOf (1 / 2) mu logPsi (World.map decode e.1) = .ok (smp e.1) ∧
          List.length (smp e.1) = s ∧ SamplesOf logPsi (smp e.1)) ∧
        ∀ ε > 0, chance L (fun e => ¬ NearBorn ε (fun c => Complex.exp (logPsi c)) (weighted (smp e)))
          ≤ A / (N * ε ^ 2) := by
  classical
  set ψ : C → ℂ := fun c => Complex.exp (logPsi c) with hψ
  set p : C → ℝ := fun c => Complex.normSq (ψ c) / norm2 ψ with hp
  have hp0 : ∀ c, 0 < p c := fun c => div_pos (Complex.normSq_pos.mpr (Complex.exp_ne_zero _))
    (norm2_pos ψ (Classical.arbitrary C) (Complex.exp_ne_zero _))
  have hall := fun c : C => c93_configurations_partial W propose hW X hne hX hsym hirr decode logPsi (1 / 2) mu hap
    sweepSteps hsw s D nc m hs hD hnc hm fun x => if x = c then 1 else 0
  choose A hA using hall
  have hsum : ∀ G : C → ℝ, ∑ x ∈ X, Real.exp ((logPsi (decode x)).re / (1 / 2)) * G (decode x)
      = ∑ c, Complex.normSq (ψ c) * G c := by
    intro G
    apply Finset.sum_nbij decode (fun x _ => Finset.mem_univ _) hdec.injOn (by simpa using hdec.surjOn)
    intro x _
    congr 1
    rw [hψ, Complex.normSq_eq_norm_sq, Complex.norm_exp, ← Real.exp_nat_mul]
    congr 1
    push_cast
    ring
  have hE : ∀ c, (∑ x ∈ X, Real.exp ((logPsi (decode x)).re / (1 / 2)) * (if decode x = c then 1 else 0))
      / ∑ x ∈ X, Real.exp ((logPsi (decode x)).re / (1 / 2)) = p c := by
    intro c
    have h1 := hsum fun _ => 1
    simp only [mul_one] at h1
    rw [hsum fun x => if x = c then 1 else 0, h1]
    simp [hp, norm2]
  refine ⟨∑ c, A c / p c ^ 2, fun therm N states hN hst hin => ?_⟩
  have hrun := fun c => hA c therm N states hN hst hin
  choose L M h1 h2 h3 h4 using hrun
  set c₀ := Classical.arbitrary C with hc₀
  have hL : ∀ c, L c = L c₀ := fun c => Except.ok.inj ((h1 c).symm.trans (h1 c₀))
  set smp : World S → World (C × ℂ × ℝ) := fun v =>
    match mcmcSampleOf (1 / 2) mu logPsi (World.map decode v) with
    | .ok w => w
    | .error _ => [] with hsmp
  have hdef : ∀ v w, mcmcSampleOf (1 / 2) mu logPsi (World.map decode v) = .ok w → smp v = w := by
    intro v w h
    simp only [hsmp, h]
  refine ⟨L c₀, smp, h1 c₀, h2 c₀, ?_, ?_⟩
  · intro e he
    obtain ⟨_, w, h6, h7, _, h9, _⟩ := h3 c₀ e he
    rw [hdef _ _ h6]
    exact ⟨h6, h7, h9⟩
  · intro ε hε
    have hNR : (0 : ℝ) < N := by
      have : 0 < N := by omega
      exact_mod_cast this
    refine (near_chance (h2 c₀) logPsi (fun e => weighted (smp e)) ?_ ?_ (fun c => A c / N) ?_ ε hε).trans (le_of_eq ?_)
    · intro e he x hx
      obtain ⟨_, w, h6, _, _, _, _, h10, _⟩ := h3 c₀ e he
      rw [hdef _ _ h6] at hx
      obtain ⟨y, hy, rfl⟩ := List.mem_map.mp hx
      exact h10 y hy
    · intro e he
      obtain ⟨_, w, h6, _, _, _, h10, _⟩ := h3 c₀ e he
      rw [hdef _ _ h6]
      unfold weighted
      rw [List.map_map]
      exact h10
    · intro c
      have h := h4 c
      rw [hE c, hL c] at h
      refine le_trans (le_of_eq ?_) h
      apply average_congr
      intro e he
      rw [← hL c] at he
      obtain ⟨_, w, h6, _, _, _, _, _, h10⟩ := h3 c e he
      rw [hdef _ _ h6, weightOf_indicator]
      unfold weighted
      rw [List.map_map, h10]
      rfl
    · rw [Finset.sum_div]
      refine Finset.sum_congr rfl fun c _ => ?_
      have hpc := hp0 c
      change A c / N / (ε * p c) ^ 2 = _
      field_simp

/-- A particle that hops on a ring of three sites, two ranks with two devices and four chains each. -/
example (logPsi : ZMod 3 → ℂ) := c104_mcmc_partial logPsi {1, -1} (fun (d s : ZMod 3) => s + d) (by simp) Finset.univ
  ⟨0, Finset.mem_univ _⟩ (fun _ _ _ _ => Finset.mem_univ _) (by decide)
  (by
    have h1 : ∀ s t : ZMod 3, s ≠ t → ∃ ω ∈ ({1, -1} : Finset (ZMod 3)), s + ω = t := by decide
    intro s _ t _
    by_cases h : s = t
    · rw [h]
    · exact Relation.ReflTransGen.single (h1 s t h))
  id (by simp) 2 (.inr ⟨0, Finset.mem_univ _, [1, 1, 1], by simp, ⟨1, rfl⟩, by decide⟩) 3 (by norm_num) 2 2 4 1
  (by norm_num) (by norm_num) (by norm_num) (by norm_num)

/-- C104, Markov chains with single spin flips, for wave functions whose amplitudes differ in magnitude. -/
theorem c104_spin_flip_partial (n : ℕ) (hn : 0 < n) (logPsi : (Fin n → Fin 2) → ℂ) (mu : ℝ) (hmu : 0 < mu)
    (hpsi : ∃ c c', (logPsi c).re ≠ (logPsi c').re)
    (sweepSteps : ℕ) (hsw : 0 < sweepSteps) (s D nc m : ℕ) (hs : 0 < s) (hD : 0 < D) (hnc : 0 < nc) (hm : 0 < m) :
    ∃ A : ℝ, ∀ (therm N : ℕ) (states : ℕ → List (Fin nc → List ℤ)), s ≤ N → (∀ r < s, (states r).length = D) →
      (∀ r < s, ∀ st ∈ states r, ∀ i, st i ∈ spinConfigs n) →
      ∃ (L : WDist (World (List ℤ))) (smp : World (List ℤ) → World ((Fin n → Fin 2) × ℂ × ℝ)),
        mcmcConfigWorld s nc (spinFlipDraws n) (metropolisStep proposeSpinFlip fun x =>
          mu * (logPsi (decodeChain n 2 x)).re) (spinConfigs n) therm sweepSteps N m states = .ok L ∧ IsLaw L ∧
        (∀ e ∈ L, mcmcSampleOf (1 / 2) mu logPsi (World.map (decodeChain n 2) e.1) = .ok (smp e.1) ∧
          List.length (smp e.1) = s ∧ SamplesOf logPsi (smp e.1)) ∧
        ∀ ε > 0, chance L (fun e => ¬ NearBorn ε (fun c => Complex.exp (logPsi c)) (weighted (smp e)))
          ≤ A / (N * ε ^ 2) := by
  obtain ⟨h1, h2, h3, h4⟩ := spinFlip_moves n hn
  refine c104_mcmc_partial logPsi _ _ h1 _ (spinConfigs_nonempty n) h2 h3 h4 _ (decodeChain_bijOn n) mu
    (Or.inl ?_) sweepSteps hsw s D nc m hs hD hnc hm
  obtain ⟨c, c', hcc⟩ := hpsi
  obtain ⟨a, ha, rfl⟩ := (decodeChain_bijOn n).surjOn (Set.mem_univ c)
  obtain ⟨a', ha', rfl⟩ := (decodeChain_bijOn n).surjOn (Set.mem_univ c')
  exact ⟨a, ha, a', ha', fun h => hcc (mul_left_cancel₀ hmu.ne' h)⟩

end

/-! ## All together -/

section

variable {n : ℕ} {C : Type} [Fintype C] [DecidableEq C] {kernel : C → List (C × ℂ)} {O : Matrix C C ℂ}

theorem chance_le {A : Type} {d : WDist A} (hd : IsLaw d) (P Q : A → Prop) (h : ∀ e ∈ d, P e.1 → Q e.1) :
    chance d P ≤ chance d Q := by
  unfold chance
  apply average_mono hd.nonneg
  intro e he
  split_ifs with h1 h2 h2
  · exact le_rfl
  · exact absurd (h e he h1) h2
  · norm_num
  · exact le_rfl

/-- C104 with directly drawn samples, imaginary time: except with a probability of at most
`Σ_c (1/p_c - 1) / (N ε²)`, every numerical update that `solve` computes from `N` requested samples, on any
rank and with any regularisation, diagonal shift and signal-to-noise damping, changes the energy at most at the
rate of `c104_energy`. -/
theorem c104_direct_energy [Nonempty C] (hk : OperatorOf kernel O) (hO : O.IsHermitian)
    (logPsi : (Fin (n + 1) → ℝ) → C → ℂ) (θ : Fin (n + 1) → ℝ)
    (hdiff : ∀ s, DifferentiableAt ℝ (fun p => logPsi p s) θ) (grads : C → Fin (n + 1) → ℂ)
    (hgrad : ∀ s k, grads s k = fderiv ℝ (fun p => logPsi p s) θ (Pi.single k 1))
    (s D N : ℕ) (hs : 0 < s) (hD : 0 < D) (hN : s ≤ N)
    (sample : WDist C) (hb : BornLaw (fun c => Complex.exp (logPsi θ c)) sample) (ε : ℝ) (h0 : 0 < ε) (hε : ε ≤ 1)
    (cfg : TdvpCfg n) (heigh : EighCorrect cfg)
    (hq : cfg.makeReal ≠ "imag") (x : ℝ) (hx : 0 < x) (hpre : cfg.rhsPrefactor = (x : ℂ))
    (hshift : 0 ≤ cfg.diagonalShift) (zeroCfg : C) (b : ℤ) :
    ∃ W, genSampleWorld s D N 1 sample (logPsi θ) = .ok W ∧ IsLaw W ∧
      chance W (fun w => ¬ ∀ r < s, ∀ at₀ at₁ res u,
        tdvpSolveSamples cfg r kernel ⟨logPsi θ, true⟩ zeroCfg b grads w at₀ = .ok (res, at₁) →
        res.update = some u →
        ∃ e : ℝ, HasDerivAt (fun τ : ℝ => Spec.expect O fun c => Complex.exp (logPsi (θ + τ • u) c)) (e : ℂ) 0 ∧
          e ≤ -((1 - ε) * offRay (fun c => Complex.exp (logPsi θ c)) (stateVelocity logPsi θ u)) / x
            + 2 * ε * (√(offRay (fun c => Complex.exp (logPsi θ c)) (stateVelocity logPsi θ u))
              * √(spread O fun c => Complex.exp (logPsi θ c))))
        ≤ (∑ c, ((norm2 fun c => Complex.exp (logPsi θ c)) / Complex.normSq (Complex.exp (logPsi θ c)) - 1))
          / (N * ε ^ 2) := by
  obtain ⟨W, num, hW, hnum, hlaw, hsamp, hch⟩ := c104_direct (logPsi θ) s D N hs hD hN sample hb
  refine ⟨W, hW, hlaw, ?_⟩
  have hNR : (0 : ℝ) < N := by
    have : 0 < N := by omega
    exact_mod_cast this
  refine le_trans (chance_le hlaw _ _ ?_) ((hch ε h0).trans ?_)
  · intro e he hbad hnear
    refine hbad fun r hr at₀ at₁ res u hres hu => ?_
    have hst : SampledStep ε kernel O logPsi θ grads e.1 := ⟨hk, hO, hdiff, hgrad, (hsamp e he).1, hnear⟩
    exact c104_energy hst hε cfg heigh hq x hx hpre hshift zeroCfg b r (by rw [(hsamp e he).2]; exact hr) at₀ at₁ res
      hres u hu
  · apply div_le_div_of_nonneg_left
    · refine Finset.sum_nonneg fun c _ => ?_
      rw [sub_nonneg, one_le_div (Complex.normSq_pos.mpr (Complex.exp_ne_zero _))]
      exact Finset.single_le_sum (f := fun c => Complex.normSq (Complex.exp (logPsi θ c)))
        (fun _ _ => Complex.normSq_nonneg _) (Finset.mem_univ c)
    · positivity
    · have : (N : ℝ) ≤ num := by exact_mod_cast hnum
      exact mul_le_mul_of_nonneg_right this (by positivity)

end

/-! ## Cases -/

/-- Three samples of one spin at `θ = 0`: weights `1/3` and `2/3` instead of `1/2`. -/
noncomputable def unevenWorld : World (Fin 2 × ℂ × ℝ) := [[[(0, 0, 1 / 3), (1, 0, 1 / 3)]], [[(1, 0, 1 / 3)]]]

theorem uneven_step : SampledStep (1 / 3) spinKernel spinMatrix spinLog 0 (fun s => ![(s.val : ℂ), Complex.I * s.val])
    unevenWorld := by
  refine ⟨spin_operator, spin_step.hermitian, spin_step.differentiable, spin_step.gradients, ⟨?_, ?_, ?_⟩, ?_⟩
  · simp [unevenWorld]
  · simp [unevenWorld]
  · simp [unevenWorld, allSamples, spinLog]
  · have h : weighted unevenWorld = [(1 / 3, 0), (1 / 3, 1), (1 / 3, 1)] := rfl
    have h2 : (fun c => Complex.exp (spinLog 0 c)) = fun _ => 1 := by
      funext c
      simp [spinLog]
    rw [h, h2]
    refine ⟨?_, ?_, ?_⟩
    · intro x hx
      simp only [List.mem_cons, List.not_mem_nil, or_false] at hx
      rcases hx with rfl | rfl | rfl <;> norm_num
    · norm_num
    · intro s
      fin_cases s <;> norm_num [weightOf, norm2, abs_le]

theorem uneven_joint : allSamples (tdvpJoint spinMatrix (fun c => Complex.exp (spinLog 0 c))
    (fun s => ![(s.val : ℂ), Complex.I * s.val]) unevenWorld)
      = [(1 / 3, fun _ => 2, ![0, 0]), (1 / 3, fun _ => 0, ![1, Complex.I]), (1 / 3, fun _ => 0, ![1, Complex.I])] := by
  have h2 : (fun c => Complex.exp (spinLog 0 c)) = fun _ => 1 := by
    funext c
    simp [spinLog]
  rw [h2]
  have e0 : localValue spinMatrix (fun _ => 1) 0 = 2 := by
    simp [localValue, spinMatrix, mulVec, dotProduct]
    norm_num
  have e1 : localValue spinMatrix (fun _ => 1) 1 = 0 := by
    simp [localValue, spinMatrix, mulVec, dotProduct]
  simp [tdvpJoint, unevenWorld, allSamples, World.map, e0, e1]

theorem unevenQS : specQS spinCfg [(1 / 3, fun _ => 2, ![0, 0]), (1 / 3, fun _ => 0, ![1, Complex.I]),
    (1 / 3, fun _ => 0, ![1, Complex.I])] = Matrix.diagonal fun _ => (2 / 9 : ℂ) := by
  unfold specQS
  rw [if_neg (by norm_num [spinCfg])]
  ext i j
  fin_cases i <;> fin_cases j <;> simp [specS, wCross, wMean, TdvpCfg.q, spinCfg] <;> norm_num

/-- `solve` for the uneven samples: all eigenvalues `2/9`. -/
theorem uneven_spectrum : ∃ res at₁ sp, tdvpSolveSamples spinCfg 1 spinKernel ⟨spinLog 0, true⟩ 0 1
    (fun s => ![(s.val : ℂ), Complex.I * s.val]) unevenWorld {} = .ok (res, at₁) ∧
      at₁.spectrum = some (some sp) ∧ ∀ k, sp.ev k = 2 / 9 := by
  obtain ⟨E, G, hi, heq⟩ := solveSamples_input spin_operator ⟨spinLog 0, true⟩ rfl 0 1 unevenWorld
    uneven_step.samples uneven_step.nonneg spinCfg 1 (by simp [unevenWorld]) (fun s => ![(s.val : ℂ), Complex.I * s.val])
  obtain ⟨res, at₁, hres⟩ := c45_returns_partial spinCfg (by norm_num [spinCfg]) (by norm_num [spinCfg])
    (by norm_num [spinCfg]) 1 _ E G hi {}
  refine ⟨res, at₁, _, by rw [heq]; exact hres, solve_spectrum spinCfg 1 _ E G hi _ at₁ res hres, fun k => ?_⟩
  rw [uneven_joint]
  change (spinCfg.eigh _).1 k = _
  rw [unevenQS]
  have hH : (Matrix.diagonal fun _ => (2 / 9 : ℂ) : Matrix (Fin 2) (Fin 2) ℂ).IsHermitian := by
    ext i j
    fin_cases i <;> fin_cases j <;> simp
  obtain ⟨hun, hdec, _⟩ := someEigh_correct spinCfg rfl _ hH
  set V := (spinCfg.eigh (Matrix.diagonal fun _ => (2 / 9 : ℂ))).2 with hV
  set ev := (spinCfg.eigh (Matrix.diagonal fun _ => (2 / 9 : ℂ))).1 with hev
  have h1 := congrArg (fun M => Vᴴ * M) hdec
  rw [← Matrix.mul_assoc, ← Matrix.mul_assoc, hun, Matrix.one_mul,
    show (Matrix.diagonal fun _ => (2 / 9 : ℂ) : Matrix (Fin 2) (Fin 2) ℂ) = (2 / 9 : ℂ) • 1 by
      ext i j; simp [Matrix.diagonal, Matrix.one_apply], Matrix.mul_smul, Matrix.smul_mul,
    Matrix.mul_one, hun] at h1
  have h2 := congrFun (congrFun h1 k) k
  simp only [Matrix.smul_apply, Matrix.one_apply_eq, Matrix.diagonal_apply_eq, smul_eq_mul,
    mul_one] at h2
  have h3 := congrArg Complex.re h2
  simp only [Complex.ofReal_re] at h3
  rw [← h3]
  norm_num

/-- Case for `c104_update` and `c104_energy`, with `ε = 1/3` and `κ = 1`. -/
example : ∃ res at₁ u, tdvpSolveSamples spinCfg 1 spinKernel ⟨spinLog 0, true⟩ 0 1
    (fun s => ![(s.val : ℂ), Complex.I * s.val]) unevenWorld {} = .ok (res, at₁) ∧ res.update = some u ∧
    (∀ v : Fin 2 → ℝ,
      (1 - 1 / 3) * offRay (fun c => Complex.exp (spinLog 0 c)) (fun s => stateVelocity spinLog 0 u s
          + 1 * (spinMatrix *ᵥ fun c => Complex.exp (spinLog 0 c)) s)
        ≤ (1 + 1 / 3) * ((1 - missOf 1 res.cutoff 1 ^ 2) * offRay (fun c => Complex.exp (spinLog 0 c))
            (fun s => stateVelocity spinLog 0 v s
              + 1 * (spinMatrix *ᵥ fun c => Complex.exp (spinLog 0 c)) s)
          + missOf 1 res.cutoff 1 ^ 2
            * (Complex.normSq 1 * spread spinMatrix fun c => Complex.exp (spinLog 0 c)))) ∧
    ∃ e : ℝ, HasDerivAt (fun τ : ℝ => Spec.expect spinMatrix fun c => Complex.exp (spinLog (0 + τ • u) c)) (e : ℂ) 0 ∧
      e ≤ -((1 - 1 / 3) * offRay (fun c => Complex.exp (spinLog 0 c)) (stateVelocity spinLog 0 u)) / 1
        + 2 * (1 / 3) * (√(offRay (fun c => Complex.exp (spinLog 0 c)) (stateVelocity spinLog 0 u))
          * √(spread spinMatrix fun c => Complex.exp (spinLog 0 c))) := by
  obtain ⟨res, at₁, sp, hres, hsp, hev⟩ := uneven_spectrum
  obtain ⟨u, hu, h⟩ := c104_update uneven_step (by norm_num) spinCfg (someEigh_correct _ rfl)
    (by simp [spinCfg]) (by norm_num [spinCfg]) (by norm_num [spinCfg]) 0 1 1 (by simp [unevenWorld])
    {} at₁ res hres sp hsp (by rw [hev]; norm_num) 1 1 (by norm_num)
    (fun k => Or.inr (by rw [hev, hev]; norm_num)) zero_le_one le_rfl (fun _ => 1) (Or.inl rfl)
  exact ⟨res, at₁, u, hres, hu, h, c104_energy uneven_step (by norm_num) spinCfg (someEigh_correct _ rfl)
    (by simp [spinCfg]) 1 one_pos (by simp [spinCfg]) (by norm_num [spinCfg]) 0 1 1 (by simp [unevenWorld]) {} at₁
    res hres u hu⟩

/-- Case for `c104_conserved`: `solve` in real time returns for the uneven samples. -/
example : ∃ res at₁, tdvpSolveSamples spinRealTime 1 spinKernel ⟨spinLog 0, true⟩ 0 1
    (fun s => ![(s.val : ℂ), Complex.I * s.val]) unevenWorld {} = .ok (res, at₁) ∧
    ∀ u, res.update = some u →
    ∃ e : ℝ, HasDerivAt (fun τ : ℝ => Spec.expect spinMatrix fun c => Complex.exp (spinLog (0 + τ • u) c)) (e : ℂ) 0 ∧
      |e| ≤ 2 * (1 / 3) * (√(offRay (fun c => Complex.exp (spinLog 0 c)) (stateVelocity spinLog 0 u))
          * √(spread spinMatrix fun c => Complex.exp (spinLog 0 c))) := by
  obtain ⟨E, G, hi, heq⟩ := solveSamples_input spin_operator ⟨spinLog 0, true⟩ rfl 0 1 unevenWorld
    uneven_step.samples uneven_step.nonneg spinRealTime 1 (by simp [unevenWorld])
    (fun s => ![(s.val : ℂ), Complex.I * s.val])
  obtain ⟨res, at₁, hres⟩ := c45_returns_partial spinRealTime (by norm_num [spinRealTime]) (by norm_num [spinRealTime])
    (by norm_num [spinRealTime]) 1 _ E G hi {}
  rw [← heq] at hres
  exact ⟨res, at₁, hres, fun u hu => c104_conserved uneven_step (by norm_num) spinRealTime rfl 1 one_ne_zero
    (by simp [spinRealTime]) 0 1 1 (by simp [unevenWorld]) {} at₁ res hres u hu⟩

/-- Exactly weighted samples have no error. -/
theorem near_of_born {C : Type} [Fintype C] [DecidableEq C] [Nonempty C] (logPsi : C → ℂ) (l : List (ℝ × C))
    (h : BornWeights (fun c => Complex.exp (logPsi c)) l) (ε : ℝ) (hε : 0 ≤ ε) :
    NearBorn ε (fun c => Complex.exp (logPsi c)) l := by
  refine ⟨h.nonneg, ?_, fun s => ?_⟩
  · rw [← sum_weightOf]
    simp only [h.born]
    exact sum_born logPsi
  · rw [h.born, sub_self, abs_zero]
    exact mul_nonneg hε (div_nonneg (Complex.normSq_nonneg _) (Finset.sum_nonneg fun _ _ => Complex.normSq_nonneg _))

/-- Case for `c104_reported` and `c104_real_time`: the precessing spin of C97. -/
theorem phase_sampled : ∃ (u : Fin 1 → ℝ) (d : ℝ) (E : (Fin 1 → ℝ) → ℂ) (var : ℝ), ∀ θ : Fin 1 → ℝ,
    SampledReport (1 / 10) phaseKernel phaseMatrix phaseLog Complex.I θ u d (E θ) var := by
  obtain ⟨u, d, var, h⟩ := phase_report
  have hE : ∀ θ, ∃ E, SampledReport (1 / 10) phaseKernel phaseMatrix phaseLog Complex.I θ u d E var := by
    intro θ
    obtain ⟨smp, env, cfg, r, time, sm, sm', at₀, at₁, st, st', p, grads, w, m, E, hpre, hp, hst, rest⟩ := h θ
    exact ⟨E, smp, env, cfg, r, time, sm, sm', at₀, at₁, st, st', p, grads, w, m, hpre, hp,
      ⟨hst.operator, hst.hermitian, hst.differentiable, hst.gradients, hst.samples,
        near_of_born _ _ hst.weights _ (by norm_num)⟩, rest⟩
  choose E hE using hE
  exact ⟨u, d, E, var, hE⟩

example (T : ℝ) (hT : 0 ≤ T) : ∃ (u : Fin 1 → ℝ) (d var : ℝ),
    stateDistance (fun s => Complex.exp (-(Complex.I * T * (1 - 2 * (s.val : ℂ)))))
      (fun c => Complex.exp (phaseLog (T • u) c))
      ≤ stateDistance (fun s : Fin 2 => Complex.exp (-(Complex.I * (0 : ℝ) * (1 - 2 * (s.val : ℂ)))))
      (fun c => Complex.exp (phaseLog ((0 : ℝ) • u) c)) + T * √(d * var / (1 - 1 / 10)) := by
  obtain ⟨u, d, E, var, h⟩ := phase_sampled
  refine ⟨u, d, var, ?_⟩
  have := c104_real_time phaseLog hT (by norm_num) (fun t => t • u) (fun _ => u) (fun _ => d) (fun t => E (t • u))
    (fun _ => var) (fun t _ => by simpa using ((hasDerivAt_id t).smul_const u).hasDerivWithinAt) (fun t _ => h _)
    (fun t => t * √(d * var / (1 - 1 / 10)))
    (fun t _ => by simpa using ((hasDerivAt_id t).mul_const (√(d * var / (1 - 1 / 10)))).hasDerivWithinAt)
    _ (phase_evolves T) (fun h0 => Complex.exp_ne_zero _ (congrFun h0 0))
  simpa using this

/-- Case for `c104_direct` and `c104_direct_energy`: a fair coin on two ranks with two devices each. -/
example (N : ℕ) (hN : 2 ≤ N) : ∃ W n, genSampleWorld 2 2 N 1 [((0 : Fin 2), (1 / 2 : ℝ)), (1, 1 / 2)] (spinLog 0) = .ok W ∧
    N ≤ n ∧ IsLaw W ∧ (∀ e ∈ W, SamplesOf (spinLog 0) e.1 ∧ List.length e.1 = 2) ∧
    ∀ ε > 0, chance W (fun w => ¬ NearBorn ε (fun c => Complex.exp (spinLog 0 c)) (weighted w)) ≤ 2 / (n * ε ^ 2) := by
  have hψ : (fun c => Complex.exp (spinLog 0 c)) = fun _ => 1 := by
    funext c
    simp [spinLog]
  have hn : norm2 (fun _ : Fin 2 => (1 : ℂ)) = 2 := by
    simp [norm2]
  have hb : BornLaw (fun c => Complex.exp (spinLog 0 c)) [((0 : Fin 2), (1 / 2 : ℝ)), (1, 1 / 2)] := by
    refine ⟨⟨?_, ?_⟩, ?_⟩
    · intro e he
      simp only [List.mem_cons, List.not_mem_nil, or_false] at he
      rcases he with rfl | rfl <;> norm_num
    · norm_num [average]
    · intro s
      rw [hψ, hn]
      fin_cases s <;> simp [prob, spinLog]
  have h := c104_direct (spinLog 0) 2 2 N two_pos two_pos hN _ hb
  have h2 : ∑ c : Fin 2, (norm2 (fun c => Complex.exp (spinLog 0 c)) / Complex.normSq (Complex.exp (spinLog 0 c)) - 1)
      = 2 := by
    rw [hψ, hn]
    simp [spinLog]
    norm_num
  rw [h2] at h
  exact h

/-- Case for `c104_spin_flip_partial`: two chains of three spins with amplitudes `exp` of the number of spins up. -/
example : ∃ A : ℝ, ∀ (therm N : ℕ) (states : ℕ → List (Fin 2 → List ℤ)), 3 ≤ N → (∀ r < 3, (states r).length = 1) →
      (∀ r < 3, ∀ st ∈ states r, ∀ i, st i ∈ spinConfigs 3) →
      ∃ (L : WDist (World (List ℤ))) (smp : World (List ℤ) → World ((Fin 3 → Fin 2) × ℂ × ℝ)),
        mcmcConfigWorld 3 2 (spinFlipDraws 3) (metropolisStep proposeSpinFlip fun x =>
          1 * (((∑ i, (decodeChain 3 2 x i).val : ℕ) : ℂ)).re) (spinConfigs 3) therm 3 N 1 states = .ok L ∧ IsLaw L ∧
        (∀ e ∈ L, mcmcSampleOf (1 / 2) 1 (fun c => ((∑ i, (c i).val : ℕ) : ℂ)) (World.map (decodeChain 3 2) e.1)
            = .ok (smp e.1) ∧ List.length (smp e.1) = 3 ∧ SamplesOf (fun c => ((∑ i, (c i).val : ℕ) : ℂ)) (smp e.1)) ∧
        ∀ ε > 0, chance L (fun e => ¬ NearBorn ε (fun c => Complex.exp ((∑ i, (c i).val : ℕ) : ℂ)) (weighted (smp e)))
          ≤ A / (N * ε ^ 2) := by
  refine c104_spin_flip_partial 3 (by norm_num) (fun c => ((∑ i, (c i).val : ℕ) : ℂ)) 1 one_pos
    ⟨fun _ => 0, fun _ => 1, ?_⟩ 3 (by norm_num) 3 1 2 1 (by norm_num) (by norm_num) (by norm_num) (by norm_num)
  simp

end JVMC
