import Mathlib.Analysis.Calculus.MeanValue
import Mathlib.Analysis.InnerProductSpace.Calculus
import Verif.Props.Accuracy
import Verif.Spec.Smooth

/-!
# Lemmas for C107: straight steps of the parameters
-/

namespace JVMC

open Spec Set Matrix

section abstract

variable {E : Type} [NormedAddCommGroup E] [InnerProductSpace ℂ E]

/-- The normalised state moves at most as fast as the state itself. -/
theorem unit_moves {ψ ψ' : ℝ → E} {T g : ℝ}
    (hψ : ∀ t ∈ Icc 0 T, HasDerivWithinAt ψ (ψ' t) (Icc 0 T) t) (hne : ∀ t ∈ Icc 0 T, ψ t ≠ 0)
    (hg : ∀ t ∈ Icc 0 T, ‖ψ' t‖ ≤ g * ‖ψ t‖) :
    ∀ t ∈ Icc 0 T, ‖‖ψ t‖⁻¹ • ψ t - ‖ψ 0‖⁻¹ • ψ 0‖ ≤ g * t := by
  let _ : InnerProductSpace ℝ E := InnerProductSpace.rclikeToReal ℂ E
  have hd : ∀ t ∈ Icc 0 T, HasDerivWithinAt (fun t => ‖ψ t‖⁻¹ • ψ t)
      (‖ψ t‖⁻¹ • (ψ' t - ((inner ℝ (ψ t) (ψ' t) : ℝ) / ‖ψ t‖ ^ 2) • ψ t)) (Icc 0 T) t := by
    intro t ht
    have hp := norm_pos_iff.mpr (hne t ht)
    have h1 : HasDerivWithinAt (fun t => ‖ψ t‖ ^ 2) (2 * inner ℝ (ψ t) (ψ' t)) (Icc 0 T) t :=
      (hψ t ht).norm_sq
    have h2 := h1.sqrt (by positivity)
    have e : (fun t => √(‖ψ t‖ ^ 2)) = fun t => ‖ψ t‖ := by
      funext t
      exact Real.sqrt_sq (norm_nonneg _)
    rw [e, Real.sqrt_sq hp.le] at h2
    have h3 := (h2.fun_inv hp.ne').smul (hψ t ht)
    refine h3.congr_deriv ?_
    rw [smul_sub, smul_smul, sub_eq_add_neg, ← neg_smul]
    congr 2
    field_simp
  intro t ht
  have h0 : (0 : ℝ) ∈ Icc 0 T := ⟨le_rfl, ht.1.trans ht.2⟩
  have := (convex_Icc 0 T).norm_image_sub_le_of_norm_hasDerivWithin_le hd (C := g) ?_ h0 ht
  · rw [sub_zero, Real.norm_of_nonneg ht.1] at this
    exact this
  · intro t ht
    have hp := norm_pos_iff.mpr (hne t ht)
    have hk : ‖ψ' t - ((inner ℝ (ψ t) (ψ' t) : ℝ) / ‖ψ t‖ ^ 2) • ψ t‖ ≤ ‖ψ' t‖ := by
      rw [← sq_le_sq₀ (norm_nonneg _) (norm_nonneg _), norm_sub_sq_real, inner_smul_right, norm_smul, mul_pow,
        real_inner_comm (ψ t) (ψ' t), Real.norm_eq_abs, sq_abs]
      have : 2 * ((inner ℝ (ψ t) (ψ' t) : ℝ) / ‖ψ t‖ ^ 2 * inner ℝ (ψ t) (ψ' t))
          - ((inner ℝ (ψ t) (ψ' t) : ℝ) / ‖ψ t‖ ^ 2) ^ 2 * ‖ψ t‖ ^ 2
          = (inner ℝ (ψ t) (ψ' t)) ^ 2 / ‖ψ t‖ ^ 2 := by
        field_simp
        ring
      have h2 : 0 ≤ (inner ℝ (ψ t) (ψ' t) : ℝ) ^ 2 / ‖ψ t‖ ^ 2 := by positivity
      linarith
    rw [norm_smul, norm_inv, norm_norm, inv_mul_le_iff₀ hp, mul_comm]
    exact hk.trans (hg t ht)

/-- If the normalised state moves at most at rate `g` and the generator `A` changes at most at rate `q`, then the
part of `A ψ` off the ray of `ψ` changes at most at rate `q + 2 g a`, where `a` bounds the generator. -/
theorem off_ray_moves {A A₀ : E →ₗ[ℂ] E} {ψ ψ₀ : E} (hψ : ψ ≠ 0) (hψ₀ : ψ₀ ≠ 0) {a g q t e : ℝ}
    (hA : ∀ v, ‖A v‖ ≤ a * ‖v‖) (hq : ∀ v, ‖A v - A₀ v‖ ≤ q * t * ‖v‖)
    (hA₀ : ‖A₀ ψ₀‖ ≤ a * ‖ψ₀‖) (hm : ‖‖ψ‖⁻¹ • ψ - ‖ψ₀‖⁻¹ • ψ₀‖ ≤ g * t)
    (r : E) (z : ℂ) (hr : A₀ ψ₀ = z • ψ₀ + r) (ho : inner ℂ ψ₀ r = 0) (he : ‖r‖ ≤ e * ‖ψ₀‖) (ha : 0 ≤ a) :
    ‖A ψ - z • ψ‖ ≤ (e + (q + 2 * g * a) * t) * ‖ψ‖ := by
  have hp := norm_pos_iff.mpr hψ
  have hp₀ := norm_pos_iff.mpr hψ₀
  have hz : ‖z‖ ≤ a := by
    have h1 : ‖z • ψ₀‖ ^ 2 ≤ ‖A₀ ψ₀‖ ^ 2 := by
      rw [hr, norm_add_sq (𝕜 := ℂ), inner_smul_left, ho, mul_zero]
      simp only [map_zero, mul_zero, add_zero]
      nlinarith [norm_nonneg r]
    have h2 := (sq_le_sq₀ (norm_nonneg _) (norm_nonneg _)).mp h1
    rw [norm_smul] at h2
    exact le_of_mul_le_mul_right (h2.trans hA₀) hp₀
  set v := ‖ψ‖⁻¹ • ψ with hv
  set v₀ := ‖ψ₀‖⁻¹ • ψ₀ with hv₀
  have hAr : ∀ (c : ℝ) (w : E), A (c • w) = c • A w := fun c w => by
    simp
  have hAr₀ : ∀ (c : ℝ) (w : E), A₀ (c • w) = c • A₀ w := fun c w => by
    simp
  have hn₀ : ‖v₀‖ = 1 := by
    rw [hv₀, norm_smul, norm_inv, norm_norm, inv_mul_cancel₀ hp₀.ne']
  have h0 : ‖A₀ v₀ - z • v₀‖ ≤ e := by
    have : A₀ v₀ - z • v₀ = ‖ψ₀‖⁻¹ • r := by
      rw [hv₀, hAr₀, hr, smul_add, smul_comm z]
      simp
    rw [this, norm_smul, norm_inv, norm_norm, inv_mul_le_iff₀ hp₀, mul_comm]
    exact he
  have hsplit : A v - z • v = (A₀ v₀ - z • v₀) + A (v - v₀) + (A v₀ - A₀ v₀) - z • (v - v₀) := by
    rw [map_sub, smul_sub]
    abel
  have h1 : ‖A v - z • v‖ ≤ e + a * (g * t) + q * t + a * (g * t) := by
    rw [hsplit]
    refine (norm_sub_le _ _).trans (add_le_add ((norm_add_le _ _).trans (add_le_add
      ((norm_add_le _ _).trans (add_le_add h0 ?_)) ?_)) ?_)
    · exact (hA _).trans (mul_le_mul_of_nonneg_left hm ha)
    · have := hq v₀
      rwa [hn₀, mul_one] at this
    · rw [norm_smul]
      exact mul_le_mul hz hm (norm_nonneg _) ha
  have h2 : A ψ - z • ψ = ‖ψ‖ • (A v - z • v) := by
    rw [hv, hAr, smul_comm z, ← smul_sub, smul_smul, mul_inv_cancel₀ hp.ne', one_smul]
  rw [h2, norm_smul, norm_norm, mul_comm]
  refine mul_le_mul_of_nonneg_right (h1.trans (le_of_eq ?_)) hp.le
  ring

end abstract

section states

variable {C : Type} [Fintype C]

/-- The projection is the best approximation. -/
theorem offRay_le (ψ χ : C → ℂ) (hψ : ψ ≠ 0) (z : ℂ) (e : ℝ)
    (h : ‖toE (fun s => χ s - z * ψ s)‖ ≤ e * ‖toE ψ‖) : offRay ψ χ ≤ e ^ 2 := by
  have hZ := norm2_pos_of_ne ψ hψ
  have hZc : (norm2 ψ : ℂ) ≠ 0 := by exact_mod_cast hZ.ne'
  set a := (∑ c, (starRingEnd ℂ) (ψ c) * χ c) / (norm2 ψ : ℂ) with ha
  have ho : inner ℂ (toE ψ) (toE fun s => χ s - a * ψ s) = 0 := by
    rw [toE_inner]
    have h1 : ∑ s, (starRingEnd ℂ) (ψ s) * (χ s - a * ψ s)
        = ∑ s, (starRingEnd ℂ) (ψ s) * χ s - a * (norm2 ψ : ℂ) := by
      unfold norm2
      rw [Complex.ofReal_sum, Finset.mul_sum, ← Finset.sum_sub_distrib]
      refine Finset.sum_congr rfl fun s _ => ?_
      rw [Complex.normSq_eq_conj_mul_self]
      ring
    rw [h1, ha, div_mul_cancel₀ _ hZc, sub_self]
  unfold offRay
  rw [div_le_iff₀ hZ, ← ha, ← toE_norm, ← toE_norm, ← mul_pow]
  have h2 : toE (fun s => χ s - z * ψ s) = (a - z) • toE ψ + toE fun s => χ s - a * ψ s := by
    ext s
    simp only [toE, PiLp.add_apply, PiLp.smul_apply, smul_eq_mul]
    ring
  have h3 : ‖toE fun s => χ s - a * ψ s‖ ^ 2 ≤ ‖toE fun s => χ s - z * ψ s‖ ^ 2 := by
    rw [h2, norm_add_sq (𝕜 := ℂ), inner_smul_left, ho, mul_zero]
    simp only [map_zero, mul_zero, add_zero]
    nlinarith [norm_nonneg ((a - z) • toE ψ)]
  exact h3.trans (pow_le_pow_left₀ (norm_nonneg _) h 2)

/-- Velocity of the state plus `i H ψ`, as a linear operator on the state. -/
noncomputable def stepOp (o : C → ℂ) (H : Matrix C C ℂ) : EuclideanSpace ℂ C →ₗ[ℂ] EuclideanSpace ℂ C where
  toFun v := toE fun s => o s * v.ofLp s + Complex.I * (H *ᵥ v.ofLp) s
  map_add' v w := by
    ext s
    simp [toE, mulVec_add]
    ring
  map_smul' c v := by
    ext s
    simp [toE, mulVec_smul]
    ring

theorem toE_mul_le (o ψ : C → ℂ) (g : ℝ) (hg : 0 ≤ g) (h : ∀ s, ‖o s‖ ≤ g) :
    ‖toE fun s => o s * ψ s‖ ≤ g * ‖toE ψ‖ := by
  rw [← sq_le_sq₀ (norm_nonneg _) (by positivity), mul_pow, toE_norm, toE_norm]
  unfold norm2
  rw [Finset.mul_sum]
  refine Finset.sum_le_sum fun s _ => ?_
  rw [Complex.normSq_eq_norm_sq, Complex.normSq_eq_norm_sq, norm_mul, mul_pow]
  exact mul_le_mul_of_nonneg_right (pow_le_pow_left₀ (norm_nonneg _) (h s) 2) (sq_nonneg _)

theorem toE_matrix_le {A : Matrix C C ℂ} {M : ℝ} (h : NormAtMost A M) (ψ : C → ℂ) :
    ‖toE fun s => Complex.I * (A *ᵥ ψ) s‖ ≤ M * ‖toE ψ‖ := by
  rw [← sq_le_sq₀ (norm_nonneg _) (mul_nonneg h.1 (norm_nonneg _)), mul_pow, toE_norm, toE_norm]
  refine le_trans (le_of_eq ?_) (h.2 ψ)
  unfold norm2
  simp

theorem stepOp_bound (o : C → ℂ) (H : Matrix C C ℂ) (g M : ℝ) (hg : 0 ≤ g) (h : ∀ s, ‖o s‖ ≤ g)
    (hH : NormAtMost H M) (v : EuclideanSpace ℂ C) : ‖stepOp o H v‖ ≤ (g + M) * ‖v‖ := by
  have e : stepOp o H v = toE (fun s => o s * v.ofLp s) + toE fun s => Complex.I * (H *ᵥ v.ofLp) s := rfl
  rw [e, add_mul]
  exact (norm_add_le _ _).trans (add_le_add (toE_mul_le o v.ofLp g hg h) (toE_matrix_le hH v.ofLp))

theorem stepOp_sub (o o₀ : C → ℂ) (H H₀ : Matrix C C ℂ) (g M : ℝ) (hg : 0 ≤ g) (h : ∀ s, ‖o s - o₀ s‖ ≤ g)
    (hH : NormAtMost (H - H₀) M) (v : EuclideanSpace ℂ C) :
    ‖stepOp o H v - stepOp o₀ H₀ v‖ ≤ (g + M) * ‖v‖ := by
  have e : stepOp o H v - stepOp o₀ H₀ v = stepOp (fun s => o s - o₀ s) (H - H₀) v := by
    ext s
    simp [stepOp, toE, sub_mulVec]
    ring
  rw [e]
  exact stepOp_bound _ _ g M hg h hH v

end states

section steps

variable {n : ℕ} {C : Type} [Fintype C] {logPsi : (Fin n → ℝ) → C → ℂ} {D : Set (Fin n → ℝ)} {G Λ : ℝ}

omit [Fintype C] in
theorem segment_deriv {θ u : Fin n → ℝ} {τ : ℝ} {s : C}
    (h : DifferentiableAt ℝ (fun p => logPsi p s) (θ + τ • u)) :
    HasDerivAt (fun τ : ℝ => Complex.exp (logPsi (θ + τ • u) s))
      (fderiv ℝ (fun p => logPsi p s) (θ + τ • u) u * Complex.exp (logPsi (θ + τ • u) s)) τ := by
  have h1 : HasDerivAt (fun τ : ℝ => θ + τ • u) u τ := by
    have := ((hasDerivAt_id τ).smul_const u).const_add θ
    simpa using this
  have h4 := (h.hasFDerivAt.comp_hasDerivAt τ h1).cexp
  refine h4.congr_deriv ?_
  rw [mul_comm]
  rfl

omit [Fintype C] in
theorem velocity_eq {θ u : Fin n → ℝ} {s : C} (h : DifferentiableAt ℝ (fun p => logPsi p s) θ) :
    stateVelocity logPsi θ u s = fderiv ℝ (fun p => logPsi p s) θ u * Complex.exp (logPsi θ s) := by
  have h' : DifferentiableAt ℝ (fun p => logPsi p s) (θ + (0 : ℝ) • u) := by simpa using h
  have := (segment_deriv h').deriv
  unfold stateVelocity
  rw [this]
  simp

/-- The error of one straight step of the parameters. -/
theorem straight_step [Nonempty C] (hs : SmoothOn logPsi D G Λ) (hD : Convex ℝ D) {H : ℝ → Matrix C C ℂ}
    {M h T : ℝ} (hH : SlowHamiltonian H T M h) {φ : ℝ → C → ℂ} (hφ : Evolves H Complex.I φ T) (hφ0 : φ 0 ≠ 0)
    {t dt : ℝ} (ht : 0 ≤ t) (hdt : 0 ≤ dt) (htT : t + dt ≤ T) {θ u : Fin n → ℝ} (hθ : θ ∈ D)
    (hθ' : θ + dt • u ∈ D) {V : ℝ} (hV : ‖u‖ ≤ V) {e : ℝ} (he : 0 ≤ e)
    (hoff : offRay (fun c => Complex.exp (logPsi θ c)) (fun s => stateVelocity logPsi θ u s
      + Complex.I * (H t *ᵥ fun c => Complex.exp (logPsi θ c)) s) ≤ e ^ 2) :
    stateDistance (φ (t + dt)) (fun c => Complex.exp (logPsi (θ + dt • u) c))
      ≤ stateDistance (φ t) (fun c => Complex.exp (logPsi θ c)) + dt * e
        + dt ^ 2 * ((Λ * V ^ 2 + h + 2 * (G * V) * (G * V + M)) / 2) := by
  obtain ⟨s₀⟩ := ‹Nonempty C›
  have hne : ∀ p, (fun c => Complex.exp (logPsi p c)) ≠ 0 := fun p h0 => Complex.exp_ne_zero _ (congrFun h0 s₀)
  have hV0 : 0 ≤ V := (norm_nonneg _).trans hV
  have hG := hs.bound_nonneg
  have hΛ := hs.rate_nonneg
  have hh := hH.rate_nonneg
  have hIcc : ∀ τ ∈ Icc 0 dt, t + τ ∈ Icc 0 T := fun τ hτ => ⟨by linarith [hτ.1], by linarith [hτ.2]⟩
  have hseg : ∀ τ ∈ Icc 0 dt, θ + τ • u ∈ D := by
    intro τ hτ
    rcases hdt.eq_or_lt with h0 | h0
    · have : τ = 0 := le_antisymm (hτ.2.trans h0.ge) hτ.1
      rw [this, zero_smul, add_zero]
      exact hθ
    · have := hD hθ hθ' (a := 1 - τ / dt) (b := τ / dt)
        (by rw [sub_nonneg, div_le_one h0]; exact hτ.2) (div_nonneg hτ.1 h0.le) (by ring)
      have e : (1 - τ / dt) • θ + (τ / dt) • (θ + dt • u) = θ + τ • u := by
        rw [smul_add, smul_smul, div_mul_cancel₀ _ h0.ne', sub_smul, one_smul]
        abel
      rwa [e] at this
  have hT0 : (0 : ℝ) ≤ T := by linarith
  have hφne := evolves_ne 1 (fun t ht => hH.hermitian t ht) (T := T) (by simpa using hφ) hφ0
  set o : ℝ → C → ℂ := fun τ s => fderiv ℝ (fun p => logPsi p s) (θ + τ • u) u with ho
  set ψ : ℝ → C → ℂ := fun τ c => Complex.exp (logPsi (θ + τ • u) c) with hψ
  have hψd : ∀ τ ∈ Icc 0 dt, ∀ s, HasDerivWithinAt (fun τ => ψ τ s) (o τ s * ψ τ s) (Icc 0 dt) τ :=
    fun τ hτ s => (segment_deriv (hs.differentiable _ (hseg τ hτ) s)).hasDerivWithinAt
  have ho1 : ∀ τ ∈ Icc 0 dt, ∀ s, ‖o τ s‖ ≤ G * V := fun τ hτ s =>
    (hs.bound _ (hseg τ hτ) s u).trans (mul_le_mul_of_nonneg_left hV hG)
  have hz : θ + (0 : ℝ) • u = θ := by simp
  have ho2 : ∀ τ ∈ Icc 0 dt, ∀ s, ‖o τ s - o 0 s‖ ≤ Λ * V ^ 2 * τ := by
    intro τ hτ s
    have := hs.rate _ hθ _ (hseg τ hτ) s u
    simp only [ho, hz]
    refine this.trans ?_
    rw [add_sub_cancel_left, norm_smul, Real.norm_of_nonneg hτ.1]
    have h1 : ‖u‖ * ‖u‖ ≤ V * V := mul_le_mul hV hV (norm_nonneg _) hV0
    calc Λ * (τ * ‖u‖) * ‖u‖ = Λ * τ * (‖u‖ * ‖u‖) := by ring
      _ ≤ Λ * τ * (V * V) := mul_le_mul_of_nonneg_left h1 (mul_nonneg hΛ hτ.1)
      _ = _ := by ring
  have h0mem : (0 : ℝ) ∈ Icc 0 dt := ⟨le_rfl, hdt⟩
  have hM : 0 ≤ M := (hH.bound _ (hIcc 0 h0mem)).1
  have hunit := unit_moves (ψ := fun τ => toE (ψ τ)) (g := G * V) (T := dt)
    (fun τ hτ => toE_deriv (hψd τ hτ)) (fun τ _ => toE_ne _ (hne _))
    (fun τ hτ => toE_mul_le _ _ _ (by positivity) (ho1 τ hτ))
  have hψ0 : ψ 0 = fun c => Complex.exp (logPsi θ c) := by simp only [hψ, hz]
  have hvel : (fun s => stateVelocity logPsi θ u s + Complex.I * (H t *ᵥ fun c => Complex.exp (logPsi θ c)) s)
      = (stepOp (o 0) (H t) (toE (ψ 0))).ofLp := by
    funext s
    rw [velocity_eq (hs.differentiable _ hθ s)]
    simp [stepOp, toE, hψ, ho]
  rw [hvel, ← hψ0] at hoff
  obtain ⟨r, z, hr1, hr2, hr3⟩ := offRay_split _ _ (hψ0 ▸ hne θ) e he hoff
  set K := Λ * V ^ 2 + h + 2 * (G * V) * (G * V + M) with hK
  have hK0 : 0 ≤ K := by positivity
  have key := c97_distance (H := fun τ => H (t + τ)) 1 hdt (fun τ hτ => hH.hermitian _ (hIcc τ hτ))
    (fun τ => φ (t + τ)) ψ (fun τ s => o τ s * ψ τ s) (by
      intro τ hτ s
      have h1 := hφ _ (hIcc τ hτ) s
      have h2 : HasDerivWithinAt (fun τ : ℝ => t + τ) 1 (Icc 0 dt) τ :=
        ((hasDerivAt_id τ).const_add t).hasDerivWithinAt
      have h3 : HasDerivWithinAt (fun τ => φ (t + τ) s) ((1 : ℝ) • (-Complex.I * (H (t + τ) *ᵥ φ (t + τ)) s))
        (Icc 0 dt) τ := h1.scomp τ h2 hIcc
      rw [one_smul] at h3
      simpa using h3)
    (by simpa using hφne t ⟨ht, by linarith⟩) hψd (fun τ _ => hne _) (fun τ => e + K * τ)
    (fun τ => e * τ + K * τ ^ 2 / 2) (fun τ hτ => add_nonneg he (mul_nonneg hK0 hτ.1)) (by
      intro τ _
      have h1 := ((hasDerivAt_id τ).const_mul e).add (((hasDerivAt_pow 2 τ).const_mul K).div_const 2)
      refine (h1.congr_deriv ?_).hasDerivWithinAt
      simp
      ring) (by
      intro τ hτ
      refine offRay_le _ _ (hne _) z _ ?_
      have := off_ray_moves (A := stepOp (o τ) (H (t + τ))) (A₀ := stepOp (o 0) (H t)) (ψ := toE (ψ τ))
        (ψ₀ := toE (ψ 0)) (toE_ne _ (hne _)) (toE_ne _ (hψ0 ▸ hne θ)) (a := G * V + M) (g := G * V)
        (q := Λ * V ^ 2 + h) (t := τ) (e := e)
        (stepOp_bound _ _ _ _ (by positivity) (ho1 τ hτ) (hH.bound _ (hIcc τ hτ)))
        (by
          have h1 := hH.rate t ⟨ht, by linarith⟩ _ (hIcc τ hτ) (by linarith [hτ.1])
          rw [add_sub_cancel_left] at h1
          intro v
          have := stepOp_sub (o τ) (o 0) (H (t + τ)) (H t) (Λ * V ^ 2 * τ) (h * τ)
            (mul_nonneg (by positivity) hτ.1) (ho2 τ hτ) h1 v
          rwa [← add_mul] at this)
        (stepOp_bound _ _ _ _ (by positivity) (ho1 0 h0mem) (by simpa using hH.bound _ (hIcc 0 h0mem)) _)
        (hunit τ hτ) (toE r) z (by
          ext s
          exact hr1 s) hr2 hr3 (by positivity)
      rw [← hK] at this
      refine le_trans (le_of_eq ?_) this
      congr 1
      ext s
      simp [stepOp, toE]
      exact Or.inl rfl)
  simp only [add_zero, hψ0] at key
  refine key.trans (le_of_eq ?_)
  ring

end steps

end JVMC
