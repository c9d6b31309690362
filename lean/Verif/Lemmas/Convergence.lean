import Mathlib.Analysis.Calculus.MeanValue
import Mathlib.Analysis.SpecialFunctions.Exp
import Verif.Spec.Ode

/-! # Helper lemmas: accumulated errors of one-step methods -/

namespace JVMC

open Spec Set

variable {M : Type} [NormedAddCommGroup M] [NormedSpace ℝ M]

theorem taylor_first {F : M → ℝ → M} {y : ℝ → M} {a b K : ℝ} (hy : IsSolution F y a b)
    (hK : SlowVelocity F y a b K) {t h : ℝ} (hh : 0 ≤ h) (ha : a ≤ t) (hb : t + h ≤ b) :
    ‖y (t + h) - y t - h • F (y t) t‖ ≤ K * h ^ 2 := by
  have hsub : Icc t (t + h) ⊆ Icc a b := Icc_subset_Icc ha hb
  have htm : t ∈ Icc a b := hsub ⟨le_rfl, by linarith⟩
  have hd : ∀ s ∈ Icc t (t + h), HasDerivWithinAt (fun s => y s - (s - t) • F (y t) t)
      (F (y s) s - F (y t) t) (Icc t (t + h)) s := by
    intro s hs
    have h1 := (hy s (hsub hs)).mono hsub
    have h2 : HasDerivWithinAt (fun s : ℝ => (s - t) • F (y t) t) ((1 : ℝ) • F (y t) t)
        (Icc t (t + h)) s :=
      ((hasDerivWithinAt_id s _).sub_const t).smul_const _
    simpa using h1.fun_sub h2
  have hbd : ∀ s ∈ Icc t (t + h), ‖F (y s) s - F (y t) t‖ ≤ K * h := by
    intro s hs
    refine (hK.2 s (hsub hs) t htm).trans ?_
    apply mul_le_mul_of_nonneg_left _ hK.1
    rw [abs_of_nonneg (by linarith [hs.1])]
    linarith [hs.2]
  have := (convex_Icc t (t + h)).norm_image_sub_le_of_norm_hasDerivWithin_le hd hbd
    (left_mem_Icc.mpr (by linarith)) (right_mem_Icc.mpr (by linarith))
  have e : (y (t + h) - (t + h - t) • F (y t) t) - (y t - (t - t) • F (y t) t)
      = y (t + h) - y t - h • F (y t) t := by
    rw [add_sub_cancel_left, sub_self, zero_smul, sub_zero]
    abel
  rw [e] at this
  refine this.trans (le_of_eq ?_)
  rw [add_sub_cancel_left, Real.norm_of_nonneg hh]
  ring

theorem trapezoid {F : M → ℝ → M} {y : ℝ → M} {a b K : ℝ} (hy : IsSolution F y a b)
    (hK : SlowAcceleration F y a b K) {t h : ℝ} (hh : 0 ≤ h) (ha : a ≤ t) (hb : t + h ≤ b) :
    ‖y (t + h) - y t - (h / 2) • (F (y t) t + F (y (t + h)) (t + h))‖ ≤ K * h ^ 3 / 2 := by
  obtain ⟨hK0, y2, hd2, hl2⟩ := hK
  have hsub : Icc t (t + h) ⊆ Icc a b := Icc_subset_Icc ha hb
  have htm : t ∈ Icc a b := hsub ⟨le_rfl, by linarith⟩
  have hin : ∀ s ∈ Icc t (t + h), ‖F (y s) s - F (y t) t - (s - t) • y2 s‖ ≤ K * h ^ 2 := by
    intro s hs
    have hsub' : Icc t s ⊆ Icc a b := (Icc_subset_Icc le_rfl hs.2).trans hsub
    have hd : ∀ u ∈ Icc t s, HasDerivWithinAt (fun u => F (y u) u - (u - t) • y2 s)
        (y2 u - y2 s) (Icc t s) u := by
      intro u hu
      have h1 := (hd2 u (hsub' hu)).mono hsub'
      have h2 : HasDerivWithinAt (fun u : ℝ => (u - t) • y2 s) ((1 : ℝ) • y2 s) (Icc t s) u :=
        ((hasDerivWithinAt_id u _).sub_const t).smul_const _
      simpa using h1.fun_sub h2
    have hbd : ∀ u ∈ Icc t s, ‖y2 u - y2 s‖ ≤ K * h := by
      intro u hu
      refine (hl2 u (hsub' hu) s (hsub hs)).trans ?_
      apply mul_le_mul_of_nonneg_left _ hK0
      rw [abs_sub_comm, abs_of_nonneg (by linarith [hu.2])]
      linarith [hu.1, hs.2]
    have := (convex_Icc t s).norm_image_sub_le_of_norm_hasDerivWithin_le hd hbd
      (left_mem_Icc.mpr hs.1) (right_mem_Icc.mpr hs.1)
    have e : (F (y s) s - (s - t) • y2 s) - (F (y t) t - (t - t) • y2 s)
        = F (y s) s - F (y t) t - (s - t) • y2 s := by
      rw [sub_self, zero_smul, sub_zero]
      abel
    rw [e, Real.norm_of_nonneg (by linarith [hs.1])] at this
    refine this.trans ?_
    have : s - t ≤ h := by linarith [hs.2]
    have h0 : 0 ≤ K * h := by positivity
    nlinarith
  have hd : ∀ s ∈ Icc t (t + h), HasDerivWithinAt
      (fun s => y s - ((s - t) / 2) • (F (y t) t + F (y s) s))
      ((1 / 2 : ℝ) • (F (y s) s - F (y t) t - (s - t) • y2 s)) (Icc t (t + h)) s := by
    intro s hs
    have h1 := (hy s (hsub hs)).mono hsub
    have h2 : HasDerivWithinAt (fun s : ℝ => (s - t) / 2) (1 / 2) (Icc t (t + h)) s :=
      ((hasDerivWithinAt_id s _).sub_const t).div_const 2
    have h3 : HasDerivWithinAt (fun s => F (y t) t + F (y s) s) (y2 s) (Icc t (t + h)) s :=
      ((hd2 s (hsub hs)).mono hsub).const_add _
    have h4 := h1.sub (h2.smul h3)
    refine h4.congr_deriv ?_
    module
  have hbd : ∀ s ∈ Icc t (t + h), ‖(1 / 2 : ℝ) • (F (y s) s - F (y t) t - (s - t) • y2 s)‖
      ≤ K * h ^ 2 / 2 := by
    intro s hs
    rw [norm_smul]
    have := hin s hs
    norm_num
    linarith
  have := (convex_Icc t (t + h)).norm_image_sub_le_of_norm_hasDerivWithin_le hd hbd
    (left_mem_Icc.mpr (by linarith)) (right_mem_Icc.mpr (by linarith))
  have e : (y (t + h) - ((t + h - t) / 2) • (F (y t) t + F (y (t + h)) (t + h)))
      - (y t - ((t - t) / 2) • (F (y t) t + F (y t) t))
      = y (t + h) - y t - (h / 2) • (F (y t) t + F (y (t + h)) (t + h)) := by
    rw [add_sub_cancel_left, sub_self, zero_div, zero_smul, sub_zero]
    abel
  rw [e] at this
  refine this.trans (le_of_eq ?_)
  rw [add_sub_cancel_left, Real.norm_of_nonneg hh]
  ring

theorem accumulated_step {growth rate e₀ τ h e e' : ℝ} (hg : 0 ≤ growth) (hr : 0 ≤ rate)
    (he₀ : 0 ≤ e₀) (hτ : 0 ≤ τ) (hh : 0 ≤ h) (he : e ≤ accumulated growth rate e₀ τ)
    (hstep : e' ≤ (1 + h * growth) * e + h * rate) : e' ≤ accumulated growth rate e₀ (τ + h) := by
  have h1 : 1 + h * growth ≤ Real.exp (growth * h) := by
    have := Real.add_one_le_exp (growth * h)
    linarith
  have h0 : 0 ≤ accumulated growth rate e₀ τ := by
    unfold accumulated
    have := (Real.exp_pos (growth * τ)).le
    positivity
  have hgh : 0 ≤ h * growth := mul_nonneg hh hg
  have h2 : (1 + h * growth) * e ≤ Real.exp (growth * h) * accumulated growth rate e₀ τ :=
    (mul_le_mul_of_nonneg_left he (by linarith)).trans (mul_le_mul_of_nonneg_right h1 h0)
  have h3 : Real.exp (growth * h) * accumulated growth rate e₀ τ
      = Real.exp (growth * (τ + h)) * (e₀ + τ * rate) := by
    unfold accumulated
    rw [mul_add growth, Real.exp_add]
    ring
  have h4 : h * rate ≤ Real.exp (growth * (τ + h)) * (h * rate) := by
    have : 1 ≤ Real.exp (growth * (τ + h)) := Real.one_le_exp (by positivity)
    have h5 : 0 ≤ h * rate := mul_nonneg hh hr
    nlinarith
  unfold accumulated
  rw [h3] at h2
  calc e' ≤ (1 + h * growth) * e + h * rate := hstep
    _ ≤ Real.exp (growth * (τ + h)) * (e₀ + τ * rate) + Real.exp (growth * (τ + h)) * (h * rate) :=
        add_le_add h2 h4
    _ = _ := by ring

theorem accumulated_nonneg {growth rate e₀ τ : ℝ} (hr : 0 ≤ rate) (he₀ : 0 ≤ e₀) (hτ : 0 ≤ τ) :
    0 ≤ accumulated growth rate e₀ τ := by
  unfold accumulated
  have := (Real.exp_pos (growth * τ)).le
  positivity

theorem accumulated_mono {growth rate e₀ τ τ' : ℝ} (hg : 0 ≤ growth) (hr : 0 ≤ rate) (he₀ : 0 ≤ e₀)
    (hτ : 0 ≤ τ) (h : τ ≤ τ') : accumulated growth rate e₀ τ ≤ accumulated growth rate e₀ τ' := by
  unfold accumulated
  have h1 : Real.exp (growth * τ) ≤ Real.exp (growth * τ') := Real.exp_le_exp.mpr (by nlinarith)
  have h2 : e₀ + τ * rate ≤ e₀ + τ' * rate := by nlinarith
  exact mul_le_mul h1 h2 (by positivity) (Real.exp_pos _).le

/-- One Euler step with an inexact right-hand side. -/
theorem euler_error {F : M → ℝ → M} {y : ℝ → M} {a b K L R ε : ℝ} (hy : IsSolution F y a b)
    (hK : SlowVelocity F y a b K) (hL : LipschitzNear F y a b R L) {t h : ℝ} (hh : 0 ≤ h) (ha : a ≤ t)
    (hb : t + h ≤ b) {x k : M} (hx : ‖x - y t‖ ≤ R) (hk : ‖k - F x t‖ ≤ ε) :
    ‖x + h • k - y (t + h)‖ ≤ (1 + h * L) * ‖x - y t‖ + h * (ε + K * h) := by
  have htm : t ∈ Icc a b := ⟨ha, by linarith⟩
  have hR : 0 ≤ R := (norm_nonneg _).trans hx
  have h1 := hL.2 t htm x (y t) hx (by simpa using hR)
  have h2 := taylor_first hy hK hh ha hb
  have e : x + h • k - y (t + h) = (x - y t) + h • (k - F x t) + h • (F x t - F (y t) t)
      - (y (t + h) - y t - h • F (y t) t) := by
    module
  rw [e]
  refine (norm_sub_le _ _).trans ?_
  have h3 := norm_add_le ((x - y t) + h • (k - F x t)) (h • (F x t - F (y t) t))
  have h4 := norm_add_le (x - y t) (h • (k - F x t))
  rw [norm_smul, Real.norm_of_nonneg hh] at h3 h4
  have h5 : h * ‖k - F x t‖ ≤ h * ε := mul_le_mul_of_nonneg_left hk hh
  have h6 : h * ‖F x t - F (y t) t‖ ≤ h * (L * ‖x - y t‖) := mul_le_mul_of_nonneg_left h1 hh
  nlinarith

/-- One Heun step with an inexact right-hand side. -/
theorem heun_error {F : M → ℝ → M} {y : ℝ → M} {a b K K' L R ε H : ℝ} (hy : IsSolution F y a b)
    (hK : SlowVelocity F y a b K) (hK' : SlowAcceleration F y a b K')
    (hL : LipschitzNear F y a b R L) {t h : ℝ} (hh : 0 ≤ h) (hH : h ≤ H) (ha : a ≤ t)
    (hb : t + h ≤ b) (hε : 0 ≤ ε) {x k0 k1 : M}
    (hx : (1 + H * L) * ‖x - y t‖ + H * (ε + K * H) ≤ R) (hk0 : ‖k0 - F x t‖ ≤ ε)
    (hk1 : ‖x + h • k0 - y (t + h)‖ ≤ R → ‖k1 - F (x + h • k0) (t + h)‖ ≤ ε) :
    ‖x + (h / 2) • (k0 + k1) - y (t + h)‖
      ≤ (1 + h * (L + H * L ^ 2 / 2)) * ‖x - y t‖
        + h * (ε * (1 + H * L / 2) + H ^ 2 * ((L * K + K') / 2)) := by
  have hL0 := hL.1
  have hK0 := hK.1
  have hK'0 := hK'.1
  have he0 : 0 ≤ ‖x - y t‖ := norm_nonneg _
  have hH0 : 0 ≤ H := hh.trans hH
  have htm : t ∈ Icc a b := ⟨ha, by linarith⟩
  have htm' : t + h ∈ Icc a b := ⟨by linarith, hb⟩
  have hxR : ‖x - y t‖ ≤ R := by
    have h1 : 0 ≤ H * L * ‖x - y t‖ := by positivity
    have h2 : 0 ≤ H * (ε + K * H) := by positivity
    nlinarith
  have hR : 0 ≤ R := he0.trans hxR
  set e := ‖x - y t‖ with he
  have hp := euler_error hy hK hL hh ha hb hxR hk0
  rw [← he] at hp
  have hpH : (1 + h * L) * e + h * (ε + K * h) ≤ (1 + H * L) * e + H * (ε + K * H) := by
    have h1 : h * L * e ≤ H * L * e := by
      have : 0 ≤ L * e := by positivity
      nlinarith
    have h2 : h * (ε + K * h) ≤ H * (ε + K * H) := by
      apply mul_le_mul hH _ (by positivity) hH0
      nlinarith
    linarith
  have hpR : ‖x + h • k0 - y (t + h)‖ ≤ R := hp.trans (hpH.trans hx)
  have hk1' := hk1 hpR
  have h1 := hL.2 t htm x (y t) hxR (by simpa using hR)
  rw [← he] at h1
  have h2 := hL.2 (t + h) htm' (x + h • k0) (y (t + h)) hpR (by simpa using hR)
  have h3 := trapezoid hy hK' hh ha hb
  have hsum : x + (h / 2) • (k0 + k1) - y (t + h)
      = (x - y t) + (h / 2) • ((k0 - F x t) + (F x t - F (y t) t)
        + (k1 - F (x + h • k0) (t + h)) + (F (x + h • k0) (t + h) - F (y (t + h)) (t + h)))
        - (y (t + h) - y t - (h / 2) • (F (y t) t + F (y (t + h)) (t + h))) := by
    module
  rw [hsum]
  refine (norm_sub_le _ _).trans ?_
  refine (add_le_add (norm_add_le _ _) le_rfl).trans ?_
  rw [norm_smul, Real.norm_of_nonneg (by linarith : 0 ≤ h / 2), ← he]
  have h4 : ‖(k0 - F x t) + (F x t - F (y t) t) + (k1 - F (x + h • k0) (t + h))
      + (F (x + h • k0) (t + h) - F (y (t + h)) (t + h))‖
      ≤ ε + L * e + ε + L * ((1 + h * L) * e + h * (ε + K * h)) := by
    refine (norm_add_le _ _).trans ?_
    refine add_le_add ((norm_add_le _ _).trans (add_le_add ((norm_add_le _ _).trans
      (add_le_add hk0 h1)) hk1')) (h2.trans (mul_le_mul_of_nonneg_left hp hL0))
  have h5 : h / 2 * ‖(k0 - F x t) + (F x t - F (y t) t) + (k1 - F (x + h • k0) (t + h))
      + (F (x + h • k0) (t + h) - F (y (t + h)) (t + h))‖
      ≤ h / 2 * (ε + L * e + ε + L * ((1 + h * L) * e + h * (ε + K * h))) :=
    mul_le_mul_of_nonneg_left h4 (by linarith)
  have h6 : h / 2 * (ε + L * e + ε + L * ((1 + h * L) * e + h * (ε + K * h)))
      = h * (L + h * L ^ 2 / 2) * e + h * (ε * (1 + h * L / 2) + h ^ 2 * (L * K / 2)) := by
    ring
  have h7 : h * (L + h * L ^ 2 / 2) * e ≤ h * (L + H * L ^ 2 / 2) * e := by
    apply mul_le_mul_of_nonneg_right _ he0
    apply mul_le_mul_of_nonneg_left _ hh
    nlinarith [sq_nonneg L]
  have hsq : h ^ 2 ≤ H ^ 2 := pow_le_pow_left₀ hh hH 2
  have h8 : h * (ε * (1 + h * L / 2) + h ^ 2 * (L * K / 2)) + K' * h ^ 3 / 2
      ≤ h * (ε * (1 + H * L / 2) + H ^ 2 * ((L * K + K') / 2)) := by
    have e1 : h * (ε * (1 + h * L / 2) + h ^ 2 * (L * K / 2)) + K' * h ^ 3 / 2
        = h * (ε * (1 + h * L / 2) + h ^ 2 * ((L * K + K') / 2)) := by ring
    rw [e1]
    apply mul_le_mul_of_nonneg_left _ hh
    apply add_le_add
    · apply mul_le_mul_of_nonneg_left _ hε
      nlinarith
    · exact mul_le_mul_of_nonneg_right hsq (by positivity)
  linarith

end JVMC
