import Verif.Props.AdaptiveEvolution

/-!
# C146 — the loop over adaptive time steps with its clock
-/

namespace JVMC

open Spec Set

variable {σ : Type} {d : ℕ} {r : Rounding} {pow : ℝ → ℝ} {norm : (Fin d → ℝ) → ℝ} {f : VRhs (Fin d → ℝ) σ}
  {G : (Fin d → ℝ) → Fin d → ℝ} {y : ℝ → Fin d → ℝ} {b B V K K' L R ε v tmax : ℝ}

theorem adaptive_clock (hu : r.u ≤ 1 / 64) (hpow : PowWithin v pow) (hv : v ≤ 1 / 64) (hN : ∀ z, 0 ≤ norm z) {t : ℝ}
    {x x' : AHeun × (Fin d → ℝ)} {s s' : σ} {n : ℕ} {T : ℝ} (hrun : TimeLoop r (AhTimeStep r pow norm f) tmax t x s n T x' s')
    (ht : 0 ≤ t) (htol : 0 < x.1.tolerance) (hdt : 0 < x.1.dt) (hle : x.1.dt ≤ x.1.maxStep) :
    ∃ τ, AhEvolutionRnd r pow norm f x.1 x.2 s n τ x'.2 x'.1 s' ∧ (1 - r.u) ^ n * (t + τ) ≤ T ∧ T ≤ (1 + r.u) ^ n * (t + τ) ∧
      tmax ≤ T ∧ (0 < n → T ≤ (1 + r.u) * (tmax + x.1.maxStep)) := by
  have hu0 := r.u_nonneg
  induction hrun with
  | done h => exact ⟨0, .done, by simp, by simp, not_lt.mp h, fun h => absurd h (by omega)⟩
  | @pass t x s x1 h s1 n T Y S hlt hst hl ih =>
    obtain ⟨k, hk⟩ := hst
    dsimp only at hk
    obtain ⟨b1, b2, b3, b4, -, b6, b7⟩ := c146_steps htol (hdt.trans_le hle) hdt hu hpow hv hN k _ hk
    dsimp only at b1 b2 b3 b4 b6 b7
    have hhH : h ≤ x.1.maxStep := by
      refine (b2.trans ?_).trans hle
      have : (0.95 : ℝ) ^ k ≤ 1 := pow_le_one₀ (by norm_num) (by norm_num)
      nlinarith
    have e := r.err (t + h)
    rw [abs_of_nonneg (by linarith : 0 ≤ t + h)] at e
    obtain ⟨e1, e2⟩ := abs_le.mp e
    have ht' : 0 ≤ r.rnd (t + h) := by nlinarith
    obtain ⟨τ, c1, c2, c3, c4, c5⟩ := ih ht' (by rw [b6]; exact htol) b3 (by rw [b7]; exact b4)
    have hτ : 0 ≤ τ :=
      (evolution_time hu hpow hv hN c1 (by rw [b6]; exact htol) b3 (b3.trans_le (by rw [b7]; exact b4)) (by rw [b7]; exact b4)).1
    refine ⟨h + τ, .pass hk c1, le_trans ?_ c2, c3.trans ?_, c4, fun _ => ?_⟩
    · rw [pow_succ, mul_assoc]
      refine mul_le_mul_of_nonneg_left ?_ (pow_nonneg (by linarith) _)
      nlinarith
    · rw [pow_succ, mul_assoc]
      refine mul_le_mul_of_nonneg_left ?_ (pow_nonneg (by linarith) _)
      nlinarith
    · rcases Nat.eq_zero_or_pos n with rfl | hn
      · cases hl with
        | done _ => nlinarith
      · have := c5 hn
        rwa [b7] at this

/-- C146: the clock of the loop. When the loop with adaptive time steps ends, its variable `t` is the sum `τ` of the time steps
up to one relative rounding error per pass, it has reached `tmax`, and it has passed it by no more than `maxStep` and one rounding
error. -/
theorem c146_clock (hu : r.u ≤ 1 / 64) (hpow : PowWithin v pow) (hv : v ≤ 1 / 64) (hN : ∀ z, 0 ≤ norm z) (obj : AHeun)
    (htol : 0 < obj.tolerance) (hdt : 0 < obj.dt) (hle : obj.dt ≤ obj.maxStep) (y₀ : Fin d → ℝ) (s : σ) (n : ℕ) (T : ℝ)
    (obj' : AHeun) (y' : Fin d → ℝ) (s' : σ) (hrun : TimeLoop r (AhTimeStep r pow norm f) tmax 0 (obj, y₀) s n T (obj', y') s') :
    ∃ τ, AhEvolutionRnd r pow norm f obj y₀ s n τ y' obj' s' ∧ 0 ≤ τ ∧ WithinFactor r.u n τ T ∧ tmax ≤ T ∧
      (0 < tmax → T ≤ (1 + r.u) * (tmax + obj.maxStep)) := by
  obtain ⟨τ, h1, h2, h3, h4, h5⟩ := adaptive_clock hu hpow hv hN hrun le_rfl htol hdt hle
  rw [zero_add] at h2 h3
  have hτ := (evolution_time hu hpow hv hN h1 htol hdt (hdt.trans_le hle) hle).1
  have hu0 := r.u_nonneg
  refine ⟨τ, h1, hτ, ?_, h4, fun h0 => h5 ?_⟩
  · rcases eq_or_lt_of_le hτ with h0 | h0
    · refine ⟨1, pow_le_one₀ (by linarith) (by linarith), one_le_pow₀ (by linarith), ?_⟩
      rw [← h0] at h2 h3 ⊢
      linarith
    · refine ⟨T / τ, ?_, ?_, ?_⟩
      · rwa [le_div_iff₀ h0]
      · rwa [div_le_iff₀ h0]
      · rw [div_mul_cancel₀ _ h0.ne']
  · rcases Nat.eq_zero_or_pos n with rfl | hn
    · cases hrun with
      | done h => exact absurd h0 h
    · exact hn

/-- C146: the whole loop. What the loop `while t < tmax` has computed when it ends is close to the solution of the differential
equation at a time `τ` which is the time `t` of the loop up to one relative rounding error per pass. -/
theorem c146_loop (hu : r.u ≤ 1 / 64) (hpow : PowWithin v pow) (hv : v ≤ 1 / 64) (hN : ∀ z, 0 ≤ norm z)
    (hy : IsSolution (fun x _ => G x) y 0 b) (hK : SlowVelocity (fun x _ => G x) y 0 b K)
    (hK' : SlowAcceleration (fun x _ => G x) y 0 b K') (hL : LipschitzNear (fun x _ => G x) y 0 b R L)
    (hB : BoundedNear y 0 b R B) (hf : EvaluatesWithin f G y 0 b R ε V) (hV0 : 0 ≤ V) (hB0 : 0 ≤ B)
    (obj : AHeun) (htol : 0 < obj.tolerance) (hdt : 0 < obj.dt) (hle : obj.dt ≤ obj.maxStep) (hLH : L * obj.maxStep ≤ 1)
    (y₀ : Fin d → ℝ) (s : σ) (n : ℕ) (T : ℝ) (obj' : AHeun) (y' : Fin d → ℝ) (s' : σ) (htmax : 0 < tmax)
    (hrun : TimeLoop r (AhTimeStep r pow norm f) tmax 0 (obj, y₀) s n T (obj', y') s')
    (hb : (1 + r.u) * (tmax + obj.maxStep) ≤ (1 - r.u) ^ n * b) (A : ℝ)
    (hA : accumulated (L + obj.maxStep / 2 * L ^ 2 / 2) ((obj.maxStep / 2) ^ 2 * ((L * K + K') / 2))
      (‖y₀ - y 0‖ + n * stepError r.u L ε (V + ε) obj.maxStep B) b ≤ A)
    (hR1 : (1 + obj.maxStep / 2 * L) * A + obj.maxStep / 2 * (K * (obj.maxStep / 2)) ≤ R)
    (hR2 : A + (obj.maxStep * (V + ε) + 3 * (r.u * (B + 4 * (obj.maxStep * (V + ε))))) ≤ R) :
    ∃ τ, 0 ≤ τ ∧ WithinFactor r.u n τ T ∧ tmax ≤ T ∧ T ≤ (1 + r.u) * (tmax + obj.maxStep) ∧
      ‖y' - y τ‖ ≤ accumulated (L + obj.maxStep / 2 * L ^ 2 / 2) ((obj.maxStep / 2) ^ 2 * ((L * K + K') / 2))
        (‖y₀ - y 0‖ + n * stepError r.u L ε (V + ε) obj.maxStep B) τ := by
  obtain ⟨τ, h1, h2, h3, h4, h5⟩ := c146_clock hu hpow hv hN obj htol hdt hle y₀ s n T obj' y' s' hrun
  refine ⟨τ, h2, h3, h4, h5 htmax, ?_⟩
  refine c146_evolution hu hpow hv hN hy hK hK' hL hB hf hV0 hB0 obj htol hdt hle hLH y₀ s n τ y' obj' s' h1 ?_ A hA hR1 hR2
  obtain ⟨c, c1, c2, c3⟩ := h3
  have hp : 0 < (1 - r.u) ^ n := pow_pos (by linarith) _
  have h6 : (1 - r.u) ^ n * τ ≤ T := by
    rw [c3]
    exact mul_le_mul_of_nonneg_right c1 h2
  exact le_of_mul_le_mul_left ((h6.trans (h5 htmax)).trans hb) hp

/-- Case: the decay `dy/dt = -y` in double precision, with a loop of one pass. -/
example : ∃ tmax > 0, ∃ T Y obj' s', TimeLoop Rounding.double
      (AhTimeStep Rounding.double (fun q => q ^ (0.33333 : ℝ)) (fun z : Fin 2 → ℝ => ‖z‖) decayRhs2) tmax 0
      (⟨1 / 16, 1 / 10, 1 / 16⟩, decay2 0) () 1 T (obj', Y) s' ∧
    ∃ τ, 0 ≤ τ ∧ WithinFactor Rounding.double.u 1 τ T ∧ tmax ≤ T ∧ ‖Y - decay2 τ‖ ≤ 1 / 100 := by
  have hu : Rounding.double.u = (2 : ℝ) ^ (-53 : ℤ) := rfl
  have hsz : ‖decay2 0‖ ≤ 2 := by
    rw [pi_norm_le_iff_of_nonneg (by norm_num)]
    intro i
    simp only [decay2, Real.norm_eq_abs, Real.abs_exp]
    exact (Real.exp_le_one_iff.mpr (by norm_num)).trans (by norm_num)
  obtain ⟨k, y1, h1, obj1, s1, r1⟩ := decay2_returns ⟨1 / 16, 1 / 10, 1 / 16⟩ rfl (by norm_num) (by norm_num) (decay2 0) hsz ()
  obtain ⟨b1, b2, -⟩ := c146_steps (by norm_num) (by norm_num) (by norm_num) (by rw [hu]; norm_num) (v := 0) (fun q _ => by simp)
    (by norm_num) (fun z => norm_nonneg z) k _ r1
  dsimp only at b1 b2
  have hh : h1 ≤ 1 / 16 := by
    refine b2.trans ?_
    have : (0.95 : ℝ) ^ k ≤ 1 := pow_le_one₀ (by norm_num) (by norm_num)
    nlinarith
  have hT : ¬ Rounding.double.rnd (0 + h1) < h1 / 2 := by
    have e := Rounding.double.err (0 + h1)
    rw [zero_add, abs_of_pos b1, hu] at e
    have := (abs_le.mp e).1
    rw [zero_add, not_lt]
    norm_num at this
    linarith
  have hrun : TimeLoop Rounding.double (AhTimeStep Rounding.double (fun q => q ^ (0.33333 : ℝ)) (fun z : Fin 2 → ℝ => ‖z‖) decayRhs2)
      (h1 / 2) 0 (⟨1 / 16, 1 / 10, 1 / 16⟩, decay2 0) () 1 (Rounding.double.rnd (0 + h1)) (obj1, y1) s1 :=
    .pass (y1 := (obj1, y1)) (dt := h1) (by linarith) ⟨k, r1⟩ (.done hT)
  refine ⟨h1 / 2, by linarith, _, _, _, _, hrun, ?_⟩
  have hρ : stepError Rounding.double.u 1 0 (2 + 0) (1 / 16) 2 ≤ 1 / 10 ^ 6 := by
    rw [hu]
    unfold stepError evalError
    rw [abs_zero]
    norm_num
  have hρ0 : 0 ≤ stepError Rounding.double.u 1 0 (2 + 0) (1 / 16) 2 := by
    have := Rounding.double.u_nonneg
    unfold stepError evalError
    positivity
  have hexp : Real.exp ((1 + 1 / 16 / 2 * 1 ^ 2 / 2) * 1) ≤ 8 := by
    have h1 : Real.exp ((1 + 1 / 16 / 2 * 1 ^ 2 / 2) * 1) ≤ Real.exp (1 + 1) := Real.exp_le_exp.mpr (by norm_num)
    rw [Real.exp_add] at h1
    have h2 := Real.exp_one_lt_d9
    have h3 := Real.exp_pos 1
    nlinarith
  have hA : accumulated (1 + 1 / 16 / 2 * 1 ^ 2 / 2) ((1 / 16 / 2) ^ 2 * ((1 * 1 + 1) / 2))
      (‖decay2 0 - decay2 0‖ + (1 : ℕ) * stepError Rounding.double.u 1 0 (2 + 0) (1 / 16) 2) 1 ≤ 1 / 100 := by
    unfold accumulated
    rw [sub_self, norm_zero, zero_add, Nat.cast_one, one_mul]
    refine (mul_le_mul hexp (le_refl _) (by linarith) (by norm_num)).trans ?_
    norm_num at hρ ⊢
    linarith
  have hb : (1 + Rounding.double.u) * (h1 / 2 + 1 / 16) ≤ (1 - Rounding.double.u) ^ 1 * 1 := by
    rw [hu]
    norm_num
    linarith
  obtain ⟨τ, g1, g2, g3, g4, g5⟩ := c146_loop (by rw [hu]; norm_num) (v := 0) (fun q _ => by simp) (by norm_num)
    (fun z => norm_nonneg z) decay2_solution decay2_velocity decay2_acceleration decay2_lipschitz decay2_bounded decay2_evaluates
    (by norm_num) (by norm_num) ⟨1 / 16, 1 / 10, 1 / 16⟩ (by norm_num) (by norm_num) le_rfl (by norm_num) (decay2 0) () 1 _ _ _ _
    (by linarith) hrun hb (1 / 100) hA (by norm_num) (by rw [hu]; norm_num)
  refine ⟨τ, g1, g2, g3, g5.trans ((?_ : _ ≤ _).trans hA)⟩
  refine accumulated_mono (by norm_num) (by norm_num) (by positivity) g1 ?_
  obtain ⟨c, c1, c2, c3⟩ := g2
  have h6 : (1 - Rounding.double.u) ^ 1 * τ ≤ Rounding.double.rnd (0 + h1) := by
    rw [c3]
    exact mul_le_mul_of_nonneg_right c1 g1
  have hp : 0 < (1 - Rounding.double.u) ^ 1 := by rw [hu]; norm_num
  exact le_of_mul_le_mul_left ((h6.trans g4).trans hb) hp

end JVMC
