import Verif.Props.AdaptiveRounding
import Verif.Lemmas.Convergence
import Verif.Props.StepRounding

/-!
# C146 — rounding errors of adaptive time evolutions
-/

namespace JVMC

open Spec Set

variable {σ : Type} {d : ℕ} {r : Rounding} {pow : ℝ → ℝ} {norm : (Fin d → ℝ) → ℝ} {f : VRhs (Fin d → ℝ) σ}
  {G : (Fin d → ℝ) → Fin d → ℝ} {y : ℝ → Fin d → ℝ} {b B V K K' L R ε v H e₀ τ₀ : ℝ}

theorem stepError_mono {u h h' B' : ℝ} (hu : 0 ≤ u) (hL : 0 ≤ L) (hε : 0 ≤ ε) (hV : 0 ≤ V) (h0 : 0 ≤ h) (hh : h ≤ h') (hB0 : 0 ≤ B)
    (hB : B ≤ B') : stepError u L ε V h B ≤ stepError u L ε V h' B' := by
  unfold stepError evalError
  rw [abs_zero]
  have e1 : u * (B + 4 * (h * V)) ≤ u * (B' + 4 * (h' * V)) :=
    mul_le_mul_of_nonneg_left (by have := mul_le_mul_of_nonneg_right hh hV; linarith) hu
  have e2 : u * (0 + h) ≤ u * (0 + h') := mul_le_mul_of_nonneg_left (by linarith) hu
  have p1 : 0 ≤ u * (B + 4 * (h * V)) := by positivity
  have e3 : L * (3 * (u * (B + 4 * (h * V))) + 2 * (u * (0 + h))) ≤ L * (3 * (u * (B' + 4 * (h' * V))) + 2 * (u * (0 + h'))) :=
    mul_le_mul_of_nonneg_left (by linarith) hL
  have e4 : h * (ε + L * (3 * (u * (B + 4 * (h * V))) + 2 * (u * (0 + h))))
      ≤ h' * (ε + L * (3 * (u * (B' + 4 * (h' * V))) + 2 * (u * (0 + h')))) :=
    mul_le_mul hh (by linarith) (by positivity) (h0.trans hh)
  linarith

theorem accumulated_add {g q e ρ t : ℝ} (hg : 0 ≤ g) (ht : 0 ≤ t) (hρ : 0 ≤ ρ) :
    ρ + accumulated g q e t ≤ accumulated g q (e + ρ) t := by
  unfold accumulated
  have : (1 : ℝ) ≤ Real.exp (g * t) := Real.one_le_exp (mul_nonneg hg ht)
  have := mul_le_mul_of_nonneg_right this hρ
  linarith

/-- Two exact half steps. -/
theorem heunTwice_error (hy : IsSolution (fun x _ => G x) y 0 b) (hK : SlowVelocity (fun x _ => G x) y 0 b K)
    (hK' : SlowAcceleration (fun x _ => G x) y 0 b K') (hL : LipschitzNear (fun x _ => G x) y 0 b R L)
    {x : Fin d → ℝ} {h A e : ℝ} (h0 : 0 ≤ h) (hH : h ≤ H) (hτ : 0 ≤ τ₀) (hb : τ₀ + h ≤ b) (he : 0 ≤ e)
    (hA : accumulated (L + H / 2 * L ^ 2 / 2) ((H / 2) ^ 2 * ((L * K + K') / 2)) e (τ₀ + h) ≤ A)
    (hR : (1 + H / 2 * L) * A + H / 2 * (K * (H / 2)) ≤ R)
    (hx : ‖x - y τ₀‖ ≤ accumulated (L + H / 2 * L ^ 2 / 2) ((H / 2) ^ 2 * ((L * K + K') / 2)) e τ₀) :
    ‖heunTwice (fun x _ => G x) 0 h x - y (τ₀ + h)‖
      ≤ accumulated (L + H / 2 * L ^ 2 / 2) ((H / 2) ^ 2 * ((L * K + K') / 2)) e (τ₀ + h) := by
  have hL0 := hL.1
  have hK0 := hK.1
  have hK'0 := hK'.1
  have hH0 : 0 ≤ H := h0.trans hH
  set g := L + H / 2 * L ^ 2 / 2 with hg
  set q := (H / 2) ^ 2 * ((L * K + K') / 2) with hq
  have hg0 : 0 ≤ g := by positivity
  have hq0 : 0 ≤ q := by positivity
  have half : ∀ (z : Fin d → ℝ) (τ : ℝ), 0 ≤ τ → τ + h / 2 ≤ τ₀ + h → ‖z - y τ‖ ≤ accumulated g q e τ →
      ‖heunOnce (fun x _ => G x) 0 (h / 2) z - y (τ + h / 2)‖ ≤ accumulated g q e (τ + h / 2) := by
    intro z τ hτ1 hτ2 hz
    have hzA : ‖z - y τ‖ ≤ A := hz.trans ((accumulated_mono hg0 hq0 he hτ1 (by linarith)).trans hA)
    have h1 := heun_error (ε := 0) (H := H / 2) hy hK hK' hL (t := τ) (h := h / 2) (by linarith) (by linarith) hτ1 (by linarith) le_rfl
      (x := z) (k0 := G z) (k1 := G (z + (h / 2) • G z)) (by
        have := mul_le_mul_of_nonneg_left hzA (by positivity : 0 ≤ 1 + H / 2 * L)
        linarith) (by simp) (fun _ => by simp)
    rw [zero_mul, zero_add] at h1
    exact accumulated_step hg0 hq0 he hτ1 (by linarith) hz h1
  have h1 := half x τ₀ hτ (by linarith) hx
  have h2 := half _ (τ₀ + h / 2) (by linarith) (by linarith) h1
  rw [show τ₀ + h / 2 + h / 2 = τ₀ + h by ring] at h2
  exact h2

/-- Time goes forward, by at most `maxStep` per step; the next step is positive and at most `maxStep`. -/
theorem evolution_time (hu : r.u ≤ 1 / 64) (hpow : PowWithin v pow) (hv : v ≤ 1 / 64) (hN : ∀ z, 0 ≤ norm z) {obj obj' : AHeun}
    {x x' : Fin d → ℝ} {s s' : σ} {n : ℕ} {τ : ℝ} (hrun : AhEvolutionRnd r pow norm f obj x s n τ x' obj' s')
    (htol : 0 < obj.tolerance) (hdt : 0 < obj.dt) (hm : 0 < obj.maxStep) (hle : obj.dt ≤ obj.maxStep) :
    0 ≤ τ ∧ τ ≤ n * obj.maxStep ∧ 0 < obj'.dt ∧ obj'.dt ≤ obj.maxStep ∧ obj'.tolerance = obj.tolerance ∧
      obj'.maxStep = obj.maxStep := by
  induction hrun with
  | done => exact ⟨le_rfl, by simp, hdt, hle, rfl, rfl⟩
  | @pass obj x s k x1 h obj1 s1 m τ y' obj' s' hs hl ih =>
    obtain ⟨b1, b2, b3, b4, -, b6, b7⟩ := c146_steps htol hm hdt hu hpow hv hN k _ hs
    dsimp only at b1 b2 b3 b4 b6 b7
    obtain ⟨c1, c2, c3, c4, c5, c6⟩ := ih (by rw [b6]; exact htol) b3 (by rw [b7]; exact hm) (by rw [b7]; exact b4)
    rw [b7] at c2 c4 c6
    rw [b6] at c5
    have hhH : h ≤ obj.maxStep := by
      refine (b2.trans ?_).trans hle
      have : (0.95 : ℝ) ^ k ≤ 1 := pow_le_one₀ (by norm_num) (by norm_num)
      nlinarith
    refine ⟨by linarith, ?_, c3, c4, c5, c6⟩
    push_cast
    linarith

/-- C146: a whole adaptive evolution with rounding errors stays close to the solution of the differential equation: after `n` steps
that add up to `τ`, the deviation is at most the initial one plus `n` times the error of one step plus the discretisation error of
second order in `maxStep`, times the exponential growth of errors. -/
theorem c146_evolution (hu : r.u ≤ 1 / 64) (hpow : PowWithin v pow) (hv : v ≤ 1 / 64) (hN : ∀ z, 0 ≤ norm z)
    (hy : IsSolution (fun x _ => G x) y 0 b) (hK : SlowVelocity (fun x _ => G x) y 0 b K)
    (hK' : SlowAcceleration (fun x _ => G x) y 0 b K') (hL : LipschitzNear (fun x _ => G x) y 0 b R L)
    (hB : BoundedNear y 0 b R B) (hf : EvaluatesWithin f G y 0 b R ε V) (hV0 : 0 ≤ V) (hB0 : 0 ≤ B)
    (obj : AHeun) (htol : 0 < obj.tolerance) (hdt : 0 < obj.dt) (hle : obj.dt ≤ obj.maxStep) (hLH : L * obj.maxStep ≤ 1)
    (y₀ : Fin d → ℝ) (s : σ) (n : ℕ) (τ : ℝ) (y' : Fin d → ℝ) (obj' : AHeun) (s' : σ)
    (hrun : AhEvolutionRnd r pow norm f obj y₀ s n τ y' obj' s') (hτ : τ ≤ b) (A : ℝ)
    (hA : accumulated (L + obj.maxStep / 2 * L ^ 2 / 2) ((obj.maxStep / 2) ^ 2 * ((L * K + K') / 2))
      (‖y₀ - y 0‖ + n * stepError r.u L ε (V + ε) obj.maxStep B) b ≤ A)
    (hR1 : (1 + obj.maxStep / 2 * L) * A + obj.maxStep / 2 * (K * (obj.maxStep / 2)) ≤ R)
    (hR2 : A + (obj.maxStep * (V + ε) + 3 * (r.u * (B + 4 * (obj.maxStep * (V + ε))))) ≤ R) :
    ‖y' - y τ‖ ≤ accumulated (L + obj.maxStep / 2 * L ^ 2 / 2) ((obj.maxStep / 2) ^ 2 * ((L * K + K') / 2))
      (‖y₀ - y 0‖ + n * stepError r.u L ε (V + ε) obj.maxStep B) τ := by
  have hL0 := hL.1
  have hK0 := hK.1
  have hK'0 := hK'.1
  have hε := hf.1
  have hu0 := r.u_nonneg
  obtain ⟨H, hHd⟩ : ∃ H, obj.maxStep = H := ⟨_, rfl⟩
  have hH : 0 < obj.maxStep := hdt.trans_le hle
  rw [hHd] at hle hLH hA hR1 hR2 hH ⊢
  set g := L + H / 2 * L ^ 2 / 2 with hg
  set q := (H / 2) ^ 2 * ((L * K + K') / 2) with hq
  set ρ := stepError r.u L ε (V + ε) H B with hρ
  have hg0 : 0 ≤ g := by positivity
  have hq0 : 0 ≤ q := by positivity
  have hρ0 : 0 ≤ ρ := by
    rw [hρ]
    unfold stepError evalError
    positivity
  -- from some time on
  suffices key : ∀ (obj : AHeun) (y₀ : Fin d → ℝ) (s : σ) (m : ℕ) (τ : ℝ) (y' : Fin d → ℝ) (obj' : AHeun) (s' : σ),
      AhEvolutionRnd r pow norm f obj y₀ s m τ y' obj' s' → 0 < obj.tolerance → 0 < obj.dt → obj.dt ≤ H → obj.maxStep = H →
      ∀ (j : ℕ) (τ₀ e : ℝ), 0 ≤ e → 0 ≤ τ₀ → τ₀ + τ ≤ b → accumulated g q (e + (j + m) * ρ) b ≤ A →
      ‖y₀ - y τ₀‖ ≤ accumulated g q (e + j * ρ) τ₀ →
      0 ≤ τ ∧ ‖y' - y (τ₀ + τ)‖ ≤ accumulated g q (e + (j + m) * ρ) (τ₀ + τ) by
    have := (key obj y₀ s n τ y' obj' s' hrun htol hdt hle hHd 0 0 ‖y₀ - y 0‖ (norm_nonneg _) le_rfl (by linarith)
      (by simpa using hA) (by simp [accumulated])).2
    simpa using this
  clear hrun hA hHd hdt hle htol hτ
  intro obj y₀ s m τ y' obj' s' hrun
  induction hrun with
  | done =>
    intro _ _ _ _ j τ₀ e _ _ _ _ h
    exact ⟨le_rfl, by simpa using h⟩
  | @pass obj x s k x1 h obj1 s1 m τ y' obj' s' hs hl ih =>
    intro htol hdt hle hmax j τ₀ e he hτ₀ hb hA hx
    have hH' : 0 < obj.maxStep := by rw [hmax]; exact hH
    obtain ⟨t1, t2, t3, t4, -, t6, t7⟩ := c146_steps htol hH' hdt hu hpow hv hN k _ hs
    dsimp only at t1 t2 t3 t4 t6 t7
    have hhH : h ≤ H := by
      refine (t2.trans ?_).trans hle
      have : (0.95 : ℝ) ^ k ≤ 1 := pow_le_one₀ (by norm_num) (by norm_num)
      nlinarith
    -- the later steps take some time
    have hτpos : 0 ≤ τ := by
      exact (evolution_time hu hpow hv hN hl (by rw [t6]; exact htol) t3 (by rw [t7]; exact hH') (by rw [t7]; exact t4)).1
    have hej : 0 ≤ e + j * ρ := by positivity
    have hbh : τ₀ + h ≤ b := by linarith
    have hmj : (0 : ℝ) ≤ m := Nat.cast_nonneg m
    have accE : ∀ {e e' t : ℝ}, 0 ≤ t → e ≤ e' → accumulated g q e t ≤ accumulated g q e' t := by
      intro e e' t _ h
      unfold accumulated
      exact mul_le_mul_of_nonneg_left (by linarith) (Real.exp_pos _).le
    have hb0 : 0 ≤ b := by linarith
    have hAj : ∀ t, 0 ≤ t → t ≤ b → accumulated g q (e + j * ρ) t ≤ A := by
      intro t ht htb
      refine (accumulated_mono hg0 hq0 hej ht htb).trans ((accE hb0 ?_).trans hA)
      push_cast
      have : 0 ≤ ((m : ℝ) + 1) * ρ := by positivity
      linarith
    have hxA : ‖x - y τ₀‖ ≤ A := hx.trans (hAj τ₀ hτ₀ (by linarith))
    have htm : τ₀ ∈ Icc 0 b := ⟨hτ₀, by linarith⟩
    have hW : 0 ≤ H * (V + ε) := by positivity
    have hball0 : 0 ≤ H * (V + ε) + 3 * (r.u * (B + 4 * (H * (V + ε)))) := by positivity
    have hxB : ‖x‖ ≤ B := hB τ₀ htm x (by linarith)
    have near : ∀ z, ‖z - x‖ ≤ H * (V + ε) + 3 * (r.u * (B + 4 * (H * (V + ε)))) → ‖z - y τ₀‖ ≤ R := by
      intro z hz
      have := norm_add_le (z - x) (x - y τ₀)
      rw [sub_add_sub_cancel] at this
      linarith
    have hbd : RhsBounded f x (H * (V + ε) + 3 * (r.u * (B + 4 * (H * (V + ε))))) (V + ε) := by
      intro z t' k' s' hz
      have := (hf.2 τ₀ htm z t' k' s' (near z hz)).2
      linarith
    have hnr : RhsNear f (fun x _ => G x) x (H * (V + ε) + 3 * (r.u * (B + 4 * (H * (V + ε))))) (V + ε) L ε := by
      refine ⟨fun z t' k' s' hz => (hf.2 τ₀ htm z t' k' s' (near z hz)).1, fun z t' hz => ?_, fun z t' z' t'' hz hz' => ?_⟩
      · obtain ⟨q1, q2⟩ := hf.2 τ₀ htm z t' 0 s (near z hz)
        rw [norm_sub_rev] at q1
        exact norm_le_of_near q1 q2
      · refine (hL.2 τ₀ htm z z' (near z hz) (near z' hz')).trans (mul_le_mul_of_nonneg_left ?_ hL0)
        have := abs_nonneg (t' - t'')
        linarith
    have hhV : h * (V + ε) ≤ H * (V + ε) := mul_le_mul_of_nonneg_right hhH (by linarith)
    have hball : h * (V + ε) + 3 * (r.u * (‖x‖ + 4 * (h * (V + ε)))) ≤ H * (V + ε) + 3 * (r.u * (B + 4 * (H * (V + ε)))) := by
      have : r.u * (‖x‖ + 4 * (h * (V + ε))) ≤ r.u * (B + 4 * (H * (V + ε))) := mul_le_mul_of_nonneg_left (by linarith) hu0
      linarith
    have hLh : L * h ≤ 1 := (mul_le_mul_of_nonneg_left hhH hL0).trans hLH
    have acc := c146_accuracy htol hH' hdt hu hpow hv hN (by linarith : 0 ≤ V + ε) hL0 hε hbd hnr k x1 h obj1 hs hball hLh
    have acc' : ‖x1 - heunTwice (fun x _ => G x) 0 h x‖ ≤ ρ :=
      acc.trans (stepError_mono hu0 hL0 hε (by linarith) t1.le hhH (norm_nonneg _) hxB)
    have tw := heunTwice_error hy hK hK' hL (A := A) t1.le hhH hτ₀ hbh hej (hAj _ (by linarith) hbh) hR1 hx
    have hx1 : ‖x1 - y (τ₀ + h)‖ ≤ accumulated g q (e + (j + 1 : ℕ) * ρ) (τ₀ + h) := by
      have h1 := norm_add_le (x1 - heunTwice (fun x _ => G x) 0 h x) (heunTwice (fun x _ => G x) 0 h x - y (τ₀ + h))
      rw [sub_add_sub_cancel] at h1
      refine (h1.trans (add_le_add acc' tw)).trans ?_
      have := accumulated_add (q := q) (e := e + j * ρ) hg0 (by linarith : 0 ≤ τ₀ + h) hρ0
      rwa [show e + j * ρ + ρ = e + ((j + 1 : ℕ) : ℝ) * ρ by push_cast; ring] at this
    obtain ⟨-, fin⟩ := ih (by rw [t6]; exact htol) t3 (by rw [← hmax]; exact t4) (by rw [t7]; exact hmax) (j + 1) (τ₀ + h) e he
      (by linarith) (by linarith) (by
        push_cast at hA ⊢
        rwa [show ((j : ℝ) + 1 + m) = j + (m + 1) by ring]) hx1
    refine ⟨by linarith, ?_⟩
    rw [show τ₀ + (h + τ) = τ₀ + h + τ by ring]
    push_cast at fin ⊢
    rwa [show ((j : ℝ) + 1 + m) = j + (m + 1) by ring] at fin

/-- The decay `dy/dt = -y` of `decay2`: every run of at most two adaptive steps in double precision stays close to the solution. -/
theorem decay2_adaptive {n : ℕ} (hn : n ≤ 2) {τ : ℝ} {Y : Fin 2 → ℝ} {obj' : AHeun} {s' : Unit}
    (hrun : AhEvolutionRnd Rounding.double (fun q => q ^ (0.33333 : ℝ)) (fun z : Fin 2 → ℝ => ‖z‖) decayRhs2 ⟨1 / 16, 1 / 10, 1 / 16⟩
      (decay2 0) () n τ Y obj' s') (hτ : τ ≤ 1) : ‖Y - decay2 τ‖ ≤ 1 / 100 := by
  have hu : Rounding.double.u = (2 : ℝ) ^ (-53 : ℤ) := rfl
  have hρ : stepError Rounding.double.u 1 0 (2 + 0) (1 / 16) 2 ≤ 1 / 10 ^ 6 := by
    rw [hu]
    unfold stepError evalError
    rw [abs_zero]
    norm_num
  have hρ0 : 0 ≤ stepError Rounding.double.u 1 0 (2 + 0) (1 / 16) 2 := by
    have := Rounding.double.u_nonneg
    unfold stepError evalError
    positivity
  have hexp : Real.exp ((1 + 1 / 16 / 2 * 1 ^ 2 / 2) * 1) ≤ 8 := by
    have h1 : Real.exp ((1 + 1 / 16 / 2 * 1 ^ 2 / 2) * 1) ≤ Real.exp (1 + 1) := Real.exp_le_exp.mpr (by norm_num)
    rw [Real.exp_add] at h1
    have h2 := Real.exp_one_lt_d9
    have h3 := Real.exp_pos 1
    nlinarith
  have hn' : (n : ℝ) ≤ 2 := by exact_mod_cast hn
  have hnρ : (n : ℝ) * stepError Rounding.double.u 1 0 (2 + 0) (1 / 16) 2 ≤ 2 * (1 / 10 ^ 6) :=
    mul_le_mul hn' hρ hρ0 (by norm_num)
  have hA : accumulated (1 + 1 / 16 / 2 * 1 ^ 2 / 2) ((1 / 16 / 2) ^ 2 * ((1 * 1 + 1) / 2))
      (‖decay2 0 - decay2 0‖ + n * stepError Rounding.double.u 1 0 (2 + 0) (1 / 16) 2) 1 ≤ 1 / 100 := by
    unfold accumulated
    rw [sub_self, norm_zero, zero_add]
    have hpos : 0 ≤ (n : ℝ) * stepError Rounding.double.u 1 0 (2 + 0) (1 / 16) 2 := by positivity
    refine (mul_le_mul hexp (le_refl _) (by linarith) (by norm_num)).trans ?_
    norm_num at hnρ ⊢
    linarith
  have h := c146_evolution (by rw [hu]; norm_num) (v := 0) (fun q _ => by simp) (by norm_num) (fun z => norm_nonneg z) decay2_solution
    decay2_velocity decay2_acceleration decay2_lipschitz decay2_bounded decay2_evaluates (by norm_num) (by norm_num)
    ⟨1 / 16, 1 / 10, 1 / 16⟩ (by norm_num) (by norm_num) le_rfl (by norm_num) (decay2 0) () n τ Y obj' s' hrun hτ (1 / 100) hA
    (by norm_num) (by rw [hu]; norm_num)
  refine h.trans ((?_ : _ ≤ _).trans hA)
  have hτ0 : 0 ≤ τ := (evolution_time (by rw [hu]; norm_num) (v := 0) (fun q _ => by simp) (by norm_num) (fun z => norm_nonneg z) hrun
    (by norm_num) (by norm_num) (by norm_num) le_rfl).1
  exact accumulated_mono (by norm_num) (by norm_num) (by positivity) hτ0 hτ

/-- A step of the decay returns from every value of moderate size. -/
theorem decay2_returns (obj : AHeun) (htol : obj.tolerance = 1 / 10) (hm : 0 < obj.maxStep) (hdt : 0 < obj.dt) (x : Fin 2 → ℝ)
    (hx : ‖x‖ ≤ 2) (s : Unit) : ∃ k y h obj' s', AhStepRnd Rounding.double (fun q => q ^ (0.33333 : ℝ)) (fun z : Fin 2 → ℝ => ‖z‖) obj
      decayRhs2 0 x s k ((y, h, obj'), s') := by
  have hu : Rounding.double.u = (2 : ℝ) ^ (-53 : ℤ) := rfl
  have hV : RhsBounded decayRhs2 x 1 3 := by
    intro z _ _ _ hz
    have := norm_le_of_near hz hx
    simp only [decayRhs2, norm_neg]
    linarith
  obtain ⟨k, ⟨⟨y, h, obj'⟩, s'⟩, hr⟩ := c146_returns (r := Rounding.double) (norm := fun z : Fin 2 → ℝ => ‖z‖) (obj := obj) (c := 1)
    (C := 1) (by rw [htol]; norm_num) hm hdt (by rw [hu]; norm_num) (v := 0) (pow := fun q => q ^ (0.33333 : ℝ)) (fun q _ => by simp)
    (by norm_num) zero_le_one (fun z => by simp) (by norm_num : (0 : ℝ) ≤ 3) zero_le_one hV (H := 1 / 1000) (by norm_num) (by
      have : Rounding.double.u * (‖x‖ + 4 * (1 / 1000 * 3)) ≤ 1 / 64 * 3 :=
        mul_le_mul (by rw [hu]; norm_num) (by linarith) (by positivity) (by norm_num)
      linarith) (by rw [hu, htol]; norm_num) 0 s
  exact ⟨k, y, h, obj', s', hr⟩

/-- Case: two adaptive steps of the decay in double precision. -/
example : ∃ τ Y obj' s', AhEvolutionRnd Rounding.double (fun q => q ^ (0.33333 : ℝ)) (fun z : Fin 2 → ℝ => ‖z‖) decayRhs2
      ⟨1 / 16, 1 / 10, 1 / 16⟩ (decay2 0) () 2 τ Y obj' s' ∧ 0 ≤ τ ∧ ‖Y - decay2 τ‖ ≤ 1 / 100 := by
  have hu : Rounding.double.u = (2 : ℝ) ^ (-53 : ℤ) := rfl
  have hsz : ∀ t : ℝ, 0 ≤ t → ‖decay2 t‖ ≤ 1 := by
    intro t ht
    rw [pi_norm_le_iff_of_nonneg zero_le_one]
    intro i
    simp only [decay2, Real.norm_eq_abs, Real.abs_exp]
    exact Real.exp_le_one_iff.mpr (by linarith)
  have htime : ∀ {n : ℕ} {τ : ℝ} {Y : Fin 2 → ℝ} {obj' : AHeun} {s' : Unit}, AhEvolutionRnd Rounding.double
      (fun q => q ^ (0.33333 : ℝ)) (fun z : Fin 2 → ℝ => ‖z‖) decayRhs2 ⟨1 / 16, 1 / 10, 1 / 16⟩ (decay2 0) () n τ Y obj' s' →
      0 ≤ τ ∧ τ ≤ n * (1 / 16) ∧ 0 < obj'.dt ∧ obj'.dt ≤ 1 / 16 ∧ obj'.tolerance = 1 / 10 ∧ obj'.maxStep = 1 / 16 := fun h =>
    evolution_time (by rw [hu]; norm_num) (v := 0) (fun q _ => by simp) (by norm_num) (fun z => norm_nonneg z) h
      (by norm_num) (by norm_num) (by norm_num) le_rfl
  obtain ⟨k, y1, h1, obj1, s1, r1⟩ := decay2_returns ⟨1 / 16, 1 / 10, 1 / 16⟩ rfl (by norm_num) (by norm_num) (decay2 0)
    ((hsz 0 le_rfl).trans (by norm_num)) ()
  have e1 := AhEvolutionRnd.pass r1 .done
  obtain ⟨t1, t2, t3, t4, t5, t6⟩ := htime e1
  norm_num at t2
  have n1 := decay2_adaptive (by norm_num) e1 (by linarith)
  obtain ⟨k2, y2, h2, obj2, s2, r2⟩ := decay2_returns obj1 t5 (by rw [t6]; norm_num) t3 y1
    ((norm_le_of_near n1 (hsz _ t1)).trans (by norm_num)) s1
  have e2 := AhEvolutionRnd.pass r1 (AhEvolutionRnd.pass r2 .done)
  obtain ⟨q1, q2, -⟩ := htime e2
  norm_num at q2
  exact ⟨_, y2, obj2, s2, e2, q1, decay2_adaptive le_rfl e2 (by linarith)⟩

end JVMC
