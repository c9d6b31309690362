import Verif.Lemmas.AdaptiveRounding

/-!
# C146 — rounding errors of adaptive time steps
-/

namespace JVMC

open Spec

variable {σ : Type} {d : ℕ} {r : Rounding} {pow : ℝ → ℝ} {norm : (Fin d → ℝ) → ℝ} {obj : AHeun} {f : VRhs (Fin d → ℝ) σ}
  {t dt dt' R V L ε v c C : ℝ} {y₀ : Fin d → ℝ} {s s' : σ} {x : AhVals d} {fe : Num}

theorem rd_bounds {a b : ℝ} (h : r.Rd a b) (ha : 0 ≤ a) : (1 - r.u) * a ≤ b ∧ b ≤ (1 + r.u) * a := by
  have := rd_err h
  rw [abs_of_nonneg ha, abs_le] at this
  constructor <;> linarith [this.1, this.2]

theorem clip_bounds (k : ℝ) : 0.2 ≤ (if (if 0.2 > k then 0.2 else k) > 2 then 2 else (if 0.2 > k then 0.2 else k) : ℝ) ∧
    (if (if 0.2 > k then 0.2 else k) > 2 then 2 else (if 0.2 > k then 0.2 else k) : ℝ) ≤ 2 ∧
    (k ≤ 0.93 → (if (if 0.2 > k then 0.2 else k) > 2 then 2 else (if 0.2 > k then 0.2 else k) : ℝ) ≤ 0.93) := by
  by_cases h1 : (0.2 : ℝ) > k
  · rw [if_pos h1, if_neg (by norm_num)]
    norm_num
  · rw [if_neg h1]
    push Not at h1
    by_cases h2 : k > 2
    · rw [if_pos h2]
      refine ⟨by norm_num, le_rfl, fun h => ?_⟩
      have := h2.trans_le h
      norm_num at this
    · rw [if_neg h2]
      exact ⟨h1, not_lt.mp h2, id⟩

/-- The next time step. -/
theorem nextDt_bounds (h : NextDtRnd r pow obj.maxStep dt fe dt') (hdt : 0 < dt) (hm : 0 < obj.maxStep) :
    0 < dt' ∧ dt' ≤ obj.maxStep ∧ dt' ≤ 2 * (1 + r.u) * dt := by
  obtain ⟨tmp, m, h1, h2, rfl⟩ := h
  have ht : 0.2 ≤ tmp ∧ tmp ≤ 2 := by
    cases fe with
    | nan => exact h1.elim
    | inf => dsimp only at h1; subst h1; norm_num
    | fin q =>
      obtain ⟨k, -, rfl⟩ := h1
      exact ⟨(clip_bounds k).1, (clip_bounds k).2.1⟩
  have hu := r.u_nonneg
  have hu1 := r.u_lt
  have h0 : 0 < tmp := by norm_num at ht; linarith [ht.1]
  obtain ⟨b1, b2⟩ := rd_bounds h2 (mul_pos hdt h0).le
  have hp : 0 < (1 - r.u) * (dt * tmp) := mul_pos (by linarith) (mul_pos hdt h0)
  have hq : (1 + r.u) * (dt * tmp) ≤ (1 + r.u) * (dt * 2) :=
    mul_le_mul_of_nonneg_left (mul_le_mul_of_nonneg_left ht.2 hdt.le) (by linarith)
  split_ifs with hc
  · exact ⟨hm, le_rfl, by linarith⟩
  · exact ⟨by linarith, not_lt.mp hc, by linarith⟩

/-- A rejected attempt makes the time step smaller. -/
theorem nextDt_shrinks (hpow : PowWithin v pow) (hv : v ≤ 1 / 64) (hu : r.u ≤ 1 / 64) {q : ℝ} (hq0 : 0 < q) (hq1 : q < 1)
    (h : NextDtRnd r pow obj.maxStep dt (.fin q) dt') (hdt : 0 < dt) : dt' ≤ 0.95 * dt := by
  obtain ⟨tmp, m, ⟨k, hk, h1⟩, h2, rfl⟩ := h
  have hu0 := r.u_nonneg
  have hr0 : 0 < q ^ (0.33333 : ℝ) := Real.rpow_pos_of_pos hq0 _
  have hr1 : q ^ (0.33333 : ℝ) ≤ 1 := Real.rpow_le_one hq0.le hq1.le (by norm_num)
  have hp := abs_le.mp (hpow q hq0)
  have hp1 : pow q ≤ 65 / 64 := by nlinarith
  have hp0 : 0 ≤ pow q := by nlinarith
  obtain ⟨-, hk2⟩ := rd_bounds hk (by positivity)
  have hk3 : k ≤ 0.93 := by norm_num at hk2 ⊢; nlinarith
  have ht : 0.2 ≤ tmp ∧ tmp ≤ 0.93 := by
    subst h1
    exact ⟨(clip_bounds k).1, (clip_bounds k).2.2 hk3⟩
  have h0 : 0 ≤ tmp := by norm_num at ht; linarith [ht.1]
  obtain ⟨-, b2⟩ := rd_bounds h2 (mul_nonneg hdt.le h0)
  have hq : (1 + r.u) * (dt * tmp) ≤ 65 / 64 * (dt * 0.93) :=
    mul_le_mul (by linarith) (mul_le_mul_of_nonneg_left ht.2 hdt.le) (mul_nonneg hdt.le h0) (by norm_num)
  have hm : m ≤ 0.95 * dt := by norm_num at hq ⊢; linarith
  split_ifs with hc
  · exact hc.le.trans hm
  · exact hm

/-- Accepted: the measured deviation is at most the tolerance; rejected: it exceeds the tolerance and the step shrinks. -/
theorem pass_decision (htol : 0 < obj.tolerance) (hm : 0 < obj.maxStep) (hdt : 0 < dt) (hu : r.u ≤ 1 / 64)
    (hpow : PowWithin v pow) (hv : v ≤ 1 / 64) (hN : 0 ≤ norm x.diff)
    (h : AhPassRnd r pow norm obj f t y₀ dt s x fe dt' s') :
    (¬ fe.below 1 → norm x.diff ≤ (1 + r.u) * obj.tolerance) ∧
      (fe.below 1 → (1 - r.u) * obj.tolerance < norm x.diff ∧ dt' ≤ 0.95 * dt) := by
  obtain ⟨-, hf, hd⟩ := h
  have hu0 := r.u_nonneg
  unfold FeRnd at hf
  split_ifs at hf with h0
  · rw [h0]
    refine ⟨fun _ => by positivity, fun hb => ?_⟩
    rw [hf, Num.quot, if_pos rfl, if_neg htol.ne'] at hb
    simp [Num.below] at hb
  · obtain ⟨q, hq, rfl⟩ := hf
    have hN' : 0 < norm x.diff := lt_of_le_of_ne hN (Ne.symm h0)
    have hquot : 0 < obj.tolerance / norm x.diff := div_pos htol hN'
    obtain ⟨b1, b2⟩ := rd_bounds hq hquot.le
    have hq0 : 0 < q := lt_of_lt_of_le (mul_pos (by linarith [r.u_lt]) hquot) b1
    constructor
    · intro hb
      have hq1 : 1 ≤ q := by simpa [Num.below] using hb
      have := hq1.trans b2
      rw [← mul_div_assoc, le_div_iff₀ hN'] at this
      linarith
    · intro hb
      have hq1 : q < 1 := by simpa [Num.below] using hb
      refine ⟨?_, nextDt_shrinks hpow hv hu hq0 hq1 hd hdt⟩
      have := b1.trans_lt hq1
      rw [← mul_div_assoc, div_lt_iff₀ hN'] at this
      linarith

/-- What is known when the loop ends. -/
theorem loop_spec (htol : 0 < obj.tolerance) (hm : 0 < obj.maxStep) (hu : r.u ≤ 1 / 64) (hpow : PowWithin v pow) (hv : v ≤ 1 / 64)
    (hN : ∀ z, 0 ≤ norm z) {n : ℕ} {X : AhVals d} {realDt next : ℝ} {s'' : σ}
    (h : AhLoopRnd r pow norm obj f t y₀ dt s n X realDt next s'') (hdt : 0 < dt) :
    (∃ s₁, AhAttemptRnd r f t y₀ realDt s₁ X s'') ∧ norm X.diff ≤ (1 + r.u) * obj.tolerance ∧ 0 < realDt ∧
      realDt ≤ 0.95 ^ n * dt ∧ 0 < next ∧ next ≤ obj.maxStep ∧ next ≤ 2 * (1 + r.u) * realDt := by
  induction h with
  | @accept dt s x s' fe dt' hp hb =>
    obtain ⟨n1, n2, n3⟩ := nextDt_bounds hp.2.2 hdt hm
    exact ⟨⟨s, hp.1⟩, (pass_decision htol hm hdt hu hpow hv (hN _) hp).1 hb, hdt, by simp, n1, n2, n3⟩
  | @reject dt s x s' fe dt' n X realDt dt'' s'' hp hb hl ih =>
    obtain ⟨n1, -, -⟩ := nextDt_bounds hp.2.2 hdt hm
    obtain ⟨g1, g2, g3, g4, g5⟩ := ih n1
    refine ⟨g1, g2, g3, ?_, g5⟩
    have h1 := ((pass_decision htol hm hdt hu hpow hv (hN _) hp).2 hb).2
    calc realDt ≤ 0.95 ^ n * dt' := g4
      _ ≤ 0.95 ^ n * (0.95 * dt) := mul_le_mul_of_nonneg_left h1 (by positivity)
      _ = 0.95 ^ (n + 1) * dt := by ring

/-- C146: with rounding errors a returned step was positive, has shrunk with every rejected attempt, and leaves a next step that is
positive, at most `maxStep`, and at most doubled up to rounding; tolerance and `maxStep` stay. -/
theorem c146_steps (htol : 0 < obj.tolerance) (hm : 0 < obj.maxStep) (hdt : 0 < obj.dt) (hu : r.u ≤ 1 / 64)
    (hpow : PowWithin v pow) (hv : v ≤ 1 / 64) (hN : ∀ z, 0 ≤ norm z) (n : ℕ) (out : ((Fin d → ℝ) × ℝ × AHeun) × σ)
    (h : AhStepRnd r pow norm obj f t y₀ s n out) :
    0 < out.1.2.1 ∧ out.1.2.1 ≤ 0.95 ^ n * obj.dt ∧ 0 < out.1.2.2.dt ∧ out.1.2.2.dt ≤ obj.maxStep ∧
      out.1.2.2.dt ≤ 2 * (1 + r.u) * out.1.2.1 ∧ out.1.2.2.tolerance = obj.tolerance ∧ out.1.2.2.maxStep = obj.maxStep := by
  obtain ⟨x, realDt, dt', s', y', hl, -, rfl⟩ := h
  obtain ⟨-, -, g3, g4, g5, g6, g7⟩ := loop_spec htol hm hu hpow hv hN hl hdt
  exact ⟨g3, g4, g5, g6, g7, rfl, rfl⟩

/-- The exact stages of two half steps. -/
theorem heunTwice_eq (G : (Fin d → ℝ) → ℝ → Fin d → ℝ) (t h : ℝ) (y : Fin d → ℝ) :
    heunTwice G t h y = y + ((h / 4) • (G y t + G (y + (h / 2) • G y t) (t + h / 2))
      + (h / 4) • (G (y + (h / 4) • (G y t + G (y + (h / 2) • G y t) (t + h / 2))) (t + h / 2)
        + G (y + (h / 4) • (G y t + G (y + (h / 2) • G y t) (t + h / 2))
            + (h / 2) • G (y + (h / 4) • (G y t + G (y + (h / 2) • G y t) (t + h / 2))) (t + h / 2)) (t + h))) := by
  unfold heunTwice heunOnce
  rw [show h / 2 / 2 = h / 4 by ring, show t + h / 2 + h / 2 = t + h by ring, add_assoc]

/-- Errors of the two increments. -/
theorem increments_err {G : (Fin d → ℝ) → ℝ → Fin d → ℝ} (hu : r.u ≤ 1 / 8) (hdt : 0 < dt) (hV0 : 0 ≤ V) (hL0 : 0 ≤ L)
    (hε : 0 ≤ ε) (hV : RhsBounded f y₀ R V) (hG : RhsNear f G y₀ R V L ε)
    (hR : dt * V + 3 * (r.u * (‖y₀‖ + 4 * (dt * V))) ≤ R) (hLdt : L * dt ≤ 1) (h : AhAttemptRnd r f t y₀ dt s x s') :
    ‖y₀ + x.dy1 - heunTwice G t dt y₀‖ ≤ 6 * (r.u * (dt * V)) + 2 * (dt * evalError r.u L ε V t dt ‖y₀‖) ∧
      ‖y₀ + x.dy0 - heunOnce G t dt y₀‖ ≤ 4 * (r.u * (dt * V)) + 2 * (dt * evalError r.u L ε V t dt ‖y₀‖) := by
  obtain ⟨Ak0, -, Ak10, Ak01, -, Aa1, Aa2, Aa3, Aa4, Ady0, Ady1, -, -, -⟩ := attempt_err hu hdt hV0 hV hR h
  obtain ⟨s1, s2, s3, s4, c0, c1, c2, c3, c4⟩ := h.calls
  have hu0 := r.u_nonneg
  have hW : 0 ≤ dt * V := mul_nonneg hdt.le hV0
  have hB : 0 ≤ r.u * (‖y₀‖ + 4 * (dt * V)) := mul_nonneg hu0 (by have := norm_nonneg y₀; linarith)
  have hT : 0 ≤ r.u * (|t| + dt) := mul_nonneg hu0 (by have := abs_nonneg t; linarith)
  have h2 : (0 : ℝ) ≤ dt / 2 := by linarith
  have h4 : (0 : ℝ) ≤ dt / 4 := by linarith
  -- times
  have ht1 : |x.t1 - (t + dt)| ≤ 2 * (r.u * (|t| + dt)) := by
    have e1 := rd_err h.t1
    have e2 := abs_add_le t dt
    rw [abs_of_pos hdt] at e2
    have := mul_le_mul_of_nonneg_left e2 hu0
    linarith
  have hth : |x.th - (t + dt / 2)| ≤ 2 * (r.u * (|t| + dt)) := by
    have e0 := rd_err h.hd
    rw [abs_of_pos (by linarith : 0 < 1 / 2 * dt)] at e0
    have e1 := rd_err h.th
    have e2 := abs_add_le t x.hd
    have e3 : |x.hd| ≤ dt := by
      have := abs_add_le (x.hd - 1 / 2 * dt) (1 / 2 * dt)
      rw [sub_add_cancel, abs_of_pos (by linarith : 0 < 1 / 2 * dt)] at this
      nlinarith
    have e4 : r.u * |t + x.hd| ≤ r.u * (|t| + dt) := mul_le_mul_of_nonneg_left (by linarith) hu0
    have e5 := abs_add_le (x.th - (t + x.hd)) (x.hd - 1 / 2 * dt)
    rw [show x.th - (t + x.hd) + (x.hd - 1 / 2 * dt) = x.th - (t + dt / 2) by ring] at e5
    have e6 : r.u * (1 / 2 * dt) ≤ r.u * (|t| + dt) := mul_le_mul_of_nonneg_left (by linarith [abs_nonneg t]) hu0
    linarith
  set B := r.u * (‖y₀‖ + 4 * (dt * V)) with hBd
  set T := r.u * (|t| + dt) with hTd
  set E := evalError r.u L ε V t dt ‖y₀‖ with hEd
  have hE : E = ε + L * (3 * B + 2 * T) := rfl
  have hεE : ε ≤ E := by
    have : 0 ≤ L * (3 * B + 2 * T) := by positivity
    linarith
  have hE0 : 0 ≤ E := hε.trans hεE
  clear_value B T E
  -- one evaluation
  have eval : ∀ {a a' : Fin d → ℝ} {τ τ' e : ℝ} {k : ℕ} {z z' : σ} {K : Fin d → ℝ}, f a τ k z = (K, z') → ‖a - y₀‖ ≤ R →
      ‖a' - y₀‖ ≤ R → ‖a - a'‖ ≤ 3 * B + e → |τ - τ'| ≤ 2 * T → ‖K - G a' τ'‖ ≤ E + L * e := by
    intro a a' τ τ' e k z z' K hK ha ha' haa hττ
    have q1 := hG.near a τ k z ha
    rw [hK] at q1
    have q2 := hG.lipschitz a τ a' τ' ha ha'
    have q3 := norm_add_le (K - G a τ) (G a τ - G a' τ')
    rw [sub_add_sub_cancel] at q3
    have q4 : L * (‖a - a'‖ + |τ - τ'|) ≤ L * (3 * B + e + 2 * T) := mul_le_mul_of_nonneg_left (by linarith) hL0
    rw [hE]
    linarith
  have ball : ∀ {a b : Fin d → ℝ}, ‖a - (y₀ + b)‖ ≤ 3 * B → ‖b‖ ≤ dt * V → ‖a - y₀‖ ≤ R := by
    intro a b hab hb
    have := norm_add_le (a - (y₀ + b)) b
    rw [show a - (y₀ + b) + b = a - y₀ by abel] at this
    linarith
  have ball' : ∀ {b : Fin d → ℝ}, ‖b‖ ≤ dt * V → ‖y₀ + b - y₀‖ ≤ R := by
    intro b hb
    rw [add_sub_cancel_left]
    linarith
  have smul_half : ∀ {k : Fin d → ℝ}, ‖k‖ ≤ V → ‖(dt / 2) • k‖ ≤ dt * V / 2 := fun hk =>
    (norm_smul_le' h2 hk).trans (by linarith)
  have smul_quarter : ∀ {k k' : Fin d → ℝ}, ‖k‖ ≤ V → ‖k'‖ ≤ V → ‖(dt / 4) • (k + k')‖ ≤ dt * V / 2 := fun hk hk' =>
    (norm_smul_le' h4 (norm_add_le' hk hk')).trans (by linarith)
  have hLE : ∀ e : ℝ, 0 ≤ e → L * (dt * e) ≤ e := by
    intro e he
    have := mul_le_mul_of_nonneg_right hLdt he
    linarith
  have yR : ‖y₀ - y₀‖ ≤ R := by rw [sub_self, norm_zero]; linarith
  -- the stages
  have K0 : ‖x.k0 - G y₀ t‖ ≤ E := by
    have := hG.near y₀ t 0 s yR
    rw [c0] at this
    exact this.trans hεE
  have g0 := hG.bound y₀ t yR
  have diffS : ∀ {m : ℝ} {k k' : Fin d → ℝ} {e : ℝ}, 0 ≤ m → ‖k - k'‖ ≤ e → ‖m • k - m • k'‖ ≤ m * e := by
    intro m k k' e hm hk
    rw [← smul_sub]
    exact norm_smul_le' hm hk
  have K1 : ‖x.k1 - G (y₀ + dt • G y₀ t) (t + dt)‖ ≤ 2 * E := by
    have := eval c1 (a' := y₀ + dt • G y₀ t) (τ' := t + dt) (e := dt * E) (ball Aa1 (norm_smul_le' hdt.le Ak0))
      (ball' (norm_smul_le' hdt.le g0)) (by
        have := norm_add_le' Aa1 (diffS hdt.le K0)
        rwa [show x.a1 - (y₀ + dt • x.k0) + (dt • x.k0 - dt • G y₀ t) = x.a1 - (y₀ + dt • G y₀ t) by abel] at this) ht1
    linarith [hLE E hE0]
  set a2 := y₀ + (dt / 2) • G y₀ t with ha2
  have a2R : ‖a2 - y₀‖ ≤ R := ball' ((smul_half g0).trans (by linarith))
  have K10 : ‖x.k10 - G a2 (t + dt / 2)‖ ≤ 3 / 2 * E := by
    have := eval c2 (a' := a2) (τ' := t + dt / 2) (e := dt / 2 * E) (ball Aa2 ((smul_half Ak0).trans (by linarith))) a2R (by
        have := norm_add_le' Aa2 (diffS h2 K0)
        rwa [show x.a2 - (y₀ + (dt / 2) • x.k0) + ((dt / 2) • x.k0 - (dt / 2) • G y₀ t) = x.a2 - a2 by rw [ha2]; abel] at this) hth
    linarith [hLE E hE0]
  have g10 := hG.bound a2 (t + dt / 2) a2R
  set k10 := G a2 (t + dt / 2) with hk10
  set a3 := y₀ + (dt / 4) • (G y₀ t + k10) with ha3
  have a3R : ‖a3 - y₀‖ ≤ R := ball' ((smul_quarter g0 g10).trans (by linarith))
  have S1 : ‖(x.k0 + x.k10) - (G y₀ t + k10)‖ ≤ 5 / 2 * E := by
    rw [add_sub_add_comm]
    exact (norm_add_le' K0 K10).trans (by linarith)
  have K01 : ‖x.k01 - G a3 (t + dt / 2)‖ ≤ 7 / 4 * E := by
    have := eval c3 (a' := a3) (τ' := t + dt / 2) (e := dt / 4 * (5 / 2 * E))
      (ball Aa3 ((smul_quarter Ak0 Ak10).trans (by linarith))) a3R (by
        have := norm_add_le' Aa3 (diffS h4 S1)
        rwa [show x.a3 - (y₀ + (dt / 4) • (x.k0 + x.k10)) + ((dt / 4) • (x.k0 + x.k10) - (dt / 4) • (G y₀ t + k10))
          = x.a3 - a3 by rw [ha3]; abel] at this) hth
    linarith [hLE E hE0]
  have g01 := hG.bound a3 (t + dt / 2) a3R
  set k01 := G a3 (t + dt / 2) with hk01
  set a4 := a3 + (dt / 2) • k01 with ha4
  have a4R : ‖a4 - y₀‖ ≤ R := by
    have := ball' (norm_add_le' (smul_quarter g0 g10) (smul_half g01) |>.trans (by linarith))
    rwa [← add_assoc] at this
  have K11 : ‖x.k11 - G a4 (t + dt)‖ ≤ 21 / 8 * E := by
    have := eval c4 (a' := a4) (τ' := t + dt) (e := dt / 4 * (5 / 2 * E) + dt / 2 * (7 / 4 * E))
      (ball (b := (dt / 4) • (x.k0 + x.k10) + (dt / 2) • x.k01) (by rw [← add_assoc]; exact Aa4)
        ((norm_add_le' (smul_quarter Ak0 Ak10) (smul_half Ak01)).trans (by linarith))) a4R (by
        have := norm_add_le' Aa4 (norm_add_le' (diffS h4 S1) (diffS h2 K01))
        rwa [show x.a4 - (y₀ + (dt / 4) • (x.k0 + x.k10) + (dt / 2) • x.k01)
            + ((dt / 4) • (x.k0 + x.k10) - (dt / 4) • (G y₀ t + k10) + ((dt / 2) • x.k01 - (dt / 2) • k01))
          = x.a4 - a4 by rw [ha4, ha3]; abel] at this) ht1
    linarith [hLE E hE0]
  have S2 : ‖(x.k01 + x.k11) - (k01 + G a4 (t + dt))‖ ≤ 35 / 8 * E := by
    rw [add_sub_add_comm]
    exact (norm_add_le' K01 K11).trans (by linarith)
  have S0 : ‖(x.k0 + x.k1) - (G y₀ t + G (y₀ + dt • G y₀ t) (t + dt))‖ ≤ 3 * E := by
    rw [add_sub_add_comm]
    exact (norm_add_le' K0 K1).trans (by linarith)
  have hdE : 0 ≤ dt * E := mul_nonneg hdt.le hE0
  constructor
  · rw [heunTwice_eq]
    have := norm_add_le' Ady1 (norm_add_le' (diffS h4 S1) (diffS h4 S2))
    rw [show x.dy1 - ((dt / 4) • (x.k0 + x.k10) + (dt / 4) • (x.k01 + x.k11))
        + ((dt / 4) • (x.k0 + x.k10) - (dt / 4) • (G y₀ t + k10) + ((dt / 4) • (x.k01 + x.k11) - (dt / 4) • (k01 + G a4 (t + dt))))
      = x.dy1 - ((dt / 4) • (G y₀ t + k10) + (dt / 4) • (k01 + G a4 (t + dt))) by abel] at this
    rw [add_sub_add_left_eq_sub]
    exact this.trans (by linarith)
  · unfold heunOnce
    have := norm_add_le' Ady0 (diffS h2 S0)
    rw [sub_add_sub_cancel] at this
    rw [add_sub_add_left_eq_sub]
    exact this.trans (by linarith)

/-- C146: the returned value is that of two exact Heun steps of half the returned size, up to the errors of the evaluations and
of rounding. -/
theorem c146_accuracy {G : (Fin d → ℝ) → ℝ → Fin d → ℝ} (htol : 0 < obj.tolerance) (hm : 0 < obj.maxStep) (hdt : 0 < obj.dt)
    (hu : r.u ≤ 1 / 64) (hpow : PowWithin v pow) (hv : v ≤ 1 / 64) (hN : ∀ z, 0 ≤ norm z) (hV0 : 0 ≤ V) (hL0 : 0 ≤ L) (hε : 0 ≤ ε)
    (hV : RhsBounded f y₀ R V) (hG : RhsNear f G y₀ R V L ε) (n : ℕ) (y : Fin d → ℝ) (h : ℝ) (obj' : AHeun)
    (hrun : AhStepRnd r pow norm obj f t y₀ s n ((y, h, obj'), s'))
    (hR : h * V + 3 * (r.u * (‖y₀‖ + 4 * (h * V))) ≤ R) (hL : L * h ≤ 1) :
    ‖y - heunTwice G t h y₀‖ ≤ 2 * (r.u * (‖y₀‖ + 4 * (h * V))) + 2 * (h * evalError r.u L ε V t h ‖y₀‖) := by
  obtain ⟨x, realDt, dt', s'', y', hl, hy, ho⟩ := hrun
  simp only [Prod.mk.injEq] at ho
  obtain ⟨⟨rfl, rfl, -⟩, rfl⟩ := ho
  obtain ⟨⟨s₁, g1⟩, -, g3, -, -, -, -⟩ := loop_spec htol hm hu hpow hv hN hl hdt
  have hu8 : r.u ≤ 1 / 8 := by linarith
  have e1 := (increments_err hu8 g3 hV0 hL0 hε hV hG hR hL g1).1
  have e2 := (attempt_err hu8 g3 hV0 hV hR g1).dy1_size
  have := rdV_near hy e1 (norm_add_le' le_rfl e2)
  have hUY : 0 ≤ r.u * ‖y₀‖ := mul_nonneg r.u_nonneg (norm_nonneg _)
  linarith

/-- C146: a step is returned only if exact arithmetic would accept it, up to the errors of the evaluations and of rounding: one
exact Heun step of the returned size and two of half the size deviate by at most the tolerance plus these errors. -/
theorem c146_defect {G : (Fin d → ℝ) → ℝ → Fin d → ℝ} (htol : 0 < obj.tolerance) (hm : 0 < obj.maxStep) (hdt : 0 < obj.dt)
    (hu : r.u ≤ 1 / 64) (hpow : PowWithin v pow) (hv : v ≤ 1 / 64) (hc : 0 < c) (hN : NormLike c C norm) (hV0 : 0 ≤ V) (hL0 : 0 ≤ L)
    (hε : 0 ≤ ε) (hV : RhsBounded f y₀ R V) (hG : RhsNear f G y₀ R V L ε) (n : ℕ) (y : Fin d → ℝ) (h : ℝ) (obj' : AHeun)
    (hrun : AhStepRnd r pow norm obj f t y₀ s n ((y, h, obj'), s'))
    (hR : h * V + 3 * (r.u * (‖y₀‖ + 4 * (h * V))) ≤ R) (hL : L * h ≤ 1) :
    ‖heunTwice G t h y₀ - heunOnce G t h y₀‖
      ≤ (1 + r.u) * obj.tolerance / c + 14 * (r.u * (h * V)) + 4 * (h * evalError r.u L ε V t h ‖y₀‖) := by
  obtain ⟨x, realDt, dt', s'', y', hl, -, ho⟩ := hrun
  simp only [Prod.mk.injEq] at ho
  obtain ⟨⟨-, rfl, -⟩, rfl⟩ := ho
  have hN0 : ∀ z, 0 ≤ norm z := fun z => (mul_nonneg hc.le (norm_nonneg z)).trans (hN z).1
  obtain ⟨⟨s₁, g1⟩, g2, g3, -, -, -, -⟩ := loop_spec htol hm hu hpow hv hN0 hl hdt
  have hu8 : r.u ≤ 1 / 8 := by linarith
  obtain ⟨e1, e0⟩ := increments_err hu8 g3 hV0 hL0 hε hV hG hR hL g1
  have e2 := (attempt_err hu8 g3 hV0 hV hR g1).diff_err
  have e3 : ‖x.diff‖ ≤ (1 + r.u) * obj.tolerance / c := by
    rw [le_div_iff₀ hc, mul_comm]
    exact (hN x.diff).1.trans g2
  have k1 := norm_sub_le (x.diff - (x.diff - (x.dy1 - x.dy0)))
    ((y₀ + x.dy1 - heunTwice G t h y₀) - (y₀ + x.dy0 - heunOnce G t h y₀))
  rw [show x.diff - (x.diff - (x.dy1 - x.dy0)) - ((y₀ + x.dy1 - heunTwice G t h y₀) - (y₀ + x.dy0 - heunOnce G t h y₀))
    = heunTwice G t h y₀ - heunOnce G t h y₀ by abel] at k1
  have k2 := norm_sub_le x.diff (x.diff - (x.dy1 - x.dy0))
  have k3 := norm_sub_le (y₀ + x.dy1 - heunTwice G t h y₀) (y₀ + x.dy0 - heunOnce G t h y₀)
  linarith

theorem attempt_exists (r : Rounding) (f : VRhs (Fin d → ℝ) σ) (t : ℝ) (y₀ : Fin d → ℝ) (dt : ℝ) (s : σ) :
    ∃ x s', AhAttemptRnd r f t y₀ dt s x s' := by
  let hd := r.rnd (1 / 2 * dt)
  let qd := r.rnd (1 / 4 * dt)
  let t1 := r.rnd (t + dt)
  let th := r.rnd (t + hd)
  let rv : (Fin d → ℝ) → Fin d → ℝ := fun z i => r.rnd (z i)
  let e0 := f y₀ t 0 s
  let p0 := rv (dt • e0.1)
  let a1 := rv (y₀ + p0)
  let e1 := f a1 t1 1 e0.2
  let sum0 := rv (e0.1 + e1.1)
  let dy0 := rv (hd • sum0)
  let b0 := rv (hd • e0.1)
  let a2 := rv (a1 - b0)
  let e2 := f a2 th 2 e1.2
  let sum1 := rv (e0.1 + e2.1)
  let dyh := rv (qd • sum1)
  let a3 := rv (y₀ + dyh)
  let e3 := f a3 th 3 e2.2
  let p1 := rv (hd • e3.1)
  let a4 := rv (a3 + p1)
  let e4 := f a4 t1 4 e3.2
  let sum2 := rv (e3.1 + e4.1)
  let dyq := rv (qd • sum2)
  let dy1 := rv (dyh + dyq)
  let x : AhVals d := ⟨t1, hd, th, qd, e0.1, p0, a1, e1.1, sum0, dy0, b0, a2, e2.1, sum1, dyh, a3, e3.1, p1, a4, e4.1, sum2, dyq, dy1,
    rv (dy1 - dy0)⟩
  have hrv : ∀ z, r.RdV z (rv z) := fun z i => Or.inl rfl
  exact ⟨x, e4.2, ⟨Or.inl rfl, Or.inl rfl, Or.inl rfl, Or.inl rfl, ⟨e0.2, e1.2, e2.2, e3.2, rfl, rfl, rfl, rfl, rfl⟩, hrv _, hrv _,
    hrv _, hrv _, hrv _, hrv _, hrv _, hrv _, hrv _, hrv _, hrv _, hrv _, hrv _, hrv _, hrv _⟩⟩

theorem pass_exists (htol : 0 < obj.tolerance) (r : Rounding) (pow : ℝ → ℝ) (norm : (Fin d → ℝ) → ℝ) (f : VRhs (Fin d → ℝ) σ)
    (t : ℝ) (y₀ : Fin d → ℝ) (dt : ℝ) (s : σ) : ∃ x fe dt' s', AhPassRnd r pow norm obj f t y₀ dt s x fe dt' s' := by
  obtain ⟨x, s', hx⟩ := attempt_exists r f t y₀ dt s
  by_cases h0 : norm x.diff = 0
  · refine ⟨x, .inf, _, s', hx, ?_, ⟨2, r.rnd (dt * 2), rfl, Or.inl rfl, rfl⟩⟩
    rw [FeRnd, if_pos h0, Num.quot, if_pos rfl, if_neg htol.ne']
  · refine ⟨x, .fin (r.rnd (obj.tolerance / norm x.diff)), _, s', hx, ?_, ⟨_, _, ⟨_, Or.inl rfl, rfl⟩, Or.inl rfl, rfl⟩⟩
    rw [FeRnd, if_neg h0]
    exact ⟨_, Or.inl rfl, rfl⟩

/-- A step that is small enough is not rejected. -/
theorem small_accepted (htol : 0 < obj.tolerance) (hm : 0 < obj.maxStep) (hdt : 0 < dt) (hu : r.u ≤ 1 / 64)
    (hpow : PowWithin v pow) (hv : v ≤ 1 / 64) (hc : 0 ≤ c) (hN : NormLike c C norm) (hV0 : 0 ≤ V) (hC : 0 ≤ C)
    (hV : RhsBounded f y₀ R V) {H : ℝ} (hH : dt ≤ H) (hR : H * V + 3 * (r.u * (‖y₀‖ + 4 * (H * V))) ≤ R)
    (hHt : C * (4 * (H * V)) ≤ (1 - r.u) * obj.tolerance) (h : AhPassRnd r pow norm obj f t y₀ dt s x fe dt' s') :
    ¬ fe.below 1 := by
  intro hb
  have hN0 : ∀ z, 0 ≤ norm z := fun z => (mul_nonneg hc (norm_nonneg z)).trans (hN z).1
  have h1 := ((pass_decision htol hm hdt hu hpow hv (hN0 _) h).2 hb).1
  have hW : dt * V ≤ H * V := mul_le_mul_of_nonneg_right hH hV0
  have hUW := mul_le_mul_of_nonneg_left hW r.u_nonneg
  have h2 := (attempt_err (by linarith) hdt hV0 hV (by linarith) h.1).diff
  have h3 := (hN x.diff).2
  have h4 : C * ‖x.diff‖ ≤ C * (4 * (H * V)) := mul_le_mul_of_nonneg_left (by linarith) hC
  linarith

/-- C146: a step returns whatever the rounding, also with noisy evaluations, if the right-hand side is bounded close to the
initial value. -/
theorem c146_returns (htol : 0 < obj.tolerance) (hm : 0 < obj.maxStep) (hdt : 0 < obj.dt) (hu : r.u ≤ 1 / 64)
    (hpow : PowWithin v pow) (hv : v ≤ 1 / 64) (hc : 0 ≤ c) (hN : NormLike c C norm) (hV0 : 0 ≤ V) (hC : 0 ≤ C)
    (hV : RhsBounded f y₀ R V) {H : ℝ} (hH : 0 < H) (hR : H * V + 3 * (r.u * (‖y₀‖ + 4 * (H * V))) ≤ R)
    (hHt : C * (4 * (H * V)) ≤ (1 - r.u) * obj.tolerance) (t : ℝ) (s : σ) :
    ∃ n out, AhStepRnd r pow norm obj f t y₀ s n out := by
  have hN0 : ∀ z, 0 ≤ norm z := fun z => (mul_nonneg hc (norm_nonneg z)).trans (hN z).1
  have key : ∀ (k : ℕ) (dt : ℝ) (s : σ), 0 < dt → 0.95 ^ k * dt ≤ H →
      ∃ n x realDt dt' s', AhLoopRnd r pow norm obj f t y₀ dt s n x realDt dt' s' := by
    intro k
    induction k with
    | zero =>
      intro dt s h0 h1
      obtain ⟨x, fe, dt', s', hp⟩ := pass_exists htol r pow norm f t y₀ dt s
      exact ⟨0, x, dt, dt', s', .accept hp
        (small_accepted htol hm h0 hu hpow hv hc hN hV0 hC hV (by simpa using h1) hR hHt hp)⟩
    | succ k ih =>
      intro dt s h0 h1
      obtain ⟨x, fe, dt', s', hp⟩ := pass_exists htol r pow norm f t y₀ dt s
      by_cases hb : fe.below 1
      · have q1 := ((pass_decision htol hm h0 hu hpow hv (hN0 _) hp).2 hb).2
        have q2 := (nextDt_bounds hp.2.2 h0 hm).1
        obtain ⟨n, X, realDt, d2, s2, hl⟩ := ih dt' s' q2 (by
          calc (0.95 : ℝ) ^ k * dt' ≤ 0.95 ^ k * (0.95 * dt) := mul_le_mul_of_nonneg_left q1 (by positivity)
            _ = 0.95 ^ (k + 1) * dt := by ring
            _ ≤ H := h1)
        exact ⟨n + 1, X, realDt, d2, s2, .reject hp hb hl⟩
      · exact ⟨0, x, dt, dt', s', .accept hp hb⟩
  obtain ⟨k, hk⟩ := exists_pow_lt_of_lt_one (div_pos hH hdt) (by norm_num : (0.95 : ℝ) < 1)
  rw [lt_div_iff₀ hdt] at hk
  obtain ⟨n, x, realDt, dt', s', hl⟩ := key k obj.dt s hdt hk.le
  obtain ⟨y', hy⟩ := rdV_exists r (y₀ + x.dy1)
  exact ⟨n, _, x, realDt, dt', s', y', hl, hy, rfl⟩

/-- C146: the number of rejected attempts is bounded, whatever the rounding; no sequence of attempts is rejected for ever. -/
theorem c146_ends (htol : 0 < obj.tolerance) (hm : 0 < obj.maxStep) (hu : r.u ≤ 1 / 64)
    (hpow : PowWithin v pow) (hv : v ≤ 1 / 64) (hc : 0 ≤ c) (hN : NormLike c C norm) (hV0 : 0 ≤ V) (hC : 0 ≤ C)
    (hV : RhsBounded f y₀ R V) {H : ℝ} (hR : H * V + 3 * (r.u * (‖y₀‖ + 4 * (H * V))) ≤ R)
    (hHt : C * (4 * (H * V)) ≤ (1 - r.u) * obj.tolerance) (m : ℕ) (dts : ℕ → ℝ) (ss : ℕ → σ) (xs : ℕ → AhVals d) (fes : ℕ → Num)
    (h0 : dts 0 = obj.dt) (hdt : 0 < obj.dt)
    (hrej : ∀ k < m + 1, AhPassRnd r pow norm obj f t y₀ (dts k) (ss k) (xs k) (fes k) (dts (k + 1)) (ss (k + 1)) ∧ (fes k).below 1) :
    H < 0.95 ^ m * obj.dt := by
  have hN0 : ∀ z, 0 ≤ norm z := fun z => (mul_nonneg hc (norm_nonneg z)).trans (hN z).1
  have key : ∀ k ≤ m, 0 < dts k ∧ dts k ≤ 0.95 ^ k * obj.dt := by
    intro k
    induction k with
    | zero => intro _; rw [h0]; simpa using hdt
    | succ k ih =>
      intro hk
      obtain ⟨q1, q2⟩ := ih (by omega)
      obtain ⟨hp, hb⟩ := hrej k (by omega)
      refine ⟨(nextDt_bounds hp.2.2 q1 hm).1, ?_⟩
      calc dts (k + 1) ≤ 0.95 * dts k := ((pass_decision htol hm q1 hu hpow hv (hN0 _) hp).2 hb).2
        _ ≤ 0.95 * (0.95 ^ k * obj.dt) := mul_le_mul_of_nonneg_left q2 (by norm_num)
        _ = 0.95 ^ (k + 1) * obj.dt := by ring
  obtain ⟨q1, q2⟩ := key m le_rfl
  by_contra hcon
  push Not at hcon
  obtain ⟨hp, hb⟩ := hrej m (by omega)
  exact small_accepted htol hm q1 hu hpow hv hc hN hV0 hC hV (q2.trans hcon) hR hHt hp hb

/-- Case: the decay `dy/dt = -y` in double precision, with a state that counts the evaluations; a step is returned, and its value
is close to that of two exact half steps. -/
example : ∃ n y h obj' s', AhStepRnd Rounding.double (fun q => q ^ (0.33333 : ℝ)) (fun z : Fin 2 → ℝ => ‖z‖)
      ⟨1 / 1000, 1 / 10, 1 / 10⟩ (fun z _ _ (k : ℕ) => (-z, k + 1)) 0 ![1, -1 / 2] 0 n ((y, h, obj'), s') ∧ 0 < h ∧
    ‖y - heunTwice (fun z _ => -z) 0 h ![1, -1 / 2]‖ ≤ 1 / 10 ^ 14 := by
  have hu : Rounding.double.u = (2 : ℝ) ^ (-53 : ℤ) := rfl
  have hu64 : Rounding.double.u ≤ 1 / 64 := by rw [hu]; norm_num
  have hpow : PowWithin 0 (fun q : ℝ => q ^ (0.33333 : ℝ)) := fun q _ => by simp
  have hN : NormLike 1 1 (fun z : Fin 2 → ℝ => ‖z‖) := fun z => by simp
  have hy1 : ‖(![1, -1 / 2] : Fin 2 → ℝ)‖ ≤ 1 := by
    rw [pi_norm_le_iff_of_nonneg (by norm_num)]
    intro i
    fin_cases i <;> norm_num
  have hz : ∀ z : Fin 2 → ℝ, ‖z - ![1, -1 / 2]‖ ≤ 1 → ‖-z‖ ≤ 2 := by
    intro z hz
    rw [norm_neg]
    have := norm_le_of_near hz hy1
    linarith
  have hV : RhsBounded (fun (z : Fin 2 → ℝ) _ _ (k : ℕ) => (-z, k + 1)) ![1, -1 / 2] 1 2 := fun z _ _ _ h => hz z h
  have hG : RhsNear (fun (z : Fin 2 → ℝ) _ _ (k : ℕ) => (-z, k + 1)) (fun z _ => -z) ![1, -1 / 2] 1 2 1 0 := by
    refine ⟨fun z _ _ _ _ => by simp, fun z _ h => hz z h, fun z a z' b _ _ => ?_⟩
    rw [neg_sub_neg, norm_sub_rev, one_mul]
    have := abs_nonneg (a - b)
    linarith
  have hn0 := norm_nonneg (![1, -1 / 2] : Fin 2 → ℝ)
  have hsmall : ∀ h : ℝ, 0 < h → h ≤ 1 / 1000 →
      h * 2 + 3 * (Rounding.double.u * (‖(![1, -1 / 2] : Fin 2 → ℝ)‖ + 4 * (h * 2))) ≤ 1 := by
    intro h h0 h1
    have : Rounding.double.u * (‖(![1, -1 / 2] : Fin 2 → ℝ)‖ + 4 * (h * 2)) ≤ 1 / 64 * 2 :=
      mul_le_mul hu64 (by linarith) (by linarith) (by norm_num)
    linarith
  obtain ⟨n, ⟨⟨y, h, obj'⟩, s'⟩, hrun⟩ := c146_returns (obj := ⟨1 / 1000, 1 / 10, 1 / 10⟩) (by norm_num) (by norm_num) (by norm_num)
    hu64 hpow (by norm_num) zero_le_one hN zero_le_two zero_le_one hV (H := 1 / 1000) (by norm_num)
    (hsmall _ (by norm_num) le_rfl) (by rw [hu]; norm_num) 0 0
  have hst := c146_steps (by norm_num) (by norm_num) (by norm_num) hu64 hpow (by norm_num) (fun z => norm_nonneg z) n _ hrun
  have h0 : 0 < h := hst.1
  have h1 : h ≤ 1 / 1000 := by
    refine hst.2.1.trans ?_
    have : (0.95 : ℝ) ^ n ≤ 1 := pow_le_one₀ (by norm_num) (by norm_num)
    linarith
  refine ⟨n, y, h, obj', s', hrun, h0, ?_⟩
  refine (c146_accuracy (by norm_num) (by norm_num) (by norm_num) hu64 hpow (by norm_num) (fun z => norm_nonneg z) zero_le_two
    zero_le_one le_rfl hV hG n y h obj' hrun (hsmall h h0 h1) (by linarith)).trans ?_
  unfold evalError
  rw [abs_zero]
  have hup : 0 < Rounding.double.u := by rw [hu]; norm_num
  have b1 : Rounding.double.u * (‖(![1, -1 / 2] : Fin 2 → ℝ)‖ + 4 * (h * 2)) ≤ Rounding.double.u * 2 :=
    mul_le_mul_of_nonneg_left (by linarith) hup.le
  have b2 : Rounding.double.u * (0 + h) ≤ Rounding.double.u * 1 := mul_le_mul_of_nonneg_left (by linarith) hup.le
  have b3 : h * (0 + 1 * (3 * (Rounding.double.u * (‖(![1, -1 / 2] : Fin 2 → ℝ)‖ + 4 * (h * 2))) + 2 * (Rounding.double.u * (0 + h))))
      ≤ 1 * (8 * Rounding.double.u) := by
    refine mul_le_mul (by linarith) (by linarith) ?_ zero_le_one
    positivity
  have : 20 * Rounding.double.u ≤ 1 / 10 ^ 14 := by rw [hu]; norm_num
  linarith

/-- Case: an attempt that is rejected, as in `c146_ends` (`m = 0`): `dy/dt = -y` with the step 1 and the tolerance 7/6400; the
deviation is 7/64. -/
example : ∃ x fe dt', AhPassRnd Rounding.double (fun q => q ^ (0.33333 : ℝ)) (fun z : Fin 1 → ℝ => ‖z‖) ⟨1, 7 / 6400, 1⟩
      (fun z _ _ (k : ℕ) => (-z, k + 1)) 0 (fun _ => 1) 1 0 x fe dt' 5 ∧ fe.below 1 := by
  let x : AhVals 1 := ⟨1, 1 / 2, 1 / 2, 1 / 4, fun _ => -1, fun _ => -1, fun _ => 0, fun _ => 0, fun _ => -1, fun _ => -1 / 2,
    fun _ => -1 / 2, fun _ => 1 / 2, fun _ => -1 / 2, fun _ => -3 / 2, fun _ => -3 / 8, fun _ => 5 / 8, fun _ => -5 / 8,
    fun _ => -5 / 16, fun _ => 5 / 16, fun _ => -5 / 16, fun _ => -15 / 16, fun _ => -15 / 64, fun _ => -39 / 64, fun _ => -7 / 64⟩
  have hn : ‖x.diff‖ = 7 / 64 := by
    have : x.diff = fun _ => (-7 / 64 : ℝ) := rfl
    rw [this, pi_norm_const]
    norm_num
  refine ⟨x, .fin (7 / 6400 / (7 / 64)), _, ⟨?_, ?_, ⟨_, _, ⟨_, Or.inl rfl, rfl⟩, Or.inl rfl, rfl⟩⟩, by norm_num [Num.below]⟩
  · have e : ∀ a : ℝ, (-fun _ : Fin 1 => a) = fun _ => -a := fun a => rfl
    refine ⟨Or.inr ?_, Or.inr ?_, Or.inr ?_, Or.inr ?_, ⟨1, 2, 3, 4, ?_, ?_, ?_, ?_, ?_⟩, ?_, ?_, ?_, ?_, ?_, ?_, ?_, ?_, ?_, ?_, ?_, ?_,
      ?_, ?_, ?_⟩
    all_goals first
      | (intro i; right; simp only [x, Pi.add_apply, Pi.sub_apply, Pi.smul_apply, smul_eq_mul]; norm_num)
      | (simp only [x]; norm_num [e])
  · have hn' : (fun z : Fin 1 → ℝ => ‖z‖) x.diff = 7 / 64 := hn
    rw [FeRnd, hn', if_neg (by norm_num)]
    exact ⟨_, Or.inr rfl, rfl⟩

end JVMC
