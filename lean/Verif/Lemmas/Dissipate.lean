import Verif.Model.Dissipate
import Verif.Spec.Dissipate
import Verif.Props.Convergence

/-!
# Lemmas on time evolutions with a changing metric
-/

namespace JVMC

open Spec

section

variable {M σ R : Type} [AddCommGroup M] [Module ℝ M]

theorem metricBody_eq (obj : AHeun) (g : VRhs M σ) (norm : σ → M → ℝ) (t : ℝ) (y : M) (fe : Num) (dt : ℝ)
    (out : Option (M × ℝ)) (s : σ) :
    metricBody obj g norm t y ⟨fe, some dt, out, s⟩ =
      ⟨Num.quot obj.tolerance (metricDev g norm t dt y s),
        (ahFactor (Num.quot obj.tolerance (metricDev g norm t dt y s))).map fun c => min (dt * c) obj.maxStep,
        some ((heunPair g t dt y s).1.2, dt), (heunPair g t dt y s).2⟩ := by
  have e1 : (1 / 2 : ℝ) * dt = dt / 2 := by ring
  have e2 : (1 / 4 : ℝ) * dt = dt / 4 := by ring
  have e3 : ∀ k : M, y + dt • k - (dt / 2) • k = y + (dt / 2) • k := fun k => by module
  have e4 : (fun c : ℝ => if dt * c > obj.maxStep then obj.maxStep else dt * c) = fun c => min (dt * c) obj.maxStep := by
    funext c
    split_ifs with hc
    · rw [min_eq_right hc.le]
    · rw [min_eq_left (not_lt.mp hc)]
  simp only [metricBody, metricDev, heunPair, e1, e2, e3, e4]

/-- After every evaluation of the right-hand side, the norm that uses it is not negative. -/
def NonnegAfter (g : VRhs M σ) (norm : σ → M → ℝ) : Prop := ∀ y t k s v, 0 ≤ norm (g y t k s).2 v

theorem NonnegAfter.dev {g : VRhs M σ} {norm : σ → M → ℝ} (hn : NonnegAfter g norm) (t dt : ℝ) (y : M) (s : σ) :
    0 ≤ metricDev g norm t dt y s := by
  unfold metricDev heunPair
  exact hn _ _ _ _ _

theorem metric_accept {obj : AHeun} {dev : ℝ} (hdev : 0 ≤ dev) (hacc : dev ≤ obj.tolerance) :
    (Num.quot obj.tolerance dev).below 1 = false := by
  unfold Num.quot
  split_ifs with h1 h2
  · rfl
  · rfl
  · simp only [Num.below, decide_eq_false_iff_not, not_lt]
    rw [le_div_iff₀ (lt_of_le_of_ne hdev (Ne.symm h1)), one_mul]
    exact hacc

/-- What the loop does from a given time step on. -/
theorem metricLoop_spec (obj : AHeun) (htol : 0 < obj.tolerance) (g : VRhs M σ) (norm : σ → M → ℝ)
    (hn : NonnegAfter g norm) (t : ℝ) (y : M) (n : ℕ) :
    ∀ (fe : Num) (dt : ℝ) (out : Option (M × ℝ)) (s : σ), fe.below 1 = true →
      ∀ S : StepVars M σ, S = (metricBody obj g norm t y)^[n] ⟨fe, some dt, out, s⟩ →
      (∀ k < n, ((metricBody obj g norm t y)^[k] ⟨fe, some dt, out, s⟩).fe.below 1 = true) →
      S.fe.below 1 = false →
      ∃ dt' s', MetricAttempts g norm obj.tolerance obj.maxStep t y dt s dt' s' ∧
        S.out = some ((heunPair g t dt' y s').1.2, dt') ∧
        S.dt = some (nextDt obj.tolerance obj.maxStep (metricDev g norm t dt' y s') dt') ∧
        S.s = (heunPair g t dt' y s').2 := by
  induction n with
  | zero =>
    intro fe dt out s hfe S hS _ hSf
    rw [hS] at hSf
    exact absurd hfe (by simpa using hSf)
  | succ n ih =>
    intro fe dt out s hfe S hS hk hSf
    have e := metricBody_eq obj g norm t y fe dt out s
    rw [Function.iterate_succ_apply, e] at hS
    have hdev : 0 ≤ metricDev g norm t dt y s := hn.dev _ _ _ _
    generalize hd : metricDev g norm t dt y s = dev at *
    by_cases hacc : dev ≤ obj.tolerance
    · have hquot := metric_accept (obj := obj) hdev hacc
      have hn0 : n = 0 := by
        by_contra hne
        have := hk 1 (by omega)
        rw [Function.iterate_one, e] at this
        dsimp only at this
        rw [hquot] at this
        cases this
      subst hn0
      rw [Function.iterate_zero, id] at hS
      refine ⟨dt, s, .accept dt s (by rw [hd]; exact hacc), by rw [hS], ?_, by rw [hS]⟩
      rw [hS]
      dsimp only
      unfold nextDt
      rw [hd]
      unfold Num.quot
      by_cases h0 : dev = 0
      · rw [if_pos h0, if_neg htol.ne', if_pos h0]
        rfl
      · have : 1 ≤ obj.tolerance / dev := by
          rw [le_div_iff₀ (lt_of_le_of_ne hdev (Ne.symm h0)), one_mul]
          exact hacc
        rw [if_neg h0, if_neg h0, (factor_accept _ this).1]
        rfl
    · rw [not_le] at hacc
      have h0 : dev ≠ 0 := fun h => by rw [h] at hacc; exact absurd hacc (not_lt.mpr htol.le)
      have hlt : obj.tolerance / dev < 1 := by
        rw [div_lt_one (htol.trans hacc)]
        exact hacc
      have hquot : Num.quot obj.tolerance dev = .fin (obj.tolerance / dev) := by
        unfold Num.quot
        rw [if_neg h0]
      rw [hquot, (factor_reject _ (div_nonneg htol.le hdev) hlt).1] at hS e
      obtain ⟨dt', s', ha, ho, hdt, hw⟩ := ih _ _ _ _
        (by simp only [Num.below, decide_eq_true_eq]; exact hlt) S hS (fun k hkn => by
          have := hk (k + 1) (by omega)
          rw [Function.iterate_succ_apply, e] at this
          exact this) hSf
      exact ⟨dt', s', .reject dt s dt' s' (by rw [hd]; exact hacc) (by rw [hd]; exact ha), ho, hdt, hw⟩

theorem metricStep_spec (obj : AHeun) (htol : 0 < obj.tolerance) (g : VRhs M σ) (norm : σ → M → ℝ)
    (hn : NonnegAfter g norm) (t : ℝ) (y : M) (s : σ) (y' : M) (d : ℝ) (obj' : Flt AHeun) (s' : σ)
    (h : metricStep obj t g y norm s = .ok ((y', d, obj'), s')) :
    ∃ s₁, MetricAttempts g norm obj.tolerance obj.maxStep t y obj.dt s d s₁ ∧
      y' = y + (heunPair g t d y s₁).1.2 ∧ s' = (heunPair g t d y s₁).2 ∧
      obj' = some ⟨nextDt obj.tolerance obj.maxStep (metricDev g norm t d y s₁) d, obj.tolerance, obj.maxStep⟩ := by
  unfold metricStep at h
  cases hl : whileLoop (fun x : StepVars M σ => x.fe.below 1) (metricBody obj g norm t y) ⟨.fin 0.5, some obj.dt, none, s⟩ with
  | none => rw [hl] at h; cases h
  | some S =>
    rw [hl] at h
    obtain ⟨n, hS, hc, hk⟩ := whileLoop_spec _ _ _ _ hl
    obtain ⟨d₁, s₁, ha, ho, hdt, hw⟩ := metricLoop_spec obj htol g norm hn t y n (.fin 0.5) obj.dt none s
      (by simp only [Num.below, decide_eq_true_eq]; norm_num) S hS hk hc
    dsimp only at h
    rw [ho, hdt, hw] at h
    simp only [Except.ok.injEq, Prod.mk.injEq, Option.map_some] at h
    obtain ⟨⟨rfl, rfl, rfl⟩, rfl⟩ := h
    exact ⟨s₁, ha, rfl, rfl, rfl⟩

theorem metric_pos {g : VRhs M σ} {norm : σ → M → ℝ} {tol mx t : ℝ} {x : M} {dt dt' : ℝ} {s s' : σ} (hmx : 0 < mx)
    (hdt : 0 < dt) (h : MetricAttempts g norm tol mx t x dt s dt' s') : 0 < dt' := by
  induction h with
  | accept _ _ _ => exact hdt
  | reject dt s _ _ _ _ ih =>
    apply ih
    apply lt_min _ hmx
    apply mul_pos hdt
    exact lt_of_lt_of_le (by norm_num) (le_max_left _ _)

theorem metric_le {g : VRhs M σ} {norm : σ → M → ℝ} {tol mx t : ℝ} {x : M} {dt dt' : ℝ} {s s' : σ}
    (h : MetricAttempts g norm tol mx t x dt s dt' s') : dt' = dt ∨ dt' ≤ mx := by
  induction h with
  | accept _ _ h => exact .inl rfl
  | reject _ _ _ _ _ _ ih =>
    rcases ih with rfl | h
    · exact .inr (min_le_right _ _)
    · exact .inr h

theorem metric_dev {g : VRhs M σ} {norm : σ → M → ℝ} {tol mx t : ℝ} {x : M} {dt dt' : ℝ} {s s' : σ}
    (h : MetricAttempts g norm tol mx t x dt s dt' s') : metricDev g norm t dt' x s' ≤ tol := by
  induction h with
  | accept _ _ h => exact h
  | reject _ _ _ _ _ _ ih => exact ih

/-- The deviations of attempts with time steps up to `D` are at most proportional to the time step. -/
def DevAtMost (g : VRhs M σ) (norm : σ → M → ℝ) (t D B : ℝ) : Prop :=
  ∀ dt y s, 0 < dt → dt ≤ D → metricDev g norm t dt y s ≤ 2 * dt * B

theorem metric_ge {g : VRhs M σ} {norm : σ → M → ℝ} {t D B tol mx δ : ℝ} (hB0 : 0 < B) (hB : DevAtMost g norm t D B)
    (hD : mx ≤ D) (htol : 0 < tol) (hδ0 : 0 < δ) (hδ : δ ≤ tol / (40 * B)) (hδm : δ ≤ mx) {x : M} {dt dt' : ℝ} {s s' : σ}
    (hdt : δ ≤ dt) (hdD : dt ≤ D) (h : MetricAttempts g norm tol mx t x dt s dt' s') : δ ≤ dt' := by
  induction h with
  | accept _ _ _ => exact hdt
  | reject dt s _ _ hrej _ ih =>
    refine ih ?_ ((min_le_right _ _).trans hD)
    have h1 := hB dt x s (hδ0.trans_le hdt) hdD
    have h2 : tol < 2 * dt * B := hrej.trans_le h1
    rw [le_div_iff₀ (by positivity)] at hδ
    refine le_trans ?_ (c49_rejected tol mx _ dt htol hrej (hδ0.trans_le hdt)).2
    refine le_min ?_ hδm
    have h4 : (dt / 5 - δ) * B > 0 := by nlinarith
    have := (mul_pos_iff_of_pos_right hB0).mp h4
    linarith

/-- The loop ends. -/
theorem metricLoop_ends (obj : AHeun) (htol : 0 < obj.tolerance) (hmax : 0 < obj.maxStep) (g : VRhs M σ) (norm : σ → M → ℝ)
    (hn : NonnegAfter g norm) {t D B : ℝ} (hB0 : 0 < B) (hB : DevAtMost g norm t D B) (hD : obj.maxStep ≤ D) (y : M) (N : ℕ) :
    ∀ (fe : Num) (dt : ℝ) (out : Option (M × ℝ)) (s : σ), 0 < dt → dt ≤ D → 2 * ((0.9 : ℝ) ^ N * dt) * B ≤ obj.tolerance →
      ∃ n, (((metricBody obj g norm t y)^[n] ⟨fe, some dt, out, s⟩).fe.below 1) = false := by
  induction N with
  | zero =>
    intro fe dt out s hdt hdD hle
    refine ⟨1, ?_⟩
    rw [Function.iterate_one, metricBody_eq]
    exact metric_accept (hn.dev _ _ _ _) ((hB dt y s hdt hdD).trans (by simpa using hle))
  | succ N ih =>
    intro fe dt out s hdt hdD hle
    by_cases hacc : metricDev g norm t dt y s ≤ obj.tolerance
    · refine ⟨1, ?_⟩
      rw [Function.iterate_one, metricBody_eq]
      exact metric_accept (hn.dev _ _ _ _) hacc
    · rw [not_le] at hacc
      have e := metricBody_eq obj g norm t y fe dt out s
      have hdev : 0 < metricDev g norm t dt y s := htol.trans hacc
      generalize metricDev g norm t dt y s = dev at *
      have hquot : Num.quot obj.tolerance dev = .fin (obj.tolerance / dev) := by
        unfold Num.quot
        rw [if_neg hdev.ne']
      have hlt : obj.tolerance / dev < 1 := by rw [div_lt_one hdev]; exact hacc
      rw [hquot, (factor_reject _ (div_nonneg htol.le hdev.le) hlt).1] at e
      obtain ⟨c1, c2⟩ := c49_rejected obj.tolerance obj.maxStep dev dt htol hacc hdt
      have hpos : 0 < min (dt * max 0.2 (0.9 * (obj.tolerance / dev) ^ (0.33333 : ℝ))) obj.maxStep :=
        lt_of_lt_of_le (lt_min (by positivity) hmax) c2
      obtain ⟨n, hn'⟩ := ih (.fin (obj.tolerance / dev)) _ (some ((heunPair g t dt y s).1.2, dt))
        (heunPair g t dt y s).2 hpos ((min_le_right _ _).trans hD) (by
          refine le_trans ?_ hle
          have hp : (0 : ℝ) ≤ 0.9 ^ N := by positivity
          rw [pow_succ]
          apply mul_le_mul_of_nonneg_right _ hB0.le
          nlinarith [mul_le_mul_of_nonneg_left c1.le hp])
      refine ⟨n + 1, ?_⟩
      rw [Function.iterate_succ_apply, e]
      exact hn'

theorem metricStep_returns (obj : AHeun) (htol : 0 < obj.tolerance) (hmax : 0 < obj.maxStep) (hdt : 0 < obj.dt) (g : VRhs M σ)
    (norm : σ → M → ℝ) (hn : NonnegAfter g norm) {t D B : ℝ} (hB0 : 0 < B) (hB : DevAtMost g norm t D B)
    (hD : obj.maxStep ≤ D) (hdD : obj.dt ≤ D) (y : M) (s : σ) : ∃ r, metricStep obj t g y norm s = .ok r := by
  obtain ⟨N, hN⟩ : ∃ N : ℕ, 2 * ((0.9 : ℝ) ^ N * obj.dt) * B ≤ obj.tolerance := by
    obtain ⟨N, hN⟩ := exists_pow_lt_of_lt_one (show 0 < obj.tolerance / (2 * obj.dt * B) by positivity)
      (show (0.9 : ℝ) < 1 by norm_num)
    rw [lt_div_iff₀ (by positivity)] at hN
    exact ⟨N, by nlinarith⟩
  obtain ⟨n, hn'⟩ := metricLoop_ends obj htol hmax g norm hn hB0 hB hD y N (.fin 0.5) obj.dt none s hdt hdD hN
  obtain ⟨S, hS⟩ := whileLoop_some (fun x : StepVars M σ => x.fe.below 1) (metricBody obj g norm t y)
    ⟨.fin 0.5, some obj.dt, none, s⟩ ⟨n, hn'⟩
  obtain ⟨m, hSm, hc, hk⟩ := whileLoop_spec _ _ _ _ hS
  obtain ⟨d, s₁, _, ho, _⟩ := metricLoop_spec obj htol g norm hn t y m (.fin 0.5) obj.dt none s
      (by simp only [Num.below, decide_eq_true_eq]; norm_num) S hSm hk hc
  unfold metricStep
  rw [hS]
  dsimp only
  rw [ho]
  exact ⟨_, rfl⟩

/-- One pass. -/
theorem dissPass_spec (g : VRhs M σ) (norm : σ → M → ℝ) (hn : NonnegAfter g norm) (meas : M → σ → R × σ)
    (x x' : DissVars M σ R) (htol : 0 < x.stepper.tolerance) (h : dissPass g norm meas x = .ok x') :
    x'.times = x.times ++ [x.t] ∧ x'.res = x.res ++ [(meas x.y x.s).1] ∧
    x'.stepper.tolerance = x.stepper.tolerance ∧ x'.stepper.maxStep = x.stepper.maxStep ∧
    ∃ s₁, MetricAttempts g norm x.stepper.tolerance x.stepper.maxStep 0 x.y x.stepper.dt (meas x.y x.s).2 (x'.t - x.t) s₁ ∧
      x'.y = x.y + (heunPair g 0 (x'.t - x.t) x.y s₁).1.2 ∧ x'.s = (heunPair g 0 (x'.t - x.t) x.y s₁).2 ∧
      x'.stepper.dt = nextDt x.stepper.tolerance x.stepper.maxStep (metricDev g norm 0 (x'.t - x.t) x.y s₁) (x'.t - x.t) := by
  unfold dissPass at h
  dsimp only at h
  split at h
  · cases h
  · cases h
  · rename_i dp d obj s heq
    obtain ⟨s₁, ha, e1, e2, e3⟩ := metricStep_spec _ htol g norm hn 0 x.y _ _ _ _ _ heq
    simp only [Option.some.injEq] at e3
    cases h
    have ed : x.t + d - x.t = d := by ring
    dsimp only
    rw [ed]
    exact ⟨rfl, rfl, by rw [e3], by rw [e3], s₁, ha, e1, e2, by rw [e3]⟩

theorem dissPass_returns (g : VRhs M σ) (norm : σ → M → ℝ) (hn : NonnegAfter g norm) (meas : M → σ → R × σ)
    (x : DissVars M σ R) (htol : 0 < x.stepper.tolerance) (hmax : 0 < x.stepper.maxStep) (hdt : 0 < x.stepper.dt)
    {D B : ℝ} (hB0 : 0 < B) (hB : DevAtMost g norm 0 D B) (hD : x.stepper.maxStep ≤ D) (hdD : x.stepper.dt ≤ D) :
    ∃ x', dissPass g norm meas x = .ok x' := by
  obtain ⟨⟨⟨dp, d, o⟩, s⟩, hr⟩ := metricStep_returns x.stepper htol hmax hdt g norm hn hB0 hB hD hdD x.y (meas x.y x.s).2
  obtain ⟨s₁, -, -, -, e3⟩ := metricStep_spec _ htol g norm hn 0 x.y _ _ _ _ _ hr
  unfold dissPass
  dsimp only
  rw [hr, e3]
  exact ⟨_, rfl⟩

end

end JVMC
