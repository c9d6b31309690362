import Verif.Lemmas.Dissipate
import Verif.Props.Metric

/-!
# C142 — the time evolutions of the dissipative examples

`dissScript` is the loop of `examples/ex5` and `ex6`: record the time, measure, step with a norm that the TDVP object supplies
(`S_dot`), until the final time. `Spec.DissRun` describes such an evolution.
-/

namespace JVMC

open Spec

section

variable {M σ R : Type} [AddCommGroup M] [Module ℝ M]

/-- C142: when the script ends, `times` and the results are those of the states before each of the `N` steps, in order: entry
`k` is the accumulated time and what the measurement gave at the parameters after `k` steps. The final time is not exceeded
by any entry, and it is reached by the last step, whose parameters `psi` has at the end. -/
theorem c142_rows (g : VRhs M σ) (norm : σ → M → ℝ) (hn : NonnegAfter g norm) (meas : M → σ → R × σ) (tmax : ℝ) (obj : AHeun)
    (htol : 0 < obj.tolerance) (y : M) (s : σ) (x : DissVars M σ R) (h : dissScript g norm meas tmax obj y s = .ok x) :
    ∃ N t dt θ st, DissRun g norm meas tmax obj.tolerance obj.maxStep obj.dt y s N t dt θ st ∧
      x.times = (List.range N).map t ∧ x.res = (List.range N).map (fun k => (meas (θ k) (st k)).1) ∧
      x.t = t N ∧ x.y = θ N ∧ x.s = st N ∧ x.stepper = ⟨dt N, obj.tolerance, obj.maxStep⟩ := by
  unfold dissScript at h
  set body := dissBody g norm meas with hbody
  set x₀ : DissVars M σ R := ⟨0, y, obj, s, [], []⟩ with hx₀
  cases hl : whileLoop (dissGoesOn tmax) body (.ok x₀) with
  | none => rw [hl] at h; cases h
  | some r =>
    rw [hl] at h
    dsimp only at h
    subst h
    obtain ⟨N, hN, hc, hk⟩ := whileLoop_spec _ _ _ _ hl
    have hstate : ∀ k : ℕ, ∃ z, k ≤ N → body^[k] (.ok x₀) = .ok z := by
      intro k
      by_cases hkN : k ≤ N
      · rcases hkN.lt_or_eq with hlt | rfl
        · have := hk k hlt
          cases hb : body^[k] (.ok x₀) with
          | error e => rw [hb] at this; cases this
          | ok z => exact ⟨z, fun _ => rfl⟩
        · exact ⟨x, fun _ => hN.symm⟩
      · exact ⟨x, fun h => absurd h hkN⟩
    choose X hX using hstate
    have hX0 : X 0 = x₀ := (Except.ok.inj (hX 0 (Nat.zero_le _))).symm
    have hXN : X N = x := by
      have := hX N le_rfl
      rw [← hN] at this
      exact (Except.ok.inj this).symm
    have hpass : ∀ k < N, dissPass g norm meas (X k) = .ok (X (k + 1)) := by
      intro k hkN
      have h1 := hX (k + 1) hkN
      rw [Function.iterate_succ_apply', hX k hkN.le] at h1
      exact h1
    have hinv : ∀ k ≤ N, (X k).stepper.tolerance = obj.tolerance ∧ (X k).stepper.maxStep = obj.maxStep ∧
        (X k).times = (List.range k).map (fun k => (X k).t) ∧
        (X k).res = (List.range k).map (fun k => (meas (X k).y (X k).s).1) := by
      intro k
      induction k with
      | zero => intro _; rw [hX0]; exact ⟨rfl, rfl, rfl, rfl⟩
      | succ k ih =>
        intro hkN
        obtain ⟨i1, i2, i3, i4⟩ := ih (by omega)
        obtain ⟨e1, e2, e3, e4, -⟩ := dissPass_spec g norm hn meas _ _ (by rw [i1]; exact htol) (hpass k (by omega))
        refine ⟨e3.trans i1, e4.trans i2, ?_, ?_⟩
        · rw [e1, i3, List.range_succ, List.map_append]; rfl
        · rw [e2, i4, List.range_succ, List.map_append]; rfl
    obtain ⟨j1, j2, j3, j4⟩ := hinv N le_rfl
    refine ⟨N, fun k => (X k).t, fun k => (X k).stepper.dt, fun k => (X k).y, fun k => (X k).s,
      ⟨by rw [hX0]; exact ⟨rfl, rfl, rfl, rfl⟩, ?_, ?_, ?_⟩, by rw [← hXN]; exact j3, by rw [← hXN]; exact j4, by rw [← hXN],
      by rw [← hXN], by rw [← hXN], ?_⟩
    · intro k hkN
      obtain ⟨i1, i2, -, -⟩ := hinv k hkN.le
      obtain ⟨-, -, -, -, s₁, h1, h2, h3, h4⟩ := dissPass_spec g norm hn meas _ _ (by rw [i1]; exact htol) (hpass k hkN)
      rw [i1, i2] at h1 h4
      exact ⟨s₁, h1, h2, h3, h4⟩
    · intro k hkN
      have := hk k hkN
      rw [hX k hkN.le] at this
      simpa [dissGoesOn] using this
    · simp only [hXN]
      simpa [dissGoesOn] using hc
    · rw [← hXN]
      cases hst : (X N).stepper
      rw [hst] at j1 j2
      dsimp only at j1 j2 ⊢
      rw [hst, j1, j2]

variable {g : VRhs M σ} {norm : σ → M → ℝ} {meas : M → σ → R × σ} {tmax tol mx dt₀ : ℝ} {y₀ : M} {s₀ : σ} {N : ℕ}
  {t dt : ℕ → ℝ} {θ : ℕ → M} {st : ℕ → σ}

theorem diss_dt (h : DissRun g norm meas tmax tol mx dt₀ y₀ s₀ N t dt θ st) (hn : NonnegAfter g norm) (htol : 0 < tol)
    (hmx : 0 < mx) (hdt : 0 < dt₀) (hle : dt₀ ≤ mx) : ∀ k ≤ N, 0 < dt k ∧ dt k ≤ mx := by
  intro k
  induction k with
  | zero => intro _; rw [h.start.2.2.2]; exact ⟨hdt, hle⟩
  | succ k ih =>
    intro hkN
    obtain ⟨s₁, ha, -, -, hd⟩ := h.step k (by omega)
    rw [hd]
    exact ⟨nextDt_pos htol hmx (hn.dev _ _ _ _) (metric_pos hmx (ih (by omega)).1 ha), min_le_right _ _⟩

/-- C142: recorded times increase strictly, by at most `maxStep`; the final time is exceeded by less than that; and in every
step the two ways of computing the new parameters deviate by at most the tolerance, in the norm of the last evaluation. -/
theorem c142_times (h : DissRun g norm meas tmax tol mx dt₀ y₀ s₀ N t dt θ st) (hn : NonnegAfter g norm) (htol : 0 < tol)
    (hmx : 0 < mx) (hdt : 0 < dt₀) (hle : dt₀ ≤ mx) :
    (∀ k < N, t k < t (k + 1) ∧ t (k + 1) ≤ t k + mx) ∧ (0 < N → t N < tmax + mx) ∧
    ∀ k < N, ∃ s₁, θ (k + 1) = θ k + (heunPair g 0 (t (k + 1) - t k) (θ k) s₁).1.2 ∧
      metricDev g norm 0 (t (k + 1) - t k) (θ k) s₁ ≤ tol := by
  have h1 : ∀ k < N, t k < t (k + 1) ∧ t (k + 1) ≤ t k + mx := by
    intro k hk
    obtain ⟨s₁, ha, -⟩ := h.step k hk
    obtain ⟨d1, d2⟩ := diss_dt h hn htol hmx hdt hle k hk.le
    have := metric_pos hmx d1 ha
    rcases metric_le ha with e | e
    · exact ⟨by linarith, by linarith⟩
    · exact ⟨by linarith, by linarith⟩
  refine ⟨h1, fun hN => ?_, fun k hk => ?_⟩
  · obtain ⟨m, rfl⟩ := Nat.exists_eq_succ_of_ne_zero hN.ne'
    have := h1 m (by omega)
    have := h.before m (by omega)
    simp only [Nat.succ_eq_add_one]
    linarith
  · obtain ⟨s₁, ha, e, -⟩ := h.step k hk
    exact ⟨s₁, e, metric_dev ha⟩

end

section

variable {M σ R : Type} [NormedAddCommGroup M] [NormedSpace ℝ M]

/-- C142: the evolution ends if velocities and metric are bounded; the norm may grow quadratically, as `norm_fun` does. -/
theorem c142_returns (g : VRhs M σ) (norm : σ → M → ℝ) (hn : NonnegAfter g norm) (meas : M → σ → R × σ) (tmax : ℝ)
    (obj : AHeun) (htol : 0 < obj.tolerance) (hmx : 0 < obj.maxStep) (hdt : 0 < obj.dt) (y : M) (s : σ) {A B : ℝ}
    (hA : ∀ y t k s v, norm (g y t k s).2 v ≤ A * ‖v‖ ^ 2) (hB : ∀ y t k s, ‖(g y t k s).1‖ ≤ B) :
    ∃ x, dissScript g norm meas tmax obj y s = .ok x := by
  set D := max obj.dt obj.maxStep with hDdef
  have hD : obj.maxStep ≤ D := le_max_right _ _
  have hD0 : 0 < D := hmx.trans_le hD
  have hsn : IsSeminorm (fun y : M => ‖y‖) := ⟨norm_nonneg, norm_add_le, fun c x => (norm_smul c x).le⟩
  have hB0 : 0 ≤ B := (norm_nonneg _).trans (hB 0 0 0 s)
  set C := 2 * |A| * B ^ 2 * D + 1 with hC
  have hC0 : 0 < C := by positivity
  have hdev : DevAtMost g norm 0 D C := by
    intro d z u hd hdD
    have h1 := dev_le g (fun y : M => ‖y‖) hsn B hB 0 d hd.le z u
    have h2 : metricDev g norm 0 d z u ≤ A * heunDev g (fun y : M => ‖y‖) 0 d z u ^ 2 := by
      unfold metricDev heunDev
      generalize hv : (heunPair g 0 d z u).1.2 - (heunPair g 0 d z u).1.1 = v
      unfold heunPair
      exact hA _ _ _ _ _
    have h0 : 0 ≤ heunDev g (fun y : M => ‖y‖) 0 d z u := norm_nonneg _
    have h3 : heunDev g (fun y : M => ‖y‖) 0 d z u ^ 2 ≤ (2 * d * B) ^ 2 := pow_le_pow_left₀ h0 h1 2
    have h4 : A * heunDev g (fun y : M => ‖y‖) 0 d z u ^ 2 ≤ |A| * (2 * d * B) ^ 2 :=
      (mul_le_mul_of_nonneg_right (le_abs_self A) (by positivity)).trans (mul_le_mul_of_nonneg_left h3 (abs_nonneg A))
    have h5 : |A| * (2 * d * B) ^ 2 ≤ 2 * d * (2 * |A| * B ^ 2 * D) := by
      have : 0 ≤ 4 * |A| * B ^ 2 * d := by positivity
      nlinarith [mul_le_mul_of_nonneg_left hdD this]
    rw [hC]
    nlinarith
  set δ := min obj.dt (min obj.maxStep (obj.tolerance / (40 * C))) with hδdef
  have hδ0 : 0 < δ := lt_min hdt (lt_min hmx (by positivity))
  have hδt : δ ≤ obj.tolerance / (40 * C) := (min_le_right _ _).trans (min_le_right _ _)
  have hδm : δ ≤ obj.maxStep := (min_le_right _ _).trans (min_le_left _ _)
  have hall : ∀ k : ℕ, ∃ x : DissVars M σ R, (dissBody g norm meas)^[k] (.ok ⟨0, y, obj, s, [], []⟩) = .ok x ∧
      x.stepper.tolerance = obj.tolerance ∧ x.stepper.maxStep = obj.maxStep ∧ δ ≤ x.stepper.dt ∧ x.stepper.dt ≤ D ∧
      k * δ ≤ x.t := by
    intro k
    induction k with
    | zero => exact ⟨_, rfl, rfl, rfl, min_le_left _ _, le_max_left _ _, by simp⟩
    | succ k ih =>
      obtain ⟨x, hx, i1, i2, i3, i4, i5⟩ := ih
      obtain ⟨x', hx'⟩ := dissPass_returns g norm hn meas x (by rw [i1]; exact htol) (by rw [i2]; exact hmx)
        (hδ0.trans_le i3) hC0 hdev (by rw [i2]; exact hD) i4
      obtain ⟨-, -, e3, e4, s₁, ha, -, -, ed⟩ := dissPass_spec g norm hn meas x x' (by rw [i1]; exact htol) hx'
      rw [i1, i2] at ha ed
      have hd : δ ≤ x'.t - x.t := metric_ge hC0 hdev hD htol hδ0 hδt hδm i3 i4 ha
      have hdD : x'.t - x.t ≤ D := by
        rcases metric_le ha with e | e
        · rw [e]; exact i4
        · exact e.trans hD
      refine ⟨x', ?_, e3.trans i1, e4.trans i2, ?_, ?_, ?_⟩
      · rw [Function.iterate_succ_apply', hx]
        exact hx'
      · rw [ed]
        exact nextDt_ge hC0 hδ0 hδt hδm (hn.dev _ _ _ _) (hdev _ _ _ (hδ0.trans_le hd) hdD) (metric_dev ha) hd
      · rw [ed]
        exact (min_le_right _ _).trans hD
      · push_cast
        linarith
  obtain ⟨n, hnn⟩ := exists_nat_ge (tmax / δ)
  rw [div_le_iff₀ hδ0] at hnn
  have hend : dissGoesOn tmax ((dissBody g norm meas)^[n] (.ok ⟨0, y, obj, s, [], []⟩)) = false := by
    obtain ⟨x, hx, -, -, -, -, h5⟩ := hall n
    rw [hx]
    simp only [dissGoesOn, decide_eq_false_iff_not, not_lt]
    linarith
  obtain ⟨r, hr⟩ := whileLoop_some (dissGoesOn tmax) (dissBody g norm meas) (.ok ⟨0, y, obj, s, [], []⟩) ⟨n, hend⟩
  obtain ⟨m, hm, -, -⟩ := whileLoop_spec _ _ _ _ hr
  obtain ⟨x, hx, -⟩ := hall m
  refine ⟨x, ?_⟩
  unfold dissScript
  rw [hr]
  exact hm.trans hx

variable {g : VRhs M σ} {norm : σ → M → ℝ} {meas : M → σ → R × σ} {tmax tol mx dt₀ : ℝ} {y₀ : M} {s₀ : σ} {N : ℕ}
  {t dt : ℕ → ℝ} {θ : ℕ → M} {st : ℕ → σ} {F : M → ℝ → M} {y : ℝ → M} {b K K' L Rad ε : ℝ}

/-- C142: although every step is made at time 0, the recorded parameters follow the solution of the differential equation, with
an error of second order in `maxStep`, because the equation does not depend on the time. -/
theorem c142_solution (h : DissRun g norm meas tmax tol mx dt₀ y₀ s₀ N t dt θ st) (hn : NonnegAfter g norm) (htol : 0 < tol)
    (hmx : 0 < mx) (hdt : 0 < dt₀) (hle : dt₀ ≤ mx) (hg : ∀ y t t' k s, g y t k s = g y t' k s)
    (hy : IsSolution F y 0 b) (hK : SlowVelocity F y 0 b K) (hK' : SlowAcceleration F y 0 b K')
    (hL : LipschitzNear F y 0 b Rad L) (hf : EvaluatesNear g F y 0 b Rad ε)
    (hR : (1 + mx / 2 * L) * accumulated (L + mx / 2 * L ^ 2 / 2) (ε * (1 + mx / 2 * L / 2) + (mx / 2) ^ 2 * ((L * K + K') / 2))
      ‖y₀ - y 0‖ b + mx / 2 * (ε + K * (mx / 2)) ≤ Rad) :
    ∀ k ≤ N, t k ≤ b → ‖θ k - y (t k)‖ ≤ accumulated (L + mx / 2 * L ^ 2 / 2)
      (ε * (1 + mx / 2 * L / 2) + (mx / 2) ^ 2 * ((L * K + K') / 2)) ‖y₀ - y 0‖ (t k) := by
  have ht0 : ∀ k ≤ N, 0 ≤ t k := by
    intro k
    induction k with
    | zero => intro _; rw [h.start.1]
    | succ k ih =>
      intro hk
      have := ((c142_times h hn htol hmx hdt hle).1 k (by omega)).1
      linarith [ih (by omega)]
  intro k
  induction k with
  | zero =>
    intro _ _
    rw [h.start.1, h.start.2.1]
    simp [accumulated]
  | succ k ih =>
    intro hk hb
    obtain ⟨h1, h2⟩ := (c142_times h hn htol hmx hdt hle).1 k (by omega)
    obtain ⟨s₁, ha, e, -⟩ := h.step k (by omega)
    have hi := ih (by omega) (by linarith)
    have hauto : heunPair g 0 (t (k + 1) - t k) (θ k) s₁ = heunPair g (t k) (t (k + 1) - t k) (θ k) s₁ := by
      have hg' : ∀ y t k s, g y t k s = g y 0 k s := fun y t k s => hg y t 0 k s
      unfold heunPair
      simp only [hg' _ (t k), hg' _ (0 + _), hg' _ (t k + _)]
    have := heunPair_error (t := t k) (d := t (k + 1) - t k) (x := θ k) (s := s₁) hy hK hK' hL hf (H := mx / 2)
      (norm_nonneg (y₀ - y 0)) (ht0 k (by omega)) (by linarith) (by linarith) (by linarith) (by rw [sub_zero]; exact hR)
      (by rw [sub_zero]; exact hi)
    rw [← hauto, ← e, show t k + (t (k + 1) - t k) = t (k + 1) by ring, sub_zero] at this
    exact this

end

/-! ## The norm of the examples -/

section

variable {n : ℕ} {smp : Type}

/-- `norm_fun(v, df=tdvpEquation.S_dot)` after a call of the TDVP object. (examples/ex5_dissipative_Lindblad.py:19-20, 83) -/
noncomputable def tdvpMetric (s : SimRhs n smp) (v : Fin (n + 1) → ℝ) : ℝ :=
  match s with
  | .error _ => 0
  | .ok (_, _, at₁) => sDotNorm at₁.eqn v

/-- C142: the norm that the examples pass to the stepper is not negative when the stepper uses it. -/
theorem c142_metric (env : TdvpEnv n smp) (cfg : TdvpCfg n) (r : ℕ) (hgood : ∀ p sm t joint sm',
      env.measure p sm t = .ok (joint, sm') → (∀ rk ∈ joint, rk ≠ []) ∧ (∀ s ∈ allSamples joint, 0 ≤ s.1) ∧
        r < List.length joint) : NonnegAfter (tdvpRhs env cfg r) tdvpMetric := by
  intro y t k s v
  unfold tdvpRhs
  split
  · exact le_rfl
  · rename_i psi sm at₀
    split
    · exact le_rfl
    · exact le_rfl
    · rename_i u at₁ sm' psi' heq
      cases psi with
      | none => cases heq
      | some st =>
        obtain ⟨p, joint, -, -, -, -, -, hp, hm, -⟩ := tdvpCall_ok env cfg r _ _ _ _ _ _ _ st _ _ heq
        obtain ⟨g1, g2, g3⟩ := hgood _ _ _ _ _ hm
        obtain ⟨c1, c2⟩ := c115_call heq hp hm g1 g2 g3 v
        simp only [tdvpMetric, sDotNorm, c1]
        exact c2

end

/-! ## Case -/

/-- A relaxation towards 0, with bounded velocity; the norm is the square times what the last evaluation has stored. -/
noncomputable def demoRelax : VRhs ℝ ℕ := fun y _ _ s => (-y / (1 + y ^ 2), s + 1)

theorem demoRelax_nonneg : NonnegAfter demoRelax (fun s v => (1 / (s + 1)) * v ^ 2) := by
  intro y t k s v
  positivity

/-- Case: the evolution to time 5 ends and its rows are as stated. -/
example : ∃ x : DissVars ℝ ℕ ℝ, dissScript demoRelax (fun s v => (1 / (s + 1)) * v ^ 2) (fun y s => (y ^ 2, s + 7)) 5
      ⟨1 / 1000, 1 / 10000, 1⟩ 1 0 = .ok x ∧
    ∃ N t dt θ st, 0 < N ∧ DissRun demoRelax (fun s v => (1 / (s + 1)) * v ^ 2) (fun y s => (y ^ 2, s + 7)) 5 (1 / 10000) 1 (1 / 1000) 1 0
      N t dt θ st ∧ x.times = (List.range N).map t ∧ x.res = (List.range N).map fun k => θ k ^ 2 := by
  obtain ⟨x, hx⟩ := c142_returns demoRelax (fun s v => (1 / (s + 1)) * v ^ 2) demoRelax_nonneg (fun y s => (y ^ 2, s + 7)) 5
    ⟨1 / 1000, 1 / 10000, 1⟩ (by norm_num) (by norm_num) (by norm_num) 1 0 (A := 1) (B := 1) (by
      intro y t k s v
      rw [Real.norm_eq_abs, sq_abs]
      refine mul_le_mul_of_nonneg_right ?_ (by positivity)
      rw [div_le_one (by positivity)]
      have : (0 : ℝ) ≤ ((demoRelax y t k s).2 : ℝ) := Nat.cast_nonneg _
      linarith) (by
      intro y t k s
      rw [Real.norm_eq_abs]
      simp only [demoRelax]
      rw [abs_div, abs_neg, abs_of_pos (show (0 : ℝ) < 1 + y ^ 2 by positivity), div_le_one (by positivity)]
      have := sq_nonneg (|y| - 1)
      have e := sq_abs y
      nlinarith [abs_nonneg y])
  obtain ⟨N, t, dt, θ, st, h, h1, h2, -⟩ := c142_rows _ _ demoRelax_nonneg _ _ _ (by norm_num) _ _ x hx
  refine ⟨x, hx, N, t, dt, θ, st, ?_, h, h1, h2⟩
  rcases Nat.eq_zero_or_pos N with rfl | hN
  · have := h.reached
    rw [h.start.1] at this
    norm_num at this
  · exact hN

/-- Case: motion with a constant velocity. The recorded values are those of the exact solution. -/
example (N : ℕ) (t dt θ : ℕ → ℝ) (st : ℕ → ℕ)
    (h : DissRun (fun _ _ _ s => ((-1 : ℝ), s + 1)) (fun _ v => v ^ 2) (fun (y : ℝ) s => (y, s)) 5 (1 / 10000) 1 (1 / 1000) 3 0 N t dt θ st) :
    ∀ k ≤ N, θ k = 3 - t k := by
  have hn : NonnegAfter (M := ℝ) (σ := ℕ) (fun _ _ _ s => ((-1 : ℝ), s + 1)) (fun _ v => v ^ 2) :=
    fun y t k s v => sq_nonneg v
  intro k hk
  have hs : ∀ b : ℝ, IsSolution (fun (_ : ℝ) (_ : ℝ) => (-1 : ℝ)) (fun τ => 3 - τ) 0 b := by
    intro b τ _
    exact ((hasDerivAt_id τ).const_sub 3).hasDerivWithinAt
  have := c142_solution h hn (by norm_num) (by norm_num) (by norm_num) (by norm_num) (fun _ _ _ _ _ => rfl) (hs (t k)) (K := 0)
    (K' := 0) (L := 0) (Rad := 0) (ε := 0) ⟨le_rfl, fun _ _ _ _ => by simp⟩
    ⟨le_rfl, fun _ => 0, fun τ _ => hasDerivWithinAt_const τ _ _, fun _ _ _ _ => by simp⟩
    ⟨le_rfl, fun _ _ _ _ _ _ => by simp⟩ ⟨le_rfl, fun _ _ _ _ _ _ => by simp⟩ (by simp [accumulated]) k hk le_rfl
  simp only [accumulated, sub_zero, sub_self, norm_zero] at this
  have h2 : ‖θ k - (3 - t k)‖ ≤ 0 := by simpa using this
  exact sub_eq_zero.mp (norm_le_zero_iff.mp h2)

/-- Case: two ranks with one sample each. -/
example : NonnegAfter (tdvpRhs (n := 1) (smp := ℕ) ⟨fun _ s _ => .ok ([[[(1 / 2, fun _ => (s : ℂ), ![1, 2])]],
    [[(1 / 2, fun _ => 3, ![0, Complex.I])]]], s + 1)⟩ demoCfg 1) tdvpMetric :=
  c142_metric _ _ _ (by
    rintro p sm t joint sm' h
    cases h
    refine ⟨by simp, ?_, by simp⟩
    simp [allSamples])

end JVMC
