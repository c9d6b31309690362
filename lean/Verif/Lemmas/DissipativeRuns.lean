import Mathlib.Analysis.Calculus.MeanValue
import Verif.Lemmas.NearBorn
import Verif.Props.MasterTdvp
import Verif.Spec.DissipativeRuns

/-!
# Growth of distances between distributions
-/

namespace JVMC

open Spec Matrix Set Filter Topology

variable {n : ℕ} {C : Type} [Fintype C] [DecidableEq C] {A : Matrix C C ℝ} {K : ℝ}

/-- A small explicit step of the rate equation. -/
theorem l1_step (hK : GrowthAtMost A K) {τ : ℝ} (hτ : 0 ≤ τ) (h1 : ∀ s, 0 ≤ 1 + τ * A s s) (e : C → ℝ) :
    ∑ s, |e s + τ * (A *ᵥ e) s| ≤ (1 + τ * K) * ∑ s, |e s| := by
  have hcol : ∀ s', ∑ s, |(if s = s' then 1 else 0) + τ * A s s'| ≤ 1 + τ * K := by
    intro s'
    rw [← Finset.add_sum_erase _ _ (Finset.mem_univ s'), if_pos rfl, abs_of_nonneg (h1 s')]
    have : ∑ s ∈ Finset.univ.erase s', |(if s = s' then (1 : ℝ) else 0) + τ * A s s'|
        = τ * ∑ s ∈ Finset.univ.erase s', |A s s'| := by
      rw [Finset.mul_sum]
      refine Finset.sum_congr rfl fun s hs => ?_
      rw [if_neg (Finset.ne_of_mem_erase hs), zero_add, abs_mul, abs_of_nonneg hτ]
    rw [this]
    nlinarith [mul_le_mul_of_nonneg_left (hK s') hτ]
  have hrow : ∀ s, e s + τ * (A *ᵥ e) s = ∑ s', ((if s = s' then 1 else 0) + τ * A s s') * e s' := by
    intro s
    simp only [add_mul, Finset.sum_add_distrib, ite_mul, one_mul, zero_mul, Finset.sum_ite_eq,
      Finset.mem_univ, if_true]
    rw [Matrix.mulVec, dotProduct, Finset.mul_sum]
    congr 1
    exact Finset.sum_congr rfl fun s' _ => by ring
  calc ∑ s, |e s + τ * (A *ᵥ e) s|
      ≤ ∑ s, ∑ s', |(if s = s' then 1 else 0) + τ * A s s'| * |e s'| := by
        refine Finset.sum_le_sum fun s _ => ?_
        rw [hrow s]
        refine (Finset.abs_sum_le_sum_abs _ _).trans (le_of_eq ?_)
        exact Finset.sum_congr rfl fun s' _ => abs_mul _ _
    _ = ∑ s', (∑ s, |(if s = s' then 1 else 0) + τ * A s s'|) * |e s'| := by
        rw [Finset.sum_comm]
        exact Finset.sum_congr rfl fun s' _ => by rw [Finset.sum_mul]
    _ ≤ _ := by
        rw [Finset.mul_sum]
        exact Finset.sum_le_sum fun s' _ => mul_le_mul_of_nonneg_right (hcol s') (abs_nonneg _)

/-- Errors that enter at the rate `b` and grow at most at the rate `K`. -/
theorem l1_growth (hK : GrowthAtMost A K) (hK0 : 0 ≤ K) {T : ℝ} (hT : 0 ≤ T) {e e' : ℝ → C → ℝ}
    (he : ∀ t ∈ Icc 0 T, ∀ s, HasDerivWithinAt (fun τ => e τ s) (e' t s) (Icc 0 T) t)
    {b B : ℝ → ℝ} (hb : ∀ t ∈ Icc 0 T, ∑ s, |e' t s - (A *ᵥ e t) s| ≤ b t)
    (hB : ∀ t ∈ Icc 0 T, HasDerivWithinAt B (b t) (Icc 0 T) t) :
    ∑ s, |e T s| ≤ Real.exp (K * T) * (∑ s, |e 0 s| + (B T - B 0)) := by
  have hb0 : ∀ t ∈ Icc 0 T, 0 ≤ b t := fun t ht =>
    (Finset.sum_nonneg fun _ _ => abs_nonneg _).trans (hb t ht)
  have hder : ∀ t ∈ Icc 0 T, HasDerivWithinAt (fun τ => toL1 (e τ)) (toL1 (e' t)) (Icc 0 T) t :=
    fun t ht => toL1_deriv (he t ht)
  have key : ∀ η > 0, ∑ s, |e T s| ≤ Real.exp (K * T) * (∑ s, |e 0 s| + (B T - B 0) + η * T) := by
    intro η hη
    have := image_le_of_liminf_slope_right_lt_deriv_boundary' (a := 0) (b := T)
      (f := fun t => ∑ s, |e t s|) (f' := fun t => K * ∑ s, |e t s| + b t)
      (B := fun t => Real.exp (K * t) * (∑ s, |e 0 s| + (B t - B 0) + η * t))
      (B' := fun t => Real.exp (K * t) * K * (∑ s, |e 0 s| + (B t - B 0) + η * t)
        + Real.exp (K * t) * (b t + η)) ?_ ?_ ?_ ?_ ?_ ?_ (right_mem_Icc.mpr hT)
    · exact this
    · refine continuousOn_finsetSum _ fun s _ => ContinuousOn.abs fun t ht => ?_
      exact (he t ht s).continuousWithinAt
    · intro t ht r hr
      have ht' := Ico_subset_Icc_self ht
      apply Eventually.frequently
      have hd : HasDerivWithinAt (fun τ => toL1 (e τ)) (toL1 (e' t)) (Ici t) t :=
        (hder t ht').mono_of_mem_nhdsWithin (Icc_mem_nhdsGE_of_mem ht)
      have hd' : HasDerivWithinAt (fun τ => toL1 (e τ)) (toL1 (e' t)) (Ioi t) t := hd.mono Ioi_subset_Ici_self
      obtain ⟨c, hc⟩ : ∃ c, c = (r - (K * ∑ s, |e t s| + b t)) / 2 := ⟨_, rfl⟩
      have hc0 : 0 < c := by rw [hc]; linarith
      have ho := (hasDerivWithinAt_iff_isLittleO.mp hd').def hc0
      have hsmall : ∀ᶠ z in 𝓝[>] t, ∀ s, 0 ≤ 1 + (z - t) * A s s := by
        rw [eventually_all]
        intro s
        have hcont : Tendsto (fun z => 1 + (z - t) * A s s) (𝓝[>] t) (𝓝 (1 + (t - t) * A s s)) := by
          refine Tendsto.mono_left ?_ nhdsWithin_le_nhds
          exact (Continuous.tendsto (by fun_prop) t)
        rw [sub_self, zero_mul, add_zero] at hcont
        exact (hcont.eventually (lt_mem_nhds one_pos)).mono fun _ h => le_of_lt h
      filter_upwards [ho, hsmall, self_mem_nhdsWithin] with z hz hs hzt
      have hzt' : 0 < z - t := sub_pos.mpr hzt
      rw [slope_def_field, div_lt_iff₀ hzt']
      rw [Real.norm_of_nonneg hzt'.le] at hz
      have h1 : toL1 (e z) - toL1 (e t) - (z - t) • toL1 (e' t)
          = toL1 (fun s => e z s - e t s - (z - t) * e' t s) := by
        ext s
        simp [toL1]
      rw [h1, toL1_norm] at hz
      have h2 := l1_step hK hzt'.le hs (e t)
      have h3 : ∀ s, |e z s| ≤ |e z s - e t s - (z - t) * e' t s| + |e t s + (z - t) * (A *ᵥ e t) s|
          + (z - t) * |e' t s - (A *ᵥ e t) s| := by
        intro s
        have : e z s = (e z s - e t s - (z - t) * e' t s) + (e t s + (z - t) * (A *ᵥ e t) s)
          + (z - t) * (e' t s - (A *ᵥ e t) s) := by ring
        calc |e z s| = |(e z s - e t s - (z - t) * e' t s) + (e t s + (z - t) * (A *ᵥ e t) s)
          + (z - t) * (e' t s - (A *ᵥ e t) s)| := by rw [← this]
          _ ≤ _ := by
            refine (abs_add_le _ _).trans (add_le_add (abs_add_le _ _) ?_)
            rw [abs_mul, abs_of_nonneg hzt'.le]
      have h4 := Finset.sum_le_sum fun s (_ : s ∈ Finset.univ) => h3 s
      rw [Finset.sum_add_distrib, Finset.sum_add_distrib, ← Finset.mul_sum] at h4
      have h5 := mul_le_mul_of_nonneg_left (hb t ht') hzt'.le
      have h6 : c * (z - t) = (r - (K * ∑ s, |e t s| + b t)) / 2 * (z - t) := by rw [hc]
      have h7 : 0 < (r - (K * ∑ s, |e t s| + b t)) / 2 * (z - t) := by rw [← h6]; positivity
      nlinarith
    · simp
    · refine ContinuousOn.mul (by fun_prop) (ContinuousOn.add (ContinuousOn.add continuousOn_const
        (ContinuousOn.sub (fun t ht => (hB t ht).continuousWithinAt) continuousOn_const)) (by fun_prop))
    · intro t ht
      have ht' := Ico_subset_Icc_self ht
      have hBt : HasDerivWithinAt B (b t) (Ici t) t :=
        (hB t ht').mono_of_mem_nhdsWithin (Icc_mem_nhdsGE_of_mem ht)
      have hE : HasDerivAt (fun τ : ℝ => Real.exp (K * τ)) (Real.exp (K * t) * K) t := by
        simpa using ((hasDerivAt_id t).const_mul K).exp
      have hL : HasDerivAt (fun τ : ℝ => η * τ) η t := by simpa using (hasDerivAt_id t).const_mul η
      exact hE.hasDerivWithinAt.fun_mul (((hBt.sub_const (B 0)).const_add (∑ s, |e 0 s|)).fun_add
        hL.hasDerivWithinAt)
    · intro t ht hft
      have h1 : 1 ≤ Real.exp (K * t) := Real.one_le_exp (mul_nonneg hK0 ht.1)
      have h2 := hb0 t (Ico_subset_Icc_self ht)
      rw [hft]
      nlinarith [mul_le_mul_of_nonneg_right h1 h2]
  have hE : 0 < Real.exp (K * T) := Real.exp_pos _
  refine le_of_forall_pos_le_add fun δ hδ => ?_
  have h := key (δ / (Real.exp (K * T) * (T + 1))) (by positivity)
  have h2 : Real.exp (K * T) * (δ / (Real.exp (K * T) * (T + 1)) * T) ≤ δ := by
    have : Real.exp (K * T) * (δ / (Real.exp (K * T) * (T + 1)) * T) = δ * (T / (T + 1)) := by
      field_simp
    rw [this]
    have h3 : T / (T + 1) ≤ 1 := by
      rw [div_le_one (by linarith)]
      linarith
    nlinarith
  rw [mul_add] at h
  linarith

theorem growth_zero : GrowthAtMost (0 : Matrix C C ℝ) 0 := by
  intro s'
  simp

section smooth

variable {logP : (Fin (n + 1) → ℝ) → C → ℝ} {D : Set (Fin (n + 1) → ℝ)} {G Λ : ℝ}

omit [Fintype C] [DecidableEq C] in
theorem segment_mem (hD : Convex ℝ D) {θ u : Fin (n + 1) → ℝ} {h : ℝ} (hθ : θ ∈ D) (hθ' : θ + h • u ∈ D) {τ : ℝ}
    (hτ : τ ∈ Icc 0 h) : θ + τ • u ∈ D := by
  rcases eq_or_lt_of_le (hτ.1.trans hτ.2) with h0 | h0
  · have : τ = 0 := le_antisymm (by rw [h0]; exact hτ.2) hτ.1
    rw [this, zero_smul, add_zero]
    exact hθ
  · have h1 := hD hθ hθ' (a := 1 - τ / h) (b := τ / h)
      (by rw [sub_nonneg, div_le_one h0]; exact hτ.2) (div_nonneg hτ.1 h0.le) (by ring)
    have e : (1 - τ / h) • θ + (τ / h) • (θ + h • u) = θ + τ • u := by
      rw [smul_add, smul_smul, div_mul_cancel₀ _ h0.ne', sub_smul, one_smul]
      abel
    rwa [e] at h1

/-- The logarithmic derivative of the probabilities. -/
noncomputable def scoreOf (logP : (Fin (n + 1) → ℝ) → C → ℝ) (θ u : Fin (n + 1) → ℝ) (s : C) : ℝ :=
  fderiv ℝ (fun p => logP p s) θ u

/-- The average logarithmic derivative. -/
noncomputable def meanScore (logP : (Fin (n + 1) → ℝ) → C → ℝ) (θ u : Fin (n + 1) → ℝ) : ℝ :=
  ∑ c, distribution (logP θ) c * scoreOf logP θ u c

omit [Fintype C] [DecidableEq C] in
theorem score_bound (hs : SmoothLog logP D G Λ) {θ : Fin (n + 1) → ℝ} (hθ : θ ∈ D) {u : Fin (n + 1) → ℝ} {V : ℝ}
    (hV : ‖u‖ ≤ V) (s : C) : |scoreOf logP θ u s| ≤ G * V :=
  (hs.bound θ hθ s u).trans (mul_le_mul_of_nonneg_left hV hs.bound_nonneg)

omit [DecidableEq C] in
theorem meanScore_bound [Nonempty C] (hs : SmoothLog logP D G Λ) {θ : Fin (n + 1) → ℝ} (hθ : θ ∈ D)
    {u : Fin (n + 1) → ℝ} {V : ℝ} (hV : ‖u‖ ≤ V) : |meanScore logP θ u| ≤ G * V := by
  unfold meanScore
  refine (Finset.abs_sum_le_sum_abs _ _).trans ?_
  calc ∑ c, |distribution (logP θ) c * scoreOf logP θ u c| ≤ ∑ c, distribution (logP θ) c * (G * V) := by
        refine Finset.sum_le_sum fun c _ => ?_
        rw [abs_mul, abs_of_pos (distribution_pos _ c)]
        exact mul_le_mul_of_nonneg_left (score_bound hs hθ hV c) (distribution_pos _ c).le
    _ = G * V := by rw [← Finset.sum_mul, distribution_total, one_mul]

omit [DecidableEq C] in
theorem velocity_score (hs : SmoothLog logP D G Λ) {θ : Fin (n + 1) → ℝ} (hθ : θ ∈ D) (u : Fin (n + 1) → ℝ)
    (s : C) : probVelocity logP θ u s = distribution (logP θ) s * (scoreOf logP θ u s - meanScore logP θ u) :=
  probVelocity_fderiv (hs.differentiable θ hθ) u s

omit [DecidableEq C] in
theorem velocity_l1 [Nonempty C] (hs : SmoothLog logP D G Λ) {θ : Fin (n + 1) → ℝ} (hθ : θ ∈ D)
    {u : Fin (n + 1) → ℝ} {V : ℝ} (hV : ‖u‖ ≤ V) : ∑ s, |probVelocity logP θ u s| ≤ 2 * (G * V) := by
  calc ∑ s, |probVelocity logP θ u s| ≤ ∑ s, distribution (logP θ) s * (2 * (G * V)) := by
        refine Finset.sum_le_sum fun s _ => ?_
        rw [velocity_score hs hθ, abs_mul, abs_of_pos (distribution_pos _ s)]
        refine mul_le_mul_of_nonneg_left ?_ (distribution_pos _ s).le
        have h1 := score_bound hs hθ hV s
        have h2 := meanScore_bound hs hθ hV
        rw [abs_le] at *
        constructor <;> linarith [h1.1, h1.2, h2.1, h2.2]
    _ = _ := by rw [← Finset.sum_mul, distribution_total, one_mul]

omit [DecidableEq C] in
theorem segment_velocity (hs : SmoothLog logP D G Λ) {θ u : Fin (n + 1) → ℝ} {τ : ℝ} (hτ : θ + τ • u ∈ D)
    (S : Set ℝ) (s : C) : HasDerivWithinAt (fun x : ℝ => distribution (logP (θ + x • u)) s)
      (probVelocity logP (θ + τ • u) u s) S τ := by
  have h1 : HasDerivAt (fun x : ℝ => θ + x • u) u τ := by
    have := ((hasDerivAt_id τ).smul_const u).const_add θ
    simpa using this
  have h2 := distribution_deriv (logP := logP) (h1.hasDerivWithinAt (s := S)) (hs.differentiable _ hτ) s
  rw [velocity_score hs hτ]
  exact h2

omit [DecidableEq C] in
/-- Close parameters give close distributions. -/
theorem prob_moves [Nonempty C] (hs : SmoothLog logP D G Λ) (hD : Convex ℝ D) {θ u : Fin (n + 1) → ℝ} {h : ℝ}
    (hh : 0 ≤ h) (hθ : θ ∈ D) (hθ' : θ + h • u ∈ D) {V : ℝ} (hV : ‖u‖ ≤ V) :
    l1Distance (distribution (logP (θ + h • u))) (distribution (logP θ)) ≤ h * (2 * (G * V)) := by
  classical
  have := l1_growth (growth_zero (C := C)) le_rfl hh
    (e := fun τ s => distribution (logP (θ + τ • u)) s - distribution (logP θ) s)
    (e' := fun τ s => probVelocity logP (θ + τ • u) u s)
    (fun τ hτ s => (segment_velocity hs (segment_mem hD hθ hθ' hτ) _ s).sub_const _)
    (b := fun _ => 2 * (G * V)) (B := fun τ => τ * (2 * (G * V)))
    (fun τ hτ => by
      simp only [Matrix.zero_mulVec, Pi.zero_apply, sub_zero]
      exact velocity_l1 hs (segment_mem hD hθ hθ' hτ) hV)
    (fun τ _ => by simpa using ((hasDerivAt_id τ).mul_const (2 * (G * V))).hasDerivWithinAt)
  simpa [l1Distance] using this

omit [DecidableEq C] in
/-- The velocity of the distribution changes slowly. -/
theorem velocity_moves [Nonempty C] (hs : SmoothLog logP D G Λ) (hD : Convex ℝ D) {θ u : Fin (n + 1) → ℝ} {h : ℝ}
    (hh : 0 ≤ h) (hθ : θ ∈ D) (hθ' : θ + h • u ∈ D) {V : ℝ} (hV : ‖u‖ ≤ V) :
    ∑ s, |probVelocity logP (θ + h • u) u s - probVelocity logP θ u s|
      ≤ h * (2 * Λ * V ^ 2 + 6 * (G * V) ^ 2) := by
  have hV0 : 0 ≤ V := (norm_nonneg _).trans hV
  have hGV : 0 ≤ G * V := mul_nonneg hs.bound_nonneg hV0
  have hP := prob_moves hs hD hh hθ hθ' hV
  unfold l1Distance at hP
  set p' := distribution (logP (θ + h • u)) with hp'
  set p := distribution (logP θ) with hp
  have hpos : ∀ s, 0 < p s := fun s => distribution_pos _ s
  have hsc : ∀ s, |scoreOf logP (θ + h • u) u s - scoreOf logP θ u s| ≤ h * (Λ * V ^ 2) := by
    intro s
    refine (hs.rate θ hθ _ hθ' s u).trans ?_
    rw [add_sub_cancel_left, norm_smul, Real.norm_of_nonneg hh]
    have h1 : ‖u‖ * ‖u‖ ≤ V ^ 2 := by nlinarith [norm_nonneg u]
    have h2 := mul_le_mul_of_nonneg_left h1 (mul_nonneg hs.rate_nonneg hh)
    nlinarith
  have hm : |meanScore logP (θ + h • u) u - meanScore logP θ u| ≤ h * (Λ * V ^ 2) + h * (2 * (G * V)) * (G * V) := by
    have e : meanScore logP (θ + h • u) u - meanScore logP θ u
        = ∑ c, (p c * (scoreOf logP (θ + h • u) u c - scoreOf logP θ u c)
          + (p' c - p c) * scoreOf logP (θ + h • u) u c) := by
      unfold meanScore
      rw [← Finset.sum_sub_distrib]
      exact Finset.sum_congr rfl fun c _ => by ring
    rw [e]
    refine (Finset.abs_sum_le_sum_abs _ _).trans ?_
    calc ∑ c, |p c * (scoreOf logP (θ + h • u) u c - scoreOf logP θ u c)
          + (p' c - p c) * scoreOf logP (θ + h • u) u c|
        ≤ ∑ c, (p c * (h * (Λ * V ^ 2)) + |p' c - p c| * (G * V)) := by
          refine Finset.sum_le_sum fun c _ => (abs_add_le _ _).trans (add_le_add ?_ ?_)
          · rw [abs_mul, abs_of_pos (hpos c)]
            exact mul_le_mul_of_nonneg_left (hsc c) (hpos c).le
          · rw [abs_mul]
            exact mul_le_mul_of_nonneg_left (score_bound hs hθ' hV c) (abs_nonneg _)
      _ ≤ _ := by
          rw [Finset.sum_add_distrib, ← Finset.sum_mul, ← Finset.sum_mul, hp, distribution_total, one_mul]
          have := mul_le_mul_of_nonneg_right hP hGV
          linarith
  calc ∑ s, |probVelocity logP (θ + h • u) u s - probVelocity logP θ u s|
      ≤ ∑ s, (|p' s - p s| * (2 * (G * V))
          + p s * (h * (Λ * V ^ 2) + (h * (Λ * V ^ 2) + h * (2 * (G * V)) * (G * V)))) := by
        refine Finset.sum_le_sum fun s _ => ?_
        rw [velocity_score hs hθ', velocity_score hs hθ, ← hp', ← hp]
        have e : p' s * (scoreOf logP (θ + h • u) u s - meanScore logP (θ + h • u) u)
            - p s * (scoreOf logP θ u s - meanScore logP θ u)
            = (p' s - p s) * (scoreOf logP (θ + h • u) u s - meanScore logP (θ + h • u) u)
              + p s * ((scoreOf logP (θ + h • u) u s - scoreOf logP θ u s)
                - (meanScore logP (θ + h • u) u - meanScore logP θ u)) := by ring
        rw [e]
        refine (abs_add_le _ _).trans (add_le_add ?_ ?_)
        · rw [abs_mul]
          refine mul_le_mul_of_nonneg_left ?_ (abs_nonneg _)
          have h1 := score_bound hs hθ' hV s
          have h2 := meanScore_bound hs hθ' hV
          rw [abs_le] at *
          constructor <;> linarith [h1.1, h1.2, h2.1, h2.2]
        · rw [abs_mul, abs_of_pos (hpos s)]
          refine mul_le_mul_of_nonneg_left ?_ (hpos s).le
          have h1 := hsc s
          have h2 := hm
          rw [abs_le] at *
          constructor <;> linarith [h1.1, h1.2, h2.1, h2.2]
    _ ≤ _ := by
        rw [Finset.sum_add_distrib, ← Finset.sum_mul, ← Finset.sum_mul, hp, distribution_total, one_mul]
        have := mul_le_mul_of_nonneg_right hP (mul_nonneg two_pos.le hGV)
        nlinarith

/-- One straight step of the parameters. -/
theorem rate_step [Nonempty C] (hs : SmoothLog logP D G Λ) (hD : Convex ℝ D) (hK : GrowthAtMost A K) (hK0 : 0 ≤ K)
    {M : ℝ} (hM : ∀ s', ∑ s, |A s s'| ≤ M) {q : ℝ → C → ℝ} {T : ℝ} (hq : RateSolution A q T) {t dt : ℝ} (ht : 0 ≤ t)
    (hdt : 0 ≤ dt) (htT : t + dt ≤ T) {θ u : Fin (n + 1) → ℝ} (hθ : θ ∈ D) (hθ' : θ + dt • u ∈ D) {V : ℝ}
    (hV : ‖u‖ ≤ V) {e : ℝ}
    (he : fisherLength (distribution (logP θ)) (fun s => probVelocity logP θ u s
      - (A *ᵥ distribution (logP θ)) s) ≤ e ^ 2) (he0 : 0 ≤ e) :
    l1Distance (distribution (logP (θ + dt • u))) (q (t + dt))
      ≤ Real.exp (K * dt) * (l1Distance (distribution (logP θ)) (q t)
        + dt * (e + dt * (Λ * V ^ 2 + 3 * (G * V) ^ 2 + M * (G * V)))) := by
  have hV0 : 0 ≤ V := (norm_nonneg _).trans hV
  obtain ⟨s₀⟩ := ‹Nonempty C›
  have hM0 : 0 ≤ M := (Finset.sum_nonneg fun _ _ => abs_nonneg _).trans (hM s₀)
  have : Nonempty C := ⟨s₀⟩
  have hseg : ∀ τ ∈ Icc 0 dt, θ + τ • u ∈ D := fun τ hτ => segment_mem hD hθ hθ' hτ
  have h1 := l1_growth hK hK0 hdt (e := fun τ s => distribution (logP (θ + τ • u)) s - q (t + τ) s)
    (e' := fun τ s => probVelocity logP (θ + τ • u) u s - (A *ᵥ q (t + τ)) s)
    (fun τ hτ s => by
      refine (segment_velocity hs (hseg τ hτ) _ s).fun_sub ?_
      have hd : HasDerivWithinAt (fun x : ℝ => t + x) 1 (Icc 0 dt) τ := by
        simpa using ((hasDerivAt_id τ).const_add t).hasDerivWithinAt
      have h2 := (hq (t + τ) ⟨by linarith [hτ.1], by linarith [hτ.2]⟩ s)
      have := HasDerivWithinAt.comp τ h2 hd (fun x hx => ⟨by linarith [hx.1], by linarith [hx.2]⟩)
      simpa [Function.comp_def] using this)
    (b := fun τ => e + 2 * τ * (Λ * V ^ 2 + 3 * (G * V) ^ 2 + M * (G * V)))
    (B := fun τ => τ * e + τ ^ 2 * (Λ * V ^ 2 + 3 * (G * V) ^ 2 + M * (G * V))) ?_ ?_
  · have e0 : ∑ s, |distribution (logP (θ + (0 : ℝ) • u)) s - q (t + 0) s|
        = l1Distance (distribution (logP θ)) (q t) := by
      rw [zero_smul, add_zero, add_zero]
      rfl
    rw [e0] at h1
    refine h1.trans (le_of_eq ?_)
    ring
  · intro τ hτ
    have hτD := hseg τ hτ
    have a1 : ∑ s, |probVelocity logP θ u s - (A *ᵥ distribution (logP θ)) s| ≤ e := by
      refine (l1_fisher (distribution (logP θ)) _ (fun s => distribution_pos _ s) (distribution_total _)).trans ?_
      exact Real.sqrt_le_iff.mpr ⟨he0, he⟩
    have a2 := velocity_moves hs hD hτ.1 hθ hτD hV
    have a3 := rate_bound A M hM (fun s => distribution (logP (θ + τ • u)) s - distribution (logP θ) s)
    have a4 := prob_moves hs hD hτ.1 hθ hτD hV
    unfold l1Distance at a4
    have a5 := mul_le_mul_of_nonneg_left a4 hM0
    have e1 : ∀ s, (probVelocity logP (θ + τ • u) u s - (A *ᵥ q (t + τ)) s)
        - (A *ᵥ fun s => distribution (logP (θ + τ • u)) s - q (t + τ) s) s
        = (probVelocity logP θ u s - (A *ᵥ distribution (logP θ)) s)
          + (probVelocity logP (θ + τ • u) u s - probVelocity logP θ u s)
          - (A *ᵥ fun s => distribution (logP (θ + τ • u)) s - distribution (logP θ) s) s := by
      intro s
      have f1 : (fun s => distribution (logP (θ + τ • u)) s - q (t + τ) s)
          = distribution (logP (θ + τ • u)) - q (t + τ) := rfl
      have f2 : (fun s => distribution (logP (θ + τ • u)) s - distribution (logP θ) s)
          = distribution (logP (θ + τ • u)) - distribution (logP θ) := rfl
      rw [f1, f2, Matrix.mulVec_sub, Matrix.mulVec_sub]
      simp only [Pi.sub_apply]
      ring
    have h3 : ∑ s, |(probVelocity logP (θ + τ • u) u s - (A *ᵥ q (t + τ)) s)
        - (A *ᵥ fun s => distribution (logP (θ + τ • u)) s - q (t + τ) s) s|
        ≤ ∑ s, (|probVelocity logP θ u s - (A *ᵥ distribution (logP θ)) s|
          + |probVelocity logP (θ + τ • u) u s - probVelocity logP θ u s|
          + |(A *ᵥ fun s => distribution (logP (θ + τ • u)) s - distribution (logP θ) s) s|) := by
      refine Finset.sum_le_sum fun s _ => ?_
      rw [e1 s]
      exact (abs_sub _ _).trans (add_le_add (abs_add_le _ _) le_rfl)
    rw [Finset.sum_add_distrib, Finset.sum_add_distrib] at h3
    nlinarith
  · intro τ _
    have hd := ((hasDerivAt_id τ).mul_const e).fun_add
      (((hasDerivAt_id τ).fun_pow 2).mul_const (Λ * V ^ 2 + 3 * (G * V) ^ 2 + M * (G * V)))
    refine (hd.congr_deriv ?_).hasDerivWithinAt
    simp

end smooth

end JVMC
