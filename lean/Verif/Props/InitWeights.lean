import Mathlib.Analysis.Real.Pi.Bounds
import Mathlib.Analysis.SpecialFunctions.Trigonometric.Bounds
import Mathlib.Analysis.SpecialFunctions.Trigonometric.DerivHyp
import Verif.Model.InitWeights
import Verif.Props.Rbm
import Verif.Props.Rnn

/-!
# Initial weights: complex Boltzmann machines (C113) and recurrent networks (C114)

C113: "Whatever the seed, a complex Boltzmann machine that was just initialised has a finite logarithmic amplitude for
every configuration, and its Born probabilities are uniform up to explicit factors." Here a seed is any value of the
draws in `[0, 1)`.

C114: "`initScale` is the factor by which the initial parameters of a recurrent network are scaled."
-/

namespace JVMC

/-! ## Helper lemmas -/

theorem normSq_cosh (z : ℂ) : Complex.normSq (Complex.cosh z) = Real.sinh z.re ^ 2 + Real.cos z.im ^ 2 := by
  have h : Complex.cosh z = ((Real.cosh z.re * Real.cos z.im : ℝ) : ℂ)
      + ((Real.sinh z.re * Real.sin z.im : ℝ) : ℂ) * Complex.I := by
    conv_lhs => rw [← Complex.re_add_im z]
    rw [Complex.cosh_add, Complex.cosh_mul_I, Complex.sinh_mul_I]
    push_cast
    ring
  rw [h, Complex.normSq_add_mul_I]
  have h1 := Real.cosh_sq z.re
  have h2 := Real.sin_sq z.im
  calc (Real.cosh z.re * Real.cos z.im) ^ 2 + (Real.sinh z.re * Real.sin z.im) ^ 2
      = Real.cosh z.re ^ 2 * Real.cos z.im ^ 2 + Real.sinh z.re ^ 2 * Real.sin z.im ^ 2 := by ring
    _ = _ := by rw [h1, h2]; ring

/-- The modulus of the hyperbolic cosine in a square around zero. -/
theorem norm_cosh_bounds {z : ℂ} {b : ℝ} (hb : b ≤ Real.pi / 2) (hre : |z.re| ≤ b) (him : |z.im| ≤ b) :
    Real.cos b ≤ ‖Complex.cosh z‖ ∧ ‖Complex.cosh z‖ ≤ Real.cosh b := by
  have hb0 : 0 ≤ b := le_trans (abs_nonneg _) hre
  have hn : ‖Complex.cosh z‖ ^ 2 = Real.sinh z.re ^ 2 + Real.cos z.im ^ 2 := by
    rw [← normSq_cosh, Complex.normSq_eq_norm_sq]
  constructor
  · have hc0 : 0 ≤ Real.cos b := Real.cos_nonneg_of_neg_pi_div_two_le_of_le (by linarith [Real.pi_pos]) hb
    have hc : Real.cos b ≤ Real.cos z.im := by
      rw [← Real.cos_abs z.im]
      exact Real.cos_le_cos_of_nonneg_of_le_pi (abs_nonneg _) (by linarith [Real.pi_pos]) him
    refine abs_le_of_sq_le_sq' ?_ (norm_nonneg _) |>.2
    rw [hn]
    nlinarith [sq_nonneg (Real.sinh z.re)]
  · have hc : Real.cosh z.re ≤ Real.cosh b := Real.cosh_le_cosh.2 (by rwa [abs_of_nonneg hb0])
    refine abs_le_of_sq_le_sq' ?_ (Real.cosh_pos b).le |>.2
    rw [hn]
    have h1 := Real.cosh_sq z.re
    have h2 := Real.sin_sq z.im
    have h3 := Real.cosh_pos z.re
    nlinarith [sq_nonneg (Real.sin z.im)]

/-- The input of a hidden unit is small. -/
theorem fresh_unit {n : ℕ} (x : Fin n → ℝ) (hx : ∀ i, |x i| ≤ 1) (u v : Fin n → ℝ)
    (hu : ∀ i, 0 ≤ u i ∧ u i < 1) (hv : ∀ i, 0 ≤ v i ∧ v i < 1) :
    |(∑ i, (x i : ℂ) * cplxInit (u i) (v i)).re| ≤ n / 100 ∧
    |(∑ i, (x i : ℂ) * cplxInit (u i) (v i)).im| ≤ n / 100 := by
  have key : ∀ w : Fin n → ℝ, (∀ i, 0 ≤ w i ∧ w i < 1) → |∑ i, x i * (w i * 0.01)| ≤ n / 100 := by
    intro w hw
    refine le_trans (Finset.abs_sum_le_sum_abs _ _) ?_
    have : ∀ i ∈ (Finset.univ : Finset (Fin n)), |x i * (w i * 0.01)| ≤ 1 / 100 := by
      intro i _
      rw [abs_mul, abs_of_nonneg (mul_nonneg (hw i).1 (by norm_num : (0 : ℝ) ≤ 0.01))]
      have h1 := hx i
      have h2 := (hw i).2
      have h3 := (hw i).1
      have h4 := abs_nonneg (x i)
      nlinarith [mul_nonneg h4 h3]
    refine le_trans (Finset.sum_le_sum this) ?_
    rw [Finset.sum_const, Finset.card_univ, Fintype.card_fin, nsmul_eq_mul]
    apply le_of_eq
    ring
  refine ⟨?_, ?_⟩
  · have : (∑ i, (x i : ℂ) * cplxInit (u i) (v i)).re = ∑ i, x i * (u i * 0.01) := by
      rw [Complex.re_sum]
      refine Finset.sum_congr rfl fun i _ => ?_
      simp [cplxInit, uniformEntry]
    rw [this]
    exact key u hu
  · have : (∑ i, (x i : ℂ) * cplxInit (u i) (v i)).im = ∑ i, x i * (v i * 0.01) := by
      rw [Complex.im_sum]
      refine Finset.sum_congr rfl fun i _ => ?_
      simp [cplxInit, uniformEntry]
    rw [this]
    exact key v hv

theorem fresh_amp {n m : ℕ} (bias : Bool) (u v : Fin n → Fin m → ℝ) (neg : Fin m → Bool) (s : Fin n → ℤ) :
    (freshCpxRbm bias u v neg s).amp =
      ∏ j, Complex.cosh (∑ i, ((2 * s i - 1 : ℝ) : ℂ) * cplxInit (u i j) (v i j)) ∧
    (freshCpxRbmNospinflip bias u v neg s).amp =
      ∏ j, Complex.cosh (∑ i, ((s i : ℝ) : ℂ) * cplxInit (u i j) (v i j)) := by
  constructor
  all_goals
    simp only [freshCpxRbm, freshCpxRbmNospinflip, cpxRbm, cpxRbmNospinflip, sumLog_amp, c61_exp, dense]
    refine Finset.prod_congr rfl fun j _ => ?_
    cases bias <;> simp

theorem prod_norm_bounds {m : ℕ} (f : Fin m → ℂ) {a b : ℝ} (ha : 0 ≤ a) (h : ∀ j, a ≤ ‖f j‖ ∧ ‖f j‖ ≤ b) :
    a ^ m ≤ ‖∏ j, f j‖ ∧ ‖∏ j, f j‖ ≤ b ^ m := by
  rw [norm_prod]
  constructor
  · have := Finset.prod_le_prod (s := Finset.univ) (f := fun _ : Fin m => a) (g := fun j => ‖f j‖)
      (fun _ _ => ha) (fun j _ => (h j).1)
    simpa using this
  · have := Finset.prod_le_prod (s := Finset.univ) (f := fun j => ‖f j‖) (g := fun _ : Fin m => b)
      (fun j _ => norm_nonneg _) (fun j _ => (h j).2)
    simpa using this

/-! ## C113 -/

/-- What the generator can return: numbers in `[0, 1)`. -/
def Draws {n m : ℕ} (u : Fin n → Fin m → ℝ) : Prop := ∀ i j, 0 ≤ u i j ∧ u i j < 1

/-- A configuration of spins, encoded by 0 and 1. -/
def SpinConfig {n : ℕ} (s : Fin n → ℤ) : Prop := ∀ i, s i = 0 ∨ s i = 1

theorem small_angle {n : ℕ} (hn : n ≤ 157) : (n : ℝ) / 100 < Real.pi / 2 := by
  have h : (n : ℝ) ≤ 157 := by exact_mod_cast hn
  have := Real.pi_gt_d2
  linarith

/-- **C113**, amplitudes: for every seed, up to 157 sites and any number of hidden units, the modulus of every amplitude
of a network that was just initialised lies between `cos(n/100)^m > 0` and `cosh(n/100)^m`. -/
theorem c113_amplitude {n m : ℕ} (hn : n ≤ 157) (bias : Bool) (u v : Fin n → Fin m → ℝ) (hu : Draws u) (hv : Draws v)
    (neg : Fin m → Bool) (s : Fin n → ℤ) (hs : SpinConfig s) :
    0 < Real.cos (n / 100) ∧
    (Real.cos (n / 100) ^ m ≤ ‖(freshCpxRbm bias u v neg s).amp‖ ∧
      ‖(freshCpxRbm bias u v neg s).amp‖ ≤ Real.cosh (n / 100) ^ m) ∧
    (Real.cos (n / 100) ^ m ≤ ‖(freshCpxRbmNospinflip bias u v neg s).amp‖ ∧
      ‖(freshCpxRbmNospinflip bias u v neg s).amp‖ ≤ Real.cosh (n / 100) ^ m) := by
  have hpi := small_angle hn
  have h0 : (0 : ℝ) ≤ n / 100 := by positivity
  have hc : 0 < Real.cos (n / 100) :=
    Real.cos_pos_of_mem_Ioo ⟨by linarith [Real.pi_pos], hpi⟩
  have bound : ∀ x : Fin n → ℝ, (∀ i, |x i| ≤ 1) → ∀ j : Fin m,
      Real.cos (n / 100) ≤ ‖Complex.cosh (∑ i, (x i : ℂ) * cplxInit (u i j) (v i j))‖ ∧
      ‖Complex.cosh (∑ i, (x i : ℂ) * cplxInit (u i j) (v i j))‖ ≤ Real.cosh (n / 100) := by
    intro x hx j
    obtain ⟨h1, h2⟩ := fresh_unit x hx (fun i => u i j) (fun i => v i j) (fun i => hu i j) (fun i => hv i j)
    exact norm_cosh_bounds hpi.le h1 h2
  refine ⟨hc, ?_, ?_⟩
  · rw [(fresh_amp bias u v neg s).1]
    refine prod_norm_bounds _ hc.le fun j => bound (fun i => 2 * s i - 1) (fun i => ?_) j
    rcases hs i with h | h <;> rw [h] <;> norm_num
  · rw [(fresh_amp bias u v neg s).2]
    refine prod_norm_bounds _ hc.le fun j => bound (fun i => s i) (fun i => ?_) j
    rcases hs i with h | h <;> rw [h] <;> norm_num

/-- **C113**, finiteness: up to 157 sites no logarithmic amplitude is minus infinity. -/
theorem c113_finite {n m : ℕ} (hn : n ≤ 157) (bias : Bool) (u v : Fin n → Fin m → ℝ) (hu : Draws u) (hv : Draws v)
    (neg : Fin m → Bool) (s : Fin n → ℤ) (hs : SpinConfig s) :
    freshCpxRbm bias u v neg s ≠ none ∧ freshCpxRbmNospinflip bias u v neg s ≠ none := by
  obtain ⟨hc, h1, h2⟩ := c113_amplitude hn bias u v hu hv neg s hs
  constructor
  · intro h
    have := lt_of_lt_of_le (pow_pos hc m) h1.1
    rw [h] at this
    simp [LogVal.amp] at this
  · intro h
    have := lt_of_lt_of_le (pow_pos hc m) h2.1
    rw [h] at this
    simp [LogVal.amp] at this

/-- The Born probability of a configuration. -/
noncomputable def bornProb {n : ℕ} (psi : (Fin n → ℤ) → ℂ) (s : Fin n → Fin 2) : ℝ :=
  ‖psi fun i => ((s i).val : ℤ)‖ ^ 2 / ∑ s' : Fin n → Fin 2, ‖psi fun i => ((s' i).val : ℤ)‖ ^ 2

theorem born_between {n : ℕ} (psi : (Fin n → ℤ) → ℂ) {a b : ℝ} (ha : 0 < a)
    (h : ∀ s : Fin n → Fin 2, a ≤ ‖psi fun i => ((s i).val : ℤ)‖ ∧ ‖psi fun i => ((s i).val : ℤ)‖ ≤ b)
    (s : Fin n → Fin 2) :
    (a / b) ^ 2 / 2 ^ n ≤ bornProb psi s ∧ bornProb psi s ≤ (b / a) ^ 2 / 2 ^ n := by
  have hb : 0 < b := lt_of_lt_of_le ha (le_trans (h s).1 (h s).2)
  have hcard : ((Finset.univ : Finset (Fin n → Fin 2)).card : ℝ) = 2 ^ n := by simp
  have hup : ∑ s' : Fin n → Fin 2, ‖psi fun i => ((s' i).val : ℤ)‖ ^ 2 ≤ 2 ^ n * b ^ 2 := by
    refine le_trans (Finset.sum_le_sum fun s' _ => pow_le_pow_left₀ (norm_nonneg _) (h s').2 2) ?_
    rw [Finset.sum_const, nsmul_eq_mul, hcard]
  have hlo : 2 ^ n * a ^ 2 ≤ ∑ s' : Fin n → Fin 2, ‖psi fun i => ((s' i).val : ℤ)‖ ^ 2 := by
    refine le_trans ?_ (Finset.sum_le_sum fun s' _ => pow_le_pow_left₀ ha.le (h s').1 2)
    rw [Finset.sum_const, nsmul_eq_mul, hcard]
  have hpos : (0 : ℝ) < 2 ^ n * a ^ 2 := by positivity
  have h2n : (0 : ℝ) < 2 ^ n := by positivity
  have hnum : a ^ 2 ≤ ‖psi fun i => ((s i).val : ℤ)‖ ^ 2 := pow_le_pow_left₀ ha.le (h s).1 2
  have hnum' : ‖psi fun i => ((s i).val : ℤ)‖ ^ 2 ≤ b ^ 2 := pow_le_pow_left₀ (norm_nonneg _) (h s).2 2
  unfold bornProb
  constructor
  · calc (a / b) ^ 2 / 2 ^ n = a ^ 2 / (2 ^ n * b ^ 2) := by field_simp
      _ ≤ _ := div_le_div₀ (sq_nonneg _) hnum (lt_of_lt_of_le hpos hlo) hup
  · calc _ ≤ b ^ 2 / (2 ^ n * a ^ 2) := div_le_div₀ (sq_nonneg _) hnum' hpos hlo
      _ = (b / a) ^ 2 / 2 ^ n := by field_simp

/-- **C113**, probabilities: for every seed and up to 157 sites, the Born probability of every configuration is
`2^-n` up to the factor `(cosh(n/100)/cos(n/100))^(2m)`: a network that was just initialised is close to the uniform
superposition, and no configuration is excluded. -/
theorem c113_probabilities {n m : ℕ} (hn : n ≤ 157) (bias : Bool) (u v : Fin n → Fin m → ℝ) (hu : Draws u)
    (hv : Draws v) (neg : (Fin n → ℤ) → Fin m → Bool) (s : Fin n → Fin 2) :
    let r := (Real.cosh (n / 100) / Real.cos (n / 100)) ^ (2 * m)
    1 / r / 2 ^ n ≤ bornProb (fun s => (freshCpxRbm bias u v (neg s) s).amp) s ∧
    bornProb (fun s => (freshCpxRbm bias u v (neg s) s).amp) s ≤ r / 2 ^ n ∧
    1 / r / 2 ^ n ≤ bornProb (fun s => (freshCpxRbmNospinflip bias u v (neg s) s).amp) s ∧
    bornProb (fun s => (freshCpxRbmNospinflip bias u v (neg s) s).amp) s ≤ r / 2 ^ n := by
  have hs : ∀ s : Fin n → Fin 2, SpinConfig fun i => ((s i).val : ℤ) := by
    intro s i
    have := (s i).isLt
    change ((s i).val : ℤ) = 0 ∨ ((s i).val : ℤ) = 1
    omega
  have hc := (c113_amplitude hn bias u v hu hv (neg fun i => ((s i).val : ℤ)) _ (hs s)).1
  have e1 : 1 / (Real.cosh (n / 100) / Real.cos (n / 100)) ^ (2 * m)
      = (Real.cos (n / 100) ^ m / Real.cosh (n / 100) ^ m) ^ 2 := by
    rw [← div_pow, ← pow_mul, mul_comm m 2, one_div, ← inv_pow, inv_div]
  have e2 : (Real.cosh (n / 100) / Real.cos (n / 100)) ^ (2 * m)
      = (Real.cosh (n / 100) ^ m / Real.cos (n / 100) ^ m) ^ 2 := by
    rw [← div_pow, ← pow_mul, mul_comm m 2]
  intro r
  have hr1 : 1 / r = _ := e1
  have hr2 : r = _ := e2
  rw [hr1, hr2]
  have b1 := born_between (fun s => (freshCpxRbm bias u v (neg s) s).amp) (pow_pos hc m)
    (fun s' => (c113_amplitude hn bias u v hu hv (neg fun i => ((s' i).val : ℤ)) _ (hs s')).2.1) s
  have b2 := born_between (fun s => (freshCpxRbmNospinflip bias u v (neg s) s).amp) (pow_pos hc m)
    (fun s' => (c113_amplitude hn bias u v hu hv (neg fun i => ((s' i).val : ℤ)) _ (hs s')).2.2) s
  exact ⟨b1.1, b1.2, b2.1, b2.2⟩

/-- **C113 is false for larger lattices**: with 158 or more sites (and at least one hidden unit) there are draws with
which the amplitude of the fully polarised configuration vanishes. -/
theorem c113_large_violated {n m : ℕ} (hn : 158 ≤ n) (hm : 0 < m) (bias : Bool) :
    ∃ u v : Fin n → Fin m → ℝ, Draws u ∧ Draws v ∧ ∀ neg : Fin m → Bool,
      freshCpxRbm bias u v neg (fun _ => 1) = none ∧ freshCpxRbmNospinflip bias u v neg (fun _ => 1) = none := by
  have hn' : (158 : ℝ) ≤ n := by exact_mod_cast hn
  have hn0 : (0 : ℝ) < n := by linarith
  refine ⟨fun _ _ => 0, fun _ _ => 50 * Real.pi / n, fun _ _ => ⟨le_refl _, one_pos⟩, fun _ _ => ⟨?_, ?_⟩, ?_⟩
  · have := Real.pi_pos
    positivity
  · rw [div_lt_one hn0]
    have := Real.pi_lt_d2
    linarith
  · intro neg
    have key : ∀ x : Fin n → ℝ, (∀ i, x i = 1) →
        ∏ _j : Fin m, Complex.cosh (∑ i, (x i : ℂ) * cplxInit 0 (50 * Real.pi / n)) = 0 := by
      intro x hx
      refine Finset.prod_eq_zero (Finset.mem_univ (⟨0, hm⟩ : Fin m)) ?_
      have hsum : ∑ i, (x i : ℂ) * cplxInit 0 (50 * Real.pi / n) = ((Real.pi / 2 : ℝ) : ℂ) * Complex.I := by
        simp only [hx, cplxInit, uniformEntry]
        rw [Finset.sum_const, Finset.card_univ, Fintype.card_fin, nsmul_eq_mul]
        have hnc : (n : ℂ) ≠ 0 := by exact_mod_cast hn0.ne'
        push_cast
        field_simp
        norm_num
        ring
      rw [hsum, Complex.cosh_mul_I, ← Complex.ofReal_cos, Real.cos_pi_div_two, Complex.ofReal_zero]
    have hnone : ∀ l : LogVal, l.amp = 0 → l = none := by
      intro l hl
      cases l with
      | none => rfl
      | some z => exact absurd hl (Complex.exp_ne_zero z)
    constructor
    · apply hnone
      rw [(fresh_amp bias _ _ neg _).1]
      exact key (fun _ => 2 * ((1 : ℤ) : ℝ) - 1) fun _ => by norm_num
    · apply hnone
      rw [(fresh_amp bias _ _ neg _).2]
      exact key (fun _ => ((1 : ℤ) : ℝ)) fun _ => by norm_num

/-- **C113**, the other initialiser: every entry of an array of shape `(..., a, b)` is smaller in modulus than
`1/sqrt((a + b) * elems)` with the product `elems` of the leading axes, so that the input of a unit with inputs of at most
1 is at most `a * elems / sqrt((a + b) * elems)`; arrays with one axis raise IndexError. -/
theorem c113_variance_scaling (lead : List ℕ) (a b : ℕ) (u v : ℝ) (hu : 0 ≤ u ∧ u < 1) (hpos : 0 < (a + b) * lead.prod) :
    (∃ z, cplxVarianceScaling (lead ++ [a, b]) u v = .ok z ∧ ‖z‖ < 1 / Real.sqrt (((a + b) * lead.prod : ℕ) : ℝ)) ∧
    (∀ k, cplxVarianceScaling [k] u v = .error .indexError) := by
  refine ⟨?_, fun k => rfl⟩
  have hrev : (lead ++ [a, b]).reverse = b :: a :: lead.reverse := by simp
  have helems : leadingElems (b :: a :: lead.reverse) = lead.prod := by
    unfold leadingElems
    rw [show (b :: a :: lead.reverse).drop 2 = lead.reverse from rfl, ← List.prod_reverse]
    induction lead.reverse with
    | nil => rfl
    | cons k l ih => rw [List.foldr_cons, ih, List.prod_cons, mul_comm]
  refine ⟨_, by unfold cplxVarianceScaling; rw [hrev], ?_⟩
  rw [helems, show b + a = a + b by omega]
  have hw : 0 < Real.sqrt (((a + b) * lead.prod : ℕ) : ℝ) := Real.sqrt_pos.2 (by exact_mod_cast hpos)
  have hexp : ‖Complex.exp (Complex.I * ((3.141593 : ℝ) : ℂ) * (uniformEntry 1 v : ℂ))‖ = 1 := by
    rw [show Complex.I * ((3.141593 : ℝ) : ℂ) * (uniformEntry 1 v : ℂ)
      = ((3.141593 * uniformEntry 1 v : ℝ) : ℂ) * Complex.I by push_cast; ring]
    exact Complex.norm_exp_ofReal_mul_I _
  rw [norm_mul, norm_mul, hexp, mul_one, Complex.norm_real, Complex.norm_real, Real.norm_of_nonneg (by positivity),
    uniformEntry, mul_one, Real.norm_of_nonneg hu.1]
  exact mul_lt_of_lt_one_right (by positivity) hu.2

/-- Non-vacuity of C113: two sites and three hidden units, non-zero draws. -/
example : Draws (fun _ _ => 1 / 2 : Fin 2 → Fin 3 → ℝ) ∧ SpinConfig (fun i : Fin 2 => if i = 0 then 0 else 1) ∧
    0 < (4 + 10) * [8].prod := by
  refine ⟨fun _ _ => by norm_num, fun i => ?_, by norm_num⟩
  by_cases h : i = 0 <;> simp [h]

/-! ## C114 -/

/-- What C114 requires of an initialiser that depends on `initScale`: with the same draws, every entry of a kernel is
proportional to `initScale`. -/
def ScaledBy (factor : ℝ → ℝ) (init : ℝ → KernelInit) (cpx : Bool) : Prop :=
  ∀ (scale c : ℝ) (fanIn fanOut : ℕ) (u v : ℝ), 0 ≤ scale → 0 ≤ c →
    kernelEntry (init (c * scale)) cpx fanIn fanOut u v =
      (kernelEntry (init scale) cpx fanIn fanOut u v).map fun z => (factor c : ℂ) * z

/-- **C114**, as far as it holds: with real parameters, the hidden and output layers of recurrent networks, and on square
lattices also the input layer, scale with the square root of `initScale`. Missing: the factor is not `initScale`
itself (`c114_factor_violated`), the input layer on chains (`c114_input_violated`) and complex parameters
(`c114_complex_violated`). -/
theorem c114_root_partial :
    ScaledBy Real.sqrt (fun x => (rnn1dInits x true).carry) false ∧
    ScaledBy Real.sqrt (fun x => (rnn1dInits x true).out) false ∧
    ScaledBy Real.sqrt (fun x => (rnn2dInits x true).dataIn) false ∧
    ScaledBy Real.sqrt (fun x => (rnn2dInits x true).carry) false ∧
    ScaledBy Real.sqrt (fun x => (rnn2dInits x true).out) false := by
  have key : ScaledBy Real.sqrt KernelInit.varianceScaling false := by
    intro scale c fanIn fanOut u v hs hc
    simp only [kernelEntry, Bool.false_eq_true, if_false, Except.map]
    congr 1
    have h : 3 * (c * scale / (((fanIn + fanOut : ℕ) : ℝ) / 2)) = c * (3 * (scale / (((fanIn + fanOut : ℕ) : ℝ) / 2))) := by
      ring
    rw [h, Real.sqrt_mul hc]
    push_cast
    ring
  exact ⟨key, key, key, key, key⟩

/-- **C114 is violated**: with `initScale` four times as large, the parameters are only twice as large. -/
theorem c114_factor_violated :
    ¬ ScaledBy id (fun x => (rnn1dInits x true).out) false ∧ ¬ ScaledBy id (fun x => (rnn2dInits x true).out) false := by
  have key : ¬ ScaledBy id KernelInit.varianceScaling false := by
    intro h
    have h1 := h (1 / 3) 4 1 1 1 0 (by norm_num) (by norm_num)
    simp only [kernelEntry, Bool.false_eq_true, if_false, Except.map, id, Except.ok.injEq] at h1
    rw [show 3 * (4 * (1 / 3) / (((1 + 1 : ℕ) : ℝ) / 2)) = 2 ^ 2 by norm_num,
      show 3 * ((1 / 3) / (((1 + 1 : ℕ) : ℝ) / 2)) = 1 by norm_num, Real.sqrt_sq (by norm_num), Real.sqrt_one] at h1
    norm_num at h1
  exact ⟨key, key⟩

/-- **C114 is violated**: the input layer of a network on a chain does not depend on `initScale` at all. -/
theorem c114_input_violated (scale scale' : ℝ) (realValuedParams : Bool) :
    (rnn1dInits scale realValuedParams).dataIn = (rnn1dInits scale' realValuedParams).dataIn ∧
    ∃ z, kernelEntry (rnn1dInits scale true).dataIn false 2 10 (3 / 4) 0 = .ok z ∧ z ≠ 0 := by
  refine ⟨rfl, _, rfl, ?_⟩
  have : (0 : ℝ) < (2 * (3 / 4) - 1) * Real.sqrt (3 * (0.1 / (((2 + 10 : ℕ) : ℝ) / 2))) :=
    mul_pos (by norm_num) (Real.sqrt_pos.2 (by norm_num))
  exact_mod_cast this.ne'

/-- **C114 is violated**: with complex parameters no layer depends on `initScale`. -/
theorem c114_complex_violated (scale scale' : ℝ) :
    rnn1dInits scale false = rnn1dInits scale' false ∧ rnn2dInits scale false = rnn2dInits scale' false :=
  ⟨rfl, rfl⟩

/-- The size of the input layer of a network on a chain with complex parameters: uniformly distributed in a disk, whose radius is
set by the number of rows and columns alone. -/
theorem c114_complex_input (scale : ℝ) (fanIn fanOut : ℕ) (u v : ℝ) (hu : 0 ≤ u) :
    ∃ z, kernelEntry (rnn1dInits scale false).dataIn true fanIn fanOut u v = .ok z ∧
      ‖z‖ ^ 2 = u * (0.2 / (fanIn + fanOut : ℕ)) := by
  refine ⟨_, rfl, ?_⟩
  have h1 : ‖Complex.exp (Complex.I * (2 * Real.pi * v : ℝ))‖ = 1 := by
    rw [mul_comm]
    exact Complex.norm_exp_ofReal_mul_I _
  rw [norm_mul, norm_mul, h1, Complex.norm_real, Complex.norm_real, Real.norm_of_nonneg (Real.sqrt_nonneg _),
    Real.norm_of_nonneg (Real.sqrt_nonneg _), mul_one, mul_pow, Real.sq_sqrt hu, Real.sq_sqrt (by positivity)]
  rw [div_div_eq_mul_div]
  norm_num

/-- **C114**, `initScale = 0`: on chains with real parameters, whatever the cell and the other weights, a network that was
just initialised is the uniform superposition: every configuration of `L` sites has the logarithmic amplitude
`-logProbFactor * L * log(inputDim)`, without phase. `kernel` is the kernel of the output layer, `out` the number
of its outputs; its bias is zero. -/
theorem c114_zero_uniform {S : Type} {h out : ℕ} (inputDim : ℕ) (logProbFactor : ℝ) (realValuedOutput : Bool)
    (cell : S → (ℕ → ℝ) → S × (Fin h → ℝ)) (zeroCarry : S) (kernel : Fin h → ℕ → ℝ)
    (hk : ∀ i k, ∃ u v, kernelEntry (rnn1dInits 0 true).out false h out u v = .ok (kernel i k : ℂ))
    (x : List ℤ) (hx : ∀ a ∈ x, 0 ≤ a ∧ a < inputDim) :
    rnn1d ⟨realHead inputDim logProbFactor realValuedOutput fun o k => ∑ i, o i * kernel i k + 0, cell, zeroCarry⟩ x
      = ((-logProbFactor * x.length * Real.log inputDim : ℝ) : ℂ) := by
  have hker : ∀ i k, kernel i k = 0 := by
    intro i k
    obtain ⟨u, v, e⟩ := hk i k
    simp only [kernelEntry, rnn1dInits, if_true, Bool.false_eq_true, if_false, Except.ok.injEq, zero_div, mul_zero,
      Real.sqrt_zero] at e
    exact_mod_cast e.symm
  set head := realHead inputDim logProbFactor realValuedOutput (fun (o : Fin h → ℝ) k => ∑ i, o i * kernel i k + 0)
    with hhead
  have hdim : head.inputDim = inputDim := rfl
  have hmax : ∀ n, ((List.range (n + 1)).map fun _ : ℕ => (0 : ℝ)).max? = some 0 := by
    intro n
    rw [List.map_const', List.length_range]
    exact List.max?_replicate_of_pos (by omega)
  have hprob : ∀ o j, j < inputDim → head.logProbs o j = ((-logProbFactor * Real.log inputDim : ℝ) : ℂ) := by
    intro o j hj
    have hn : inputDim = inputDim - 1 + 1 := by omega
    simp only [hhead, realHead, logCoeffsToLogProbs, hker, mul_zero, Finset.sum_const_zero, add_zero, ite_self,
      logSoftmax]
    rw [show (List.range inputDim).map (fun _ : ℕ => (0 : ℝ)) = (List.range (inputDim - 1 + 1)).map fun _ : ℕ => (0 : ℝ)
      by rw [← hn], hmax (inputDim - 1)]
    simp
  have hsel : ∀ o (a : ℤ), 0 ≤ a → a < inputDim →
      head.select o (oneHot inputDim a) = ((-logProbFactor * Real.log inputDim : ℝ) : ℂ) := by
    intro o a h0 h1
    unfold RnnHead.select
    rw [hdim, Finset.sum_eq_single a.toNat]
    · rw [hprob o _ (by omega), oneHot, if_pos ⟨by omega, by omega⟩]
      simp
    · intro b hb hne
      rw [oneHot, if_neg (by omega)]
      simp
    · intro hnot
      exact absurd (Finset.mem_range.2 (by omega)) hnot
  have hscan : ∀ (x : List ℤ) (c : S × (ℕ → ℝ)), (∀ a ∈ x, 0 ≤ a ∧ a < inputDim) →
      (rnnScan ⟨head, cell, zeroCarry⟩ c (x.map (oneHot inputDim))).sum
        = ((-logProbFactor * x.length * Real.log inputDim : ℝ) : ℂ) := by
    intro x
    induction x with
    | nil => intro c _; simp [rnnScan]
    | cons a x ih =>
      intro c ha
      rw [List.map_cons, rnnScan, List.sum_cons, ih _ fun b hb => ha b (List.mem_cons_of_mem _ hb)]
      rw [hsel _ a (ha a List.mem_cons_self).1 (ha a List.mem_cons_self).2]
      push_cast [List.length_cons]
      ring
  exact hscan x _ hx

/-- Non-vacuity: with `initScale = 0` such a kernel is drawn by any draws. -/
example (u v : ℝ) : kernelEntry (rnn1dInits 0 true).out false 10 2 u v = .ok ((0 : ℝ) : ℂ) := by
  simp [kernelEntry, rnn1dInits]

end JVMC
