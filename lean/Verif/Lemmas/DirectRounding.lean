import Verif.Model.DirectRounding
import Verif.Spec.DirectRounding
import Verif.Lemmas.LocalRounding
import Verif.Lemmas.McmcSampling
import Verif.Lemmas.RnnSym

/-! # Helper lemmas: rounding errors of direct sampling -/

namespace JVMC

open Spec

/-! ## `log_softmax` -/

theorem list_max_spec (n : ℕ) (hn : 0 < n) (a : ℕ → ℝ) :
    ∃ m, ((List.range n).map a).max?.getD 0 = m ∧ (∃ k < n, a k = m) ∧ ∀ k < n, a k ≤ m := by
  have hne : (List.range n).map a ≠ [] := by simp; omega
  obtain ⟨m, hm⟩ : ∃ m, ((List.range n).map a).max? = some m := by
    rw [← Option.isSome_iff_exists, List.isSome_max?_iff]
    exact hne
  refine ⟨m, by rw [hm]; rfl, ?_, ?_⟩
  · have := List.max?_mem hm
    obtain ⟨k, hk, rfl⟩ := List.mem_map.mp this
    exact ⟨k, List.mem_range.mp hk, rfl⟩
  · intro k hk
    exact (List.max?_le_iff hm).mp le_rfl _ (List.mem_map_of_mem (List.mem_range.mpr hk))

theorem neg_log_one_sub {x : ℝ} (h0 : 0 ≤ x) (h1 : x ≤ 1 / 2) : -(2 * x) ≤ Real.log (1 - x) := by
  have h : 0 < 1 - x := by linarith
  have := Real.one_sub_inv_le_log_of_pos h
  have h2 : (1 - x)⁻¹ ≤ 1 + 2 * x := by
    rw [inv_le_comm₀ h (by linarith)]
    rw [inv_le_iff_one_le_mul₀ (by linarith)]
    nlinarith
  linarith

theorem log_one_add_le {x : ℝ} (h0 : 0 ≤ x) : Real.log (1 + x) ≤ x := by
  have := Real.log_le_sub_one_of_pos (by linarith : 0 < 1 + x)
  linarith

theorem lse_lipschitz (n : ℕ) (hn : 0 < n) {a b : ℕ → ℝ} {ε : ℝ} (h : ∀ k < n, |b k - a k| ≤ ε) :
    |Real.log (∑ k ∈ Finset.range n, Real.exp (b k)) - Real.log (∑ k ∈ Finset.range n, Real.exp (a k))| ≤ ε := by
  have pos : ∀ c : ℕ → ℝ, 0 < ∑ k ∈ Finset.range n, Real.exp (c k) := fun c =>
    Finset.sum_pos (fun _ _ => Real.exp_pos _) ⟨0, Finset.mem_range.mpr hn⟩
  have key : ∀ c d : ℕ → ℝ, (∀ k < n, d k ≤ c k + ε) →
      Real.log (∑ k ∈ Finset.range n, Real.exp (d k)) ≤ Real.log (∑ k ∈ Finset.range n, Real.exp (c k)) + ε := by
    intro c d hcd
    rw [← Real.log_exp ε, ← Real.log_mul (pos c).ne' (Real.exp_pos _).ne']
    refine Real.log_le_log (pos d) ?_
    rw [Finset.sum_mul]
    refine Finset.sum_le_sum fun k hk => ?_
    rw [← Real.exp_add]
    exact Real.exp_le_exp.mpr (hcd k (Finset.mem_range.mp hk))
  rw [abs_le]
  have k1 := key a b fun k hk => by linarith [(abs_le.mp (h k hk)).2]
  have k2 := key b a fun k hk => by linarith [(abs_le.mp (h k hk)).1]
  constructor <;> linarith

theorem logSoftmax_near (n : ℕ) (hn : 0 < n) {a b : ℕ → ℝ} {ε : ℝ} (h : ∀ k < n, |b k - a k| ≤ ε) {j : ℕ} (hj : j < n) :
    |logSoftmax n b j - logSoftmax n a j| ≤ 2 * ε := by
  rw [logSoftmax_eq n hn, logSoftmax_eq n hn]
  have h1 := abs_le.mp (lse_lipschitz n hn h)
  have h2 := abs_le.mp (h j hj)
  rw [abs_le]
  constructor <;> linarith

theorem lse_bounds (n : ℕ) {s : ℕ → ℝ} (h0 : ∃ k < n, s k = 0) (h1 : ∀ k < n, s k ≤ 0) :
    0 ≤ Real.log (∑ k ∈ Finset.range n, Real.exp (s k)) ∧ Real.log (∑ k ∈ Finset.range n, Real.exp (s k)) ≤ Real.log n := by
  obtain ⟨k0, hk0, hs⟩ := h0
  have g1 : 1 ≤ ∑ k ∈ Finset.range n, Real.exp (s k) := by
    have := Finset.single_le_sum (f := fun k => Real.exp (s k)) (fun k _ => (Real.exp_pos _).le) (Finset.mem_range.mpr hk0)
    simpa [hs] using this
  refine ⟨Real.log_nonneg g1, Real.log_le_log (by linarith) ?_⟩
  calc _ ≤ ∑ k ∈ Finset.range n, (1 : ℝ) := Finset.sum_le_sum fun k hk => by
        rw [← Real.exp_zero]
        exact Real.exp_le_exp.mpr (h1 k (Finset.mem_range.mp hk))
    _ = n := by simp

/-- The modulus of logarithmic probabilities. -/
theorem logSoftmax_abs (n : ℕ) (hn : 0 < n) {a : ℕ → ℝ} {B : ℝ} (hB : ∀ k < n, |a k| ≤ B) {j : ℕ} (hj : j < n) :
    |logSoftmax n a j| ≤ 2 * B + Real.log n := by
  obtain ⟨m, hm, ⟨k0, hk0, hk0m⟩, hmax⟩ := list_max_spec n hn a
  unfold logSoftmax
  dsimp only
  rw [hm]
  obtain ⟨g1, g2⟩ := lse_bounds n (s := fun k => a k - m) ⟨k0, hk0, by rw [hk0m, sub_self]⟩
    fun k hk => by linarith [hmax k hk]
  have h1 := abs_le.mp (hB j hj)
  have h2 := abs_le.mp (hB k0 hk0)
  have h3 := hmax j hj
  rw [abs_le]
  constructor <;> linarith

theorem forall₂_map_range {n : ℕ} {f g : ℕ → ℝ} {R : ℝ → ℝ → Prop} (h : ∀ k < n, R (f k) (g k)) :
    List.Forall₂ R ((List.range n).map f) ((List.range n).map g) := by
  rw [List.forall₂_map_left_iff, List.forall₂_map_right_iff, List.forall₂_same]
  exact fun k hk => h k (List.mem_range.mp hk)

theorem sum_map_range (n : ℕ) (f : ℕ → ℝ) : ((List.range n).map f).sum = ∑ k ∈ Finset.range n, f k := rfl

/-- A computed sum of positive numbers. -/
theorem sums_pos_bounds {r : Rounding} {n : ℕ} {f : ℕ → ℝ} (hf : ∀ k < n, 0 ≤ f k) {v : ℝ} (h : Sums r ((List.range n).map f) v) :
    (1 - r.u) ^ n * (∑ k ∈ Finset.range n, f k) ≤ v ∧ v ≤ (1 + r.u) ^ n * ∑ k ∈ Finset.range n, f k := by
  obtain ⟨ys, h1, rfl⟩ := sums_near h
  have h2 : List.Forall₂ (WithinFactor r.u n) ((List.range n).map f) ys :=
    h1.imp fun _ _ hxy => near_mono r (by simp) hxy
  rw [← sum_map_range]
  have hf' : ∀ x ∈ (List.range n).map f, 0 ≤ x := by
    intro x hx
    obtain ⟨k, hk, rfl⟩ := List.mem_map.mp hx
    exact hf k (List.mem_range.mp hk)
  clear h h1
  generalize (List.range n).map f = l0 at h2 hf'
  induction h2 with
  | nil => simp
  | @cons x y l l' hxy _ ih =>
    obtain ⟨i1, i2⟩ := ih fun z hz => hf' z (List.mem_cons_of_mem _ hz)
    have hx := hf' x (List.mem_cons_self ..)
    obtain ⟨t, t1, t2, rfl⟩ := hxy
    rw [List.sum_cons, List.sum_cons]
    constructor
    · have := mul_le_mul_of_nonneg_right t1 hx
      linarith
    · have := mul_le_mul_of_nonneg_right t2 hx
      linarith

/-- The computed `log_softmax`. -/
theorem logSoftmaxM_err (M : Machine) {v w : ℝ} (hv0 : 0 ≤ v) (hv : v ≤ 1 / 2) (hw : 0 ≤ w) (hu : M.r.u ≤ 1 / 2)
    (he : RExpWithin v M.exp) (hl : LogWithin w M.log) (n : ℕ) (hn : 0 < n) {a : ℕ → ℝ} {B : ℝ} (hB : ∀ k < n, |a k| ≤ B)
    {j : ℕ} (hj : j < n) :
    |logSoftmaxM M n a j - logSoftmax n a j| ≤ (1 + M.r.u) * (M.r.u * (2 * B) + lseError M.r.u v w n (2 * B)) +
      M.r.u * (2 * B + Real.log n) := by
  have habs := logSoftmax_abs n hn hB hj
  obtain ⟨m, hm, ⟨k0, hk0, hk0m⟩, hmax⟩ := list_max_spec n hn a
  unfold logSoftmaxM
  unfold logSoftmax at habs ⊢
  dsimp only at habs ⊢
  rw [hm] at habs ⊢
  have hu0 := M.r.u_nonneg
  set u := M.r.u with hudef
  set s : ℕ → ℝ := fun k => M.r.rnd (a k - m) with hs
  have hD : ∀ k < n, |a k - m| ≤ 2 * B := fun k hk => by
    have h1 := abs_le.mp (hB k hk)
    have h2 := abs_le.mp (hB k0 hk0)
    rw [abs_le]
    constructor <;> linarith
  have hsk : ∀ k < n, |s k - (a k - m)| ≤ u * (2 * B) := fun k hk =>
    (M.r.err _).trans (mul_le_mul_of_nonneg_left (hD k hk) hu0)
  have hB0 : 0 ≤ B := (abs_nonneg _).trans (hB k0 hk0)
  obtain ⟨g1, g2⟩ := lse_bounds n (s := fun k => a k - m) ⟨k0, hk0, by rw [hk0m, sub_self]⟩
    fun k hk => by linarith [hmax k hk]
  set lse := Real.log (∑ k ∈ Finset.range n, Real.exp (a k - m)) with hlse
  -- the sum
  have hex : ∀ k, (1 - v) * Real.exp (s k) ≤ M.exp (s k) ∧ M.exp (s k) ≤ (1 + v) * Real.exp (s k) := fun k => by
    have := abs_le.mp (he (s k))
    constructor <;> linarith
  have hpos : ∀ k, 0 ≤ M.exp (s k) := fun k =>
    le_trans (mul_nonneg (by linarith) (Real.exp_pos _).le) (hex k).1
  obtain ⟨q1, q2⟩ := sums_pos_bounds (f := fun k => M.exp (s k)) (fun k _ => hpos k)
    (M.sum_ok ((List.range n).map fun k => M.exp (s k)))
  set S' := M.sum ((List.range n).map fun k => M.exp (s k)) with hS'
  set T := ∑ k ∈ Finset.range n, Real.exp (s k) with hT
  have hTpos : 0 < T := Finset.sum_pos (fun _ _ => Real.exp_pos _) ⟨0, Finset.mem_range.mpr hn⟩
  have p1 : (1 - v) * T ≤ ∑ k ∈ Finset.range n, M.exp (s k) := by
    rw [hT, Finset.mul_sum]
    exact Finset.sum_le_sum fun k _ => (hex k).1
  have p2 : ∑ k ∈ Finset.range n, M.exp (s k) ≤ (1 + v) * T := by
    rw [hT, Finset.mul_sum]
    exact Finset.sum_le_sum fun k _ => (hex k).2
  have h1u : 0 < 1 - u := by linarith
  have lo : (1 - u) ^ n * ((1 - v) * T) ≤ S' := (mul_le_mul_of_nonneg_left p1 (by positivity)).trans q1
  have hi : S' ≤ (1 + u) ^ n * ((1 + v) * T) := q2.trans (mul_le_mul_of_nonneg_left p2 (by positivity))
  have h1v : 0 < 1 - v := by linarith
  have hS'pos : 0 < S' := lt_of_lt_of_le (by positivity) lo
  have llo := Real.log_le_log (by positivity) lo
  have lhi := Real.log_le_log hS'pos hi
  rw [Real.log_mul (by positivity) (by positivity), Real.log_mul h1v.ne' hTpos.ne', Real.log_pow] at llo
  rw [Real.log_mul (by positivity) (by positivity), Real.log_mul (by positivity) hTpos.ne', Real.log_pow] at lhi
  have e1 := mul_le_mul_of_nonneg_left (neg_log_one_sub hu0 hu) (Nat.cast_nonneg (α := ℝ) n)
  have e2 := neg_log_one_sub hv0 hv
  have e3 := mul_le_mul_of_nonneg_left (log_one_add_le hu0) (Nat.cast_nonneg (α := ℝ) n)
  have e4 := log_one_add_le hv0
  have e5 := abs_le.mp (lse_lipschitz n hn hsk)
  have hnu : 0 ≤ (n : ℝ) * u := by positivity
  set η := u * (2 * B) + 2 * v + 2 * n * u with hη
  have hη1 : |Real.log S' - lse| ≤ η := by
    rw [abs_le, hη]
    constructor
    · have := e5.1
      linarith
    · have := e5.2
      linarith
  have hη0 : 0 ≤ η := (abs_nonneg _).trans hη1
  have hη2 : |Real.log S'| ≤ Real.log n + η := by
    have := abs_le.mp hη1
    have hln : 0 ≤ Real.log n := g1.trans g2
    rw [abs_le]
    constructor <;> linarith
  have hη3 : |M.log S' - lse| ≤ lseError u v w n (2 * B) := by
    have t1 := hl S' hS'pos
    have t2 := mul_le_mul_of_nonneg_left hη2 hw
    have t3 : |M.log S' - lse| ≤ |M.log S' - Real.log S'| + |Real.log S' - lse| := abs_sub_le _ _ _
    unfold lseError
    rw [← hη]
    linarith
  -- the difference
  have hy : |(s j - M.log S') - (a j - m - lse)| ≤ u * (2 * B) + lseError u v w n (2 * B) := by
    have t1 := hsk j hj
    have : (s j - M.log S') - (a j - m - lse) = (s j - (a j - m)) - (M.log S' - lse) := by ring
    rw [this]
    exact (abs_sub _ _).trans (add_le_add t1 hη3)
  have hz := M.r.err (s j - M.log S')
  have hz2 : |s j - M.log S'| ≤ (u * (2 * B) + lseError u v w n (2 * B)) + (2 * B + Real.log n) := by
    have := abs_sub_abs_le_abs_sub (s j - M.log S') (a j - m - lse)
    linarith
  have hz3 := mul_le_mul_of_nonneg_left hz2 hu0
  have t := abs_sub_le (M.r.rnd (s j - M.log S')) (s j - M.log S') (a j - m - lse)
  change |M.r.rnd (s j - M.log S') - (a j - m - lse)| ≤ _
  nlinarith

/-- The computed logarithm of a conditional probability. -/
theorem logit_err (M : Machine) {v w : ℝ} (hv0 : 0 ≤ v) (hv : v ≤ 1 / 2) (hw : 0 ≤ w) (hu : M.r.u ≤ 1 / 2)
    (he : RExpWithin v M.exp) (hl : LogWithin w M.log) (n : ℕ) (hn : 0 < n) (κ : ℝ) (hκ : κ ≠ 0) {x y : ℕ → ℝ} {a B : ℝ}
    (hB : ∀ k < n, |x k| ≤ B) (ha : ∀ k < n, |y k - x k| ≤ a) {j : ℕ} (hj : j < n) :
    |logSoftmaxM M n y j - logSoftmax n x j| ≤ softmaxError M.r.u v w a B n ∧
      |M.r.rnd (M.r.rnd (κ * logSoftmaxM M n y j) / κ) - logSoftmax n x j| ≤ logitError M.r.u v w a B n := by
  have hB' : ∀ k < n, |y k| ≤ B + a := fun k hk => by
    have := abs_sub_abs_le_abs_sub (y k) (x k)
    linarith [hB k hk, ha k hk]
  have h1 := logSoftmaxM_err M hv0 hv hw hu he hl n hn hB' hj
  have h2 := logSoftmax_near n hn ha hj
  have h3 : |logSoftmaxM M n y j - logSoftmax n x j| ≤ softmaxError M.r.u v w a B n := by
    have := abs_sub_le (logSoftmaxM M n y j) (logSoftmax n y j) (logSoftmax n x j)
    unfold softmaxError
    linarith
  refine ⟨h3, ?_⟩
  have h4 := logSoftmax_abs n hn hB hj
  set s' := logSoftmaxM M n y j
  set s := logSoftmax n x j
  have hu0 := M.r.u_nonneg
  set u := M.r.u
  have r1 : |M.r.rnd (κ * s') / κ - s'| ≤ u * |s'| := by
    have e : M.r.rnd (κ * s') / κ - s' = (M.r.rnd (κ * s') - κ * s') / κ := by field_simp
    rw [e, abs_div, div_le_iff₀ (abs_pos.mpr hκ)]
    refine (M.r.err _).trans (le_of_eq ?_)
    rw [abs_mul]
    ring
  set t := M.r.rnd (κ * s') / κ
  have r2 : |M.r.rnd t - t| ≤ u * |t| := M.r.err t
  have r3 : |t| ≤ (1 + u) * |s'| := by
    have := abs_sub_abs_le_abs_sub t s'
    linarith
  have r4 := mul_le_mul_of_nonneg_left r3 hu0
  have r5 : |s'| ≤ softmaxError u v w a B n + (2 * B + Real.log n) := by
    have := abs_sub_abs_le_abs_sub s' s
    linarith
  have r6 : |M.r.rnd t - s| ≤ |M.r.rnd t - t| + |t - s'| + |s' - s| := by
    have e : M.r.rnd t - s = (M.r.rnd t - t) + (t - s') + (s' - s) := by ring
    rw [e]
    exact abs_add_three _ _ _
  have r7 : |M.r.rnd t - s| ≤ ((1 + u) ^ 2 - 1) * |s'| + |s' - s| := by nlinarith
  have r8 := mul_le_mul_of_nonneg_left r5 (by nlinarith : 0 ≤ (1 + u) ^ 2 - 1)
  unfold logitError
  nlinarith

/-- Softmax of nearby logits. -/
theorem softmax_close (n : ℕ) (hn : 0 < n) {x y : ℕ → ℝ} {β : ℝ} (hx : ∑ k ∈ Finset.range n, Real.exp (x k) = 1)
    (h : ∀ k < n, |y k - x k| ≤ β) :
    ∑ j ∈ Finset.range n, |Real.exp (y j) / ∑ k ∈ Finset.range n, Real.exp (y k) - Real.exp (x j)| ≤ Real.exp (2 * β) - 1 := by
  have hZ : 0 < ∑ k ∈ Finset.range n, Real.exp (y k) :=
    Finset.sum_pos (fun _ _ => Real.exp_pos _) ⟨0, Finset.mem_range.mpr hn⟩
  have hlog := lse_lipschitz n hn h
  rw [hx, Real.log_one, sub_zero] at hlog
  set Z := ∑ k ∈ Finset.range n, Real.exp (y k)
  have key : ∀ j < n, |Real.exp (y j) / Z - Real.exp (x j)| ≤ (Real.exp (2 * β) - 1) * Real.exp (x j) := by
    intro j hj
    set d := y j - Real.log Z - x j with hd
    have hd1 : |d| ≤ 2 * β := by
      have h1 := abs_le.mp (h j hj)
      have h2 := abs_le.mp hlog
      rw [abs_le]
      constructor <;> linarith
    have e : Real.exp (y j) / Z - Real.exp (x j) = (Real.exp d - 1) * Real.exp (x j) := by
      rw [sub_mul, one_mul, ← Real.exp_add]
      congr 1
      rw [hd, sub_add_cancel, Real.exp_sub, Real.exp_log hZ]
    rw [e, abs_mul, abs_of_pos (Real.exp_pos (x j))]
    refine mul_le_mul_of_nonneg_right ?_ (Real.exp_pos _).le
    rw [abs_le]
    have h2 := abs_le.mp hd1
    constructor
    · have a1 := Real.add_one_le_exp d
      have a2 := Real.add_one_le_exp (2 * β)
      linarith
    · have := Real.exp_le_exp.mpr h2.2
      linarith
  calc _ ≤ ∑ j ∈ Finset.range n, (Real.exp (2 * β) - 1) * Real.exp (x j) :=
        Finset.sum_le_sum fun j hj => key j (Finset.mem_range.mp hj)
    _ = _ := by rw [← Finset.mul_sum, hx, mul_one]

/-! ## Close distributions -/

/-- Means of functions that agree up to `ε` on related outcomes agree up to `δ + ε`. -/
def CloseTo {A B : Type} (R : A → B → Prop) (δ : ℝ) (d : WDist A) (d' : WDist B) : Prop :=
  ∀ (ε : ℝ) (F : A → ℝ) (F' : B → ℝ), (∀ x, |F x| ≤ 1) → (∀ x, |F' x| ≤ 1) → (∀ x y, R x y → |F x - F' y| ≤ ε) →
    |expect d F - expect d' F'| ≤ δ + ε

theorem average_eq_expect {A : Type} (d : WDist A) (F : A → ℝ) : average d F = expect d F := rfl

theorem isLaw_pure' {A : Type} (x : A) : IsLaw (WDist.pure x) := ⟨by simp [WDist.pure], by simp [average, WDist.pure]⟩

theorem closeTo_pure {A B : Type} {R : A → B → Prop} {x : A} {y : B} (h : R x y) : CloseTo R 0 (WDist.pure x) (WDist.pure y) := by
  intro ε F F' _ _ hR
  rw [expect_pure, expect_pure, zero_add]
  exact hR x y h

theorem closeTo_bind {A B A' B' : Type} {R : A → B → Prop} {S : A' → B' → Prop} {δ₁ δ₂ : ℝ} {d : WDist A} {d' : WDist B}
    (h : CloseTo R δ₁ d d') {f : A → WDist A'} {f' : B → WDist B'} (hf : ∀ x, IsLaw (f x)) (hf' : ∀ y, IsLaw (f' y))
    (hS : ∀ x y, R x y → CloseTo S δ₂ (f x) (f' y)) : CloseTo S (δ₁ + δ₂) (WDist.bind d f) (WDist.bind d' f') := by
  intro ε F F' h1 h2 h3
  rw [expect_bind, expect_bind, add_assoc]
  exact h (δ₂ + ε) (fun x => expect (f x) F) (fun y => expect (f' y) F')
    (fun x => average_abs_le (hf x) fun e _ => h1 e.1) (fun y => average_abs_le (hf' y) fun e _ => h2 e.1)
    fun x y hxy => hS x y hxy ε F F' h1 h2 h3

/-- Means in terms of probabilities. -/
theorem expect_eq_sum {A T : Type} [Fintype T] (d : WDist A) (g : T → A) (hg : Function.Injective g) (F : A → ℝ)
    (hF : ∀ e ∈ d, (∃ t, g t = e.1) ∨ F e.1 = 0) : expect d F = ∑ t, prob d (g t) * F (g t) := by
  classical
  unfold expect prob
  induction d with
  | nil => simp
  | cons e d ih =>
    rw [List.map_cons, List.sum_cons, ih fun e' he' => hF e' (List.mem_cons_of_mem _ he')]
    simp only [List.map_cons, List.sum_cons, add_mul, Finset.sum_add_distrib]
    congr 1
    rcases hF e (List.mem_cons_self ..) with ⟨t, ht⟩ | h0
    · rw [Finset.sum_eq_single t]
      · rw [if_pos ht.symm, ht]
      · intro b _ hb
        rw [if_neg (fun hh => hb (hg (hh.symm.trans ht.symm))), zero_mul]
      · simp
    · rw [h0, mul_zero, Finset.sum_eq_zero]
      intro t _
      split_ifs with hh
      · rw [← hh, h0, mul_zero]
      · rw [zero_mul]

/-- Close distributions have close probabilities. -/
theorem closeTo_sum {A T : Type} [Fintype T] {δ : ℝ} {d d' : WDist A} (h : CloseTo Eq δ d d') (g : T → A)
    (hg : Function.Injective g) : ∑ t, |prob d' (g t) - prob d (g t)| ≤ δ := by
  classical
  let F : A → ℝ := fun x => if ∃ t, g t = x then (if prob d x ≤ prob d' x then 1 else -1) else 0
  have hF : ∀ x, |F x| ≤ 1 := by
    intro x
    dsimp only [F]
    split_ifs <;> simp
  have key := h 0 F F hF hF fun x y hxy => by rw [hxy, sub_self, abs_zero]
  have hz : ∀ (d'' : WDist A), ∀ e ∈ d'', (∃ t, g t = e.1) ∨ F e.1 = 0 := by
    intro d'' e _
    by_cases hh : ∃ t, g t = e.1
    · exact Or.inl hh
    · exact Or.inr (if_neg hh)
  rw [expect_eq_sum d g hg F (hz d), expect_eq_sum d' g hg F (hz d'), ← Finset.sum_sub_distrib, add_zero] at key
  refine le_trans (le_of_eq ?_) ((neg_le_abs _).trans key)
  rw [← Finset.sum_neg_distrib]
  refine Finset.sum_congr rfl fun t _ => ?_
  have : F (g t) = if prob d (g t) ≤ prob d' (g t) then 1 else -1 := if_pos ⟨t, rfl⟩
  rw [this]
  split_ifs with hh
  · rw [abs_of_nonneg (by linarith)]
    ring
  · rw [abs_of_neg (by linarith [not_le.mp hh])]
    ring

/-- Close distributions have close means. -/
theorem closeTo_mean {A : Type} {δ : ℝ} {d d' : WDist A} (h : CloseTo Eq δ d d') (F : A → ℝ) {K : ℝ} (hK : 0 < K)
    (hF : ∀ x, |F x| ≤ K) : |average d' F - average d F| ≤ K * δ := by
  have hs : ∀ d'' : WDist A, average d'' F = K * expect d'' fun x => F x / K := by
    intro d''
    unfold average expect
    rw [← List.sum_map_mul_left]
    congr 1
    refine List.map_congr_left fun e _ => ?_
    field_simp
  have hb : ∀ x, |F x / K| ≤ 1 := fun x => by
    rw [abs_div, abs_of_pos hK, div_le_one hK]
    exact hF x
  have key := h 0 (fun x => F x / K) (fun x => F x / K) hb hb fun x y hxy => by rw [hxy, sub_self, abs_zero]
  rw [hs, hs, ← mul_sub, abs_mul, abs_of_pos hK, abs_sub_comm]
  rw [add_zero] at key
  exact mul_le_mul_of_nonneg_left key hK.le

/-! ## One draw -/

theorem draw_law {O : Type} {h : RnnHead O} (hh : Normed h) (o : O) : IsLaw (h.draw o) := by
  refine ⟨?_, expect_draw_one hh o⟩
  intro e he
  unfold RnnHead.draw categorical at he
  obtain ⟨j, _, rfl⟩ := List.mem_map.mp he
  exact div_nonneg (Real.exp_pos _).le (Finset.sum_nonneg fun _ _ => (Real.exp_pos _).le)

/-- The drawn local states agree. -/
def SameState (n : ℕ) (j j' : ℤ) : Prop := j = j' ∧ j ∈ localStates n

theorem draw_close {O O' : Type} (M : Machine) {v w c a B : ℝ} (hv0 : 0 ≤ v) (hv : v ≤ 1 / 2) (hw : 0 ≤ w) (hu : M.r.u ≤ 1 / 2)
    (he : RExpWithin v M.exp) (hl : LogWithin w M.log) (hc : DrawWithin c M.draw) (n : ℕ) (hn : 0 < n) (κ : ℝ) (hκ : κ ≠ 0)
    (ha0 : 0 ≤ a) (hB0 : 0 ≤ B) (rv : Bool) (dense : O → ℕ → ℝ) (dense' : O' → ℕ → ℝ) {o : O} {o' : O'}
    (h : ∀ k < (n - 1) * (if rv then 1 else 2), |dense' o' k - dense o k| ≤ a ∧ |dense o k| ≤ B) :
    CloseTo (SameState n) (drawError M.r.u v w a B n c) ((realHead n κ rv dense).draw o)
      ((machineHead M n κ rv dense').drawM M o') := by
  set x : ℕ → ℝ := fun k => if k = 0 then 0 else dense o (k - 1) with hx
  set y : ℕ → ℝ := fun k => if k = 0 then 0 else dense' o' (k - 1) with hy
  have hk : ∀ k < n, k ≠ 0 → k - 1 < (n - 1) * (if rv then 1 else 2) := by
    intro k hk hk0
    cases rv <;> simp <;> omega
  have hB : ∀ k < n, |x k| ≤ B := by
    intro k hkn
    dsimp only [x]
    split_ifs with h0
    · simpa using hB0
    · exact (h _ (hk k hkn h0)).2
  have ha : ∀ k < n, |y k - x k| ≤ a := by
    intro k hkn
    dsimp only [x, y]
    split_ifs with h0
    · simpa using ha0
    · exact (h _ (hk k hkn h0)).1
  set β := logitError M.r.u v w a B n
  set logits : ℕ → ℝ := fun j => M.r.rnd (M.r.rnd (κ * logSoftmaxM M n y j) / κ) with hlog
  have hlogit : ∀ k < n, |logits k - logSoftmax n x k| ≤ β := fun k hkn =>
    (logit_err M hv0 hv hw hu he hl n hn κ hκ hB ha hkn).2
  have hdraw' : (machineHead M n κ rv dense').drawM M o' = M.draw n logits := rfl
  have hsoft := softmax_close n hn (logSoftmax_exp n hn x) hlogit
  obtain ⟨law, supp, hc1⟩ := hc n logits hn
  intro ε F F' h1 h2 h3
  rw [hdraw', expect_draw (realHead_normed n hn κ hκ rv dense)]
  have e1 : ((localStates (realHead n κ rv dense).inputDim).map fun z : ℤ =>
      Real.exp (((realHead n κ rv dense).select o (oneHot (realHead n κ rv dense).inputDim z)).re /
        (realHead n κ rv dense).logProbFactor) * F z).sum = ∑ j ∈ Finset.range n, Real.exp (logSoftmax n x j) * F j := by
    rw [← sum_map_range]
    change ((localStates n).map _).sum = _
    unfold localStates
    rw [List.map_map]
    congr 1
    refine List.map_congr_left fun j hj => ?_
    rw [Function.comp_apply, select_oneHot _ _ (mem_localStates.mpr ⟨by positivity, by
      change (j : ℤ) < (n : ℤ)
      exact_mod_cast List.mem_range.mp hj⟩)]
    change Real.exp ((logCoeffsToLogProbs n κ rv (dense o) _).re / κ) * _ = _
    rw [logCoeffs_re, mul_div_cancel_left₀ _ hκ]
    simp [hx]
  have e2 : expect (M.draw n logits) F' = ∑ j ∈ Finset.range n, prob (M.draw n logits) j * F' j := by
    rw [expect_eq_sum (M.draw n logits) (fun t : Fin n => ((t : ℕ) : ℤ)) (fun s t hst => Fin.ext (Int.ofNat_inj.mp hst))]
    · exact (Finset.sum_range fun j : ℕ => prob (M.draw n logits) j * F' j).symm
    · intro e' he'
      obtain ⟨s1, s2⟩ := supp e' he'
      exact Or.inl ⟨⟨e'.1.toNat, by omega⟩, by simp; omega⟩
  rw [e1, e2]
  set p : ℕ → ℝ := fun j => Real.exp (logSoftmax n x j) with hp
  set q : ℕ → ℝ := fun j => prob (M.draw n logits) j with hq
  have hp1 : ∑ j ∈ Finset.range n, p j = 1 := logSoftmax_exp n hn x
  have hpq : ∑ j ∈ Finset.range n, |q j - p j| ≤ drawError M.r.u v w a B n c := by
    unfold drawError
    rw [add_comm]
    refine le_trans ?_ (add_le_add hc1 hsoft)
    rw [← Finset.sum_add_distrib]
    exact Finset.sum_le_sum fun j _ => abs_sub_le _ _ _
  have split : ∑ j ∈ Finset.range n, p j * F j - ∑ j ∈ Finset.range n, q j * F' j =
      ∑ j ∈ Finset.range n, p j * (F j - F' j) - ∑ j ∈ Finset.range n, (q j - p j) * F' j := by
    rw [← Finset.sum_sub_distrib, ← Finset.sum_sub_distrib]
    exact Finset.sum_congr rfl fun j _ => by ring
  change |∑ j ∈ Finset.range n, p j * F j - ∑ j ∈ Finset.range n, q j * F' j| ≤ _
  rw [split]
  have t1 : |∑ j ∈ Finset.range n, p j * (F j - F' j)| ≤ ε := by
    calc _ ≤ ∑ j ∈ Finset.range n, p j * ε := by
          refine (Finset.abs_sum_le_sum_abs _ _).trans (Finset.sum_le_sum fun j hj => ?_)
          rw [abs_mul, abs_of_pos (Real.exp_pos _)]
          refine mul_le_mul_of_nonneg_left (h3 _ _ ⟨rfl, mem_localStates.mpr ⟨by positivity, ?_⟩⟩) (Real.exp_pos _).le
          exact_mod_cast Finset.mem_range.mp hj
      _ = ε := by rw [← Finset.sum_mul, hp1, one_mul]
  have t2 : |∑ j ∈ Finset.range n, (q j - p j) * F' j| ≤ drawError M.r.u v w a B n c := by
    refine (Finset.abs_sum_le_sum_abs _ _).trans (le_trans (Finset.sum_le_sum fun j _ => ?_) hpq)
    rw [abs_mul]
    exact mul_le_of_le_one_right (abs_nonneg _) (h2 _)
  have := abs_sub (∑ j ∈ Finset.range n, p j * (F j - F' j)) (∑ j ∈ Finset.range n, (q j - p j) * F' j)
  linarith

/-! ## Chains -/

section

variable {H O H' O' : Type}

theorem drawM_law {M : Machine} {c : ℝ} (hc : DrawWithin c M.draw) {h : RnnHead O} (hn : 0 < h.inputDim) (o : O) :
    IsLaw (h.drawM M o) := (hc _ _ hn).1

theorem rnnSampleScan_law (net : Rnn1D H O) (hh : Normed net.head) (n : ℕ) (c : H × (ℕ → ℝ)) : IsLaw (rnnSampleScan net c n) := by
  induction n generalizing c with
  | zero => exact isLaw_pure' _
  | succ n ih =>
    rw [rnnSampleScan]
    refine isLaw_bind' (draw_law hh _) _ fun e _ => ?_
    exact isLaw_bind' (ih _) _ fun _ _ => isLaw_pure' _

theorem rnnSampleScanM_law {M : Machine} {c : ℝ} (hc : DrawWithin c M.draw) (net : Rnn1D H O) (hn : 0 < net.head.inputDim) (n : ℕ)
    (s : H × (ℕ → ℝ)) : IsLaw (rnnSampleScanM M net s n) := by
  induction n generalizing s with
  | zero => exact isLaw_pure' _
  | succ n ih =>
    rw [rnnSampleScanM]
    refine isLaw_bind' (drawM_law hc hn _) _ fun e _ => ?_
    exact isLaw_bind' (ih _) _ fun _ _ => isLaw_pure' _

/-- Nearby outputs of the cells. -/
def OutNear (a B : ℝ) (m : ℕ) (dense : O → ℕ → ℝ) (dense' : O' → ℕ → ℝ) (o : O) (o' : O') : Prop :=
  ∀ k < m, |dense' o' k - dense o k| ≤ a ∧ |dense o k| ≤ B

theorem zero_mem_states {n : ℕ} (hn : 0 < n) : (0 : ℤ) ∈ localStates n := mem_localStates.mpr ⟨le_rfl, by exact_mod_cast hn⟩

theorem replicate_mem_listsOver {A : Type} {alphabet : List A} {x : A} (hx : x ∈ alphabet) (n : ℕ) :
    List.replicate n x ∈ listsOver alphabet n := by
  rw [mem_listsOver]
  exact ⟨List.length_replicate, fun y hy => by rw [List.eq_of_mem_replicate hy]; exact hx⟩

theorem cons_mem_listsOver {A : Type} {alphabet : List A} {x : A} (hx : x ∈ alphabet) {n : ℕ} {l : List A}
    (hl : l ∈ listsOver alphabet n) : x :: l ∈ listsOver alphabet (n + 1) := by
  rw [mem_listsOver] at hl ⊢
  exact ⟨by simp [hl.1], fun y hy => by
    rcases List.mem_cons.mp hy with rfl | hy
    · exact hx
    · exact hl.2 y hy⟩

theorem scan_close {M : Machine} {v w c : ℝ} (hM : GoodMachine M v w c) {a B : ℝ} (ha0 : 0 ≤ a) (hB0 : 0 ≤ B) (n : ℕ) (hn : 0 < n)
    (κ : ℝ) (hκ : κ ≠ 0) (rv : Bool) (dense : O → ℕ → ℝ) (dense' : O' → ℕ → ℝ) (cell : H → (ℕ → ℝ) → H × O) (z : H)
    (cell' : H' → (ℕ → ℝ) → H' × O') (z' : H') (L : ℕ) (s : H × (ℕ → ℝ)) (s' : H' × (ℕ → ℝ))
    (h : ∀ x ∈ listsOver (localStates n) L, List.Forall₂ (OutNear a B ((n - 1) * (if rv then 1 else 2)) dense dense')
      (rnnOuts cell n s x) (rnnOuts cell' n s' x)) :
    CloseTo Eq (L * drawError M.r.u v w a B n c) (rnnSampleScan ⟨realHead n κ rv dense, cell, z⟩ s L)
      (rnnSampleScanM M ⟨machineHead M n κ rv dense', cell', z'⟩ s' L) := by
  induction L generalizing s s' with
  | zero =>
    rw [Nat.cast_zero, zero_mul]
    exact closeTo_pure rfl
  | succ L ih =>
    have hhead : OutNear a B ((n - 1) * (if rv then 1 else 2)) dense dense' (cell s.1 s.2).2 (cell' s'.1 s'.2).2 := by
      have := h _ (replicate_mem_listsOver (zero_mem_states hn) (L + 1))
      rw [List.replicate_succ, rnnOuts, rnnOuts, List.forall₂_cons] at this
      exact this.1
    have e : ((L + 1 : ℕ) : ℝ) * drawError M.r.u v w a B n c =
        drawError M.r.u v w a B n c + (L * drawError M.r.u v w a B n c + 0) := by
      push_cast
      ring
    rw [e, rnnSampleScan, rnnSampleScanM]
    have hdraw := draw_close M hM.v_nonneg hM.v_le hM.w_nonneg hM.u_le hM.exp hM.log hM.draw n hn κ hκ ha0 hB0 rv dense
      dense' hhead
    refine closeTo_bind hdraw (fun _ => ?_) (fun _ => ?_) ?_
    · exact isLaw_bind' (rnnSampleScan_law _ (realHead_normed n hn κ hκ rv dense) _ _) _ fun _ _ => isLaw_pure' _
    · exact isLaw_bind' (rnnSampleScanM_law hM.draw _ hn _ _) _ fun _ _ => isLaw_pure' _
    rintro j j' ⟨rfl, hj⟩
    refine closeTo_bind (ih _ _ ?_) (fun _ => isLaw_pure' _) (fun _ => isLaw_pure' _) ?_
    · intro x hx
      have := h _ (cons_mem_listsOver hj hx)
      rw [rnnOuts, rnnOuts, List.forall₂_cons] at this
      exact this.2
    · rintro l l' rfl
      exact closeTo_pure rfl

/-! ## Square lattices -/

theorem rnnSampleH_law (net : Rnn2D H O) (hh : Normed net.head) (vs : List (H × (ℕ → ℝ))) (c : H × (ℕ → ℝ)) :
    IsLaw (rnnSampleH net c vs) := by
  induction vs generalizing c with
  | nil => exact isLaw_pure' _
  | cons x vs ih =>
    rw [rnnSampleH]
    refine isLaw_bind' (draw_law hh _) _ fun e _ => ?_
    exact isLaw_bind' (ih _) _ fun _ _ => isLaw_pure' _

theorem rnnSampleHM_law {M : Machine} {c : ℝ} (hc : DrawWithin c M.draw) (net : Rnn2D H O) (hn : 0 < net.head.inputDim)
    (vs : List (H × (ℕ → ℝ))) (s : H × (ℕ → ℝ)) : IsLaw (rnnSampleHM M net s vs) := by
  induction vs generalizing s with
  | nil => exact isLaw_pure' _
  | cons x vs ih =>
    rw [rnnSampleHM]
    refine isLaw_bind' (drawM_law hc hn _) _ fun e _ => ?_
    exact isLaw_bind' (ih _) _ fun _ _ => isLaw_pure' _

theorem rnnSampleV_law (net : Rnn2D H O) (hh : Normed net.head) (n r : ℕ) (carry : List H × List (ℕ → ℝ)) :
    IsLaw (rnnSampleV net r carry n) := by
  induction n generalizing r carry with
  | zero => exact isLaw_pure' _
  | succ n ih =>
    rw [rnnSampleV]
    refine isLaw_bind' ?_ _ fun e _ => ?_
    · exact isLaw_bind' (rnnSampleH_law net hh _ _) _ fun _ _ => isLaw_pure' _
    · exact isLaw_bind' (ih _ _) _ fun _ _ => isLaw_pure' _

theorem rnnSampleVM_law {M : Machine} {c : ℝ} (hc : DrawWithin c M.draw) (net : Rnn2D H O) (hn : 0 < net.head.inputDim) (n r : ℕ)
    (carry : List H × List (ℕ → ℝ)) : IsLaw (rnnSampleVM M net r carry n) := by
  induction n generalizing r carry with
  | zero => exact isLaw_pure' _
  | succ n ih =>
    rw [rnnSampleVM]
    refine isLaw_bind' ?_ _ fun e _ => ?_
    · exact isLaw_bind' (rnnSampleHM_law hc net hn _ _) _ fun _ _ => isLaw_pure' _
    · exact isLaw_bind' (ih _ _) _ fun _ _ => isLaw_pure' _

/-- The results of two scans of a row with the same local states. -/
def SameRow (net : Rnn2D H O) (net' : Rnn2D H' O') (n : ℕ) (s : H × (ℕ → ℝ)) (s' : H' × (ℕ → ℝ)) (vs : List (H × (ℕ → ℝ)))
    (vs' : List (H' × (ℕ → ℝ))) (out : List (H × ℤ)) (out' : List (H' × ℤ)) : Prop :=
  ∃ ys ∈ listsOver (localStates n) vs.length, out = ((rowScan net s.1 s.2 vs ys).map Prod.fst).zip ys ∧
    out' = ((rowScan net' s'.1 s'.2 vs' ys).map Prod.fst).zip ys

theorem rowScan_cons (net : Rnn2D H O) (c : H) (xh : ℕ → ℝ) (x : H × (ℕ → ℝ)) (vs : List (H × (ℕ → ℝ))) (y : ℤ) (ys : List ℤ) :
    rowScan net c xh (x :: vs) (y :: ys) = net.cell c x.1 xh x.2 ::
      rowScan net (net.cell c x.1 xh x.2).1 (oneHot net.head.inputDim y) vs ys := rfl

theorem rowH_close {M : Machine} {v w c : ℝ} (hM : GoodMachine M v w c) {a B : ℝ} (ha0 : 0 ≤ a) (hB0 : 0 ≤ B) (n : ℕ) (hn : 0 < n)
    (κ : ℝ) (hκ : κ ≠ 0) (rv : Bool) (dense : O → ℕ → ℝ) (dense' : O' → ℕ → ℝ)
    (cell : H → H → (ℕ → ℝ) → (ℕ → ℝ) → H × O) (z : ℕ → H) (cell' : H' → H' → (ℕ → ℝ) → (ℕ → ℝ) → H' × O') (z' : ℕ → H')
    (vs : List (H × (ℕ → ℝ))) (vs' : List (H' × (ℕ → ℝ))) (hlen : vs'.length = vs.length) (s : H × (ℕ → ℝ)) (s' : H' × (ℕ → ℝ))
    (h : ∀ ys ∈ listsOver (localStates n) vs.length,
      List.Forall₂ (OutNear a B ((n - 1) * (if rv then 1 else 2)) dense dense')
        ((rowScan ⟨realHead n κ rv dense, cell, z⟩ s.1 s.2 vs ys).map Prod.snd)
        ((rowScan ⟨machineHead M n κ rv dense', cell', z'⟩ s'.1 s'.2 vs' ys).map Prod.snd)) :
    CloseTo (SameRow ⟨realHead n κ rv dense, cell, z⟩ ⟨machineHead M n κ rv dense', cell', z'⟩ n s s' vs vs')
      (vs.length * drawError M.r.u v w a B n c) (rnnSampleH ⟨realHead n κ rv dense, cell, z⟩ s vs)
      (rnnSampleHM M ⟨machineHead M n κ rv dense', cell', z'⟩ s' vs') := by
  induction vs generalizing vs' s s' with
  | nil =>
    obtain rfl : vs' = [] := List.length_eq_zero_iff.mp hlen
    rw [List.length_nil, Nat.cast_zero, zero_mul]
    exact closeTo_pure ⟨[], by simp [listsOver], rfl, rfl⟩
  | cons x vs ih =>
    obtain ⟨x', vs', rfl⟩ := List.exists_cons_of_length_eq_add_one hlen
    have hlen' : vs'.length = vs.length := by simpa using hlen
    have hhead : OutNear a B ((n - 1) * (if rv then 1 else 2)) dense dense' (cell s.1 x.1 s.2 x.2).2 (cell' s'.1 x'.1 s'.2 x'.2).2 := by
      have := h _ (replicate_mem_listsOver (zero_mem_states hn) (vs.length + 1))
      rw [List.replicate_succ, rowScan_cons, rowScan_cons, List.map_cons, List.map_cons, List.forall₂_cons] at this
      exact this.1
    have e : ((x :: vs).length : ℝ) * drawError M.r.u v w a B n c =
        drawError M.r.u v w a B n c + (vs.length * drawError M.r.u v w a B n c + 0) := by
      rw [List.length_cons]
      push_cast
      ring
    rw [e, rnnSampleH, rnnSampleHM]
    have hdraw := draw_close M hM.v_nonneg hM.v_le hM.w_nonneg hM.u_le hM.exp hM.log hM.draw n hn κ hκ ha0 hB0 rv dense
      dense' hhead
    refine closeTo_bind hdraw (fun _ => ?_) (fun _ => ?_) ?_
    · exact isLaw_bind' (rnnSampleH_law _ (realHead_normed n hn κ hκ rv dense) _ _) _ fun _ _ => isLaw_pure' _
    · exact isLaw_bind' (rnnSampleHM_law hM.draw _ hn _ _) _ fun _ _ => isLaw_pure' _
    rintro j j' ⟨rfl, hj⟩
    refine closeTo_bind (ih vs' hlen' _ _ ?_) (fun _ => isLaw_pure' _) (fun _ => isLaw_pure' _) ?_
    · intro ys hys
      have := h _ (cons_mem_listsOver hj hys)
      rw [rowScan_cons, rowScan_cons, List.map_cons, List.map_cons, List.forall₂_cons] at this
      exact this.2
    · rintro l l' ⟨ys, hys, rfl, rfl⟩
      exact closeTo_pure ⟨j :: ys, cons_mem_listsOver hj hys, rfl, rfl⟩

theorem rnnOutsV_cons (net : Rnn2D H O) (r : ℕ) (carry : List H × List (ℕ → ℝ)) (x : List ℤ) (xs : List (List ℤ))
    (h1 : carry.1.length = x.length) (h2 : carry.2.length = x.length) :
    rnnOutsV net r carry (x :: xs) = reverseLine ((rowScan net (net.zeroCarry 0) (fun _ => 0)
      ((reverseLine carry.1 (lineDirection r)).zip (reverseLine carry.2 (lineDirection r)))
      (reverseLine x (lineDirection r))).map Prod.snd) (lineDirection r) ++
      rnnOutsV net (r + 1) (rnnRow net carry (x.map (oneHot net.head.inputDim)) (lineDirection r)).1 xs := by
  rw [rnnOutsV]
  rw [← reverseLine_map (oneHot net.head.inputDim), rowInputs_eq (oneHot net.head.inputDim) (fun _ => 0)
    (reverseLine carry.1 (lineDirection r)) (reverseLine carry.2 (lineDirection r)) (reverseLine x (lineDirection r))
    (by simp only [reverseLine_length, h1]) (by simp only [reverseLine_length, h2])]
  rw [(rnnRow_eq net carry x (lineDirection r) h1 h2).1]
  rfl

theorem forall₂_reverseLine {A B : Type} {R : A → B → Prop} {l : List A} {m : List B} (b : Bool)
    (h : List.Forall₂ R (reverseLine l b) (reverseLine m b)) : List.Forall₂ R l m := by
  unfold reverseLine at h
  split_ifs at h
  · exact h
  · exact List.forall₂_reverse_iff.mp h

theorem rowV_close {M : Machine} {v w c : ℝ} (hM : GoodMachine M v w c) {a B : ℝ} (ha0 : 0 ≤ a) (hB0 : 0 ≤ B) (n : ℕ) (hn : 0 < n)
    (κ : ℝ) (hκ : κ ≠ 0) (rv : Bool) (dense : O → ℕ → ℝ) (dense' : O' → ℕ → ℝ)
    (cell : H → H → (ℕ → ℝ) → (ℕ → ℝ) → H × O) (z : ℕ → H) (cell' : H' → H' → (ℕ → ℝ) → (ℕ → ℝ) → H' × O') (z' : ℕ → H')
    (L N r : ℕ) (carry : List H × List (ℕ → ℝ)) (carry' : List H' × List (ℕ → ℝ)) (h1 : carry.1.length = L)
    (h2 : carry.2.length = L) (h1' : carry'.1.length = L) (h2' : carry'.2.length = L)
    (h : ∀ x ∈ listsOver (listsOver (localStates n) L) N,
      List.Forall₂ (OutNear a B ((n - 1) * (if rv then 1 else 2)) dense dense')
        (rnnOutsV ⟨realHead n κ rv dense, cell, z⟩ r carry x) (rnnOutsV ⟨machineHead M n κ rv dense', cell', z'⟩ r carry' x)) :
    CloseTo Eq (N * (L * drawError M.r.u v w a B n c)) (rnnSampleV ⟨realHead n κ rv dense, cell, z⟩ r carry N)
      (rnnSampleVM M ⟨machineHead M n κ rv dense', cell', z'⟩ r carry' N) := by
  induction N generalizing r carry carry' with
  | zero =>
    rw [Nat.cast_zero, zero_mul]
    exact closeTo_pure rfl
  | succ N ih =>
    set net : Rnn2D H O := ⟨realHead n κ rv dense, cell, z⟩
    set net' : Rnn2D H' O' := ⟨machineHead M n κ rv dense', cell', z'⟩
    have hnorm : Normed net.head := realHead_normed n hn κ hκ rv dense
    set b := lineDirection r
    set vs := (reverseLine carry.1 b).zip (reverseLine carry.2 b) with hvs
    set vs' := (reverseLine carry'.1 b).zip (reverseLine carry'.2 b) with hvs'
    have hl : vs.length = L := by simp only [hvs, List.length_zip, reverseLine_length, h1, h2, min_self]
    have hl' : vs'.length = L := by simp only [hvs', List.length_zip, reverseLine_length, h1', h2', min_self]
    have hzero : List.replicate L (0 : ℤ) ∈ listsOver (localStates n) L := replicate_mem_listsOver (zero_mem_states hn) L
    have hlin : ∀ x ∈ listsOver (localStates n) L, reverseLine x b ∈ listsOver (localStates n) L := by
      intro x hx
      rw [mem_listsOver] at hx ⊢
      refine ⟨by rw [reverseLine_length, hx.1], fun y hy => hx.2 y ?_⟩
      unfold reverseLine at hy
      split_ifs at hy
      · exact hy
      · exact List.mem_reverse.mp hy
    -- a row and the following ones
    have hsplit : ∀ x ∈ listsOver (localStates n) L, ∀ xs ∈ listsOver (listsOver (localStates n) L) N,
        List.Forall₂ (OutNear a B ((n - 1) * (if rv then 1 else 2)) dense dense')
          ((rowScan net (net.zeroCarry 0) (fun _ => 0) vs (reverseLine x b)).map Prod.snd)
          ((rowScan net' (net'.zeroCarry 0) (fun _ => 0) vs' (reverseLine x b)).map Prod.snd) ∧
        List.Forall₂ (OutNear a B ((n - 1) * (if rv then 1 else 2)) dense dense')
          (rnnOutsV net (r + 1) (rnnRow net carry (x.map (oneHot n)) b).1 xs)
          (rnnOutsV net' (r + 1) (rnnRow net' carry' (x.map (oneHot n)) b).1 xs) := by
      intro x hx xs hxs
      have hxl := (mem_listsOver.mp hx).1
      have := h _ (cons_mem_listsOver hx hxs)
      rw [rnnOutsV_cons net r carry x xs (h1.trans hxl.symm) (h2.trans hxl.symm),
        rnnOutsV_cons net' r carry' x xs (h1'.trans hxl.symm) (h2'.trans hxl.symm)] at this
      have l1 : (reverseLine ((rowScan net (net.zeroCarry 0) (fun _ => 0) vs (reverseLine x b)).map Prod.snd) b).length = L := by
        rw [reverseLine_length, List.length_map, rowScan_length _ _ _ _ _ (by rw [hl, reverseLine_length, hxl]), reverseLine_length, hxl]
      have l2 : (reverseLine ((rowScan net' (net'.zeroCarry 0) (fun _ => 0) vs' (reverseLine x b)).map Prod.snd) b).length = L := by
        rw [reverseLine_length, List.length_map, rowScan_length _ _ _ _ _ (by rw [hl', reverseLine_length, hxl]), reverseLine_length, hxl]
      have t1 := List.forall₂_take L this
      have t2 := List.forall₂_drop L this
      rw [List.take_left' l1, List.take_left' l2] at t1
      rw [List.drop_left' l1, List.drop_left' l2] at t2
      exact ⟨forall₂_reverseLine b t1, t2⟩
    have hrow := rowH_close hM ha0 hB0 n hn κ hκ rv dense dense' cell z cell' z' vs vs' (hl'.trans hl.symm) (z 0, fun _ => 0)
      (z' 0, fun _ => 0) (by
        intro ys hys
        rw [hl] at hys
        have := (hsplit _ (hlin ys hys) _ (replicate_mem_listsOver hzero N)).1
        rw [reverseLine_twice] at this
        exact this)
    rw [hl] at hrow
    have e : ((N + 1 : ℕ) : ℝ) * (L * drawError M.r.u v w a B n c) =
        (L * drawError M.r.u v w a B n c + 0) + (N * (L * drawError M.r.u v w a B n c) + 0) := by
      push_cast
      ring
    rw [e]
    let R : (List H × List (ℕ → ℝ)) × List ℤ → (List H' × List (ℕ → ℝ)) × List ℤ → Prop := fun res res' =>
      ∃ x ∈ listsOver (localStates n) L, res = ((rnnRow net carry (x.map (oneHot n)) b).1, x) ∧
        res' = ((rnnRow net' carry' (x.map (oneHot n)) b).1, x)
    have hR : CloseTo R (L * drawError M.r.u v w a B n c + 0) (rnnSampleRow net carry b) (rnnSampleRowM M net' carry' b) := by
      refine closeTo_bind hrow (fun _ => isLaw_pure' _) (fun _ => isLaw_pure' _) ?_
      rintro out out' ⟨ys, hys, rfl, rfl⟩
      rw [hl] at hys
      have hyl := (mem_listsOver.mp hys).1
      refine closeTo_pure ⟨reverseLine ys b, hlin ys hys, ?_, ?_⟩
      · change _ = ((rnnRow net carry (List.map (oneHot net.head.inputDim) (reverseLine ys b)) b).1, reverseLine ys b)
        rw [(rnnRow_eq net carry (reverseLine ys b) b (by rw [reverseLine_length, h1, hyl]) (by rw [reverseLine_length, h2, hyl])).1,
          reverseLine_twice]
        have hlz : ((rowScan net (z 0) (fun _ => 0) vs ys).map Prod.fst).length = ys.length := by
          rw [List.length_map, rowScan_length _ _ _ _ _ (by rw [hl, hyl])]
        rw [List.map_snd_zip hlz.symm.le, List.map_fst_zip hlz.le]
      · change _ = ((rnnRow net' carry' (List.map (oneHot net'.head.inputDim) (reverseLine ys b)) b).1, reverseLine ys b)
        rw [(rnnRow_eq net' carry' (reverseLine ys b) b (by rw [reverseLine_length, h1', hyl]) (by rw [reverseLine_length, h2', hyl])).1,
          reverseLine_twice]
        have hlz : ((rowScan net' (z' 0) (fun _ => 0) vs' ys).map Prod.fst).length = ys.length := by
          rw [List.length_map, rowScan_length _ _ _ _ _ (by rw [hl', hyl])]
        rw [List.map_snd_zip hlz.symm.le, List.map_fst_zip hlz.le]
    rw [rnnSampleV, rnnSampleVM]
    refine closeTo_bind hR (fun _ => ?_) (fun _ => ?_) ?_
    · exact isLaw_bind' (rnnSampleV_law _ hnorm _ _ _) _ fun _ _ => isLaw_pure' _
    · exact isLaw_bind' (rnnSampleVM_law hM.draw net' hn _ _ _) _ fun _ _ => isLaw_pure' _
    rintro _ _ ⟨x, hx, rfl, rfl⟩
    have hxl := (mem_listsOver.mp hx).1
    obtain ⟨k1, k2⟩ := rnnRow_lengths net L carry h1 h2 x hxl b
    obtain ⟨k1', k2'⟩ := rnnRow_lengths net' L carry' h1' h2' x hxl b
    refine closeTo_bind (ih (r + 1) _ _ k1 k2 k1' k2' fun xs hxs => (hsplit x hx xs hxs).2) (fun _ => isLaw_pure' _)
      (fun _ => isLaw_pure' _) ?_
    rintro l l' rfl
    exact closeTo_pure rfl

/-! ## Logarithmic amplitudes -/

theorem rnnScan_terms (net : Rnn1D H O) (s : H × (ℕ → ℝ)) (x : List ℤ) (hx : ∀ y ∈ x, y ∈ localStates net.head.inputDim) :
    rnnScan net s (x.map (oneHot net.head.inputDim)) =
      List.zipWith (fun o y => net.head.logProbs o y.toNat) (rnnOuts net.cell net.head.inputDim s x) x := by
  induction x generalizing s with
  | nil => rfl
  | cons y x ih =>
    rw [List.map_cons, rnnScan, rnnOuts, List.zipWith_cons_cons, ih _ fun z hz => hx z (List.mem_cons_of_mem _ hz),
      select_oneHot _ _ (hx y (List.mem_cons_self ..))]

theorem zipWith_select (h : RnnHead O) (os : List O) (x : List ℤ) (hx : ∀ y ∈ x, y ∈ localStates h.inputDim) :
    List.zipWith (fun o y => h.select o y) os (x.map (oneHot h.inputDim)) = List.zipWith (fun o y => h.logProbs o y.toNat) os x := by
  rw [List.zipWith_map_right]
  induction os generalizing x with
  | nil => rfl
  | cons o os ih =>
    cases x with
    | nil => rfl
    | cons y x =>
      rw [List.zipWith_cons_cons, List.zipWith_cons_cons, ih _ fun z hz => hx z (List.mem_cons_of_mem _ hz),
        select_oneHot _ _ (hx y (List.mem_cons_self ..))]

theorem rnnScanV_terms (net : Rnn2D H O) (L r : ℕ) (carry : List H × List (ℕ → ℝ)) (h1 : carry.1.length = L)
    (h2 : carry.2.length = L) (x : List (List ℤ)) (hx : ∀ row ∈ x, row ∈ listsOver (localStates net.head.inputDim) L) :
    rnnScanV net r carry (x.map fun row => row.map (oneHot net.head.inputDim)) =
      List.zipWith (fun o y => net.head.logProbs o y.toNat) (rnnOutsV net r carry x) x.flatten := by
  induction x generalizing r carry with
  | nil => rfl
  | cons y x ih =>
    have hy := mem_listsOver.mp (hx y (List.mem_cons_self ..))
    obtain ⟨k1, k2⟩ := rnnRow_lengths net L carry h1 h2 y hy.1 (lineDirection r)
    rw [rnnOutsV_cons net r carry y x (h1.trans hy.1.symm) (h2.trans hy.1.symm), List.map_cons, rnnScanV, List.flatten_cons,
      List.zipWith_append]
    · congr 1
      · unfold rnnRow
        dsimp only
        rw [zipWith_select _ _ _ hy.2, ← reverseLine_map (oneHot net.head.inputDim), rowInputs_eq (oneHot net.head.inputDim)
          (fun _ => 0) (reverseLine carry.1 (lineDirection r)) (reverseLine carry.2 (lineDirection r))
          (reverseLine y (lineDirection r)) (by simp only [reverseLine_length, h1, hy.1])
          (by simp only [reverseLine_length, h2, hy.1])]
        rfl
      · exact ih (r + 1) _ k1 k2 fun row hrow => hx row (List.mem_cons_of_mem _ hrow)
    · rw [reverseLine_length, List.length_map, rowScan_length, reverseLine_length]
      simp only [List.length_zip, reverseLine_length, h1, h2, min_self, hy.1]

theorem forall₂_zipWith {A A' B C C' : Type} {R : A → A' → Prop} {S : C → C' → Prop} {f : A → B → C} {f' : A' → B → C'}
    {l : List A} {l' : List A'} (h : List.Forall₂ R l l') (m : List B) (hS : ∀ x x', R x x' → ∀ y ∈ m, S (f x y) (f' x' y)) :
    List.Forall₂ S (List.zipWith f l m) (List.zipWith f' l' m) := by
  induction h generalizing m with
  | nil => exact .nil
  | cons hxy _ ih =>
    cases m with
    | nil => exact .nil
    | cons y m =>
      exact .cons (hS _ _ hxy y (List.mem_cons_self ..)) (ih m fun x x' hx z hz => hS x x' hx z (List.mem_cons_of_mem _ hz))

/-- A sum of numbers with errors, with rounding. -/
theorem sums_err {r : Rounding} {l l' : List ℝ} {e T : ℝ} (h : List.Forall₂ (fun t t' => |t' - t| ≤ e ∧ |t| ≤ T) l l') {val : ℝ}
    (hv : Sums r l' val) {N : ℕ} (hN : l.length = N) : |val - l.sum| ≤ sumError r.u e T N := by
  obtain ⟨ys, h1, rfl⟩ := sums_near hv
  have hl' : l'.length = N := h.length_eq.symm.trans hN
  have h2 : List.Forall₂ (WithinFactor r.u N) l' ys := h1.imp fun _ _ hxy => near_mono r (by omega) hxy
  have hg : 1 ≤ (1 + r.u) ^ N := one_le_pow₀ (by linarith [r.u_nonneg])
  have h3 : ∀ (l l' ys : List ℝ), List.Forall₂ (fun t t' => |t' - t| ≤ e ∧ |t| ≤ T) l l' →
      List.Forall₂ (WithinFactor r.u N) l' ys →
      |ys.sum - l.sum| ≤ l.length * ((1 + r.u) ^ N * e + ((1 + r.u) ^ N - 1) * T) := by
    intro l l' ys hl hy
    induction hl generalizing ys with
    | nil =>
      cases hy
      simp
    | @cons t t' l l' htt _ ih =>
      cases hy with
      | @cons _ y _ ys hty hys =>
        have i := ih ys hys
        have q1 := near_abs_sub r hty
        have q2 : |t'| ≤ e + T := by
          have := abs_sub_abs_le_abs_sub t' t
          linarith [htt.1, htt.2]
        have q3 := mul_le_mul_of_nonneg_left q2 (by linarith : 0 ≤ (1 + r.u) ^ N - 1)
        rw [List.sum_cons, List.sum_cons, List.length_cons]
        have e1 : y + ys.sum - (t + l.sum) = (y - t') + (t' - t) + (ys.sum - l.sum) := by ring
        rw [e1]
        have := abs_add_three (y - t') (t' - t) (ys.sum - l.sum)
        push_cast
        nlinarith [htt.1]
  have := h3 l l' ys h h2
  rw [hN] at this
  exact this

theorem forall₂_map_re_im {R : ℂ → ℂ → Prop} {S : ℝ → ℝ → Prop} (f : ℂ → ℝ) {l l' : List ℂ} (h : List.Forall₂ R l l')
    (hS : ∀ z z', R z z' → S (f z) (f z')) : List.Forall₂ S (l.map f) (l'.map f) := by
  rw [List.forall₂_map_left_iff, List.forall₂_map_right_iff]
  exact h.imp hS

theorem csum_parts (l : List ℂ) : l.sum.re = (l.map Complex.re).sum ∧ l.sum.im = (l.map Complex.im).sum := by
  induction l with
  | nil => simp
  | cons z l ih => simp [ih.1, ih.2]

/-- One term of a logarithmic amplitude. -/
theorem logProb_err {M : Machine} {v w c : ℝ} (hM : GoodMachine M v w c) {a B : ℝ} (ha0 : 0 ≤ a) (hB0 : 0 ≤ B) (n : ℕ) (hn : 0 < n)
    (κ : ℝ) (hκ : κ ≠ 0) (rv : Bool) (dense : O → ℕ → ℝ) (dense' : O' → ℕ → ℝ) {o : O} {o' : O'}
    (h : OutNear a B ((n - 1) * (if rv then 1 else 2)) dense dense' o o') {y : ℤ} (hy : y ∈ localStates n) :
    (|((machineHead M n κ rv dense').logProbs o' y.toNat).re - ((realHead n κ rv dense).logProbs o y.toNat).re|
        ≤ termError M.r.u v w a B κ n ∧
      |((realHead n κ rv dense).logProbs o y.toNat).re| ≤ |κ| * (2 * B + Real.log n)) ∧
    (|((machineHead M n κ rv dense').logProbs o' y.toNat).im - ((realHead n κ rv dense).logProbs o y.toNat).im| ≤ a ∧
      |((realHead n κ rv dense).logProbs o y.toNat).im| ≤ B) := by
  have hj : y.toNat < n := by
    have := mem_localStates.mp hy
    omega
  set j := y.toNat
  constructor
  · set x : ℕ → ℝ := fun k => if k = 0 then 0 else dense o (k - 1) with hx
    set y : ℕ → ℝ := fun k => if k = 0 then 0 else dense' o' (k - 1) with hy
    have hk : ∀ k < n, k ≠ 0 → k - 1 < (n - 1) * (if rv then 1 else 2) := by
      intro k hk hk0
      cases rv <;> simp <;> omega
    have hB : ∀ k < n, |x k| ≤ B := by
      intro k hkn
      dsimp only [x]
      split_ifs with h0
      · simpa using hB0
      · exact (h _ (hk k hkn h0)).2
    have ha : ∀ k < n, |y k - x k| ≤ a := by
      intro k hkn
      dsimp only [x, y]
      split_ifs with h0
      · simpa using ha0
      · exact (h _ (hk k hkn h0)).1
    have h1 := (logit_err M hM.v_nonneg hM.v_le hM.w_nonneg hM.u_le hM.exp hM.log n hn κ hκ hB ha hj).1
    have h2 := logSoftmax_abs n hn hB hj
    have e1 : ((realHead n κ rv dense).logProbs o j).re = κ * logSoftmax n x j := logCoeffs_re n κ rv (dense o) j
    have e2 : ((machineHead M n κ rv dense').logProbs o' j).re = M.r.rnd (κ * logSoftmaxM M n y j) := rfl
    rw [e1, e2]
    have hu := M.r.u_nonneg
    refine ⟨?_, by rw [abs_mul]; exact mul_le_mul_of_nonneg_left h2 (abs_nonneg _)⟩
    have h3 := M.r.err (κ * logSoftmaxM M n y j)
    have h4 : |logSoftmaxM M n y j| ≤ softmaxError M.r.u v w a B n + (2 * B + Real.log n) := by
      have := abs_sub_abs_le_abs_sub (logSoftmaxM M n y j) (logSoftmax n x j)
      linarith
    rw [abs_mul] at h3
    have h5 : |κ * logSoftmaxM M n y j - κ * logSoftmax n x j| ≤ |κ| * softmaxError M.r.u v w a B n := by
      rw [← mul_sub, abs_mul]
      exact mul_le_mul_of_nonneg_left h1 (abs_nonneg _)
    have h6 := mul_le_mul_of_nonneg_left (mul_le_mul_of_nonneg_left h4 (abs_nonneg κ)) hu
    have h7 := abs_sub_le (M.r.rnd (κ * logSoftmaxM M n y j)) (κ * logSoftmaxM M n y j) (κ * logSoftmax n x j)
    unfold termError
    nlinarith
  · have e1 : ((realHead n κ rv dense).logProbs o j).im =
        if rv then 0 else if j = 0 then 0 else dense o (n - 1 + (j - 1)) := by
      change (logCoeffsToLogProbs n κ rv (dense o) j).im = _
      unfold logCoeffsToLogProbs
      cases rv <;> simp
    have e2 : ((machineHead M n κ rv dense').logProbs o' j).im =
        if rv then 0 else if j = 0 then 0 else dense' o' (n - 1 + (j - 1)) := rfl
    rw [e1, e2]
    cases rv with
    | true => simp [ha0, hB0]
    | false =>
      simp only [Bool.false_eq_true, if_false]
      split_ifs with h0
      · simp [ha0, hB0]
      · exact h _ (by simp only [Bool.false_eq_true, if_false]; omega)

/-- A logarithmic amplitude from nearby outputs of the cell. -/
theorem amplitude_err {M : Machine} {v w c : ℝ} (hM : GoodMachine M v w c) {a B : ℝ} (ha0 : 0 ≤ a) (hB0 : 0 ≤ B) (n : ℕ) (hn : 0 < n)
    (κ : ℝ) (hκ : κ ≠ 0) (rv : Bool) (dense : O → ℕ → ℝ) (dense' : O' → ℕ → ℝ) {os : List O} {os' : List O'} {x : List ℤ}
    (hx : ∀ y ∈ x, y ∈ localStates n) (hlen : os.length = x.length)
    (h : List.Forall₂ (OutNear a B ((n - 1) * (if rv then 1 else 2)) dense dense') os os') :
    let l := List.zipWith (fun o (y : ℤ) => (realHead n κ rv dense).logProbs o y.toNat) os x
    let l' := List.zipWith (fun o (y : ℤ) => (machineHead M n κ rv dense').logProbs o y.toNat) os' x
    |(M.csum l').re - l.sum.re| ≤ sumError M.r.u (termError M.r.u v w a B κ n) (|κ| * (2 * B + Real.log n)) x.length ∧
      |(M.csum l').im - l.sum.im| ≤ sumError M.r.u a B x.length := by
  intro l l'
  have hl : l.length = x.length := by
    simp only [l, List.length_zipWith, hlen, min_self]
  have key := forall₂_zipWith (f := fun o (y : ℤ) => (realHead n κ rv dense).logProbs o y.toNat)
    (f' := fun o (y : ℤ) => (machineHead M n κ rv dense').logProbs o y.toNat)
    (S := fun z z' : ℂ => (|z'.re - z.re| ≤ termError M.r.u v w a B κ n ∧ |z.re| ≤ |κ| * (2 * B + Real.log n)) ∧
      (|z'.im - z.im| ≤ a ∧ |z.im| ≤ B)) h x
    fun o o' ho y hy => logProb_err hM ha0 hB0 n hn κ hκ rv dense dense' ho (hx y hy)
  obtain ⟨p1, p2⟩ := csum_parts l
  rw [p1, p2]
  constructor
  · exact sums_err (forall₂_map_re_im Complex.re key fun _ _ hz => hz.1) (M.sum_ok _) (by rw [List.length_map, hl])
  · exact sums_err (forall₂_map_re_im Complex.im key fun _ _ hz => hz.2) (M.sum_ok _) (by rw [List.length_map, hl])

theorem rnnOuts_length (cell : H → (ℕ → ℝ) → H × O) (n : ℕ) (s : H × (ℕ → ℝ)) (x : List ℤ) :
    (rnnOuts cell n s x).length = x.length := by
  induction x generalizing s with
  | nil => rfl
  | cons y x ih => simp [rnnOuts, ih]

theorem rnnOutsV_length (net : Rnn2D H O) (L r : ℕ) (carry : List H × List (ℕ → ℝ)) (h1 : carry.1.length = L)
    (h2 : carry.2.length = L) (x : List (List ℤ)) (hx : ∀ row ∈ x, row.length = L) :
    (rnnOutsV net r carry x).length = x.flatten.length := by
  induction x generalizing r carry with
  | nil => rfl
  | cons y x ih =>
    have hy := hx y (List.mem_cons_self ..)
    obtain ⟨k1, k2⟩ := rnnRow_lengths net L carry h1 h2 y hy (lineDirection r)
    rw [rnnOutsV_cons net r carry y x (h1.trans hy.symm) (h2.trans hy.symm), List.length_append, List.flatten_cons,
      List.length_append, ih _ _ k1 k2 fun row hrow => hx row (List.mem_cons_of_mem _ hrow), reverseLine_length, List.length_map,
      rowScan_length, reverseLine_length]
    simp only [List.length_zip, reverseLine_length, h1, h2, min_self, hy]

/-! ## Symmetry operations -/

theorem closeTo_same {A : Type} {d : WDist A} (hd : IsLaw d) : CloseTo Eq 0 d d := by
  intro ε F F' _ _ h
  have e : expect d F - expect d F' = average d fun x => F x - F' x := by
    unfold expect average
    clear h hd
    induction d with
    | nil => simp
    | cons e d ih =>
      simp only [List.map_cons, List.sum_cons]
      rw [← ih]
      ring
  rw [e, zero_add]
  exact average_abs_le hd fun e _ => h _ _ rfl

theorem randomize_law {n : ℕ} {orbit : List (Matrix (Fin n) (Fin n) ℤ)} (h : orbit ≠ []) (s : Fin n → ℤ) :
    IsLaw (randomizeSample orbit s) := by
  have hpos : (0 : ℝ) < orbit.length := by exact_mod_cast List.length_pos_iff.mpr h
  refine ⟨?_, ?_⟩
  · intro e he
    obtain ⟨o, _, rfl⟩ := List.mem_map.mp he
    positivity
  · unfold average randomizeSample
    rw [List.map_map]
    simp only [Function.comp_def, mul_one, List.map_const', List.sum_replicate, nsmul_eq_mul]
    field_simp

end

end JVMC
