import Verif.Spec.RbmRounding
import Verif.Lemmas.DirectRounding
import Mathlib.Analysis.SpecialFunctions.Trigonometric.Deriv

/-!
# C145 — rounding errors of real Boltzmann machines
-/

namespace JVMC

open Spec

theorem cosh_add_le (b d : ℝ) : Real.cosh (b + d) ≤ Real.cosh b * Real.exp |d| := by
  rw [Real.cosh_add, ← Real.cosh_add_sinh, Real.cosh_abs, mul_add]
  have h1 : Real.sinh b * Real.sinh d ≤ |Real.sinh b| * |Real.sinh d| := by
    rw [← abs_mul]; exact le_abs_self _
  have h2 : |Real.sinh b| ≤ Real.cosh b := by
    rw [← Real.cosh_abs, Real.abs_sinh]
    exact (Real.sinh_lt_cosh _).le
  have h3 : |Real.sinh d| = Real.sinh |d| := Real.abs_sinh d
  have h4 : 0 ≤ Real.sinh |d| := Real.sinh_nonneg_iff.mpr (abs_nonneg d)
  rw [h3] at h1
  nlinarith

theorem logcosh_lipschitz (a b : ℝ) : |Real.log (Real.cosh a) - Real.log (Real.cosh b)| ≤ |a - b| := by
  have key : ∀ a b : ℝ, Real.log (Real.cosh a) - Real.log (Real.cosh b) ≤ |a - b| := by
    intro a b
    have h := cosh_add_le b (a - b)
    rw [add_sub_cancel] at h
    have h2 := Real.log_le_log (Real.cosh_pos a) h
    rw [Real.log_mul (Real.cosh_pos b).ne' (Real.exp_pos _).ne', Real.log_exp] at h2
    linarith
  rw [abs_le]
  have h1 := key a b
  have h2 := key b a
  rw [abs_sub_comm] at h2
  constructor <;> linarith

theorem logcosh_range (a : ℝ) : 0 ≤ Real.log (Real.cosh a) ∧ Real.log (Real.cosh a) ≤ |a| := by
  refine ⟨Real.log_nonneg (Real.one_le_cosh a), ?_⟩
  have := logcosh_lipschitz a 0
  rw [Real.cosh_zero, Real.log_one, sub_zero, sub_zero] at this
  exact (le_abs_self _).trans this

/-- The logarithm of a number with a small relative error. -/
theorem log_rel {x y v : ℝ} (hx : 0 < x) (hv : v ≤ 1 / 2) (h : |y - x| ≤ v * x) : 0 < y ∧ |Real.log y - Real.log x| ≤ 2 * v := by
  have hv0 : 0 ≤ v := by
    by_contra hc
    have := (abs_nonneg _).trans h
    nlinarith
  obtain ⟨h1, h2⟩ := abs_le.mp h
  have hy : 0 < y := by nlinarith
  refine ⟨hy, ?_⟩
  rw [abs_le]
  constructor
  · have h3 : (1 - v) * x ≤ y := by linarith
    have h4 := Real.log_le_log (by nlinarith) h3
    rw [Real.log_mul (by linarith) hx.ne'] at h4
    have := neg_log_one_sub hv0 hv
    linarith
  · have h3 : y ≤ (1 + v) * x := by linarith
    have h4 := Real.log_le_log hy h3
    rw [Real.log_mul (by linarith) hx.ne'] at h4
    have := log_one_add_le hv0
    linarith

/-- A dense layer: the error of an output in units of the sizes of its parameters. -/
theorem denseR_err {r : Rounding} {n m : ℕ} {kernel : Fin n → Fin m → ℝ} {bias : Option (Fin m → ℝ)} {x : Fin n → ℝ} {j : Fin m}
    {y : ℝ} (hx : ∀ i, |x i| = 1) (h : DenseR r kernel bias x j y) :
    |y - dense kernel bias x j| ≤ ((1 + r.u) ^ (n + 2) - 1) * unitSize kernel bias j := by
  obtain ⟨d, hd, hb⟩ := h
  obtain ⟨ys, h1, h2⟩ := dot_near hd (n := n + 1) (by simp) (by omega)
  have h3 := forall₂_sum_abs r h1
  rw [List.map_id'] at h2
  rw [h2] at h3
  have e1 : ((List.ofFn fun i => (x i, kernel i j)).map fun s : ℝ × ℝ => s.1 * s.2).sum = ∑ i, x i * kernel i j := by
    rw [List.map_ofFn, List.sum_ofFn]; rfl
  have e2 : ((List.ofFn fun i => (x i, kernel i j)).map fun s : ℝ × ℝ => |s.1 * s.2|).sum = ∑ i, |kernel i j| := by
    rw [List.map_ofFn, List.sum_ofFn]
    refine Finset.sum_congr rfl fun i _ => ?_
    simp only [Function.comp]
    rw [abs_mul, hx, one_mul]
  rw [e1, e2] at h3
  have hu := r.u_nonneg
  have hp : (1 : ℝ) ≤ (1 + r.u) ^ (n + 1) := one_le_pow₀ (by linarith)
  have hS : 0 ≤ ∑ i, |kernel i j| := Finset.sum_nonneg fun _ _ => abs_nonneg _
  have hpp : (1 + r.u) ^ (n + 2) = (1 + r.u) ^ (n + 1) * (1 + r.u) := pow_succ _ _
  unfold dense unitSize
  cases bias with
  | none =>
    dsimp only at hb ⊢
    subst hb
    rw [add_zero, add_zero]
    refine h3.trans (mul_le_mul_of_nonneg_right ?_ hS)
    nlinarith
  | some b =>
    dsimp only at hb ⊢
    have h4 := near_abs_sub r (near_rd r hb)
    rw [pow_one, add_sub_cancel_left] at h4
    have h5 : |d + b j| ≤ (1 + r.u) ^ (n + 1) * ∑ i, |kernel i j| + |b j| := by
      have a1 : |∑ i, x i * kernel i j| ≤ ∑ i, |kernel i j| := by
        refine (Finset.abs_sum_le_sum_abs _ _).trans (le_of_eq (Finset.sum_congr rfl fun i _ => ?_))
        rw [abs_mul, hx, one_mul]
      have a2 : |d| ≤ |d - ∑ i, x i * kernel i j| + |∑ i, x i * kernel i j| := by
        simpa using abs_add_le (d - ∑ i, x i * kernel i j) (∑ i, x i * kernel i j)
      have a3 := abs_add_le d (b j)
      nlinarith
    have h6 : |y - (∑ i, x i * kernel i j + b j)| ≤ |y - (d + b j)| + |d - ∑ i, x i * kernel i j| := by
      have := abs_add_le (y - (d + b j)) (d - ∑ i, x i * kernel i j)
      rwa [show y - (d + b j) + (d - ∑ i, x i * kernel i j) = y - (∑ i, x i * kernel i j + b j) by ring] at this
    have h7 : 0 ≤ |b j| := abs_nonneg _
    have h8 : r.u * |d + b j| ≤ r.u * ((1 + r.u) ^ (n + 1) * ∑ i, |kernel i j| + |b j|) := mul_le_mul_of_nonneg_left h5 hu
    have h9 : 0 ≤ ((1 + r.u) ^ (n + 1) - 1) * (1 + r.u) * |b j| := by
      have : 0 ≤ (1 + r.u) ^ (n + 1) - 1 := by linarith
      positivity
    rw [hpp]
    nlinarith

/-- One hidden unit. -/
theorem unit_err {F : ElemFuns} {v : ℝ} (hF : Accurate F v) (hv0 : 0 ≤ v) (hv : v ≤ 1 / 2) (h θ : ℝ) :
    |F.log (F.cosh h) - Real.log (Real.cosh θ)| ≤ |h - θ| + 3 * v + v * |h| ∧
      |F.log (F.cosh h)| ≤ (1 + v) * (|h| + 2 * v) := by
  obtain ⟨h1, h2⟩ := log_rel (Real.cosh_pos h) hv (hF.cosh h)
  have h3 := hF.log _ h1
  obtain ⟨h4, h5⟩ := logcosh_range h
  have h6 := logcosh_lipschitz h θ
  have h7 : |Real.log (F.cosh h)| ≤ |h| + 2 * v := by
    have := abs_add_le (Real.log (F.cosh h) - Real.log (Real.cosh h)) (Real.log (Real.cosh h))
    rw [sub_add_cancel, abs_of_nonneg h4] at this
    linarith
  have h8 : v * |Real.log (F.cosh h)| ≤ v * (|h| + 2 * v) := mul_le_mul_of_nonneg_left h7 hv0
  constructor
  · have a := abs_add_le (F.log (F.cosh h) - Real.log (F.cosh h)) (Real.log (F.cosh h) - Real.log (Real.cosh θ))
    have b := abs_add_le (Real.log (F.cosh h) - Real.log (Real.cosh h)) (Real.log (Real.cosh h) - Real.log (Real.cosh θ))
    rw [sub_add_sub_cancel] at a b
    nlinarith
  · have a := abs_add_le (F.log (F.cosh h) - Real.log (F.cosh h)) (Real.log (F.cosh h))
    rw [sub_add_cancel] at a
    linarith

theorem unitSize_nonneg {n m : ℕ} (kernel : Fin n → Fin m → ℝ) (bias : Option (Fin m → ℝ)) (j : Fin m) :
    0 ≤ unitSize kernel bias j := by
  unfold unitSize
  have : 0 ≤ ∑ i, |kernel i j| := Finset.sum_nonneg fun _ _ => abs_nonneg _
  cases bias with
  | none => simpa using this
  | some b =>
    dsimp only
    have := abs_nonneg (b j)
    linarith

theorem dense_le {n m : ℕ} (kernel : Fin n → Fin m → ℝ) (bias : Option (Fin m → ℝ)) (x : Fin n → ℝ) (hx : ∀ i, |x i| = 1)
    (j : Fin m) : |dense kernel bias x j| ≤ unitSize kernel bias j := by
  unfold dense unitSize
  have a1 : |∑ i, x i * kernel i j| ≤ ∑ i, |kernel i j| := by
    refine (Finset.abs_sum_le_sum_abs _ _).trans (le_of_eq (Finset.sum_congr rfl fun i _ => ?_))
    rw [abs_mul, hx, one_mul]
  cases bias with
  | none => simpa using a1
  | some b =>
    dsimp only
    exact (abs_add_le _ _).trans (by linarith)

/-- C145: the coefficient which `RBM` computes with rounding errors, in whatever order numbers are added, differs from the exact
one by at most the machine precision times the number of operations per unit times the sizes of the parameters. -/
theorem c145_rbm {r : Rounding} {F : ElemFuns} {v : ℝ} (hF : Accurate F v) (hv0 : 0 ≤ v) (hv : v ≤ 1 / 2) {n m : ℕ}
    (hn : (n + 2) * r.u ≤ 1 / 2) (hm : m * r.u ≤ 1 / 2) (kernel : Fin n → Fin m → ℝ) (bias : Option (Fin m → ℝ)) (s : Fin n → ℤ)
    (hs : ∀ i, s i = 0 ∨ s i = 1) (out : ℝ) (h : RealRbmR r F kernel bias s out) :
    |out - realRbm kernel bias s| ≤ ((2 * (n + 2) + 6 * m) * r.u + 3 * v) * ∑ j, (1 + unitSize kernel bias j) := by
  obtain ⟨θ', hd, hsum⟩ := h
  have hx : ∀ i, |(((2 * s i - 1 : ℤ) : ℝ))| = 1 := by
    intro i
    rcases hs i with h | h <;> rw [h] <;> norm_num
  have hu := r.u_nonneg
  have hγ := pow_double_bound hu (m := n + 2) (by push_cast; linarith)
  have hγ' := pow_double_bound hu (m := m) (by linarith)
  push_cast at hγ
  have hγ0 : 0 ≤ (1 + r.u) ^ (n + 2) - 1 := by
    have : (1 : ℝ) ≤ (1 + r.u) ^ (n + 2) := one_le_pow₀ (by linarith)
    linarith
  have hγ0' : 0 ≤ (1 + r.u) ^ m - 1 := by
    have : (1 : ℝ) ≤ (1 + r.u) ^ m := one_le_pow₀ (by linarith)
    linarith
  set γ := (1 + r.u) ^ (n + 2) - 1 with hγd
  set γ' := (1 + r.u) ^ m - 1 with hγd'
  set x : Fin n → ℝ := fun i => ((2 * s i - 1 : ℤ) : ℝ) with hxd
  -- the units
  have hunit : ∀ j, |F.log (F.cosh (θ' j)) - Real.log (Real.cosh (dense kernel bias x j))|
        ≤ γ * unitSize kernel bias j + 3 * v + 2 * v * unitSize kernel bias j ∧
      |F.log (F.cosh (θ' j))| ≤ 3 * unitSize kernel bias j + 3 / 2 := by
    intro j
    have hA := unitSize_nonneg kernel bias j
    have h1 := denseR_err hx (hd j)
    have h2 := dense_le kernel bias x hx j
    obtain ⟨h3, h4⟩ := unit_err hF hv0 hv (θ' j) (dense kernel bias x j)
    have h5 : |θ' j| ≤ 2 * unitSize kernel bias j := by
      have := abs_add_le (θ' j - dense kernel bias x j) (dense kernel bias x j)
      rw [sub_add_cancel] at this
      have h6 : γ ≤ 1 := by linarith
      nlinarith
    constructor
    · have : v * |θ' j| ≤ v * (2 * unitSize kernel bias j) := mul_le_mul_of_nonneg_left h5 hv0
      linarith
    · have h6 : (1 + v) * (|θ' j| + 2 * v) ≤ (3 / 2) * (2 * unitSize kernel bias j + 1) := by
        apply mul_le_mul (by linarith) (by linarith) (by positivity) (by norm_num)
      linarith
  -- their sum
  obtain ⟨ys, g1, g2⟩ := sums_near hsum
  have g3 := forall₂_sum_abs r (value := fun y : ℝ => y) (k := m) (g1.imp fun _ _ h => near_mono r (by simp) h)
  rw [g2, List.map_id', List.sum_ofFn, List.map_ofFn, List.sum_ofFn] at g3
  simp only [Function.comp] at g3
  have g4 : ∑ j, |F.log (F.cosh (θ' j))| ≤ ∑ j, (3 * unitSize kernel bias j + 3 / 2) :=
    Finset.sum_le_sum fun j _ => (hunit j).2
  have g5 : |∑ j, F.log (F.cosh (θ' j)) - realRbm kernel bias s|
      ≤ ∑ j, (γ * unitSize kernel bias j + 3 * v + 2 * v * unitSize kernel bias j) := by
    unfold realRbm
    rw [← Finset.sum_sub_distrib]
    exact (Finset.abs_sum_le_sum_abs _ _).trans (Finset.sum_le_sum fun j _ => (hunit j).1)
  have g6 := abs_add_le (out - ∑ j, F.log (F.cosh (θ' j))) (∑ j, F.log (F.cosh (θ' j)) - realRbm kernel bias s)
  rw [sub_add_sub_cancel] at g6
  have g7 : γ' * ∑ j, |F.log (F.cosh (θ' j))| ≤ γ' * ∑ j, (3 * unitSize kernel bias j + 3 / 2) :=
    mul_le_mul_of_nonneg_left g4 hγ0'
  refine g6.trans ((add_le_add (g3.trans g7) g5).trans ?_)
  rw [Finset.mul_sum, Finset.mul_sum, ← Finset.sum_add_distrib]
  refine Finset.sum_le_sum fun j _ => ?_
  have hA := unitSize_nonneg kernel bias j
  have k1 : γ' * (3 * unitSize kernel bias j + 3 / 2) ≤ 2 * (m * r.u) * (3 * unitSize kernel bias j + 3 / 2) :=
    mul_le_mul_of_nonneg_right hγ' (by positivity)
  have k2 : γ * unitSize kernel bias j ≤ 2 * ((n + 2) * r.u) * unitSize kernel bias j := mul_le_mul_of_nonneg_right hγ hA
  have k3 : 0 ≤ (m : ℝ) * r.u := by positivity
  have k4 : 0 ≤ ((n : ℝ) + 2) * r.u := by positivity
  have k5 : 0 ≤ v * unitSize kernel bias j := mul_nonneg hv0 hA
  nlinarith

/-- C145: hence the modulus of the amplitude has a relative error of at most twice this bound. -/
theorem c145_amplitude {r : Rounding} {F : ElemFuns} {v : ℝ} (hF : Accurate F v) (hv0 : 0 ≤ v) (hv : v ≤ 1 / 2) {n m : ℕ}
    (hn : (n + 2) * r.u ≤ 1 / 2) (hm : m * r.u ≤ 1 / 2) (kernel : Fin n → Fin m → ℝ) (bias : Option (Fin m → ℝ)) (s : Fin n → ℤ)
    (hs : ∀ i, s i = 0 ∨ s i = 1) (out : ℝ) (h : RealRbmR r F kernel bias s out)
    (hsmall : ((2 * (n + 2) + 6 * m) * r.u + 3 * v) * ∑ j, (1 + unitSize kernel bias j) ≤ 1) :
    |Real.exp out - Real.exp (realRbm kernel bias s)|
      ≤ 2 * (((2 * (n + 2) + 6 * m) * r.u + 3 * v) * ∑ j, (1 + unitSize kernel bias j)) * Real.exp (realRbm kernel bias s) := by
  have h1 := c145_rbm hF hv0 hv hn hm kernel bias s hs out h
  have h2 := Real.abs_exp_sub_one_le (h1.trans hsmall)
  have h3 : Real.exp out - Real.exp (realRbm kernel bias s)
      = (Real.exp (out - realRbm kernel bias s) - 1) * Real.exp (realRbm kernel bias s) := by
    rw [Real.exp_sub]
    have := (Real.exp_pos (realRbm kernel bias s)).ne'
    field_simp
  rw [h3, abs_mul, abs_of_pos (Real.exp_pos _)]
  refine mul_le_mul_of_nonneg_right ?_ (Real.exp_pos _).le
  linarith

/-- C145: the machine can compute the coefficient of every configuration. -/
theorem c145_exists (r : Rounding) (F : ElemFuns) {n m : ℕ} (kernel : Fin n → Fin m → ℝ) (bias : Option (Fin m → ℝ))
    (s : Fin n → ℤ) : ∃ out, RealRbmR r F kernel bias s out := by
  have hd : ∀ j, ∃ y, DenseR r kernel bias (fun i => ((2 * s i - 1 : ℤ) : ℝ)) j y := by
    intro j
    obtain ⟨d, hd⟩ := dotR_exists r (List.ofFn fun i => ((((2 * s i - 1 : ℤ) : ℝ)), kernel i j))
    cases bias with
    | none => exact ⟨d, d, hd, rfl⟩
    | some b => exact ⟨_, d, hd, Or.inl rfl⟩
  choose h hh using hd
  obtain ⟨out, ho⟩ := sums_exists r (List.ofFn fun j => F.log (F.cosh (h j)))
  exact ⟨out, h, hh, ho⟩

/-- Rounding the exact values gives accurate functions. -/
noncomputable def roundedFuns (r : Rounding) : ElemFuns :=
  ⟨fun x => r.rnd (Real.cosh x), fun x => r.rnd (Real.exp x), fun x => r.rnd (Real.log x), fun x => r.rnd (Real.log (1 + x))⟩

theorem roundedFuns_accurate (r : Rounding) : Accurate (roundedFuns r) r.u where
  cosh x := by
    have := r.err (Real.cosh x)
    rwa [abs_of_pos (Real.cosh_pos x)] at this
  exp x := by
    have := r.err (Real.exp x)
    rwa [abs_of_pos (Real.exp_pos x)] at this
  log x _ := r.err (Real.log x)
  log1p x hx := by
    have := r.err (Real.log (1 + x))
    rwa [abs_of_nonneg (Real.log_nonneg (by linarith))] at this

/-- `log(1 + exp a)` grows no faster than `a`. -/
theorem softplus_le (a b : ℝ) : Real.log (1 + Real.exp a) - Real.log (1 + Real.exp b) ≤ |a - b| := by
  have h1 : 1 + Real.exp a ≤ (1 + Real.exp b) * Real.exp |a - b| := by
    have e1 : (1 : ℝ) ≤ Real.exp |a - b| := Real.one_le_exp (abs_nonneg _)
    have e2 : Real.exp a ≤ Real.exp b * Real.exp |a - b| := by
      rw [← Real.exp_add]
      apply Real.exp_le_exp.mpr
      have := le_abs_self (a - b)
      linarith
    nlinarith
  have hb : (0 : ℝ) < 1 + Real.exp b := by positivity
  have h2 := Real.log_le_log (by positivity) h1
  rw [Real.log_mul hb.ne' (Real.exp_pos _).ne', Real.log_exp] at h2
  linarith

theorem softplus_lipschitz (a b : ℝ) : |Real.log (1 + Real.exp a) - Real.log (1 + Real.exp b)| ≤ |a - b| := by
  have h1 := softplus_le a b
  have h2 := softplus_le b a
  rw [abs_sub_comm] at h2
  rw [abs_le]
  constructor <;> linarith

theorem logcosh_formula (y : ℝ) : Real.log (Real.cosh y) = y + Real.log (1 + Real.exp (-2 * y)) - Real.log 2 := by
  have h1 : Real.cosh y = Real.exp y * (1 + Real.exp (-2 * y)) / 2 := by
    rw [Real.cosh_eq, mul_add, mul_one, ← Real.exp_add]
    congr 3
    ring
  rw [h1, Real.log_div (by positivity) (by norm_num), Real.log_mul (Real.exp_pos _).ne' (by positivity), Real.log_exp]

/-- C145: the activation function `log_cosh` of a real number `x` has an error of at most a few machine precisions times
`|x| + 1`. The sign bit of zero can have both values. -/
theorem c145_log_cosh {r : Rounding} {F : ElemFuns} {v : ℝ} (hF : Accurate F v) (hv0 : 0 ≤ v) (hv : v ≤ 1 / 8)
    (hu8 : r.u ≤ 1 / 8) (x : ℝ) (neg : Bool) (hneg : if neg then x ≤ 0 else 0 ≤ x) (out : ℝ) (h : LogCoshR r F x neg out) :
    |out - Real.log (Real.cosh x)| ≤ 8 * (r.u + v) * (|x| + 1) := by
  obtain ⟨a, t, ha, ht, ho⟩ := h
  have hy : (if neg then -x else x) = |x| := by
    cases neg with
    | true => simp only [if_true] at hneg ⊢; rw [abs_of_nonpos hneg]
    | false => simp only [Bool.false_eq_true, if_false] at hneg ⊢; rw [abs_of_nonneg hneg]
  rw [hy] at ha ht
  rw [← Real.cosh_abs, logcosh_formula]
  set y := |x| with hyd
  have hy0 : 0 ≤ y := abs_nonneg x
  have hu := r.u_nonneg
  have rdE : ∀ {b c : ℝ}, r.Rd b c → |c - b| ≤ r.u * |b| := by
    intro b c hbc
    have := near_abs_sub r (near_rd r hbc)
    rwa [pow_one, add_sub_cancel_left] at this
  have ha' := rdE ha
  have ht' := rdE ht
  have ho' := rdE ho
  rw [abs_mul, abs_of_nonneg hy0, show |(-2 : ℝ)| = 2 by norm_num] at ha'
  -- the logarithm
  obtain ⟨e1, e2⟩ := log_rel (Real.exp_pos a) (by linarith) (hF.exp a)
  set L := Real.log (1 + Real.exp (-2 * y)) with hL
  have hL0 : 0 ≤ L := Real.log_nonneg (by have := Real.exp_pos (-2 * y); linarith)
  have hlog2 : Real.log 2 ≤ 1 := by
    have := Real.log_le_sub_one_of_pos (by norm_num : (0 : ℝ) < 2)
    linarith
  have hlog20 : 0 ≤ Real.log 2 := Real.log_nonneg (by norm_num)
  have hL1 : L ≤ 1 := by
    refine le_trans (Real.log_le_log (by positivity) ?_) hlog2
    have : Real.exp (-2 * y) ≤ 1 := Real.exp_le_one_iff.mpr (by linarith)
    linarith
  have e3 := softplus_lipschitz (Real.log (F.exp a)) (-2 * y)
  rw [Real.exp_log e1] at e3
  rw [Real.log_exp] at e2
  have e4 : |Real.log (F.exp a) - -2 * y| ≤ 2 * v + r.u * (2 * y) := by
    have := abs_add_le (Real.log (F.exp a) - a) (a - -2 * y)
    rw [sub_add_sub_cancel] at this
    linarith
  have e5 := hF.log1p _ e1
  have e6 : Real.log (1 + F.exp a) ≤ 1 + (2 * v + r.u * (2 * y)) := by
    have := le_abs_self (Real.log (1 + F.exp a) - L)
    linarith
  have e7 : v * Real.log (1 + F.exp a) ≤ v * (1 + (2 * v + r.u * (2 * y))) := mul_le_mul_of_nonneg_left e6 hv0
  have e8 : v * (1 + (2 * v + r.u * (2 * y))) ≤ v * (5 / 4) + v * y * (1 / 4) := by
    have k1 : v * v ≤ v * (1 / 8) := mul_le_mul_of_nonneg_left hv hv0
    have k2 : (v * y) * r.u ≤ (v * y) * (1 / 8) := mul_le_mul_of_nonneg_left hu8 (mul_nonneg hv0 hy0)
    nlinarith
  have e9 : |F.log1p (F.exp a) - L| ≤ 13 / 4 * v + v * y * (1 / 4) + 2 * (r.u * y) := by
    have := abs_add_le (F.log1p (F.exp a) - Real.log (1 + F.exp a)) (Real.log (1 + F.exp a) - L)
    rw [sub_add_sub_cancel] at this
    linarith
  have hvy : v * y ≤ 1 / 8 * y := mul_le_mul_of_nonneg_right hv hy0
  have huy : r.u * y ≤ 1 / 8 * y := mul_le_mul_of_nonneg_right hu8 hy0
  -- the first sum
  have f1 : |y + F.log1p (F.exp a)| ≤ 3 / 2 * y + 3 / 2 := by
    have := abs_add_le (y + L) (F.log1p (F.exp a) - L)
    rw [show y + L + (F.log1p (F.exp a) - L) = y + F.log1p (F.exp a) by ring, abs_of_nonneg (by linarith : 0 ≤ y + L)] at this
    linarith
  have f2 : |t - (y + F.log1p (F.exp a))| ≤ r.u * (3 / 2 * y + 3 / 2) := ht'.trans (mul_le_mul_of_nonneg_left f1 hu)
  have g1 := hF.log 2 (by norm_num)
  rw [abs_of_nonneg hlog20] at g1
  have g2 : |F.log 2 - Real.log 2| ≤ v := g1.trans (by nlinarith)
  -- the difference
  have f3 : |t - F.log 2 - (y + L - Real.log 2)|
      ≤ r.u * (3 / 2 * y + 3 / 2) + (13 / 4 * v + v * y * (1 / 4) + 2 * (r.u * y)) + v := by
    have k := abs_add_three (t - (y + F.log1p (F.exp a))) (F.log1p (F.exp a) - L) (-(F.log 2 - Real.log 2))
    rw [show t - (y + F.log1p (F.exp a)) + (F.log1p (F.exp a) - L) + -(F.log 2 - Real.log 2)
      = t - F.log 2 - (y + L - Real.log 2) by ring, abs_neg] at k
    linarith
  obtain ⟨p0, p1⟩ := logcosh_range y
  rw [logcosh_formula, ← hL, abs_of_nonneg hy0] at p1
  rw [logcosh_formula, ← hL] at p0
  have f4 : |t - F.log 2| ≤ 2 * y + 1 := by
    have k := abs_add_le (t - F.log 2 - (y + L - Real.log 2)) (y + L - Real.log 2)
    rw [sub_add_cancel, abs_of_nonneg p0] at k
    have : r.u * (3 / 2 * y + 3 / 2) ≤ 1 / 8 * (3 / 2 * y + 3 / 2) := mul_le_mul_of_nonneg_right hu8 (by positivity)
    linarith
  have f5 : |out - (t - F.log 2)| ≤ r.u * (2 * y + 1) := ho'.trans (mul_le_mul_of_nonneg_left f4 hu)
  have f6 := abs_add_le (out - (t - F.log 2)) (t - F.log 2 - (y + L - Real.log 2))
  rw [sub_add_sub_cancel] at f6
  have k1 : 0 ≤ v * y := mul_nonneg hv0 hy0
  have k2 : 0 ≤ r.u * y := mul_nonneg hu hy0
  nlinarith

/-- C145: the machine can compute `log_cosh` of every number. -/
theorem c145_log_cosh_exists (r : Rounding) (F : ElemFuns) (x : ℝ) (neg : Bool) : ∃ out, LogCoshR r F x neg out :=
  ⟨_, _, _, Or.inl rfl, Or.inl rfl, Or.inl rfl⟩

/-- Case: a machine of two spins and three hidden units in double precision. -/
example : ∃ out, RealRbmR Rounding.double (roundedFuns Rounding.double) (fun (i : Fin 2) (j : Fin 3) => ((i : ℕ) + (j : ℕ) : ℝ) / 3)
      (some fun _ => 1) ![0, 1] out ∧
    |out - realRbm (fun (i : Fin 2) (j : Fin 3) => ((i : ℕ) + (j : ℕ) : ℝ) / 3) (some fun _ => 1) ![0, 1]| ≤ 1 / 10 ^ 13 := by
  obtain ⟨out, ho⟩ := c145_exists Rounding.double (roundedFuns Rounding.double)
    (fun (i : Fin 2) (j : Fin 3) => ((i : ℕ) + (j : ℕ) : ℝ) / 3) (some fun _ => 1) ![0, 1]
  refine ⟨out, ho, ?_⟩
  have h := c145_rbm (roundedFuns_accurate Rounding.double) (by norm_num [Rounding.double]) (by norm_num [Rounding.double])
    (by norm_num [Rounding.double]) (by norm_num [Rounding.double]) _ _ _ (by intro i; fin_cases i <;> simp) out ho
  refine h.trans ?_
  have hu : Rounding.double.u = (2 : ℝ) ^ (-53 : ℤ) := rfl
  rw [hu]
  norm_num [unitSize, Fin.sum_univ_three, Fin.sum_univ_two, abs_of_nonneg]

/-- Case: `log_cosh(-3)` in double precision. -/
example : ∃ out, LogCoshR Rounding.double (roundedFuns Rounding.double) (-3) true out ∧
    |out - Real.log (Real.cosh (-3))| ≤ 1 / 10 ^ 14 := by
  obtain ⟨out, ho⟩ := c145_log_cosh_exists Rounding.double (roundedFuns Rounding.double) (-3) true
  refine ⟨out, ho, ?_⟩
  have hu : Rounding.double.u = (2 : ℝ) ^ (-53 : ℤ) := rfl
  have h := c145_log_cosh (roundedFuns_accurate Rounding.double) (by rw [hu]; norm_num) (by rw [hu]; norm_num)
    (by rw [hu]; norm_num) (-3) true (by norm_num) out ho
  refine h.trans ?_
  rw [hu]
  norm_num

end JVMC
