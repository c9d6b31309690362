import Verif.Model.LocalRounding
import Verif.Spec.LocalRounding
import Verif.Lemmas.Rounding

/-! # Helper lemmas: rounding errors of local estimators -/

namespace JVMC

open Spec

variable {r : Rounding}

theorem rd_err {x y : ℝ} (h : r.Rd x y) : |y - x| ≤ r.u * |x| := by
  rcases h with rfl | rfl
  · exact r.err x
  · rw [sub_self, abs_zero]
    exact mul_nonneg r.u_nonneg (abs_nonneg _)

theorem csub_err {x y z : ℂ} (h : CSubR r x y z) : ‖z - (x - y)‖ ≤ r.u * ‖x - y‖ := by
  have h1 := rd_err h.1
  have h2 := rd_err h.2
  rw [← abs_of_nonneg (mul_nonneg r.u_nonneg (norm_nonneg (x - y))), ← abs_norm]
  refine sq_le_sq.mp ?_
  rw [mul_pow, Complex.sq_norm, Complex.sq_norm, Complex.normSq_apply, Complex.normSq_apply]
  simp only [Complex.sub_re, Complex.sub_im]
  have q1 := sq_le_sq' (by linarith [abs_nonneg (z.re - (x.re - y.re)), mul_nonneg r.u_nonneg (abs_nonneg (x.re - y.re))]) h1
  have q2 := sq_le_sq' (by linarith [abs_nonneg (z.im - (x.im - y.im)), mul_nonneg r.u_nonneg (abs_nonneg (x.im - y.im))]) h2
  rw [sq_abs, mul_pow, sq_abs] at q1 q2
  nlinarith

/-- A sum of two rounded products, rounded. -/
theorem two_products {p q a b z : ℝ} (ha : r.Rd p a) (hb : r.Rd q b) (hz : r.Rd (a + b) z) :
    |z - (p + q)| ≤ ((1 + r.u) ^ 2 - 1) * (|p| + |q|) := by
  have h1 := rd_err ha
  have h2 := rd_err hb
  have h3 := rd_err hz
  have hu := r.u_nonneg
  have h4 : |a + b| ≤ (1 + r.u) * (|p| + |q|) := by
    have e1 : |a| ≤ (1 + r.u) * |p| := by
      have := abs_sub_abs_le_abs_sub a p
      linarith
    have e2 : |b| ≤ (1 + r.u) * |q| := by
      have := abs_sub_abs_le_abs_sub b q
      linarith
    have := abs_add_le a b
    linarith
  have h5 := mul_le_mul_of_nonneg_left h4 hu
  have h6 : |z - (p + q)| ≤ |z - (a + b)| + |a - p| + |b - q| := by
    have e : z - (p + q) = (z - (a + b)) + (a - p) + (b - q) := by ring
    rw [e]
    exact abs_add_three _ _ _
  nlinarith

theorem cauchy2 (x y : ℂ) : |x.re * y.re| + |x.im * y.im| ≤ ‖x‖ * ‖y‖ ∧ |x.re * y.im| + |x.im * y.re| ≤ ‖x‖ * ‖y‖ := by
  have key : ∀ a b c d : ℝ, |a * c| + |b * d| ≤ √(a * a + b * b) * √(c * c + d * d) := by
    intro a b c d
    rw [← Real.sqrt_mul (by nlinarith [sq_nonneg a, sq_nonneg b])]
    refine Real.le_sqrt_of_sq_le ?_
    rw [abs_mul, abs_mul]
    nlinarith [sq_nonneg (|a| * |d| - |b| * |c|), abs_mul_abs_self a, abs_mul_abs_self b, abs_mul_abs_self c,
      abs_mul_abs_self d, sq_abs a, sq_abs b, sq_abs c, sq_abs d]
  have hn : ∀ z : ℂ, ‖z‖ = √(z.re * z.re + z.im * z.im) := fun z => by
    rw [Complex.norm_def, Complex.normSq_apply]
  rw [hn x, hn y]
  refine ⟨key _ _ _ _, ?_⟩
  have := key x.re x.im y.im y.re
  rwa [add_comm (y.im * y.im)] at this

theorem cmul_err {x y z : ℂ} (h : CMulR r x y z) : ‖z - x * y‖ ≤ 2 * ((1 + r.u) ^ 2 - 1) * (‖x‖ * ‖y‖) := by
  obtain ⟨a, b, c, d, ha, hb, hre, hc, hd, him⟩ := h
  have hu := r.u_nonneg
  have hg : 0 ≤ (1 + r.u) ^ 2 - 1 := by nlinarith
  obtain ⟨c1, c2⟩ := cauchy2 x y
  have hb' : r.Rd (x.im * y.im) b := hb
  have h1 : |z.re - (x.re * y.re + -(x.im * y.im))| ≤ ((1 + r.u) ^ 2 - 1) * (|x.re * y.re| + |x.im * y.im|) := by
    have e1 := rd_err ha
    have e2 := rd_err hb
    have e3 := rd_err hre
    have h4 : |a - b| ≤ (1 + r.u) * (|x.re * y.re| + |x.im * y.im|) := by
      have f1 := abs_sub_abs_le_abs_sub a (x.re * y.re)
      have f2 := abs_sub_abs_le_abs_sub b (x.im * y.im)
      have := abs_sub a b
      linarith
    have h5 := mul_le_mul_of_nonneg_left h4 hu
    have h6 : |z.re - (x.re * y.re + -(x.im * y.im))| ≤ |z.re - (a - b)| + |a - x.re * y.re| + |b - x.im * y.im| := by
      have e : z.re - (x.re * y.re + -(x.im * y.im)) = (z.re - (a - b)) + (a - x.re * y.re) + -(b - x.im * y.im) := by ring
      rw [e, ← abs_neg (b - x.im * y.im)]
      exact abs_add_three _ _ _
    nlinarith
  have h2 := two_products hc hd him
  calc ‖z - x * y‖ ≤ |(z - x * y).re| + |(z - x * y).im| := Complex.norm_le_abs_re_add_abs_im _
    _ = |z.re - (x.re * y.re + -(x.im * y.im))| + |z.im - (x.re * y.im + x.im * y.re)| := by
        rw [Complex.sub_re, Complex.sub_im, Complex.mul_re, Complex.mul_im, ← sub_eq_add_neg]
    _ ≤ ((1 + r.u) ^ 2 - 1) * (‖x‖ * ‖y‖) + ((1 + r.u) ^ 2 - 1) * (‖x‖ * ‖y‖) :=
        add_le_add (h1.trans (mul_le_mul_of_nonneg_left c1 hg)) (h2.trans (mul_le_mul_of_nonneg_left c2 hg))
    _ = _ := by ring

/-- Relative errors compose. -/
theorem rel_trans {x y z : ℂ} {F G : ℝ} (h1 : ‖y - x‖ ≤ (F - 1) * ‖x‖) (h2 : ‖z - y‖ ≤ (G - 1) * ‖y‖) (hG : 1 ≤ G) :
    ‖z - x‖ ≤ (F * G - 1) * ‖x‖ := by
  have h3 : ‖y‖ ≤ F * ‖x‖ := by
    have := norm_sub_norm_le y x
    linarith
  have h4 : ‖z - x‖ ≤ ‖z - y‖ + ‖y - x‖ := norm_sub_le_norm_sub_add_norm_sub z y x
  have h5 := mul_le_mul_of_nonneg_left h3 (by linarith : 0 ≤ G - 1)
  nlinarith

theorem cexp_rel {z w : ℂ} {δ : ℝ} (h : ‖w - z‖ ≤ δ) : ‖Complex.exp w - Complex.exp z‖ ≤ (Real.exp δ - 1) * ‖Complex.exp z‖ := by
  have e : Complex.exp w - Complex.exp z = (Complex.exp (w - z) - 1) * Complex.exp z := by
    rw [sub_mul, ← Complex.exp_add, one_mul, sub_add_cancel]
  rw [e, norm_mul]
  refine mul_le_mul_of_nonneg_right ?_ (norm_nonneg _)
  have h1 := Complex.norm_exp_sub_sum_le_exp_norm_sub_sum (w - z) 1
  simp only [Finset.sum_range_one, pow_zero, Nat.factorial_zero, Nat.cast_one, div_one] at h1
  linarith [Real.exp_le_exp.mpr h]

theorem term_err {e : ℂ → ℂ} {a b v D : ℝ} (hv : 0 ≤ v) (hb : 0 ≤ b) (he : CExpWithin v e) {logS logS' : ℂ} {p p' : ℂ × ℂ}
    (hS : ‖logS' - logS‖ ≤ a) (h1 : ‖p'.1 - p.1‖ ≤ b * ‖p.1‖) (h2 : ‖p'.2 - p.2‖ ≤ a) (hD : ‖p.2 - logS‖ ≤ D) {t : ℂ}
    (ht : OLocTermR r e logS' p' t) :
    ‖t - p.1 * Complex.exp (p.2 - logS)‖ ≤ (termFactor r.u a b v D - 1) * ‖p.1 * Complex.exp (p.2 - logS)‖ := by
  obtain ⟨z, hz, hm⟩ := ht
  have hu := r.u_nonneg
  -- the argument of the exponential function
  have hz1 : ‖(p'.2 - logS') - (p.2 - logS)‖ ≤ 2 * a := by
    have e1 : (p'.2 - logS') - (p.2 - logS) = (p'.2 - p.2) - (logS' - logS) := by ring
    rw [e1]
    have := norm_sub_le (p'.2 - p.2) (logS' - logS)
    linarith
  have hz2 : ‖p'.2 - logS'‖ ≤ D + 2 * a := by
    have := norm_sub_norm_le (p'.2 - logS') (p.2 - logS)
    linarith
  have hz3 : ‖z - (p.2 - logS)‖ ≤ 2 * a + r.u * (D + 2 * a) := by
    have e1 := csub_err hz
    have e2 := mul_le_mul_of_nonneg_left hz2 hu
    have := norm_sub_le_norm_sub_add_norm_sub z (p'.2 - logS') (p.2 - logS)
    linarith
  have k1 := cexp_rel hz3
  have k2 : ‖e z - Complex.exp z‖ ≤ ((1 + v) - 1) * ‖Complex.exp z‖ := by
    rw [add_sub_cancel_left]
    exact he z
  have k3 := rel_trans k1 k2 (by linarith)
  -- the product of the factors
  have k4 : ‖p'.1 * e z - p.1 * Complex.exp (p.2 - logS)‖
      ≤ (Real.exp (2 * a + r.u * (D + 2 * a)) * (1 + v) * (1 + b) - 1) * ‖p.1 * Complex.exp (p.2 - logS)‖ := by
    refine rel_trans (y := p.1 * e z) ?_ ?_ (by linarith)
    · rw [← mul_sub, norm_mul, norm_mul]
      have := mul_le_mul_of_nonneg_left k3 (norm_nonneg p.1)
      linarith
    · rw [← sub_mul, norm_mul, norm_mul, add_sub_cancel_left]
      have := mul_le_mul_of_nonneg_right h1 (norm_nonneg (e z))
      linarith
  have k5 : ‖t - p'.1 * e z‖ ≤ ((1 + 2 * ((1 + r.u) ^ 2 - 1)) - 1) * ‖p'.1 * e z‖ := by
    rw [add_sub_cancel_left, norm_mul]
    exact cmul_err hm
  have k6 := rel_trans k4 k5 (by nlinarith)
  unfold termFactor
  refine k6.trans (le_of_eq ?_)
  ring

theorem termFactor_ge_one {u a b v D : ℝ} (hu : 0 ≤ u) (ha : 0 ≤ a) (hb : 0 ≤ b) (hv : 0 ≤ v) (hD : 0 ≤ D) :
    1 ≤ termFactor u a b v D := by
  unfold termFactor
  have h1 : 1 ≤ Real.exp (2 * a + u * (D + 2 * a)) := Real.one_le_exp (by positivity)
  have h2 : 1 ≤ 1 + 2 * ((1 + u) ^ 2 - 1) := by nlinarith
  have h3 : 1 ≤ (1 + b) * (1 + v) := by nlinarith
  have h4 := one_le_mul_of_one_le_of_one_le h3 h1
  exact one_le_mul_of_one_le_of_one_le h4 h2

/-- A sum of complex numbers in any order. -/
theorem csum_err {ts : List ℂ} {v : ℂ} (h1 : Sums r (ts.map Complex.re) v.re) (h2 : Sums r (ts.map Complex.im) v.im) (n : ℕ)
    (hn : ts.length ≤ n) (hn1 : 1 ≤ n) :
    ‖v - ts.sum‖ ≤ ((1 + r.u) ^ n - 1) * (ts.map fun t => ‖t‖).sum := by
  have key : ∀ (f : ℂ → ℝ) (x : ℝ), Sums r (ts.map f) x →
      GlobalMeanR r [[ts.map fun t => ((1 : ℝ), f t)]] x := by
    intro f x hx
    refine ⟨[[[x]]], .cons (.cons ⟨x, ⟨ts.map f, ?_, hx⟩, rfl⟩ .nil) .nil, [x], .cons ⟨[x], by simp, .cons (.one x) .nil, .one x⟩ .nil, .one x⟩
    clear hx h1 h2 hn
    induction ts with
    | nil => exact .nil
    | cons t l ih => exact .cons (Or.inr (one_mul _).symm) ih
  have hv : GlobalMeanC r [[ts.map fun t => ((1 : ℝ), t)]] v := by
    refine ⟨?_, ?_⟩
    · simpa [List.map_map, Function.comp_def] using key Complex.re v.re h1
    · simpa [List.map_map, Function.comp_def] using key Complex.im v.im h2
  have := globalMeanC_err hv (n := n) (d := 1) (k := 1) ⟨by simpa using hn, by simp, by simp, by omega⟩ (by simp [everything])
  simpa [everything, wmean, List.map_map, Function.comp_def] using this

theorem forall₂_term_sums {A : Type} {x : A → ℂ} {l : List A} {ts : List ℂ} {F : ℝ}
    (h : List.Forall₂ (fun p t => ‖t - x p‖ ≤ (F - 1) * ‖x p‖) l ts) :
    ‖ts.sum - (l.map x).sum‖ ≤ (F - 1) * (l.map fun p => ‖x p‖).sum ∧
      (ts.map fun t => ‖t‖).sum ≤ F * (l.map fun p => ‖x p‖).sum := by
  induction h with
  | nil => simp
  | @cons p t l ts hp _ ih =>
    simp only [List.map_cons, List.sum_cons]
    constructor
    · have e : t + ts.sum - (x p + (l.map x).sum) = (t - x p) + (ts.sum - (l.map x).sum) := by ring
      rw [e]
      refine (norm_add_le _ _).trans ?_
      rw [mul_add]
      exact add_le_add hp ih.1
    · have h1 := norm_sub_norm_le t (x p)
      rw [mul_add]
      linarith [ih.2]

theorem oloc_err {e : ℂ → ℂ} {a b v D : ℝ} (hv : 0 ≤ v) (hb : 0 ≤ b) (he : CExpWithin v e) {logS logS' : ℂ}
    {row row' : List (ℂ × ℂ)} (h : RowWithin a b D logS logS' row row') {x : ℂ} (hx : OLocR r e logS' row' x) (n : ℕ)
    (hn : row.length ≤ n) (hn1 : 1 ≤ n) :
    ‖x - localSum logS row‖ ≤ ((1 + r.u) ^ n * termFactor r.u a b v D - 1) * localAbs logS row := by
  obtain ⟨ts, hts, hre, him⟩ := hx
  obtain ⟨hS, hrow⟩ := h
  have hterms : List.Forall₂ (fun (p : ℂ × ℂ) t => ‖t - p.1 * Complex.exp (p.2 - logS)‖
      ≤ (termFactor r.u a b v D - 1) * ‖p.1 * Complex.exp (p.2 - logS)‖) row ts := by
    clear hre him hn
    induction hrow generalizing ts with
    | nil => cases hts; exact .nil
    | cons hp _ ih =>
      cases hts with
      | cons ht hts => exact .cons (term_err hv hb he hS hp.1 hp.2.1 hp.2.2 ht) (ih _ hts)
  obtain ⟨k1, k2⟩ := forall₂_term_sums hterms
  have hlen : ts.length ≤ n := by rw [← hterms.length_eq]; exact hn
  have k3 := csum_err hre him n hlen hn1
  have hp1 : 1 ≤ (1 + r.u) ^ n := one_le_pow₀ (one_le_hi r)
  have k4 := mul_le_mul_of_nonneg_left k2 (by linarith : 0 ≤ (1 + r.u) ^ n - 1)
  have k5 := norm_sub_le_norm_sub_add_norm_sub x ts.sum (localSum logS row)
  unfold localSum localAbs at *
  nlinarith

end JVMC
