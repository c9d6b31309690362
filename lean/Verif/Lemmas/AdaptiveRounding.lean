import Verif.Model.AdaptiveRounding
import Verif.Spec.AdaptiveRounding
import Verif.Lemmas.Rounding

/-!
# Lemmas for C146
-/

namespace JVMC

open Spec

variable {σ : Type} {d : ℕ} {r : Rounding}

theorem rd_err {x y : ℝ} (h : r.Rd x y) : |y - x| ≤ r.u * |x| := by
  have := near_abs_sub r (near_rd r h)
  rwa [pow_one, add_sub_cancel_left] at this

theorem rdV_err {x y : Fin d → ℝ} (h : r.RdV x y) : ‖y - x‖ ≤ r.u * ‖x‖ := by
  rw [pi_norm_le_iff_of_nonneg (mul_nonneg r.u_nonneg (norm_nonneg _))]
  intro i
  rw [Pi.sub_apply, Real.norm_eq_abs]
  refine (rd_err (h i)).trans (mul_le_mul_of_nonneg_left ?_ r.u_nonneg)
  exact norm_le_pi_norm x i

theorem rdV_exists (r : Rounding) (x : Fin d → ℝ) : ∃ y, r.RdV x y := ⟨x, fun _ => Or.inr rfl⟩

/-- An operation whose exact operands are `e` away from `x`. -/
theorem rdV_near {x x' y : Fin d → ℝ} {e S : ℝ} (h : r.RdV x' y) (he : ‖x' - x‖ ≤ e) (hS : ‖x'‖ ≤ S) :
    ‖y - x‖ ≤ e + r.u * S := by
  have h1 := rdV_err h
  have h2 := norm_add_le (y - x') (x' - x)
  rw [sub_add_sub_cancel] at h2
  have h3 := mul_le_mul_of_nonneg_left hS r.u_nonneg
  linarith

theorem norm_le_of_near {M : Type} [SeminormedAddCommGroup M] {x y : M} {e S : ℝ} (h : ‖y - x‖ ≤ e) (hS : ‖x‖ ≤ S) :
    ‖y‖ ≤ S + e := by
  have := norm_add_le (y - x) x
  rw [sub_add_cancel] at this
  linarith

/-- A product with a rounded factor. -/
theorem rdV_scale {c c' S e : ℝ} {k k' p : Fin d → ℝ} (hu : r.u ≤ 1 / 8) (hc : 0 ≤ c) (hc' : |c' - c| ≤ r.u * c)
    (hk : ‖k' - k‖ ≤ e) (hS : ‖k'‖ ≤ S) (h : r.RdV (c' • k') p) : ‖p - c • k‖ ≤ c * e + 17 / 8 * (r.u * (c * S)) := by
  have hu0 := r.u_nonneg
  have hS0 : 0 ≤ S := (norm_nonneg _).trans hS
  have h1 : ‖c' • k' - c • k‖ ≤ c * e + r.u * (c * S) := by
    have e1 : c' • k' - c • k = (c' - c) • k' + c • (k' - k) := by
      rw [sub_smul, smul_sub]; abel
    rw [e1]
    refine (norm_add_le _ _).trans ?_
    rw [norm_smul, norm_smul, Real.norm_eq_abs, Real.norm_eq_abs, abs_of_nonneg hc]
    have a1 : |c' - c| * ‖k'‖ ≤ (r.u * c) * S := mul_le_mul hc' hS (norm_nonneg _) (by positivity)
    have a2 : c * ‖k' - k‖ ≤ c * e := mul_le_mul_of_nonneg_left hk hc
    linarith
  have h2 : ‖c' • k'‖ ≤ 9 / 8 * (c * S) := by
    rw [norm_smul, Real.norm_eq_abs]
    have a1 : |c'| ≤ 9 / 8 * c := by
      have := abs_add_le (c' - c) c
      rw [sub_add_cancel, abs_of_nonneg hc] at this
      have a3 : r.u * c ≤ 1 / 8 * c := mul_le_mul_of_nonneg_right hu hc
      linarith
    have := mul_le_mul a1 hS (norm_nonneg _) (by positivity)
    linarith
  have := rdV_near h h1 h2
  linarith

variable {f : VRhs (Fin d → ℝ) σ} {t dt R V : ℝ} {y₀ : Fin d → ℝ} {s s' : σ} {x : AhVals d}

/-- What rounding does to the values of one pass, relative to the evaluations it made. -/
structure AttemptErr (r : Rounding) (t : ℝ) (y₀ : Fin d → ℝ) (dt V : ℝ) (x : AhVals d) : Prop where
  k0 : ‖x.k0‖ ≤ V
  k1 : ‖x.k1‖ ≤ V
  k10 : ‖x.k10‖ ≤ V
  k01 : ‖x.k01‖ ≤ V
  k11 : ‖x.k11‖ ≤ V
  a1 : ‖x.a1 - (y₀ + dt • x.k0)‖ ≤ 3 * (r.u * (‖y₀‖ + 4 * (dt * V)))
  a2 : ‖x.a2 - (y₀ + (dt / 2) • x.k0)‖ ≤ 3 * (r.u * (‖y₀‖ + 4 * (dt * V)))
  a3 : ‖x.a3 - (y₀ + (dt / 4) • (x.k0 + x.k10))‖ ≤ 3 * (r.u * (‖y₀‖ + 4 * (dt * V)))
  a4 : ‖x.a4 - (y₀ + (dt / 4) • (x.k0 + x.k10) + (dt / 2) • x.k01)‖ ≤ 3 * (r.u * (‖y₀‖ + 4 * (dt * V)))
  dy0 : ‖x.dy0 - (dt / 2) • (x.k0 + x.k1)‖ ≤ 4 * (r.u * (dt * V))
  dy1 : ‖x.dy1 - ((dt / 4) • (x.k0 + x.k10) + (dt / 4) • (x.k01 + x.k11))‖ ≤ 6 * (r.u * (dt * V))
  diff : ‖x.diff‖ ≤ 4 * (dt * V)
  diff_err : ‖x.diff - (x.dy1 - x.dy0)‖ ≤ r.u * (4 * (dt * V))
  dy1_size : ‖x.dy1‖ ≤ 2 * (dt * V)

theorem norm_smul_le' {c S : ℝ} {k : Fin d → ℝ} (hc : 0 ≤ c) (hS : ‖k‖ ≤ S) : ‖c • k‖ ≤ c * S := by
  rw [norm_smul, Real.norm_eq_abs, abs_of_nonneg hc]
  exact mul_le_mul_of_nonneg_left hS hc

theorem norm_add_le' {a b : Fin d → ℝ} {A B : ℝ} (ha : ‖a‖ ≤ A) (hb : ‖b‖ ≤ B) : ‖a + b‖ ≤ A + B :=
  (norm_add_le a b).trans (add_le_add ha hb)

theorem attempt_err (hu : r.u ≤ 1 / 8) (hdt : 0 < dt) (hV0 : 0 ≤ V) (hV : RhsBounded f y₀ R V)
    (hR : dt * V + 3 * (r.u * (‖y₀‖ + 4 * (dt * V))) ≤ R) (h : AhAttemptRnd r f t y₀ dt s x s') :
    AttemptErr r t y₀ dt V x := by
  obtain ⟨s1, s2, s3, s4, c0, c1, c2, c3, c4⟩ := h.calls
  have hu0 := r.u_nonneg
  have hY := norm_nonneg y₀
  have hW : 0 ≤ dt * V := mul_nonneg hdt.le hV0
  have hUY : 0 ≤ r.u * ‖y₀‖ := mul_nonneg hu0 hY
  have hUW : 0 ≤ r.u * (dt * V) := mul_nonneg hu0 hW
  have hUY' : r.u * ‖y₀‖ ≤ 1 / 8 * ‖y₀‖ := mul_le_mul_of_nonneg_right hu hY
  have hUW' : r.u * (dt * V) ≤ 1 / 8 * (dt * V) := mul_le_mul_of_nonneg_right hu hW
  have hUV : r.u * V ≤ 1 / 8 * V := mul_le_mul_of_nonneg_right hu hV0
  have hUV0 : 0 ≤ r.u * V := mul_nonneg hu0 hV0
  have hUUY : r.u * (r.u * ‖y₀‖) ≤ 1 / 8 * (r.u * ‖y₀‖) := mul_le_mul_of_nonneg_right hu hUY
  have hUUW : r.u * (r.u * (dt * V)) ≤ 1 / 8 * (r.u * (dt * V)) := mul_le_mul_of_nonneg_right hu hUW
  set W := dt * V with hWd
  clear_value W
  -- factors
  have hhd : |x.hd - dt / 2| ≤ r.u * (dt / 2) := by
    have := rd_err h.hd
    rwa [abs_of_pos (by linarith : 0 < 1 / 2 * dt), show 1 / 2 * dt = dt / 2 by ring] at this
  have hqd : |x.qd - dt / 4| ≤ r.u * (dt / 4) := by
    have := rd_err h.qd
    rwa [abs_of_pos (by linarith : 0 < 1 / 4 * dt), show 1 / 4 * dt = dt / 4 by ring] at this
  have h2 : (0 : ℝ) ≤ dt / 2 := by linarith
  have h4 : (0 : ℝ) ≤ dt / 4 := by linarith
  -- evaluations
  have k0 : ‖x.k0‖ ≤ V := by
    have := hV y₀ t 0 s (by rw [sub_self, norm_zero]; linarith)
    rwa [c0] at this
  have hdk0 : ‖dt • x.k0‖ ≤ W := (norm_smul_le' hdt.le k0).trans hWd.ge
  have hd2k0 : ‖(dt / 2) • x.k0‖ ≤ W / 2 := (norm_smul_le' h2 k0).trans (by rw [hWd]; linarith)
  have p0 : ‖x.p0 - dt • x.k0‖ ≤ r.u * W := by
    have := rdV_near h.p0 (x := dt • x.k0) (e := 0) (by simp) hdk0
    linarith
  have p0s := norm_le_of_near p0 hdk0
  have a1 : ‖x.a1 - (y₀ + dt • x.k0)‖ ≤ r.u * ‖y₀‖ + 17 / 8 * (r.u * W) := by
    have := rdV_near h.a1 (x := y₀ + dt • x.k0) (e := r.u * W) (by rw [add_sub_add_left_eq_sub]; exact p0)
      (norm_add_le' le_rfl p0s)
    linarith
  have ball : ∀ {a b : Fin d → ℝ}, ‖a - (y₀ + b)‖ ≤ 3 * (r.u * (‖y₀‖ + 4 * W)) → ‖b‖ ≤ W → ‖a - y₀‖ ≤ R := by
    intro a b hab hb
    have := norm_add_le (a - (y₀ + b)) b
    rw [show a - (y₀ + b) + b = a - y₀ by abel] at this
    linarith
  have a1' : ‖x.a1 - (y₀ + dt • x.k0)‖ ≤ 3 * (r.u * (‖y₀‖ + 4 * W)) := a1.trans (by linarith)
  have k1 : ‖x.k1‖ ≤ V := by
    have := hV x.a1 x.t1 1 s1 (ball a1' hdk0)
    rwa [c1] at this
  have b0 : ‖x.b0 - (dt / 2) • x.k0‖ ≤ 17 / 16 * (r.u * W) := by
    have := rdV_scale hu h2 hhd (k := x.k0) (e := 0) (by simp) k0 h.b0
    rw [show r.u * (dt / 2 * V) = r.u * W / 2 by rw [hWd]; ring] at this
    linarith
  have a2 : ‖x.a2 - (y₀ + (dt / 2) • x.k0)‖ ≤ 3 * (r.u * (‖y₀‖ + 4 * W)) := by
    have e1 : ‖x.a1 - x.b0 - (y₀ + (dt / 2) • x.k0)‖ ≤ r.u * ‖y₀‖ + 17 / 8 * (r.u * W) + 17 / 16 * (r.u * W) := by
      have e : x.a1 - x.b0 - (y₀ + (dt / 2) • x.k0) = (x.a1 - (y₀ + dt • x.k0)) - (x.b0 - (dt / 2) • x.k0) := by
        have : dt • x.k0 = (dt / 2) • x.k0 + (dt / 2) • x.k0 := by rw [← add_smul]; congr 1; ring
        rw [this]; abel
      rw [e]
      exact (norm_sub_le _ _).trans (add_le_add a1 b0)
    have e2 := norm_le_of_near e1 (norm_add_le' le_rfl hd2k0)
    have := rdV_near h.a2 e1 e2
    linarith
  have k10 : ‖x.k10‖ ≤ V := by
    have := hV x.a2 x.th 2 s2 (ball a2 (by linarith))
    rwa [c2] at this
  -- half steps
  have half : ∀ {k k' sum p : Fin d → ℝ} {c c' : ℝ}, 0 ≤ c → |c' - c| ≤ r.u * c → ‖k‖ ≤ V → ‖k'‖ ≤ V → r.RdV (k + k') sum →
      r.RdV (c' • sum) p → ‖p - c • (k + k')‖ ≤ 7 * (r.u * (c * V)) := by
    intro k k' sum p c c' hc hc' hk hk' hsum hp
    have q1 := norm_add_le' hk hk'
    have q2 := rdV_near hsum (x := k + k') (e := 0) (by simp) q1
    have q3 := norm_le_of_near q2 q1
    have q4 := rdV_scale hu hc hc' q2 (S := 9 / 4 * V) (by linarith) hp
    have : 0 ≤ r.u * (c * V) := by positivity
    linarith
  have quarter : ∀ {k k' : Fin d → ℝ}, ‖k‖ ≤ V → ‖k'‖ ≤ V → ‖(dt / 4) • (k + k')‖ ≤ W / 2 := by
    intro k k' hk hk'
    refine (norm_smul_le' h4 (norm_add_le' hk hk')).trans (by rw [hWd]; linarith)
  have dyh : ‖x.dyh - (dt / 4) • (x.k0 + x.k10)‖ ≤ 7 / 4 * (r.u * W) := by
    have := half h4 hqd k0 k10 h.sum1 h.dyh
    rw [show r.u * (dt / 4 * V) = r.u * W / 4 by rw [hWd]; ring] at this
    linarith
  have dyhs := norm_le_of_near dyh (quarter k0 k10)
  have a3 : ‖x.a3 - (y₀ + (dt / 4) • (x.k0 + x.k10))‖ ≤ r.u * ‖y₀‖ + 5 / 2 * (r.u * W) := by
    have := rdV_near h.a3 (x := y₀ + (dt / 4) • (x.k0 + x.k10)) (e := 7 / 4 * (r.u * W))
      (by rw [add_sub_add_left_eq_sub]; exact dyh) (norm_add_le' le_rfl dyhs)
    linarith
  have a3' : ‖x.a3 - (y₀ + (dt / 4) • (x.k0 + x.k10))‖ ≤ 3 * (r.u * (‖y₀‖ + 4 * W)) := a3.trans (by linarith)
  have k01 : ‖x.k01‖ ≤ V := by
    have := hV x.a3 x.th 3 s3 (ball a3' ((quarter k0 k10).trans (by linarith)))
    rwa [c3] at this
  have hd2k01 : ‖(dt / 2) • x.k01‖ ≤ W / 2 := (norm_smul_le' h2 k01).trans (by rw [hWd]; linarith)
  have p1 : ‖x.p1 - (dt / 2) • x.k01‖ ≤ 17 / 16 * (r.u * W) := by
    have := rdV_scale hu h2 hhd (k := x.k01) (e := 0) (by simp) k01 h.p1
    rw [show r.u * (dt / 2 * V) = r.u * W / 2 by rw [hWd]; ring] at this
    linarith
  have a4 : ‖x.a4 - (y₀ + (dt / 4) • (x.k0 + x.k10) + (dt / 2) • x.k01)‖ ≤ 3 * (r.u * (‖y₀‖ + 4 * W)) := by
    have e1 : ‖x.a3 + x.p1 - (y₀ + (dt / 4) • (x.k0 + x.k10) + (dt / 2) • x.k01)‖
        ≤ r.u * ‖y₀‖ + 5 / 2 * (r.u * W) + 17 / 16 * (r.u * W) := by
      rw [add_sub_add_comm]
      exact norm_add_le' a3 p1
    have e2 := norm_le_of_near e1 (norm_add_le' (norm_add_le' le_rfl (quarter k0 k10)) hd2k01)
    have := rdV_near h.a4 e1 e2
    linarith
  have k11 : ‖x.k11‖ ≤ V := by
    have := hV x.a4 x.t1 4 s4 (ball (b := (dt / 4) • (x.k0 + x.k10) + (dt / 2) • x.k01) (by rwa [← add_assoc])
      ((norm_add_le' (quarter k0 k10) hd2k01).trans (by linarith)))
    rwa [c4] at this
  have dyq : ‖x.dyq - (dt / 4) • (x.k01 + x.k11)‖ ≤ 7 / 4 * (r.u * W) := by
    have := half h4 hqd k01 k11 h.sum2 h.dyq
    rw [show r.u * (dt / 4 * V) = r.u * W / 4 by rw [hWd]; ring] at this
    linarith
  have dy1 : ‖x.dy1 - ((dt / 4) • (x.k0 + x.k10) + (dt / 4) • (x.k01 + x.k11))‖ ≤ 6 * (r.u * W) := by
    have e1 : ‖x.dyh + x.dyq - ((dt / 4) • (x.k0 + x.k10) + (dt / 4) • (x.k01 + x.k11))‖ ≤ 7 / 4 * (r.u * W) + 7 / 4 * (r.u * W) := by
      rw [add_sub_add_comm]
      exact norm_add_le' dyh dyq
    have e2 := norm_le_of_near e1 (norm_add_le' (quarter k0 k10) (quarter k01 k11))
    have := rdV_near h.dy1 e1 e2
    linarith
  have dy0 : ‖x.dy0 - (dt / 2) • (x.k0 + x.k1)‖ ≤ 4 * (r.u * W) := by
    have := half h2 hhd k0 k1 h.sum0 h.dy0
    rw [show r.u * (dt / 2 * V) = r.u * W / 2 by rw [hWd]; ring] at this
    linarith
  have s1 := norm_le_of_near dy1 (norm_add_le' (quarter k0 k10) (quarter k01 k11))
  have s0 : ‖x.dy0‖ ≤ 3 / 2 * W := by
    have q : ‖(dt / 2) • (x.k0 + x.k1)‖ ≤ W := (norm_smul_le' h2 (norm_add_le' k0 k1)).trans (by rw [hWd]; linarith)
    have := norm_le_of_near dy0 q
    linarith
  have s10 : ‖x.dy1 - x.dy0‖ ≤ 13 / 4 * W := (norm_sub_le _ _).trans (by linarith)
  have de := rdV_near h.diff (x := x.dy1 - x.dy0) (e := 0) (by simp) s10
  have ds := norm_le_of_near de s10
  subst hWd
  refine ⟨k0, k1, k10, k01, k11, a1', a2, a3', a4, dy0, dy1, by linarith, by linarith, by linarith⟩

end JVMC
