import Verif.Lemmas.Convergence
import Verif.Lemmas.Rounding
import Verif.Model.StepRounding
import Verif.Spec.Rounding
import Verif.Spec.StepRounding

/-!
# Lemmas on time integration with rounding errors
-/

namespace JVMC

open Spec Set

variable {σ : Type} {d : ℕ}

theorem rd_close (r : Rounding) {x y : ℝ} (h : r.Rd x y) : |y - x| ≤ r.u * |x| := by
  rcases h with rfl | rfl
  · exact r.err x
  · simpa using mul_nonneg r.u_nonneg (abs_nonneg _)

theorem rd_size (r : Rounding) {x y : ℝ} (h : r.Rd x y) : |y| ≤ 2 * |x| := by
  have h1 := rd_close r h
  have h2 : |y| ≤ |y - x| + |x| := by
    simpa using abs_add_le (y - x) x
  nlinarith [r.u_lt, abs_nonneg x]

/-- One component of an Euler step. -/
theorem euler_comp (r : Rounding) {dt y k p B V : ℝ} (hdt : 0 ≤ dt) (hy : |y| ≤ B) (hk : |k| ≤ V)
    (hp : r.Rd (dt * k) p) : |r.rnd (y + p) - (y + dt * k)| ≤ r.u * (B + 3 * dt * V) := by
  have h1 := rd_close r hp
  have h2 := rd_size r hp
  have h3 := r.err (y + p)
  have h4 : |dt * k| ≤ dt * V := by
    rw [abs_mul, abs_of_nonneg hdt]
    exact mul_le_mul_of_nonneg_left hk hdt
  have h5 := abs_add_le y p
  have h6 : r.rnd (y + p) - (y + dt * k) = (r.rnd (y + p) - (y + p)) + (p - dt * k) := by ring
  rw [h6]
  have h7 := abs_add_le (r.rnd (y + p) - (y + p)) (p - dt * k)
  have hu := r.u_nonneg
  have h8 : r.u * |y + p| ≤ r.u * (B + 2 * (dt * V)) := mul_le_mul_of_nonneg_left (by linarith) hu
  have h9 : r.u * |dt * k| ≤ r.u * (dt * V) := mul_le_mul_of_nonneg_left h4 hu
  nlinarith

/-- One component of the second half of a Heun step. -/
theorem heun_comp (r : Rounding) {dt y k0 k1 h s q B V : ℝ} (hdt : 0 ≤ dt) (hy : |y| ≤ B) (hk0 : |k0| ≤ V)
    (hk1 : |k1| ≤ V) (hh : r.Rd (1 / 2 * dt) h) (hs : r.Rd (k0 + k1) s) (hq : r.Rd (h * s) q) :
    |r.rnd (y + q) - (y + dt / 2 * (k0 + k1))| ≤ r.u * (B + 15 * dt * V) := by
  have hu := r.u_nonneg
  have hV : 0 ≤ V := (abs_nonneg _).trans hk0
  have a1 : |1 / 2 * dt| = dt / 2 := by
    rw [abs_of_nonneg (by linarith)]
    ring
  have h1 := rd_close r hh
  have h2 := rd_size r hh
  rw [a1] at h1 h2
  have a2 : |k0 + k1| ≤ 2 * V := (abs_add_le _ _).trans (by linarith)
  have h3 := rd_close r hs
  have h4 := rd_size r hs
  have h5 := rd_close r hq
  have h6 := rd_size r hq
  have a3 : |h * s| ≤ dt * (4 * V) := by
    rw [abs_mul]
    exact mul_le_mul (by linarith) (by linarith) (abs_nonneg _) hdt
  have h7 := r.err (y + q)
  have a4 := abs_add_le y q
  have b1 : r.u * |y + q| ≤ r.u * (B + 8 * (dt * V)) := mul_le_mul_of_nonneg_left (by linarith) hu
  have b2 : r.u * |h * s| ≤ r.u * (4 * (dt * V)) := mul_le_mul_of_nonneg_left (by linarith) hu
  have b3 : |h * (s - (k0 + k1))| ≤ dt * (r.u * (2 * V)) := by
    rw [abs_mul]
    exact mul_le_mul (by linarith) (h3.trans (mul_le_mul_of_nonneg_left a2 hu)) (abs_nonneg _) hdt
  have b4 : |(h - 1 / 2 * dt) * (k0 + k1)| ≤ r.u * (dt / 2) * (2 * V) := by
    rw [abs_mul]
    exact mul_le_mul h1 a2 (abs_nonneg _) (by positivity)
  have e : r.rnd (y + q) - (y + dt / 2 * (k0 + k1))
      = (r.rnd (y + q) - (y + q)) + (q - h * s) + h * (s - (k0 + k1)) + (h - 1 / 2 * dt) * (k0 + k1) := by
    ring
  rw [e]
  have c1 := abs_add_le ((r.rnd (y + q) - (y + q)) + (q - h * s) + h * (s - (k0 + k1)))
    ((h - 1 / 2 * dt) * (k0 + k1))
  have c2 := abs_add_le ((r.rnd (y + q) - (y + q)) + (q - h * s)) (h * (s - (k0 + k1)))
  have c3 := abs_add_le (r.rnd (y + q) - (y + q)) (q - h * s)
  nlinarith

theorem comp_le {x : Fin d → ℝ} {B : ℝ} (h : ‖x‖ ≤ B) (i : Fin d) : |x i| ≤ B :=
  (norm_le_pi_norm x i).trans h

/-- The predictor of a Heun step and the result of an Euler step. -/
theorem euler_local (r : Rounding) {dt B V : ℝ} (hdt : 0 ≤ dt) (hB : 0 ≤ B) (hV : 0 ≤ V)
    {y k p : Fin d → ℝ} (hy : ‖y‖ ≤ B) (hk : ‖k‖ ≤ V) (hp : ∀ i, r.Rd (dt * k i) (p i)) :
    ‖(fun i => r.rnd (y i + p i)) - (y + dt • k)‖ ≤ r.u * (B + 3 * dt * V) := by
  have hu := r.u_nonneg
  rw [pi_norm_le_iff_of_nonneg (by positivity)]
  intro i
  simpa using euler_comp r hdt (comp_le hy i) (comp_le hk i) (hp i)

theorem heun_local (r : Rounding) {dt B V h : ℝ} (hdt : 0 ≤ dt) (hB : 0 ≤ B) (hV : 0 ≤ V)
    {y k0 k1 s q : Fin d → ℝ} (hy : ‖y‖ ≤ B) (hk0 : ‖k0‖ ≤ V) (hk1 : ‖k1‖ ≤ V)
    (hh : r.Rd (1 / 2 * dt) h) (hs : ∀ i, r.Rd (k0 i + k1 i) (s i)) (hq : ∀ i, r.Rd (h * s i) (q i)) :
    ‖(fun i => r.rnd (y i + q i)) - (y + (dt / 2) • (k0 + k1))‖ ≤ r.u * (B + 15 * dt * V) := by
  have hu := r.u_nonneg
  rw [pi_norm_le_iff_of_nonneg (by positivity)]
  intro i
  simpa [mul_add] using heun_comp r hdt (comp_le hy i) (comp_le hk0 i) (comp_le hk1 i) hh (hs i) (hq i)

/-- A perturbed step is an exact step with a perturbed right-hand side. -/
theorem effective {M : Type} [NormedAddCommGroup M] [NormedSpace ℝ M] {x x' k : M} {h δ : ℝ} (hh : 0 < h)
    (e : ‖x' - (x + h • k)‖ ≤ h * δ) : ∃ k', x' = x + h • k' ∧ ‖k' - k‖ ≤ δ := by
  refine ⟨h⁻¹ • (x' - x), ?_, ?_⟩
  · rw [smul_inv_smul₀ hh.ne']
    abel
  · have e1 : h⁻¹ • (x' - x) - k = h⁻¹ • (x' - (x + h • k)) := by
      rw [← sub_sub, smul_sub h⁻¹ (x' - x), inv_smul_smul₀ hh.ne']
    rw [e1, norm_smul, Real.norm_of_nonneg (inv_nonneg.mpr hh.le)]
    calc h⁻¹ * ‖x' - (x + h • k)‖ ≤ h⁻¹ * (h * δ) := mul_le_mul_of_nonneg_left e (inv_nonneg.mpr hh.le)
      _ = δ := by field_simp

end JVMC
