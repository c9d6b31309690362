import Mathlib.Analysis.Complex.Order
import Mathlib.LinearAlgebra.Matrix.DotProduct
import Mathlib.Order.ConditionallyCompleteLattice.Finset
import Verif.Lemmas.Tdvp
import Verif.Model.MinSR
import Verif.Spec.MinSR

/-!
# Lemmas about the MinSR update: linear algebra
-/

namespace JVMC

open Spec Matrix ComplexOrder

variable {N m : ℕ}

theorem euclid_sq (v : Fin m → ℂ) : ((euclid v ^ 2 : ℝ) : ℂ) = star v ⬝ᵥ v := by
  unfold euclid
  rw [Real.sq_sqrt (Finset.sum_nonneg fun i _ => Complex.normSq_nonneg _), sum_normSq_eq]

theorem euclid_nonneg' (v : Fin m → ℂ) : 0 ≤ euclid v := Real.sqrt_nonneg _

/-- Pythagoras. -/
theorem euclid_add_orthogonal (u v : Fin m → ℂ) (h : star u ⬝ᵥ v = 0) :
    euclid (u + v) ^ 2 = euclid u ^ 2 + euclid v ^ 2 := by
  have h' : star v ⬝ᵥ u = 0 := by
    have := congrArg star h
    rw [star_dotProduct, star_star, star_zero] at this
    rw [dotProduct_comm]
    rw [← this, dotProduct_comm]
  have : ((euclid (u + v) ^ 2 : ℝ) : ℂ) = ((euclid u ^ 2 + euclid v ^ 2 : ℝ) : ℂ) := by
    rw [Complex.ofReal_add, euclid_sq, euclid_sq, euclid_sq, star_add, add_dotProduct, dotProduct_add,
      dotProduct_add, h, h']
    ring
  exact_mod_cast this

theorem euclid_le_of_orthogonal (u v : Fin m → ℂ) (h : star u ⬝ᵥ v = 0) : euclid u ≤ euclid (u + v) := by
  have := euclid_add_orthogonal u v h
  nlinarith [euclid_nonneg' u, euclid_nonneg' (u + v), sq_nonneg (euclid v)]

/-- A vector in the range of `X†` has minimal norm among all with the same image. -/
theorem minimal_norm (X : Matrix (Fin N) (Fin m) ℂ) (z : Fin N → ℂ) (y : Fin m → ℂ)
    (h : X *ᵥ y = X *ᵥ (Xᴴ *ᵥ z)) : euclid (Xᴴ *ᵥ z) ≤ euclid y := by
  have hy : y = Xᴴ *ᵥ z + (y - Xᴴ *ᵥ z) := by ring
  rw [hy]
  apply euclid_le_of_orthogonal
  rw [star_mulVec, conjTranspose_conjTranspose, ← dotProduct_mulVec, mulVec_sub, h, sub_self,
    dotProduct_zero]

/-- The normal equations give the least squares solution. -/
theorem least_squares (X : Matrix (Fin N) (Fin m) ℂ) (e : Fin N → ℂ) (x y : Fin m → ℂ)
    (h : Xᴴ *ᵥ (X *ᵥ x + e) = 0) : euclid (X *ᵥ x + e) ≤ euclid (X *ᵥ y + e) := by
  have hy : X *ᵥ y + e = (X *ᵥ x + e) + X *ᵥ (y - x) := by rw [mulVec_sub]; ring
  rw [hy]
  apply euclid_le_of_orthogonal
  have h2 := congrArg star h
  rw [star_mulVec, conjTranspose_conjTranspose, star_zero] at h2
  rw [dotProduct_mulVec, h2, zero_dotProduct]

/-- Whether an eigenvalue is kept by the pseudo-inverse. -/
def Kept (tol : ℝ) (ev : Fin N → ℝ) (k : Fin N) : Prop := |ev k| > tol * ⨆ j, |ev j|

theorem kept_ne (tol : ℝ) (ht : 0 ≤ tol) (ev : Fin N → ℝ) (k : Fin N) (h : Kept tol ev k) : ev k ≠ 0 := by
  intro h0
  unfold Kept at h
  rw [h0, abs_zero] at h
  have : 0 ≤ ⨆ j, |ev j| := Real.iSup_nonneg fun j => abs_nonneg _
  nlinarith [mul_nonneg ht this]

theorem conj_unitary (V : Matrix (Fin N) (Fin N) ℂ) (hV : Vᴴ * V = 1) : V * Vᴴ = 1 :=
  mul_eq_one_comm.mp hV

theorem eigh_decomp (T V : Matrix (Fin N) (Fin N) ℂ) (ev : Fin N → ℝ) (h : IsEigh T ev V) :
    T = V * diagonal (fun k => (ev k : ℂ)) * Vᴴ := by
  rw [← h.decomp, Matrix.mul_assoc, conj_unitary V h.unitary, Matrix.mul_one]

open Classical in
/-- The projector on the kept eigenvectors. -/
noncomputable def keptProj (tol : ℝ) (ev : Fin N → ℝ) (V : Matrix (Fin N) (Fin N) ℂ) :
    Matrix (Fin N) (Fin N) ℂ :=
  V * diagonal (fun k => if Kept tol ev k then 1 else 0) * Vᴴ

theorem mul_pinv (eigh : ∀ N : ℕ, Matrix (Fin N) (Fin N) ℂ → (Fin N → ℝ) × Matrix (Fin N) (Fin N) ℂ)
    (tol : ℝ) (ht : 0 ≤ tol) (T : Matrix (Fin N) (Fin N) ℂ) (h : IsEigh T (eigh N T).1 (eigh N T).2) :
    T * pinvHermitian eigh tol T = keptProj tol (eigh N T).1 (eigh N T).2 := by
  classical
  unfold pinvHermitian keptProj
  dsimp only
  rw [← Matrix.mul_assoc, ← Matrix.mul_assoc, h.decomp, Matrix.mul_assoc (eigh N T).2, diagonal_mul_diagonal]
  congr 3
  funext k
  by_cases hk : Kept tol (eigh N T).1 k
  · rw [if_pos hk]
    unfold Kept at hk
    rw [if_pos hk]
    have := kept_ne tol ht _ k hk
    have hc : ((eigh N T).1 k : ℂ) ≠ 0 := by exact_mod_cast this
    push_cast
    field_simp
  · rw [if_neg hk]
    unfold Kept at hk
    rw [if_neg hk]
    simp

/-- If no non-zero eigenvalue is dropped, the projector does not change `T`. -/
theorem keptProj_mul (tol : ℝ) (T V : Matrix (Fin N) (Fin N) ℂ) (ev : Fin N → ℝ) (h : IsEigh T ev V)
    (hk : ∀ k, ev k ≠ 0 → Kept tol ev k) : keptProj tol ev V * T = T := by
  classical
  conv_lhs => rw [eigh_decomp T V ev h]
  conv_rhs => rw [eigh_decomp T V ev h]
  unfold keptProj
  rw [Matrix.mul_assoc (V * _), ← Matrix.mul_assoc Vᴴ, ← Matrix.mul_assoc Vᴴ, h.unitary, Matrix.one_mul,
    ← Matrix.mul_assoc, Matrix.mul_assoc V, diagonal_mul_diagonal]
  congr 3
  funext k
  by_cases h0 : ev k = 0
  · simp [h0]
  · rw [if_pos (hk k h0), one_mul]

theorem keptProj_herm (tol : ℝ) (V : Matrix (Fin N) (Fin N) ℂ) (ev : Fin N → ℝ) :
    (keptProj tol ev V)ᴴ = keptProj tol ev V := by
  classical
  unfold keptProj
  rw [conjTranspose_mul, conjTranspose_mul, conjTranspose_conjTranspose, diagonal_conjTranspose,
    Matrix.mul_assoc]
  congr 3
  funext k
  simp only [Pi.star_apply]
  split_ifs <;> simp

/-- ... and does not change `X†` if `T = X X†`. -/
theorem conjTranspose_mul_keptProj (tol : ℝ) (X : Matrix (Fin N) (Fin m) ℂ) (V : Matrix (Fin N) (Fin N) ℂ)
    (ev : Fin N → ℝ) (h : IsEigh (X * Xᴴ) ev V) (hk : ∀ k, ev k ≠ 0 → Kept tol ev k) :
    Xᴴ * keptProj tol ev V = Xᴴ := by
  have h0 : (1 - keptProj tol ev V) * X = 0 := by
    rw [← Matrix.self_mul_conjTranspose_eq_zero, conjTranspose_mul, ← Matrix.mul_assoc,
      Matrix.mul_assoc (1 - keptProj tol ev V) X, Matrix.sub_mul, Matrix.one_mul, keptProj_mul tol _ V ev h hk,
      sub_self, Matrix.zero_mul]
  have h1 := congrArg conjTranspose h0
  rw [conjTranspose_mul, conjTranspose_sub, conjTranspose_one, keptProj_herm, conjTranspose_zero,
    Matrix.mul_sub, Matrix.mul_one, sub_eq_zero] at h1
  exact h1.symm

/-- From ratios of eigenvalues to the cutoff. -/
theorem kept_of_spectrum (tol : ℝ) (T V : Matrix (Fin N) (Fin N) ℂ) (ev : Fin N → ℝ) (h : IsEigh T ev V)
    (hs : SpectrumAbove T tol) (k : Fin N) (hk : ev k ≠ 0) : Kept tol ev k := by
  have hcol : ∀ j, T *ᵥ (fun i => V i j) = (ev j : ℂ) • fun i => V i j := by
    intro j
    funext i
    have hi := congrFun (congrFun h.decomp i) j
    rw [Matrix.mul_diagonal, Matrix.mul_apply] at hi
    simp only [mulVec, dotProduct, Pi.smul_apply, smul_eq_mul]
    rw [hi, mul_comm]
  have hne : ∀ j, (fun i => V i j) ≠ 0 := by
    intro j h0
    have := congrFun (congrFun h.unitary j) j
    rw [Matrix.mul_apply, Matrix.one_apply_eq] at this
    rw [Finset.sum_eq_zero] at this
    · exact zero_ne_one this
    · intro i _
      rw [congrFun h0 i, Pi.zero_apply, mul_zero]
  have : Nonempty (Fin N) := ⟨k⟩
  obtain ⟨j, hj⟩ := exists_eq_ciSup_of_finite (f := fun j => |ev j|)
  unfold Kept
  rw [← hj]
  have := hs (ev k) (ev j) _ _ (hne k) (hne j) (hcol k) (hcol j) (by exact_mod_cast hk)
  simpa using this

end JVMC
