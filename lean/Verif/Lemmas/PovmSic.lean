import Verif.Lemmas.Povm

/-!
# Lemmas about the SIC-POVM
-/

namespace JVMC

open Matrix Spec
open scoped ComplexOrder

theorem rot_orthogonal (θ φ : ℝ) :
    ((rotatorTheta θ)ᵀ * (rotatorPhi φ)ᵀ) * ((rotatorTheta θ)ᵀ * (rotatorPhi φ)ᵀ)ᵀ = 1 := by
  have h1 := Real.sin_sq_add_cos_sq θ
  have h2 := Real.sin_sq_add_cos_sq φ
  have hθ : (rotatorTheta θ)ᵀ * rotatorTheta θ = 1 := by
    ext i j
    fin_cases i <;> fin_cases j <;>
      simp [rotatorTheta, Matrix.mul_apply, Fin.sum_univ_three] <;> nlinarith
  have hφ : (rotatorPhi φ)ᵀ * rotatorPhi φ = 1 := by
    ext i j
    fin_cases i <;> fin_cases j <;>
      simp [rotatorPhi, Matrix.mul_apply, Fin.sum_univ_three] <;> nlinarith
  rw [Matrix.transpose_mul, Matrix.transpose_transpose, Matrix.transpose_transpose,
    Matrix.mul_assoc, ← Matrix.mul_assoc _ (rotatorPhi φ), hφ, Matrix.one_mul, hθ]

theorem sic_gram (a b : Fin 4) :
    (sicVectors * sicVectorsᵀ) a b = if a = b then 1 else -1 / 3 := by
  have h2 : Real.sqrt 2 * Real.sqrt 2 = 2 := Real.mul_self_sqrt (by norm_num)
  have h3 : Real.sqrt (2 / 3) * Real.sqrt (2 / 3) = 2 / 3 := Real.mul_self_sqrt (by norm_num)
  generalize hx : Real.sqrt 2 = x at h2
  generalize hy : Real.sqrt (2 / 3) = y at h3
  fin_cases a <;> fin_cases b <;>
    simp [sicVectors, Matrix.mul_apply, Fin.sum_univ_three, hx, hy] <;> nlinarith

theorem povm_gram (θ φ : ℝ) (a b : Fin 4) :
    ∑ k, povmVectors θ φ a k * povmVectors θ φ b k = if a = b then 1 else -1 / 3 := by
  rw [← sic_gram a b]
  have : (povmVectors θ φ * (povmVectors θ φ)ᵀ) a b = ∑ k, povmVectors θ φ a k * povmVectors θ φ b k := by
    simp [Matrix.mul_apply]
  rw [← this]
  unfold povmVectors
  rw [Matrix.transpose_mul, Matrix.mul_assoc, ← Matrix.mul_assoc _ _ (sicVectorsᵀ), rot_orthogonal,
    Matrix.one_mul]

theorem sic_sum (k : Fin 3) : ∑ a, sicVectors a k = 0 := by
  fin_cases k <;> simp [sicVectors, Fin.sum_univ_four] <;> ring

theorem povm_sum (θ φ : ℝ) (k : Fin 3) : ∑ a, povmVectors θ φ a k = 0 := by
  unfold povmVectors
  simp only [Matrix.mul_apply (M := sicVectors)]
  rw [Finset.sum_comm]
  simp only [← Finset.sum_mul, sic_sum, zero_mul, Finset.sum_const_zero]

/-- The element belonging to a Bloch vector (povm.py:125). -/
noncomputable def blochElement (v : Fin 3 → ℝ) : Matrix (Fin 2) (Fin 2) ℂ :=
  (1 / 4 : ℂ) • (1 + ∑ k, ((v k : ℝ) : ℂ) • getPaulis k)

theorem getM_sic (θ φ : ℝ) : getM θ φ "SIC" = .ok fun a => blochElement (povmVectors θ φ a) := rfl

theorem blochElement_entries (v : Fin 3 → ℝ) :
    blochElement v
      = !![(1 + v 2 : ℂ) / 4, (v 0 - Complex.I * v 1 : ℂ) / 4;
           (v 0 + Complex.I * v 1 : ℂ) / 4, (1 - v 2 : ℂ) / 4] := by
  ext i j
  fin_cases i <;> fin_cases j <;> simp [blochElement, getPaulis, Fin.sum_univ_three] <;> ring

theorem trace_blochElements (v w : Fin 3 → ℝ) :
    (blochElement v * blochElement w).trace = ((1 + ∑ k, v k * w k : ℝ) : ℂ) / 8 := by
  rw [blochElement_entries, blochElement_entries]
  simp only [Matrix.mul_fin_two, Matrix.trace_fin_two_of, Fin.sum_univ_three]
  push_cast
  linear_combination (v 1 * w 1 / 8 : ℂ) * (-1 : ℂ) * Complex.I_mul_I

theorem blochElement_sq (v : Fin 3 → ℝ) (hv : ∑ k, v k * v k = 1) :
    blochElement v = (2 : ℂ) • (blochElement v * blochElement v) := by
  rw [blochElement_entries]
  have hc : (v 0 : ℂ) * v 0 + v 1 * v 1 + v 2 * v 2 = 1 := by
    rw [Fin.sum_univ_three] at hv; exact_mod_cast hv
  have hI := Complex.I_mul_I
  ext i j
  fin_cases i <;> fin_cases j <;> simp <;>
    first
      | ring1
      | linear_combination (-1 / 8 : ℂ) * hc + (v 1 * v 1 / 8 : ℂ) * hI

theorem blochElement_hermitian (v : Fin 3 → ℝ) : (blochElement v).IsHermitian := by
  rw [blochElement_entries]
  ext i j
  fin_cases i <;> fin_cases j <;> simp [Complex.conj_ofReal]; try ring

end JVMC
