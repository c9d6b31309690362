import Verif.Props.MinSR

/-!
# Lemmas: the pseudo-inverse does not depend on the eigensolver
-/

namespace JVMC

open Spec Matrix

section spectral

variable {m k k' : Type} [Fintype m] [Fintype k] [Fintype k'] [DecidableEq m] [DecidableEq k] [DecidableEq k']

theorem overlap_intertwines (V : Matrix m k ℂ) (W : Matrix m k' ℂ) (d : k → ℂ) (e : k' → ℂ) (hV : Vᴴ * V = 1)
    (hW : Wᴴ * W = 1) (h : V * diagonal d * Vᴴ = W * diagonal e * Wᴴ) (i : k) (j : k') :
    d i * (Vᴴ * W) i j = (Vᴴ * W) i j * e j := by
  have h1 : diagonal d * (Vᴴ * W) = Vᴴ * W * diagonal e := by
    calc diagonal d * (Vᴴ * W) = (Vᴴ * V) * diagonal d * (Vᴴ * W) := by rw [hV, Matrix.one_mul]
      _ = Vᴴ * (V * diagonal d * Vᴴ) * W := by simp only [Matrix.mul_assoc]
      _ = Vᴴ * (W * diagonal e * Wᴴ) * W := by rw [h]
      _ = Vᴴ * W * diagonal e * (Wᴴ * W) := by simp only [Matrix.mul_assoc]
      _ = Vᴴ * W * diagonal e := by rw [hW, Matrix.mul_one]
  have := congrFun (congrFun h1 i) j
  rwa [Matrix.diagonal_mul, Matrix.mul_diagonal] at this

/-- Functions of a Hermitian matrix do not depend on the eigenvectors. -/
theorem spectral_function (V : Matrix m k ℂ) (W : Matrix m k' ℂ) (d : k → ℝ) (e : k' → ℝ) (hV : Vᴴ * V = 1)
    (hV' : V * Vᴴ = 1) (hW : Wᴴ * W = 1) (hW' : W * Wᴴ = 1)
    (h : V * diagonal (fun i => (d i : ℂ)) * Vᴴ = W * diagonal (fun i => (e i : ℂ)) * Wᴴ) (f : ℝ → ℂ) :
    V * diagonal (fun i => f (d i)) * Vᴴ = W * diagonal (fun i => f (e i)) * Wᴴ := by
  have h1 : diagonal (fun i => f (d i)) * (Vᴴ * W) = Vᴴ * W * diagonal (fun i => f (e i)) := by
    ext i j
    rw [Matrix.diagonal_mul, Matrix.mul_diagonal]
    have := overlap_intertwines V W _ _ hV hW h i j
    by_cases h0 : (Vᴴ * W) i j = 0
    · rw [h0, mul_zero, zero_mul]
    · rw [mul_comm] at this
      have he : d i = e j := by exact_mod_cast mul_left_cancel₀ h0 this
      rw [he, mul_comm]
  calc V * diagonal (fun i => f (d i)) * Vᴴ = V * diagonal (fun i => f (d i)) * Vᴴ * (W * Wᴴ) := by
        rw [hW', Matrix.mul_one]
    _ = V * (diagonal (fun i => f (d i)) * (Vᴴ * W)) * Wᴴ := by simp only [Matrix.mul_assoc]
    _ = V * (Vᴴ * W * diagonal (fun i => f (e i))) * Wᴴ := by rw [h1]
    _ = (V * Vᴴ) * W * diagonal (fun i => f (e i)) * Wᴴ := by simp only [Matrix.mul_assoc]
    _ = W * diagonal (fun i => f (e i)) * Wᴴ := by rw [hV', Matrix.one_mul]

theorem spectrum_subset (V : Matrix m k ℂ) (W : Matrix m k' ℂ) (d : k → ℝ) (e : k' → ℝ) (hV : Vᴴ * V = 1)
    (hV' : V * Vᴴ = 1) (hW : Wᴴ * W = 1)
    (h : V * diagonal (fun i => (d i : ℂ)) * Vᴴ = W * diagonal (fun i => (e i : ℂ)) * Wᴴ) (j : k') :
    ∃ i, d i = e j := by
  by_contra hc
  push Not at hc
  have h0 : ∀ i, (Vᴴ * W) i j = 0 := by
    intro i
    have := overlap_intertwines V W _ _ hV hW h i j
    by_contra h0
    rw [mul_comm] at this
    exact hc i (by exact_mod_cast mul_left_cancel₀ h0 this)
  have h1 : ((Vᴴ * W)ᴴ * (Vᴴ * W)) j j = 1 := by
    rw [Matrix.conjTranspose_mul, Matrix.conjTranspose_conjTranspose, Matrix.mul_assoc, ← Matrix.mul_assoc V, hV',
      Matrix.one_mul, hW, Matrix.one_apply_eq]
  rw [Matrix.mul_apply] at h1
  simp [h0] at h1

theorem spectrum_sup (V : Matrix m k ℂ) (W : Matrix m k' ℂ) (d : k → ℝ) (e : k' → ℝ) (hV : Vᴴ * V = 1)
    (hV' : V * Vᴴ = 1) (hW : Wᴴ * W = 1) (hW' : W * Wᴴ = 1)
    (h : V * diagonal (fun i => (d i : ℂ)) * Vᴴ = W * diagonal (fun i => (e i : ℂ)) * Wᴴ) :
    ⨆ i, |d i| = ⨆ j, |e j| := by
  have hr : Set.range (fun i => |d i|) = Set.range fun j => |e j| := by
    ext x
    constructor
    · rintro ⟨i, rfl⟩
      obtain ⟨j, hj⟩ := spectrum_subset W V e d hW hW' hV h.symm i
      exact ⟨j, by dsimp only; rw [hj]⟩
    · rintro ⟨j, rfl⟩
      obtain ⟨i, hi⟩ := spectrum_subset V W d e hV hV' hW h j
      exact ⟨i, by dsimp only; rw [hi]⟩
  unfold iSup
  rw [hr]

end spectral

variable {N N' : ℕ}

/-- The pseudo-inverse of a matrix with permuted rows and columns, for any two eigensolvers. -/
theorem pinv_transfer (eigh eigh' : ∀ N : ℕ, Matrix (Fin N) (Fin N) ℂ → (Fin N → ℝ) × Matrix (Fin N) (Fin N) ℂ)
    (tol : ℝ) (T : Matrix (Fin N) (Fin N) ℂ) (T' : Matrix (Fin N') (Fin N') ℂ) (σ : Fin N ≃ Fin N')
    (hT : T = T'.submatrix σ σ) (h : IsEigh T (eigh N T).1 (eigh N T).2)
    (h' : IsEigh T' (eigh' N' T').1 (eigh' N' T').2) :
    pinvHermitian eigh tol T = (pinvHermitian eigh' tol T').submatrix σ σ := by
  have e1 := eigh_decomp T _ _ h
  have e2 := eigh_decomp T' _ _ h'
  have u1 := conj_unitary _ h.unitary
  have u2 := conj_unitary _ h'.unitary
  unfold pinvHermitian
  dsimp only
  generalize (eigh N T).1 = d at *
  generalize (eigh N T).2 = V at *
  generalize (eigh' N' T').1 = e at *
  generalize (eigh' N' T').2 = V' at *
  have hV := h.unitary
  have hV' := h'.unitary
  have w1 : (V'.submatrix σ id)ᴴ * V'.submatrix σ id = 1 := by
    rw [Matrix.conjTranspose_submatrix, Matrix.submatrix_mul_equiv, hV', Matrix.submatrix_id_id]
  have w2 : V'.submatrix σ id * (V'.submatrix σ id)ᴴ = 1 := by
    rw [Matrix.conjTranspose_submatrix, ← Matrix.submatrix_mul _ _ _ _ _ Function.bijective_id, u2,
      Matrix.submatrix_one_equiv]
  have hs : ∀ D : Matrix (Fin N') (Fin N') ℂ, (V' * D * V'ᴴ).submatrix σ σ = V'.submatrix σ id * D *
      (V'.submatrix σ id)ᴴ := by
    intro D
    rw [Matrix.conjTranspose_submatrix, Matrix.submatrix_mul _ _ _ id _ Function.bijective_id,
      Matrix.submatrix_mul _ _ _ id _ Function.bijective_id, Matrix.submatrix_id_id]
  have hd : V * diagonal (fun i => (d i : ℂ)) * Vᴴ =
      V'.submatrix σ id * diagonal (fun i => (e i : ℂ)) * (V'.submatrix σ id)ᴴ := by
    rw [← hs, ← e2, ← hT, ← e1]
  rw [hs, spectrum_sup V (V'.submatrix σ id) d e hV u1 w1 w2 hd]
  exact spectral_function V (V'.submatrix σ id) d e hV u1 w1 w2 hd fun x =>
    ((if |x| > tol * ⨆ j, |e j| then 1 / x else 0 : ℝ) : ℂ)

/-- The pseudo-inverse of a real matrix is real. -/
theorem pinv_real (eigh : ∀ N : ℕ, Matrix (Fin N) (Fin N) ℂ → (Fin N → ℝ) × Matrix (Fin N) (Fin N) ℂ)
    (tol : ℝ) (T : Matrix (Fin N) (Fin N) ℂ) (hT : T.map (starRingEnd ℂ) = T)
    (h : IsEigh T (eigh N T).1 (eigh N T).2) :
    (pinvHermitian eigh tol T).map (starRingEnd ℂ) = pinvHermitian eigh tol T := by
  have e1 := eigh_decomp T _ _ h
  have u1 := conj_unitary _ h.unitary
  unfold pinvHermitian
  dsimp only
  generalize (eigh N T).1 = d at *
  generalize (eigh N T).2 = V at *
  have hV := h.unitary
  have hc : ∀ A : Matrix (Fin N) (Fin N) ℂ, (Aᴴ).map (starRingEnd ℂ) = (A.map (starRingEnd ℂ))ᴴ := by
    intro A
    ext i j
    rfl
  have w1 : (V.map (starRingEnd ℂ))ᴴ * V.map (starRingEnd ℂ) = 1 := by
    rw [← hc, ← Matrix.map_mul, hV, Matrix.map_one _ (map_zero _) (map_one _)]
  have w2 : V.map (starRingEnd ℂ) * (V.map (starRingEnd ℂ))ᴴ = 1 := by
    rw [← hc, ← Matrix.map_mul, u1, Matrix.map_one _ (map_zero _) (map_one _)]
  have hs : ∀ g : ℝ → ℝ, (V * diagonal (fun i => (g (d i) : ℂ)) * Vᴴ).map (starRingEnd ℂ) =
      V.map (starRingEnd ℂ) * diagonal (fun i => (g (d i) : ℂ)) * (V.map (starRingEnd ℂ))ᴴ := by
    intro g
    rw [Matrix.map_mul, Matrix.map_mul, hc, Matrix.diagonal_map (map_zero _)]
    congr 3
    funext i
    exact Complex.conj_ofReal _
  have hd : V * diagonal (fun i => (d i : ℂ)) * Vᴴ =
      V.map (starRingEnd ℂ) * diagonal (fun i => (d i : ℂ)) * (V.map (starRingEnd ℂ))ᴴ := by
    rw [← hs fun x => x, ← e1, hT]
  have hf := spectral_function V (V.map (starRingEnd ℂ)) d d hV u1 w1 w2 hd fun x =>
    ((if |x| > tol * ⨆ j, |d j| then 1 / x else 0 : ℝ) : ℂ)
  exact (hs fun x => if |x| > tol * ⨆ j, |d j| then 1 / x else 0).trans hf.symm

end JVMC
