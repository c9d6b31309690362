import Verif.Lemmas.TdvpOptimal

/-! # Helper lemmas: functions of matrices with the same square -/

namespace JVMC

open Spec Matrix

variable {m : ℕ}

/-- `V diag(g(ev²)) V†`. -/
noncomputable def evenFun (g : ℝ → ℝ) (ev : Fin m → ℝ) (V : Matrix (Fin m) (Fin m) ℂ) :
    Matrix (Fin m) (Fin m) ℂ := V * Matrix.diagonal (fun k => ((g (ev k ^ 2) : ℝ) : ℂ)) * Vᴴ

theorem eigh_sq (S V : Matrix (Fin m) (Fin m) ℂ) (ev : Fin m → ℝ) (hU : Vᴴ * V = 1)
    (hd : S * V = V * Matrix.diagonal fun k => (ev k : ℂ)) :
    S * S * V = V * Matrix.diagonal (fun k => ((ev k ^ 2 : ℝ) : ℂ)) ∧
      Vᴴ * (S * S) = Matrix.diagonal (fun k => ((ev k ^ 2 : ℝ) : ℂ)) * Vᴴ := by
  have h1 : S * S * V = V * Matrix.diagonal (fun k => ((ev k ^ 2 : ℝ) : ℂ)) := by
    rw [Matrix.mul_assoc, hd, ← Matrix.mul_assoc, hd, Matrix.mul_assoc, Matrix.diagonal_mul_diagonal]
    congr 2
    funext k
    push_cast
    ring
  refine ⟨h1, ?_⟩
  have hU' : V * Vᴴ = 1 := mul_eq_one_comm.mp hU
  calc Vᴴ * (S * S) = Vᴴ * (S * S * V) * Vᴴ := by
        rw [Matrix.mul_assoc Vᴴ, Matrix.mul_assoc (S * S), hU', Matrix.mul_one]
    _ = _ := by rw [h1, ← Matrix.mul_assoc, hU, Matrix.one_mul]

/-- Eigenvectors of matrices with the same square overlap only if the squares of the eigenvalues
agree. -/
theorem overlap_zero (S₁ S₂ V₁ V₂ : Matrix (Fin m) (Fin m) ℂ) (ev₁ ev₂ : Fin m → ℝ)
    (hU₁ : V₁ᴴ * V₁ = 1) (hd₁ : S₁ * V₁ = V₁ * Matrix.diagonal fun k => (ev₁ k : ℂ))
    (hU₂ : V₂ᴴ * V₂ = 1) (hd₂ : S₂ * V₂ = V₂ * Matrix.diagonal fun k => (ev₂ k : ℂ))
    (hsq : S₁ * S₁ = S₂ * S₂) (k j : Fin m) (hne : ev₁ k ^ 2 ≠ ev₂ j ^ 2) :
    (V₁ᴴ * V₂) k j = 0 := by
  have h1 := (eigh_sq S₁ V₁ ev₁ hU₁ hd₁).2
  have h2 := (eigh_sq S₂ V₂ ev₂ hU₂ hd₂).1
  have h3 : Matrix.diagonal (fun k => ((ev₁ k ^ 2 : ℝ) : ℂ)) * (V₁ᴴ * V₂)
      = (V₁ᴴ * V₂) * Matrix.diagonal (fun k => ((ev₂ k ^ 2 : ℝ) : ℂ)) := by
    rw [← Matrix.mul_assoc, ← h1, hsq, Matrix.mul_assoc, h2, Matrix.mul_assoc]
  have h4 := congrFun (congrFun h3 k) j
  rw [Matrix.diagonal_mul, Matrix.mul_diagonal, mul_comm, ← sub_eq_zero, ← mul_sub] at h4
  rcases mul_eq_zero.mp h4 with h | h
  · exact h
  · exfalso
    apply hne
    rw [sub_eq_zero] at h
    exact_mod_cast h

theorem evenFun_eq (g : ℝ → ℝ) (S₁ S₂ V₁ V₂ : Matrix (Fin m) (Fin m) ℂ) (ev₁ ev₂ : Fin m → ℝ)
    (hU₁ : V₁ᴴ * V₁ = 1) (hd₁ : S₁ * V₁ = V₁ * Matrix.diagonal fun k => (ev₁ k : ℂ))
    (hU₂ : V₂ᴴ * V₂ = 1) (hd₂ : S₂ * V₂ = V₂ * Matrix.diagonal fun k => (ev₂ k : ℂ))
    (hsq : S₁ * S₁ = S₂ * S₂) : evenFun g ev₁ V₁ = evenFun g ev₂ V₂ := by
  have h1 : Matrix.diagonal (fun k => ((g (ev₁ k ^ 2) : ℝ) : ℂ)) * (V₁ᴴ * V₂)
      = (V₁ᴴ * V₂) * Matrix.diagonal (fun k => ((g (ev₂ k ^ 2) : ℝ) : ℂ)) := by
    ext k j
    rw [Matrix.diagonal_mul, Matrix.mul_diagonal]
    by_cases h : ev₁ k ^ 2 = ev₂ j ^ 2
    · rw [h, mul_comm]
    · rw [overlap_zero S₁ S₂ V₁ V₂ ev₁ ev₂ hU₁ hd₁ hU₂ hd₂ hsq k j h, mul_zero, zero_mul]
  have e2 : V₂ * V₂ᴴ = 1 := mul_eq_one_comm.mp hU₂
  have e1 : V₁ * V₁ᴴ = 1 := mul_eq_one_comm.mp hU₁
  unfold evenFun
  calc V₁ * Matrix.diagonal (fun k => ((g (ev₁ k ^ 2) : ℝ) : ℂ)) * V₁ᴴ
      = V₁ * (Matrix.diagonal (fun k => ((g (ev₁ k ^ 2) : ℝ) : ℂ)) * (V₁ᴴ * V₂)) * V₂ᴴ := by
        simp only [Matrix.mul_assoc, e2, Matrix.mul_one]
    _ = V₁ * V₁ᴴ * V₂ * Matrix.diagonal (fun k => ((g (ev₂ k ^ 2) : ℝ) : ℂ)) * V₂ᴴ := by
        rw [h1]
        simp only [Matrix.mul_assoc]
    _ = _ := by rw [e1, Matrix.one_mul]

/-- A unitary matrix has a non-zero entry in every row. -/
theorem unitary_row (M : Matrix (Fin m) (Fin m) ℂ) (h : M * Mᴴ = 1) (k : Fin m) : ∃ j, M k j ≠ 0 := by
  by_contra hall
  push Not at hall
  have := congrFun (congrFun h k) k
  rw [Matrix.mul_apply, Matrix.one_apply_eq] at this
  simp [hall] at this

/-- Every squared eigenvalue of one matrix is one of the other. -/
theorem sq_occurs (S₁ S₂ V₁ V₂ : Matrix (Fin m) (Fin m) ℂ) (ev₁ ev₂ : Fin m → ℝ)
    (hU₁ : V₁ᴴ * V₁ = 1) (hd₁ : S₁ * V₁ = V₁ * Matrix.diagonal fun k => (ev₁ k : ℂ))
    (hU₂ : V₂ᴴ * V₂ = 1) (hd₂ : S₂ * V₂ = V₂ * Matrix.diagonal fun k => (ev₂ k : ℂ))
    (hsq : S₁ * S₁ = S₂ * S₂) (k : Fin m) : ∃ j, ev₁ k ^ 2 = ev₂ j ^ 2 := by
  obtain ⟨j, hj⟩ := unitary_row (V₁ᴴ * V₂) (by
    rw [Matrix.conjTranspose_mul, Matrix.conjTranspose_conjTranspose, Matrix.mul_assoc,
      ← Matrix.mul_assoc V₂, mul_eq_one_comm.mp hU₂, Matrix.one_mul, hU₁]) k
  refine ⟨j, ?_⟩
  by_contra hne
  exact hj (overlap_zero S₁ S₂ V₁ V₂ ev₁ ev₂ hU₁ hd₁ hU₂ hd₂ hsq k j hne)

/-- The spectrum of an imaginary matrix is symmetric. -/
theorem imaginary_spectrum (S V : Matrix (Fin m) (Fin m) ℂ) (ev : Fin m → ℝ) (h : IsEigh S ev V)
    (hS : ∀ i j, (starRingEnd ℂ) (S i j) = -S i j) (k : Fin m) : ∃ j, ev j = -ev k := by
  set W : Matrix (Fin m) (Fin m) ℂ := V.map (starRingEnd ℂ) with hW
  have hWd : S * W = W * Matrix.diagonal (fun k => ((-ev k : ℝ) : ℂ)) := by
    ext i j
    have h1 := congrArg (starRingEnd ℂ) (congrFun (congrFun h.decomp i) j)
    rw [Matrix.mul_apply, Matrix.mul_diagonal, map_sum, map_mul, Complex.conj_ofReal] at h1
    rw [Matrix.mul_apply, Matrix.mul_diagonal]
    have h2 : ∑ x, (starRingEnd ℂ) (S i x * V x j) = -∑ x, S i x * W x j := by
      rw [← Finset.sum_neg_distrib]
      refine Finset.sum_congr rfl fun x _ => ?_
      rw [map_mul, hS, hW, Matrix.map_apply]
      ring
    rw [h2] at h1
    rw [hW, Matrix.map_apply]
    push_cast
    linear_combination -h1
  have hWU : Wᴴ * W = 1 := by
    ext i j
    have h1 := congrArg (starRingEnd ℂ) (congrFun (congrFun h.unitary i) j)
    rw [Matrix.mul_apply, map_sum] at h1
    rw [Matrix.mul_apply]
    have : ∀ x, Wᴴ i x * W x j = (starRingEnd ℂ) (Vᴴ i x * V x j) := by
      intro x
      rw [map_mul, hW, Matrix.conjTranspose_apply, Matrix.map_apply, Matrix.map_apply,
        Matrix.conjTranspose_apply]
      rfl
    rw [Finset.sum_congr rfl fun x _ => this x, h1, Matrix.one_apply]
    split <;> simp
  obtain ⟨j, hj⟩ := unitary_row (Wᴴ * V) (by
    rw [Matrix.conjTranspose_mul, Matrix.conjTranspose_conjTranspose, Matrix.mul_assoc,
      ← Matrix.mul_assoc V, mul_eq_one_comm.mp h.unitary, Matrix.one_mul, hWU]) k
  refine ⟨j, ?_⟩
  have hWl : Wᴴ * S = Matrix.diagonal (fun k => ((-ev k : ℝ) : ℂ)) * Wᴴ := by
    calc Wᴴ * S = Wᴴ * (S * W) * Wᴴ := by
          rw [Matrix.mul_assoc Wᴴ, Matrix.mul_assoc S, mul_eq_one_comm.mp hWU, Matrix.mul_one]
      _ = _ := by rw [hWd, ← Matrix.mul_assoc, hWU, Matrix.one_mul]
  have h3 : Matrix.diagonal (fun k => ((-ev k : ℝ) : ℂ)) * (Wᴴ * V)
      = (Wᴴ * V) * Matrix.diagonal (fun k => (ev k : ℂ)) := by
    rw [← Matrix.mul_assoc, ← hWl, Matrix.mul_assoc, h.decomp, Matrix.mul_assoc]
  have h4 := congrFun (congrFun h3 k) j
  rw [Matrix.diagonal_mul, Matrix.mul_diagonal, mul_comm, ← sub_eq_zero, ← mul_sub] at h4
  rcases mul_eq_zero.mp h4 with h5 | h5
  · exact absurd h5 hj
  · rw [sub_eq_zero] at h5
    exact (by exact_mod_cast h5 : -ev k = ev j).symm

/-! ## Loops that run in parallel -/

theorem whileLoop_rel {S T : Type} (R : S → T → Prop) (c₁ : S → Bool) (c₂ : T → Bool) (b₁ : S → S)
    (b₂ : T → T) (s : S) (t : T) (h0 : R s t) (hb : ∀ x y, R x y → R (b₁ x) (b₂ y))
    (hc : ∀ x y, R x y → c₁ x = c₂ y) :
    (whileLoop c₁ b₁ s = none ∧ whileLoop c₂ b₂ t = none) ∨
      ∃ x y, whileLoop c₁ b₁ s = some x ∧ whileLoop c₂ b₂ t = some y ∧ R x y := by
  have hit : ∀ n, R (b₁^[n] s) (b₂^[n] t) := by
    intro n
    induction n with
    | zero => exact h0
    | succ n ih =>
      rw [Function.iterate_succ_apply', Function.iterate_succ_apply']
      exact hb _ _ ih
  have hcc : ∀ n, c₁ (b₁^[n] s) = c₂ (b₂^[n] t) := fun n => hc _ _ (hit n)
  unfold whileLoop
  by_cases h : ∃ n : ℕ, c₁ (b₁^[n] s) = false
  · have h' : ∃ n : ℕ, c₂ (b₂^[n] t) = false := by
      obtain ⟨n, hn⟩ := h
      exact ⟨n, by rw [← hcc]; exact hn⟩
    right
    rw [dif_pos h, dif_pos h']
    refine ⟨_, _, rfl, rfl, ?_⟩
    classical
    have : Nat.find h = Nat.find h' := by
      apply le_antisymm
      · apply Nat.find_min'
        rw [hcc]
        exact Nat.find_spec h'
      · apply Nat.find_min'
        rw [← hcc]
        exact Nat.find_spec h
    convert hit (Nat.find h) using 2
    rw [this]
  · have h' : ¬∃ n : ℕ, c₂ (b₂^[n] t) = false := by
      rintro ⟨n, hn⟩
      exact h ⟨n, by rw [hcc]; exact hn⟩
    left
    rw [dif_neg h, dif_neg h']
    exact ⟨rfl, rfl⟩

/-! ## Two equations related by a reflection -/

/-- `S₂ = K S₁ = S₁ K` and `F₂ = K F₁` with a Hermitian involution `K`. -/
structure Twin (K S₁ S₂ : Matrix (Fin m) (Fin m) ℂ) (F₁ F₂ : Fin m → ℂ) : Prop where
  invol : K * K = 1
  herm : Kᴴ = K
  left : S₂ = K * S₁
  right : S₂ = S₁ * K
  force : F₂ = K *ᵥ F₁

namespace Twin

variable {K S₁ S₂ : Matrix (Fin m) (Fin m) ℂ} {F₁ F₂ : Fin m → ℂ}

theorem sq (h : Twin K S₁ S₂ F₁ F₂) : S₁ * S₁ = S₂ * S₂ := by
  symm
  calc S₂ * S₂ = S₁ * K * (K * S₁) := by rw [← h.right, ← h.left]
    _ = S₁ * S₁ := by rw [Matrix.mul_assoc, ← Matrix.mul_assoc K, h.invol, Matrix.one_mul]

theorem commutes (h : Twin K S₁ S₂ F₁ F₂) (g : ℝ → ℝ) (ev : Fin m → ℝ)
    (V : Matrix (Fin m) (Fin m) ℂ) (hE : IsEigh S₁ ev V) :
    evenFun g ev V * K = K * evenFun g ev V := by
  have hU : (K * V)ᴴ * (K * V) = 1 := by
    rw [Matrix.conjTranspose_mul, h.herm, Matrix.mul_assoc, ← Matrix.mul_assoc K, h.invol,
      Matrix.one_mul, hE.unitary]
  have hd : S₁ * (K * V) = K * V * Matrix.diagonal fun k => (ev k : ℂ) := by
    rw [← Matrix.mul_assoc, ← h.right, h.left, Matrix.mul_assoc, hE.decomp, Matrix.mul_assoc]
  have h1 := evenFun_eq g S₁ S₁ V (K * V) ev ev hE.unitary hE.decomp hU hd rfl
  have h2 : evenFun g ev (K * V) = K * evenFun g ev V * K := by
    unfold evenFun
    rw [Matrix.conjTranspose_mul, h.herm]
    simp only [Matrix.mul_assoc]
  conv_lhs => rw [h1, h2, Matrix.mul_assoc, h.invol, Matrix.mul_one]

theorem even (h : Twin K S₁ S₂ F₁ F₂) (g : ℝ → ℝ) (ev₁ ev₂ : Fin m → ℝ)
    (V₁ V₂ : Matrix (Fin m) (Fin m) ℂ) (h₁ : IsEigh S₁ ev₁ V₁) (h₂ : IsEigh S₂ ev₂ V₂) :
    evenFun g ev₂ V₂ *ᵥ F₂ = K *ᵥ (evenFun g ev₁ V₁ *ᵥ F₁) := by
  rw [← evenFun_eq g S₁ S₂ V₁ V₂ ev₁ ev₂ h₁.unitary h₁.decomp h₂.unitary h₂.decomp h.sq, h.force,
    Matrix.mulVec_mulVec, h.commutes g ev₁ V₁ h₁, Matrix.mulVec_mulVec]

theorem solution (h : Twin K S₁ S₂ F₁ F₂) (g : ℝ → ℝ) (ev₁ ev₂ : Fin m → ℝ)
    (V₁ V₂ : Matrix (Fin m) (Fin m) ℂ) (h₁ : IsEigh S₁ ev₁ V₁) (h₂ : IsEigh S₂ ev₂ V₂) :
    S₂ *ᵥ (evenFun g ev₂ V₂ *ᵥ F₂) = S₁ *ᵥ (evenFun g ev₁ V₁ *ᵥ F₁) := by
  rw [h.even g ev₁ ev₂ V₁ V₂ h₁ h₂, h.right, Matrix.mulVec_mulVec, Matrix.mul_assoc, h.invol,
    Matrix.mul_one]

end Twin

theorem mulVec_odd (S V : Matrix (Fin m) (Fin m) ℂ) (ev : Fin m → ℝ) (h : IsEigh S ev V) (g : ℝ → ℝ)
    (F : Fin m → ℂ) : V *ᵥ (fun k => ((ev k * g (ev k ^ 2) : ℝ) : ℂ) * (Vᴴ *ᵥ F) k)
      = S *ᵥ (evenFun g ev V *ᵥ F) := by
  unfold evenFun
  rw [Matrix.mulVec_mulVec, ← Matrix.mul_assoc, ← Matrix.mul_assoc, h.decomp, Matrix.mul_assoc V,
    Matrix.diagonal_mul_diagonal, ← Matrix.mulVec_mulVec, ← Matrix.mulVec_mulVec]
  congr 1
  funext k
  rw [Matrix.mulVec_diagonal]
  push_cast
  rfl

theorem mulVec_even (V : Matrix (Fin m) (Fin m) ℂ) (ev : Fin m → ℝ) (g : ℝ → ℝ)
    (F : Fin m → ℂ) : V *ᵥ (fun k => ((g (ev k ^ 2) : ℝ) : ℂ) * (Vᴴ *ᵥ F) k)
      = evenFun g ev V *ᵥ F := by
  unfold evenFun
  rw [← Matrix.mulVec_mulVec, ← Matrix.mulVec_mulVec]
  congr 1
  funext k
  rw [Matrix.mulVec_diagonal]

/-! ## The damped inverse as an odd function -/

variable {n : ℕ}

/-- `γ` with damped inverse `x ↦ x γ(x²)`. -/
noncomputable def dampedInv (mx c y : ℝ) : ℝ :=
  if Real.sqrt y / mx > 1e-14 then 1 / y * (1 / (1 + (c / (Real.sqrt y / mx)) ^ 6)) else 0

theorem pinv_entry (cfg : TdvpCfg n) (hex : cfg.isExact = true) (sp : TdvpSpectrum n)
    (hinv : ∀ k, sp.invEv k = if (Num.quot |sp.ev k| |sp.ev (Fin.last n)|).gt 1e-14 then 1 / sp.ev k
      else 0) (hm : sp.ev (Fin.last n) ≠ 0) (snr : Fin (n + 1) → Num) (c : ℝ) (hc : 0 < c)
    (k : Fin (n + 1)) :
    (tdvpRegularizer cfg sp snr c k).map (fun g => sp.invEv k * g)
      = some (sp.ev k * dampedInv |sp.ev (Fin.last n)| (max c cfg.pinvCutoff) (sp.ev k ^ 2)) := by
  have hm' : |sp.ev (Fin.last n)| ≠ 0 := abs_ne_zero.mpr hm
  have hc' : 0 < max c cfg.pinvCutoff := lt_of_lt_of_le hc (le_max_left _ _)
  rw [hinv]
  unfold tdvpRegularizer dampedInv
  simp only [hex]
  rw [Real.sqrt_sq_eq_abs]
  unfold Num.quot
  rw [if_neg hm']
  by_cases hk : sp.ev k = 0
  · rw [hk]
    simp [Num.under, Num.quot, hc'.ne', Num.damp]
  · have hr : |sp.ev k| / |sp.ev (Fin.last n)| ≠ 0 := div_ne_zero (abs_ne_zero.mpr hk) hm'
    simp only [Num.under, Num.quot, if_neg hr, Num.gt, decide_eq_true_eq]
    change some _ = some _
    congr 1
    split
    · field_simp
    · simp

theorem pinv_entry_none (cfg : TdvpCfg n) (sp : TdvpSpectrum n)
    (hm : sp.ev (Fin.last n) = 0) (snr : Fin (n + 1) → Num) (c : ℝ) :
    (tdvpRegularizer cfg sp snr c (Fin.last n)).map (fun g => sp.invEv (Fin.last n) * g) = none := by
  unfold tdvpRegularizer
  rw [hm]
  simp [Num.quot, Num.under, Num.damp]

/-- What the two loops have in common. -/
def LoopTwin (sp₁ sp₂ : TdvpSpectrum n) (s t : PinvState n) : Prop :=
  s.residual = t.residual ∧ s.cutoff = t.cutoff ∧ 0 < s.cutoff ∧
    (s.pinvEv.map fun pe => (allFinite pe).map fun p => fun i =>
      (Matrix.mulVec sp₁.V (fun k => (p k : ℂ) * sp₁.VtF k) i).re)
    = (t.pinvEv.map fun pe => (allFinite pe).map fun p => fun i =>
      (Matrix.mulVec sp₂.V (fun k => (p k : ℂ) * sp₂.VtF k) i).re)

theorem body_twin (cfg₁ cfg₂ : TdvpCfg n) (hex₁ : cfg₁.isExact = true) (hex₂ : cfg₂.isExact = true)
    (hcut : cfg₁.pinvCutoff = cfg₂.pinvCutoff) (K S₁ S₂ : Matrix (Fin (n + 1)) (Fin (n + 1)) ℂ)
    (F₁ F₂ : Fin (n + 1) → ℂ) (h : Twin K S₁ S₂ F₁ F₂)
    (h₁ : IsEigh S₁ (cfg₁.eigh S₁).1 (cfg₁.eigh S₁).2) (h₂ : IsEigh S₂ (cfg₂.eigh S₂).1 (cfg₂.eigh S₂).2)
    (hmax : |(cfg₁.eigh S₁).1 (Fin.last n)| = |(cfg₂.eigh S₂).1 (Fin.last n)|)
    (snr₁ snr₂ : Fin (n + 1) → Num) (s t : PinvState n)
    (hst : s.cutoff = t.cutoff) (hpos : 0 < s.cutoff) :
    LoopTwin (tdvpEigenbasis cfg₁ S₁ F₁) (tdvpEigenbasis cfg₂ S₂ F₂)
      (pinvBody cfg₁ (tdvpEigenbasis cfg₁ S₁ F₁) snr₁ F₁ s)
      (pinvBody cfg₂ (tdvpEigenbasis cfg₂ S₂ F₂) snr₂ F₂ t) := by
  have hKU : Kᴴ * K = 1 := by rw [h.herm, h.invol]
  have hF : vecNorm F₂ = vecNorm F₁ := by
    rw [h.force]
    exact euclid_unitary K hKU F₁
  have hpos' : 0 < s.cutoff * (4 / 5) := by positivity
  by_cases hm : (cfg₁.eigh S₁).1 (Fin.last n) = 0
  · have hm2 : (cfg₂.eigh S₂).1 (Fin.last n) = 0 := by
      rw [hm, abs_zero] at hmax
      exact abs_eq_zero.mp hmax.symm
    have n1 := allFinite_none (fun k => (tdvpRegularizer cfg₁ (tdvpEigenbasis cfg₁ S₁ F₁) snr₁
      (s.cutoff * (4 / 5)) k).map fun g => (tdvpEigenbasis cfg₁ S₁ F₁).invEv k * g) (Fin.last n)
      (pinv_entry_none cfg₁ (tdvpEigenbasis cfg₁ S₁ F₁) hm snr₁ _)
    have n2 := allFinite_none (fun k => (tdvpRegularizer cfg₂ (tdvpEigenbasis cfg₂ S₂ F₂) snr₂
      (t.cutoff * (4 / 5)) k).map fun g => (tdvpEigenbasis cfg₂ S₂ F₂).invEv k * g) (Fin.last n)
      (pinv_entry_none cfg₂ (tdvpEigenbasis cfg₂ S₂ F₂) hm2 snr₂ _)
    unfold pinvBody LoopTwin
    dsimp only
    rw [n1, n2, hst]
    refine ⟨rfl, rfl, by rw [← hst]; exact hpos', ?_⟩
    simp only [Option.map_some, n2]
    rw [← hst, n1]
    rfl
  · have hm2 : (cfg₂.eigh S₂).1 (Fin.last n) ≠ 0 := by
      intro h0
      rw [h0, abs_zero] at hmax
      exact hm (abs_eq_zero.mp hmax)
    set γ := dampedInv |(cfg₁.eigh S₁).1 (Fin.last n)| (max (s.cutoff * (4 / 5)) cfg₁.pinvCutoff) with hγ
    have p1 : (fun k => (tdvpRegularizer cfg₁ (tdvpEigenbasis cfg₁ S₁ F₁) snr₁
        (s.cutoff * (4 / 5)) k).map fun g => (tdvpEigenbasis cfg₁ S₁ F₁).invEv k * g)
        = fun k => some ((cfg₁.eigh S₁).1 k * γ ((cfg₁.eigh S₁).1 k ^ 2)) :=
      funext fun k => pinv_entry cfg₁ hex₁ (tdvpEigenbasis cfg₁ S₁ F₁) (fun k => rfl) hm snr₁ _ hpos' k
    have p2 : (fun k => (tdvpRegularizer cfg₂ (tdvpEigenbasis cfg₂ S₂ F₂) snr₂
        (t.cutoff * (4 / 5)) k).map fun g => (tdvpEigenbasis cfg₂ S₂ F₂).invEv k * g)
        = fun k => some ((cfg₂.eigh S₂).1 k * γ ((cfg₂.eigh S₂).1 k ^ 2)) := by
      have := fun k => pinv_entry cfg₂ hex₂ (tdvpEigenbasis cfg₂ S₂ F₂) (fun k => rfl) hm2 snr₂ _
        (hst ▸ hpos') k
      rw [hγ, hmax, hcut, hst]
      exact funext this
    unfold pinvBody LoopTwin
    dsimp only
    rw [p1, p2, allFinite_some, allFinite_some]
    refine ⟨?_, by rw [hst], hpos', ?_⟩
    · dsimp only
      rw [hF]
      split
      · rfl
      · congr 2
        set ρ : ℝ → ℝ := fun y => y * γ y - 1 with hρ
        have r1 : ∀ (ev : Fin (n + 1) → ℝ) (V : Matrix (Fin (n + 1)) (Fin (n + 1)) ℂ) (F : Fin (n + 1) → ℂ),
            Vᴴ * V = 1 → vecNorm (fun k => ((ev k * γ (ev k ^ 2) * ev k - 1 : ℝ) : ℂ) * (Vᴴ *ᵥ F) k)
              = vecNorm (evenFun ρ ev V *ᵥ F) := by
          intro ev V F hV
          rw [← mulVec_even]
          change euclid _ = euclid _
          rw [euclid_unitary V hV]
          congr 1
          funext k
          rw [hρ]
          congr 3
          ring
        refine (r1 _ _ F₁ h₁.unitary).trans (Eq.trans ?_ (r1 _ _ F₂ h₂.unitary).symm)
        rw [h.even ρ _ _ _ _ h₁ h₂]
        exact (euclid_unitary K hKU _).symm
    · simp only [Option.map_some, allFinite_some]
      congr 2
      funext i
      have e1 := mulVec_odd S₁ _ _ h₁ γ F₁
      have e2 := mulVec_odd S₂ _ _ h₂ γ F₂
      have e3 := h.solution γ _ _ _ _ h₁ h₂
      rw [← e1, ← e2] at e3
      exact congrArg Complex.re (congrFun e3 i).symm

end JVMC
