import Verif.Lemmas.TdvpFlow

/-! # Helper lemmas: the regularised pseudo-inverse and the distance it minimises -/

namespace JVMC

open Spec Matrix

/-! ## Linear algebra -/

/-- `Re w† S w - 2 Re w† F`. -/
noncomputable def quadForm {m : ℕ} (S : Matrix (Fin m) (Fin m) ℂ) (F w : Fin m → ℂ) : ℝ :=
  (∑ i, ∑ j, (starRingEnd ℂ) (w i) * (S i j * w j)).re - 2 * (∑ i, (starRingEnd ℂ) (w i) * F i).re

theorem quadForm_eigen {m : ℕ} (S V : Matrix (Fin m) (Fin m) ℂ) (ev : Fin m → ℝ) (h : IsEigh S ev V)
    (F y : Fin m → ℂ) :
    quadForm S F (V *ᵥ y) = ∑ k, (ev k * Complex.normSq (y k)
      - 2 * ((starRingEnd ℂ) (y k) * (Vᴴ *ᵥ F) k).re) := by
  have hc : ∀ i, (starRingEnd ℂ) ((V *ᵥ y) i) = ∑ k, (starRingEnd ℂ) (y k) * Vᴴ k i := by
    intro i
    simp only [mulVec, dotProduct, map_sum, map_mul, Matrix.conjTranspose_apply]
    exact Finset.sum_congr rfl fun k _ => mul_comm _ _
  have h1 : ∀ G : Fin m → ℂ, ∑ i, (starRingEnd ℂ) ((V *ᵥ y) i) * G i
      = ∑ k, (starRingEnd ℂ) (y k) * (Vᴴ *ᵥ G) k := by
    intro G
    have e1 : ∀ i, (starRingEnd ℂ) ((V *ᵥ y) i) * G i
        = ∑ k, (starRingEnd ℂ) (y k) * (Vᴴ k i * G i) := by
      intro i
      rw [hc, Finset.sum_mul]
      exact Finset.sum_congr rfl fun k _ => mul_assoc _ _ _
    rw [Finset.sum_congr rfl fun i _ => e1 i, Finset.sum_comm]
    refine Finset.sum_congr rfl fun k _ => ?_
    rw [← Finset.mul_sum]
    rfl
  have h2 : ∑ i, ∑ j, (starRingEnd ℂ) ((V *ᵥ y) i) * (S i j * (V *ᵥ y) j)
      = ∑ i, (starRingEnd ℂ) ((V *ᵥ y) i) * (S *ᵥ (V *ᵥ y)) i := by
    refine Finset.sum_congr rfl fun i _ => ?_
    rw [← Finset.mul_sum]
    rfl
  have h3 : Vᴴ *ᵥ (S *ᵥ (V *ᵥ y)) = fun k => (ev k : ℂ) * y k := by
    rw [Matrix.mulVec_mulVec, Matrix.mulVec_mulVec, Matrix.mul_assoc, h.decomp, ← Matrix.mul_assoc,
      h.unitary, Matrix.one_mul]
    funext k
    rw [Matrix.mulVec_diagonal]
  unfold quadForm
  rw [h2, h1, h1, h3, Complex.re_sum, Complex.re_sum, Finset.mul_sum, ← Finset.sum_sub_distrib]
  refine Finset.sum_congr rfl fun k _ => ?_
  congr 1
  rw [mul_left_comm, ← Complex.normSq_eq_conj_mul_self, ← Complex.ofReal_mul, Complex.ofReal_re]

theorem quadForm_min {m : ℕ} (S V : Matrix (Fin m) (Fin m) ℂ) (ev p : Fin m → ℝ) (h : IsEigh S ev V)
    (hev : ∀ k, 0 ≤ ev k) (F : Fin m → ℂ) (hnull : ∀ k, ev k = 0 → (Vᴴ *ᵥ F) k = 0) (δ : ℝ)
    (h0 : 0 ≤ δ) (h1 : δ ≤ 1)
    (hq : ∀ k, 0 < ev k → 1 - δ ≤ p k * ev k ∧ p k * ev k ≤ 1) (w : Fin m → ℂ) :
    quadForm S F (V *ᵥ fun k => (p k : ℂ) * (Vᴴ *ᵥ F) k) ≤ (1 - δ ^ 2) * quadForm S F w := by
  have hw : w = V *ᵥ (Vᴴ *ᵥ w) := by
    rw [Matrix.mulVec_mulVec, mul_eq_one_comm.mp h.unitary, Matrix.one_mulVec]
  rw [hw, quadForm_eigen S V ev h, quadForm_eigen S V ev h, Finset.mul_sum]
  refine Finset.sum_le_sum fun k _ => ?_
  set f := (Vᴴ *ᵥ F) k with hf
  set y := (Vᴴ *ᵥ w) k with hy
  have hd : 0 ≤ 1 - δ ^ 2 := by nlinarith
  rcases (hev k).eq_or_lt with he | he
  · have : f = 0 := hnull k he.symm
    rw [this, ← he]
    simp
  · obtain ⟨q1, q2⟩ := hq k he
    have e1 : ev k * Complex.normSq ((p k : ℂ) * f) - 2 * ((starRingEnd ℂ) ((p k : ℂ) * f) * f).re
        = (p k ^ 2 * ev k - 2 * p k) * Complex.normSq f := by
      rw [map_mul, map_mul, Complex.conj_ofReal, Complex.normSq_ofReal, mul_assoc (p k : ℂ),
        ← Complex.normSq_eq_conj_mul_self, ← Complex.ofReal_mul, Complex.ofReal_re]
      ring
    have e2 : ev k * Complex.normSq y - 2 * ((starRingEnd ℂ) y * f).re + Complex.normSq f / ev k
        = ev k * Complex.normSq (y - f / (ev k : ℂ)) := by
      have : (ev k : ℂ) ≠ 0 := by exact_mod_cast he.ne'
      have hre : f / (ev k : ℂ) = ⟨f.re / ev k, f.im / ev k⟩ := by
        apply Complex.ext
        · simp [Complex.div_ofReal_re]
        · simp [Complex.div_ofReal_im]
      rw [hre]
      simp only [Complex.normSq_apply, Complex.sub_re, Complex.sub_im, Complex.mul_re, Complex.conj_re,
        Complex.conj_im]
      field_simp
      ring
    have e3 : 0 ≤ ev k * Complex.normSq (y - f / (ev k : ℂ)) :=
      mul_nonneg he.le (Complex.normSq_nonneg _)
    rw [e1]
    have hn := Complex.normSq_nonneg f
    have e4 : (p k ^ 2 * ev k - 2 * p k) * Complex.normSq f
        = ((1 - p k * ev k) ^ 2 - 1) * (Complex.normSq f / ev k) := by
      field_simp
      ring
    have e5 : 0 ≤ Complex.normSq f / ev k := div_nonneg hn he.le
    have e6 : (1 - p k * ev k) ^ 2 ≤ δ ^ 2 := by
      apply pow_le_pow_left₀ <;> linarith
    rw [e4]
    nlinarith [mul_nonneg hd e3]

/-- For a real matrix and a real vector, the real part of a vector has the smaller value. -/
theorem quadForm_real {m : ℕ} (S : Matrix (Fin m) (Fin m) ℂ) (F : Fin m → ℂ)
    (hS : ∀ i j, S i j = ((S i j).re : ℂ)) (hF : ∀ i, F i = ((F i).re : ℂ))
    (hpos : ∀ v : Fin m → ℂ, 0 ≤ (∑ i, ∑ j, (starRingEnd ℂ) (v i) * (S i j * v j)).re)
    (w : Fin m → ℂ) : quadForm S F (fun i => ((w i).re : ℂ)) ≤ quadForm S F w := by
  have h := hpos fun i => ((w i).im : ℂ)
  have key : (∑ i, ∑ j, (starRingEnd ℂ) (w i) * (S i j * w j)).re
      = (∑ i, ∑ j, (starRingEnd ℂ) ((w i).re : ℂ) * (S i j * ((w j).re : ℂ))).re
        + (∑ i, ∑ j, (starRingEnd ℂ) ((w i).im : ℂ) * (S i j * ((w j).im : ℂ))).re := by
    simp only [Complex.re_sum]
    rw [← Finset.sum_add_distrib]
    refine Finset.sum_congr rfl fun i _ => ?_
    rw [← Finset.sum_add_distrib]
    refine Finset.sum_congr rfl fun j _ => ?_
    rw [hS i j]
    simp only [Complex.mul_re, Complex.mul_im, Complex.conj_re, Complex.conj_im, Complex.ofReal_re,
      Complex.ofReal_im]
    ring
  have hlin : (∑ i, (starRingEnd ℂ) (w i) * F i).re
      = (∑ i, (starRingEnd ℂ) ((w i).re : ℂ) * F i).re := by
    simp only [Complex.re_sum]
    refine Finset.sum_congr rfl fun i _ => ?_
    rw [hF i]
    simp only [Complex.mul_re, Complex.conj_re, Complex.conj_im, Complex.ofReal_re, Complex.ofReal_im]
    ring
  unfold quadForm
  rw [key, hlin]
  linarith

/-- If the quadratic form is bounded below, the linear part vanishes on the kernel. -/
theorem quadForm_null {m : ℕ} (S V : Matrix (Fin m) (Fin m) ℂ) (ev : Fin m → ℝ) (h : IsEigh S ev V)
    (F : Fin m → ℂ) (D : ℝ) (hD : ∀ w, -D ≤ quadForm S F w) (k : Fin m) (hk : ev k = 0) :
    (Vᴴ *ᵥ F) k = 0 := by
  by_contra hne
  have hpos := Complex.normSq_pos.mpr hne
  set f := (Vᴴ *ᵥ F) k with hf
  have hval : ∀ t : ℝ, quadForm S F (V *ᵥ Pi.single k ((t : ℂ) * f)) = -2 * t * Complex.normSq f := by
    intro t
    rw [quadForm_eigen S V ev h, Finset.sum_eq_single k]
    · rw [Pi.single_eq_same, hk, map_mul, map_mul (starRingEnd ℂ), Complex.conj_ofReal, ← hf, mul_assoc (t : ℂ),
        ← Complex.normSq_eq_conj_mul_self, ← Complex.ofReal_mul, Complex.ofReal_re]
      ring
    · intro j _ hj
      rw [Pi.single_eq_of_ne hj]
      simp
    · simp
  have h1 := hD (V *ᵥ Pi.single k ((((|D| + 1) / Complex.normSq f : ℝ) : ℂ) * f))
  rw [hval] at h1
  have : -2 * ((|D| + 1) / Complex.normSq f) * Complex.normSq f = -2 * (|D| + 1) := by
    field_simp
  rw [this] at h1
  have := le_abs_self D
  have := abs_nonneg D
  linarith

/-! ## The distance as a quadratic form -/

variable {n : ℕ}

theorem distance_split (l : List (ℝ × (Fin 1 → ℂ) × (Fin (n + 1) → ℂ))) (x : ℂ) (u : Fin (n + 1) → ℝ) :
    tdvpDistance l x u = tdvpDistance l x 0
      + (∑ i, ∑ j, (starRingEnd ℂ) (u i : ℂ) * (specS l i j * (u j : ℂ))).re
      - 2 * (∑ i, (u i : ℂ) * (-x * specF l i)).re := by
  rw [specS_quad l fun i => (u i : ℂ), Complex.ofReal_re]
  set mO := wMean (l.map fun s => (s.1, s.2.2)) with hmO
  set mE := wMean (l.map fun s => (s.1, s.2.1)) with hmE
  have hF : (∑ i, (u i : ℂ) * ((-x) * specF l i))
      = (l.map fun s => (s.1 : ℂ) * (-x * ((starRingEnd ℂ) (∑ k, (u k : ℂ) * (s.2.2 k - mO k))
        * (s.2.1 0 - mE 0)))).sum := by
    have h1 : ∀ i, specF l i = (l.map fun s => (s.1 : ℂ) * ((starRingEnd ℂ) (s.2.2 i - mO i)
        * (s.2.1 0 - mE 0))).sum := by
      intro i
      unfold specF wCross
      simp only [List.map_map, Function.comp_def]
      rfl
    simp only [h1, ← List.sum_map_mul_left]
    rw [← list_sum_finset]
    congr 1
    apply List.map_congr_left
    intro s _
    rw [map_sum, Finset.sum_mul, Finset.mul_sum, Finset.mul_sum]
    refine Finset.sum_congr rfl fun i _ => ?_
    rw [map_mul, Complex.conj_ofReal]
    ring
  rw [hF]
  unfold tdvpDistance
  rw [← hmO, ← hmE]
  clear_value mE mO
  clear hF hmO hmE
  induction l with
  | nil => simp
  | cons s l ih =>
    simp only [List.map_cons, List.sum_cons]
    rw [ih, Complex.add_re]
    generalize (∑ k, (u k : ℂ) * (s.2.2 k - mO k)) = a
    generalize (s.2.1 0 - mE 0) = b
    have h0 : (∑ k, (((0 : Fin (n + 1) → ℝ) k : ℝ) : ℂ) * (s.2.2 k - mO k)) = 0 := by simp
    rw [h0, zero_add]
    have : s.1 * Complex.normSq (a + x * b) = s.1 * Complex.normSq (x * b)
        + s.1 * Complex.normSq a - 2 * ((s.1 : ℂ) * (-x * ((starRingEnd ℂ) a * b))).re := by
      simp only [Complex.normSq_apply, Complex.mul_re, Complex.mul_im, Complex.add_re, Complex.add_im,
        Complex.ofReal_re, Complex.ofReal_im, Complex.conj_re, Complex.conj_im, Complex.neg_re,
        Complex.neg_im]
      ring
    rw [this]
    ring

/-- With `makeReal="real"` and without diagonal shift the distance is a constant plus the quadratic
form of the equation. -/
theorem distance_quadForm (cfg : TdvpCfg n) (hq : cfg.makeReal ≠ "imag")
    (l : List (ℝ × (Fin 1 → ℂ) × (Fin (n + 1) → ℂ))) (u : Fin (n + 1) → ℝ) :
    tdvpDistance l cfg.rhsPrefactor u = tdvpDistance l cfg.rhsPrefactor 0
      + quadForm (Matrix.of fun i j => cfg.q (specS l i j)) (specQF cfg l) fun i => (u i : ℂ) := by
  have hqq : ∀ z, cfg.q z = (z.re : ℂ) := fun z => by unfold TdvpCfg.q; rw [if_neg hq]
  rw [distance_split, add_sub_assoc]
  unfold quadForm
  congr 2
  · simp only [Complex.re_sum]
    refine Finset.sum_congr rfl fun i _ => Finset.sum_congr rfl fun j _ => ?_
    rw [Matrix.of_apply, hqq, Complex.conj_ofReal, Complex.re_ofReal_mul, Complex.re_ofReal_mul]
    simp
  · congr 1
    simp only [Complex.re_sum]
    refine Finset.sum_congr rfl fun i _ => ?_
    unfold specQF
    rw [hqq, Complex.conj_ofReal, Complex.re_ofReal_mul, Complex.re_ofReal_mul, Complex.ofReal_re]

/-! ## The regulariser -/

theorem damp_le_one (x : Num) (a : ℝ) (h : x.damp = some a) : a ≤ 1 := by
  cases x with
  | nan => cases h
  | inf => rw [← Option.some.inj h]; exact zero_le_one
  | fin y =>
    have : 1 / (1 + y ^ 6) = a := Option.some.inj h
    rw [← this]
    have : 0 ≤ y ^ 6 := by positivity
    rw [div_le_one (by positivity)]
    linarith

theorem regularizer_le_one (cfg : TdvpCfg n) (sp : TdvpSpectrum n) (snr : Fin (n + 1) → Num) (c : ℝ)
    (k : Fin (n + 1)) (g : ℝ) (h : tdvpRegularizer cfg sp snr c k = some g) : g ≤ 1 := by
  unfold tdvpRegularizer at h
  cases ha : (Num.under (max c cfg.pinvCutoff)
      (Num.quot |sp.ev k| |sp.ev (Fin.last n)|)).damp with
  | none => rw [ha] at h; cases h
  | some a =>
    rw [ha] at h
    have h0 := damp_nonneg _ _ ha
    have h1 := damp_le_one _ _ ha
    change (if cfg.isExact = true then some a else _) = some g at h
    split at h
    · rw [← Option.some.inj h]; exact h1
    · cases hb : (Num.under cfg.snrTol (snr k)).damp with
      | none => rw [hb] at h; cases h
      | some b =>
        rw [hb] at h
        have : a * b = g := Option.some.inj h
        rw [← this]
        exact mul_le_one₀ h1 (damp_nonneg _ _ hb) (damp_le_one _ _ hb)

theorem pinv_le_one (cfg : TdvpCfg n) (l : List (ℝ × (Fin 1 → ℂ) × (Fin (n + 1) → ℂ)))
    (snr : Fin (n + 1) → Num) (c : ℝ) (p : Fin (n + 1) → ℝ)
    (hp : ∀ k, (tdvpRegularizer cfg (tdvpEigenbasis cfg (specQS cfg l) (specQF cfg l)) snr c k).map
      (fun g => (tdvpEigenbasis cfg (specQS cfg l) (specQF cfg l)).invEv k * g) = some (p k))
    (k : Fin (n + 1)) (hk : 0 < (cfg.eigh (specQS cfg l)).1 k) :
    p k * (cfg.eigh (specQS cfg l)).1 k ≤ 1 := by
  have h := hp k
  cases hr : tdvpRegularizer cfg (tdvpEigenbasis cfg (specQS cfg l) (specQF cfg l)) snr c k with
  | none => rw [hr] at h; cases h
  | some g =>
    rw [hr] at h
    rw [← Option.some.inj h]
    have h1 := regularizer_le_one _ _ _ _ _ _ hr
    have hinv : (tdvpEigenbasis cfg (specQS cfg l) (specQF cfg l)).invEv k
          = 1 / (cfg.eigh (specQS cfg l)).1 k
        ∨ (tdvpEigenbasis cfg (specQS cfg l) (specQF cfg l)).invEv k = 0 := by
      unfold tdvpEigenbasis
      dsimp only
      split
      · exact Or.inl rfl
      · exact Or.inr rfl
    rcases hinv with hi | hi <;> rw [hi]
    · rw [mul_right_comm, one_div, inv_mul_cancel₀ hk.ne', one_mul]
      exact h1
    · simp

/-! ## The shifted equation -/

/-- The diagonal shift only adds to the quadratic form. -/
theorem quadForm_shift (cfg : TdvpCfg n) (hq : cfg.makeReal ≠ "imag") (hs : 0 ≤ cfg.diagonalShift)
    (l : List (ℝ × (Fin 1 → ℂ) × (Fin (n + 1) → ℂ))) (hw : ∀ s ∈ l, 0 ≤ s.1) (F v : Fin (n + 1) → ℂ) :
    quadForm (Matrix.of fun i j => cfg.q (specS l i j)) F v ≤ quadForm (specQS cfg l) F v := by
  have hqq : ∀ z, cfg.q z = (z.re : ℂ) := fun z => by unfold TdvpCfg.q; rw [if_neg hq]
  unfold quadForm specQS
  split
  · have : ∑ i, ∑ j, (starRingEnd ℂ) (v i) * (((Matrix.of fun i j => cfg.q (specS l i j))
          + Matrix.diagonal (fun i => (cfg.diagonalShift : ℂ) * cfg.q (specS l i i))) i j * v j)
        = ∑ i, ∑ j, (starRingEnd ℂ) (v i) * ((Matrix.of fun i j => cfg.q (specS l i j)) i j * v j)
          + ∑ i, ((cfg.diagonalShift * (specS l i i).re * Complex.normSq (v i) : ℝ) : ℂ) := by
      rw [← Finset.sum_add_distrib]
      apply Finset.sum_congr rfl
      intro i _
      simp only [Matrix.add_apply, Matrix.of_apply, add_mul, mul_add, Finset.sum_add_distrib]
      congr 1
      rw [Finset.sum_eq_single i]
      · rw [Matrix.diagonal_apply_eq, hqq]
        push_cast
        rw [Complex.normSq_eq_conj_mul_self]
        ring
      · intro j _ hj
        rw [Matrix.diagonal_apply_ne _ (Ne.symm hj)]
        simp
      · simp
    rw [this, Complex.add_re, ← Complex.ofReal_sum, Complex.ofReal_re]
    have : 0 ≤ ∑ i, cfg.diagonalShift * (specS l i i).re * Complex.normSq (v i) :=
      Finset.sum_nonneg fun i _ =>
        mul_nonneg (mul_nonneg hs (specS_diag_nonneg l hw i)) (Complex.normSq_nonneg _)
    linarith
  · exact le_rfl

theorem specQS_real (cfg : TdvpCfg n) (hq : cfg.makeReal ≠ "imag")
    (l : List (ℝ × (Fin 1 → ℂ) × (Fin (n + 1) → ℂ))) (i j : Fin (n + 1)) :
    specQS cfg l i j = ((specQS cfg l i j).re : ℂ) := by
  have hqq : ∀ z, cfg.q z = (z.re : ℂ) := fun z => by unfold TdvpCfg.q; rw [if_neg hq]
  unfold specQS
  split
  · simp only [Matrix.add_apply, Matrix.of_apply, hqq, Matrix.diagonal_apply]
    split
    · rw [← Complex.ofReal_mul, ← Complex.ofReal_add, Complex.ofReal_re]
    · simp
  · simp only [Matrix.of_apply, hqq, Complex.ofReal_re]

theorem specQF_real (cfg : TdvpCfg n) (hq : cfg.makeReal ≠ "imag")
    (l : List (ℝ × (Fin 1 → ℂ) × (Fin (n + 1) → ℂ))) (i : Fin (n + 1)) :
    specQF cfg l i = ((specQF cfg l i).re : ℂ) := by
  have hqq : ∀ z, cfg.q z = (z.re : ℂ) := fun z => by unfold TdvpCfg.q; rw [if_neg hq]
  unfold specQF
  rw [hqq, Complex.ofReal_re]

/-- The distance after a step whose pseudo-inverse inverts every non-zero eigenvalue up to a
factor in `[1 - δ, 1]`. -/
theorem distance_min (cfg : TdvpCfg n) (heigh : EighCorrect cfg) (hq : cfg.makeReal ≠ "imag")
    (hs : 0 ≤ cfg.diagonalShift) (l : List (ℝ × (Fin 1 → ℂ) × (Fin (n + 1) → ℂ)))
    (hw : ∀ s ∈ l, 0 ≤ s.1) (p : Fin (n + 1) → ℝ) (δ : ℝ) (h0 : 0 ≤ δ) (h1 : δ ≤ 1)
    (hp : ∀ k, 0 < (cfg.eigh (specQS cfg l)).1 k → 1 - δ ≤ p k * (cfg.eigh (specQS cfg l)).1 k ∧
      p k * (cfg.eigh (specQS cfg l)).1 k ≤ 1) (u : Fin (n + 1) → ℝ)
    (hu : u = fun i => (((cfg.eigh (specQS cfg l)).2 *ᵥ fun k => (p k : ℂ) *
        ((cfg.eigh (specQS cfg l)).2ᴴ *ᵥ specQF cfg l) k) i).re) (w : Fin (n + 1) → ℂ) :
    tdvpDistance l cfg.rhsPrefactor u ≤ tdvpDistance l cfg.rhsPrefactor 0
      + (1 - δ ^ 2) * quadForm (specQS cfg l) (specQF cfg l) w := by
  have hE := heigh _ (specQS_hermitian cfg l)
  have hpos := specQS_quad_nonneg cfg hq hs l hw
  have hreal := quadForm_real (specQS cfg l) (specQF cfg l) (specQS_real cfg hq l)
    (specQF_real cfg hq l) hpos
  have hD : ∀ y, -(tdvpDistance l cfg.rhsPrefactor 0) ≤ quadForm (specQS cfg l) (specQF cfg l) y := by
    intro y
    have e1 := hreal y
    have e2 := quadForm_shift cfg hq hs l hw (specQF cfg l) fun i => ((y i).re : ℂ)
    have e3 := distance_quadForm cfg hq l fun i => (y i).re
    have e4 := distance_nonneg l hw cfg.rhsPrefactor fun i => (y i).re
    linarith
  have hm := quadForm_min (specQS cfg l) _ _ p hE
    (fun k => eigenvalue_nonneg _ _ _ hE hpos k) (specQF cfg l)
    (fun k hk => quadForm_null _ _ _ hE _ _ hD k hk) δ h0 h1 hp w
  have e1 := hreal ((cfg.eigh (specQS cfg l)).2 *ᵥ fun k => (p k : ℂ) *
        ((cfg.eigh (specQS cfg l)).2ᴴ *ᵥ specQF cfg l) k)
  have e2 := quadForm_shift cfg hq hs l hw (specQF cfg l) fun i => (u i : ℂ)
  have e3 := distance_quadForm cfg hq l u
  have e5 : (fun i => (u i : ℂ)) = fun i => (((((cfg.eigh (specQS cfg l)).2 *ᵥ fun k => (p k : ℂ) *
        ((cfg.eigh (specQS cfg l)).2ᴴ *ᵥ specQF cfg l) k) i).re : ℝ) : ℂ) := by rw [hu]
  rw [← e5] at e1
  linarith

/-! ## Velocities without distance -/

theorem list_sum_zero {A : Type} (l : List A) (f : A → ℝ) (hf : ∀ a ∈ l, 0 ≤ f a)
    (h : (l.map f).sum = 0) : ∀ a ∈ l, f a = 0 := by
  induction l with
  | nil => intro a ha; cases ha
  | cons b l ih =>
    rw [List.map_cons, List.sum_cons] at h
    have h1 := hf b List.mem_cons_self
    have h2 : 0 ≤ (l.map f).sum := List.sum_nonneg (by
      intro x hx
      obtain ⟨a, ha, rfl⟩ := List.mem_map.mp hx
      exact hf a (List.mem_cons_of_mem _ ha))
    intro a ha
    rcases List.mem_cons.mp ha with rfl | ha
    · linarith
    · exact ih (fun a ha => hf a (List.mem_cons_of_mem _ ha)) (by linarith) a ha

theorem q_sum (cfg : TdvpCfg n) (z : Fin (n + 1) → ℂ) (v : Fin (n + 1) → ℝ) :
    cfg.q (∑ j, z j * (v j : ℂ)) = ∑ j, cfg.q (z j) * (v j : ℂ) := by
  unfold TdvpCfg.q
  split
  · rw [map_sum, ← Finset.sum_sub_distrib, Finset.mul_sum]
    refine Finset.sum_congr rfl fun j _ => ?_
    rw [map_mul, Complex.conj_ofReal]
    ring
  · rw [Complex.re_sum, Complex.ofReal_sum]
    refine Finset.sum_congr rfl fun j _ => ?_
    rw [Complex.re_mul_ofReal]
    push_cast
    ring

/-- Velocities at distance zero solve the equation. -/
theorem distance_zero_solves (cfg : TdvpCfg n) (hs : cfg.diagonalShift ≤ 1e-10)
    (l : List (ℝ × (Fin 1 → ℂ) × (Fin (n + 1) → ℂ))) (hw : ∀ s ∈ l, 0 ≤ s.1) (v : Fin (n + 1) → ℝ)
    (hv : tdvpDistance l cfg.rhsPrefactor v = 0) :
    specQS cfg l *ᵥ (fun i => (v i : ℂ)) = specQF cfg l := by
  set mO := wMean (l.map fun s => (s.1, s.2.2)) with hmO
  set mE := wMean (l.map fun s => (s.1, s.2.1)) with hmE
  have hz := list_sum_zero l _ (fun s hs => mul_nonneg (hw s hs) (Complex.normSq_nonneg _)) hv
  have key : ∀ i, ∑ j, specS l i j * (v j : ℂ) = -cfg.rhsPrefactor * specF l i := by
    intro i
    have h1 : specF l i = (l.map fun s => (s.1 : ℂ) * ((starRingEnd ℂ) (s.2.2 i - mO i)
        * (s.2.1 0 - mE 0))).sum := by
      unfold specF wCross
      simp only [List.map_map, Function.comp_def]
      rfl
    have h2 : ∀ j, specS l i j = (l.map fun s => (s.1 : ℂ) * ((starRingEnd ℂ) (s.2.2 i - mO i)
        * (s.2.2 j - mO j))).sum := by
      intro j
      unfold specS wCross
      simp only [Matrix.of_apply, List.map_map, Function.comp_def]
      rfl
    rw [h1]
    simp only [h2, ← List.sum_map_mul_right, ← List.sum_map_mul_left]
    rw [← list_sum_finset]
    congr 1
    apply List.map_congr_left
    intro s hs
    have h3 : s.1 * Complex.normSq (∑ k, (v k : ℂ) * (s.2.2 k - mO k)
      + cfg.rhsPrefactor * (s.2.1 0 - mE 0)) = 0 := hz s hs
    rcases mul_eq_zero.1 h3 with h4 | h4
    · simp [h4]
    · have h5 := Complex.normSq_eq_zero.1 h4
      have h6 : ∑ j, (s.1 : ℂ) * ((starRingEnd ℂ) (s.2.2 i - mO i) * (s.2.2 j - mO j)) * (v j : ℂ)
          = (s.1 : ℂ) * (starRingEnd ℂ) (s.2.2 i - mO i) * ∑ k, (v k : ℂ) * (s.2.2 k - mO k) := by
        rw [Finset.mul_sum]
        exact Finset.sum_congr rfl fun j _ => by ring
      rw [h6, eq_neg_of_add_eq_zero_left h5]
      ring
  funext i
  unfold specQS specQF
  rw [if_neg (not_lt.mpr hs), ← key i, q_sum]
  rfl

/-- The pseudo-inverse of an image is close to the original vector. -/
theorem pinv_close {m : ℕ} (S V : Matrix (Fin m) (Fin m) ℂ) (ev p : Fin m → ℝ) (h : IsEigh S ev V)
    (v : Fin m → ℝ) (δ : ℝ) (h0 : 0 ≤ δ) (hq : ∀ k, |1 - p k * ev k| ≤ δ) :
    euclid (fun i => (((V *ᵥ fun k => (p k : ℂ) * (Vᴴ *ᵥ (S *ᵥ fun j => (v j : ℂ))) k) i).re - v i : ℝ))
      ≤ δ * euclid fun i => (v i : ℂ) := by
  set x : Fin m → ℂ := fun j => (v j : ℂ) with hx
  have hV' : V * Vᴴ = 1 := mul_eq_one_comm.mp h.unitary
  have hd : Vᴴ *ᵥ (S *ᵥ x) = fun k => (ev k : ℂ) * (Vᴴ *ᵥ x) k := by
    have : S *ᵥ x = S *ᵥ (V *ᵥ (Vᴴ *ᵥ x)) := by
      rw [Matrix.mulVec_mulVec x V, hV', Matrix.one_mulVec]
    rw [this, Matrix.mulVec_mulVec (Vᴴ *ᵥ x), h.decomp, Matrix.mulVec_mulVec (Vᴴ *ᵥ x) Vᴴ,
      ← Matrix.mul_assoc, h.unitary, Matrix.one_mul]
    funext k
    rw [Matrix.mulVec_diagonal]
  have hdiff : (fun i => (V *ᵥ fun k => (p k : ℂ) * (Vᴴ *ᵥ (S *ᵥ x)) k) i - x i)
      = V *ᵥ fun k => ((p k * ev k - 1 : ℝ) : ℂ) * (Vᴴ *ᵥ x) k := by
    have e1 : x = V *ᵥ (Vᴴ *ᵥ x) := by rw [Matrix.mulVec_mulVec x V, hV', Matrix.one_mulVec]
    have e2 : (fun i => (V *ᵥ fun k => (p k : ℂ) * (Vᴴ *ᵥ (S *ᵥ x)) k) i - x i)
        = V *ᵥ (fun k => (p k : ℂ) * (Vᴴ *ᵥ (S *ᵥ x)) k) - V *ᵥ (Vᴴ *ᵥ x) := by
      rw [← e1]
      rfl
    rw [e2, ← Matrix.mulVec_sub]
    congr 1
    funext k
    rw [hd, Pi.sub_apply]
    push_cast
    ring
  have hle : euclid (fun i => (V *ᵥ fun k => (p k : ℂ) * (Vᴴ *ᵥ (S *ᵥ x)) k) i - x i)
      ≤ δ * euclid x := by
    have hvx : euclid x = euclid (Vᴴ *ᵥ x) := by
      have := euclid_unitary V h.unitary (Vᴴ *ᵥ x)
      rw [Matrix.mulVec_mulVec x V, hV', Matrix.one_mulVec] at this
      exact this
    rw [hdiff, euclid_unitary V h.unitary, hvx]
    unfold euclid
    rw [← Real.sqrt_sq h0, ← Real.sqrt_mul (sq_nonneg δ), Finset.mul_sum]
    apply Real.sqrt_le_sqrt
    refine Finset.sum_le_sum fun k _ => ?_
    rw [map_mul, Complex.normSq_ofReal]
    refine mul_le_mul_of_nonneg_right ?_ (Complex.normSq_nonneg _)
    have := hq k
    rw [abs_le] at this
    nlinarith
  refine le_trans ?_ hle
  unfold euclid
  apply Real.sqrt_le_sqrt
  refine Finset.sum_le_sum fun i _ => ?_
  rw [Complex.normSq_ofReal, hx]
  beta_reduce
  generalize (V *ᵥ fun k => (p k : ℂ) * (Vᴴ *ᵥ (S *ᵥ fun j => (v j : ℂ))) k) i = z
  rw [Complex.normSq_apply, Complex.sub_re, Complex.ofReal_re]
  nlinarith [mul_self_nonneg (z - (v i : ℂ)).im]

end JVMC
