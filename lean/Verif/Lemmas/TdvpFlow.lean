import Mathlib.Analysis.Calculus.FDeriv.Basic
import Mathlib.Analysis.Calculus.FDeriv.Comp
import Verif.Lemmas.Variational
import Verif.Props.Tdvp

/-! # Helper lemmas: the direction of a TDVP update -/

namespace JVMC

open Spec Matrix

variable {n : ℕ}

theorem damp_nonneg (x : Num) (a : ℝ) (h : x.damp = some a) : 0 ≤ a := by
  cases x with
  | nan => cases h
  | inf => exact (Option.some.inj h).le
  | fin y =>
    have : 1 / (1 + y ^ 6) = a := Option.some.inj h
    rw [← this]
    have : 0 ≤ y ^ 6 := by positivity
    positivity

theorem regularizer_nonneg (cfg : TdvpCfg n) (sp : TdvpSpectrum n) (snr : Fin (n + 1) → Num) (c : ℝ)
    (k : Fin (n + 1)) (g : ℝ) (h : tdvpRegularizer cfg sp snr c k = some g) : 0 ≤ g := by
  unfold tdvpRegularizer at h
  cases ha : (Num.under (max c cfg.pinvCutoff)
      (Num.quot |sp.ev k| |sp.ev (Fin.last n)|)).damp with
  | none => rw [ha] at h; cases h
  | some a =>
    rw [ha] at h
    have h0 := damp_nonneg _ _ ha
    change (if cfg.isExact = true then some a else _) = some g at h
    split at h
    · rw [← Option.some.inj h]; exact h0
    · cases hb : (Num.under cfg.snrTol (snr k)).damp with
      | none => rw [hb] at h; cases h
      | some b =>
        rw [hb] at h
        have : a * b = g := Option.some.inj h
        rw [← this]
        exact mul_nonneg h0 (damp_nonneg _ _ hb)

/-! ## Positivity -/

theorem specS_quad (l : List (ℝ × (Fin 1 → ℂ) × (Fin (n + 1) → ℂ))) (v : Fin (n + 1) → ℂ) :
    ∑ i, ∑ j, (starRingEnd ℂ) (v i) * (specS l i j * v j)
      = (((l.map fun s => s.1 * Complex.normSq (∑ j, v j *
        (s.2.2 j - wMean (l.map fun s => (s.1, s.2.2)) j))).sum : ℝ) : ℂ) := by
  unfold specS wCross
  simp only [Matrix.of_apply, List.map_map, Function.comp_def]
  generalize wMean (l.map fun s => (s.1, s.2.2)) = m
  induction l with
  | nil => simp
  | cons a l ih =>
    simp only [List.map_cons, List.sum_cons]
    push_cast
    rw [← ih, Complex.normSq_eq_conj_mul_self, map_sum]
    rw [Finset.sum_mul_sum, Finset.mul_sum, ← Finset.sum_add_distrib]
    apply Finset.sum_congr rfl
    intro i _
    rw [Finset.mul_sum, ← Finset.sum_add_distrib]
    apply Finset.sum_congr rfl
    intro j _
    rw [map_mul]
    ring

theorem specS_quad_nonneg (l : List (ℝ × (Fin 1 → ℂ) × (Fin (n + 1) → ℂ))) (hw : ∀ s ∈ l, 0 ≤ s.1)
    (v : Fin (n + 1) → ℂ) :
    0 ≤ (∑ i, ∑ j, (starRingEnd ℂ) (v i) * (specS l i j * v j)).re := by
  rw [specS_quad, Complex.ofReal_re]
  apply List.sum_nonneg
  intro x hx
  obtain ⟨s, hs, rfl⟩ := List.mem_map.mp hx
  exact mul_nonneg (hw s hs) (Complex.normSq_nonneg _)

theorem specS_diag_nonneg (l : List (ℝ × (Fin 1 → ℂ) × (Fin (n + 1) → ℂ))) (hw : ∀ s ∈ l, 0 ≤ s.1)
    (i : Fin (n + 1)) : 0 ≤ (specS l i i).re := by
  have h := specS_quad_nonneg l hw (Pi.single i 1)
  rw [Finset.sum_eq_single i, Finset.sum_eq_single i] at h
  · simpa using h
  · intro j _ hj; simp [Pi.single_eq_of_ne hj]
  · simp
  · intro j _ hj; simp [Pi.single_eq_of_ne hj]
  · simp

/-- In the mode `makeReal="real"`, `S` is positive semi-definite. -/
theorem specQS_quad_nonneg (cfg : TdvpCfg n) (hq : cfg.makeReal ≠ "imag") (hs : 0 ≤ cfg.diagonalShift)
    (l : List (ℝ × (Fin 1 → ℂ) × (Fin (n + 1) → ℂ))) (hw : ∀ s ∈ l, 0 ≤ s.1) (v : Fin (n + 1) → ℂ) :
    0 ≤ (∑ i, ∑ j, (starRingEnd ℂ) (v i) * (specQS cfg l i j * v j)).re := by
  have hqq : ∀ z, cfg.q z = (z.re : ℂ) := fun z => by unfold TdvpCfg.q; rw [if_neg hq]
  have hbase : 0 ≤ (∑ i, ∑ j, (starRingEnd ℂ) (v i) * (cfg.q (specS l i j) * v j)).re := by
    have h1 := specS_quad_nonneg l hw v
    have h2 := specS_quad_nonneg l hw fun i => (starRingEnd ℂ) (v i)
    rw [Finset.sum_comm] at h2
    have : ∑ i, ∑ j, (starRingEnd ℂ) (v i) * (cfg.q (specS l i j) * v j)
        = (1 / 2 : ℂ) * (∑ i, ∑ j, (starRingEnd ℂ) (v i) * (specS l i j * v j)
          + ∑ i, ∑ j, (starRingEnd ℂ) ((starRingEnd ℂ) (v j))
            * (specS l j i * (starRingEnd ℂ) (v i))) := by
      rw [← Finset.sum_add_distrib, Finset.mul_sum]
      apply Finset.sum_congr rfl
      intro i _
      rw [← Finset.sum_add_distrib, Finset.mul_sum]
      apply Finset.sum_congr rfl
      intro j _
      have hherm : specS l j i = (starRingEnd ℂ) (specS l i j) := (specS_conj l i j).symm
      rw [hqq, hherm, Complex.conj_conj]
      have : ((specS l i j).re : ℂ) = (specS l i j + (starRingEnd ℂ) (specS l i j)) / 2 := by
        rw [Complex.add_conj]; push_cast; ring
      rw [this]
      ring
    rw [this, show (1 / 2 : ℂ) = ((1 / 2 : ℝ) : ℂ) by norm_num, Complex.re_ofReal_mul, Complex.add_re]
    have := add_nonneg h1 h2
    linarith
  unfold specQS
  split
  · have : ∑ i, ∑ j, (starRingEnd ℂ) (v i) * (((Matrix.of fun i j => cfg.q (specS l i j))
          + Matrix.diagonal (fun i => (cfg.diagonalShift : ℂ) * cfg.q (specS l i i))) i j * v j)
        = ∑ i, ∑ j, (starRingEnd ℂ) (v i) * (cfg.q (specS l i j) * v j)
          + ∑ i, ((cfg.diagonalShift * (specS l i i).re * Complex.normSq (v i) : ℝ) : ℂ) := by
      rw [← Finset.sum_add_distrib]
      apply Finset.sum_congr rfl
      intro i _
      simp only [Matrix.add_apply, Matrix.of_apply, add_mul, mul_add, Finset.sum_add_distrib]
      congr 1
      rw [Finset.sum_eq_single i]
      · rw [Matrix.diagonal_apply_eq, hqq]
        push_cast
        rw [Complex.normSq_eq_conj_mul_self]
        ring
      · intro j _ hj
        rw [Matrix.diagonal_apply_ne _ (Ne.symm hj)]
        simp
      · simp
    rw [this, Complex.add_re, ← Complex.ofReal_sum, Complex.ofReal_re]
    refine add_nonneg hbase (Finset.sum_nonneg fun i _ => ?_)
    exact mul_nonneg (mul_nonneg hs (specS_diag_nonneg l hw i)) (Complex.normSq_nonneg _)
  · exact hbase

theorem eigenvalue_nonneg {m : ℕ} (S V : Matrix (Fin m) (Fin m) ℂ) (ev : Fin m → ℝ)
    (h : IsEigh S ev V)
    (hpos : ∀ v : Fin m → ℂ, 0 ≤ (∑ i, ∑ j, (starRingEnd ℂ) (v i) * (S i j * v j)).re) (k : Fin m) :
    0 ≤ ev k := by
  have h1 : ∑ i, (starRingEnd ℂ) (V i k) * V i k = 1 := by
    have := congrFun (congrFun h.unitary k) k
    rw [Matrix.mul_apply, Matrix.one_apply_eq] at this
    exact this
  have h2 : ∑ i, ∑ j, (starRingEnd ℂ) (V i k) * (S i j * V j k) = (ev k : ℂ) := by
    calc _ = ∑ i, (starRingEnd ℂ) (V i k) * (V i k * (ev k : ℂ)) := by
          apply Finset.sum_congr rfl
          intro i _
          rw [← Finset.mul_sum]
          congr 1
          have := congrFun (congrFun h.decomp i) k
          rw [Matrix.mul_apply, Matrix.mul_diagonal] at this
          exact this
      _ = _ := by
          simp only [← mul_assoc]
          rw [← Finset.sum_mul, h1, one_mul]
  have := hpos fun i => V i k
  rwa [h2, Complex.ofReal_re] at this

/-! ## The update -/

/-- `F† V P V† F = ∑ p_k |(V† F)_k|²`. -/
theorem pinv_quad {m : ℕ} (V : Matrix (Fin m) (Fin m) ℂ) (p : Fin m → ℝ) (F : Fin m → ℂ) :
    ∑ i, (starRingEnd ℂ) (F i) * (V *ᵥ fun k => (p k : ℂ) * (Vᴴ *ᵥ F) k) i
      = ((∑ k, p k * Complex.normSq ((Vᴴ *ᵥ F) k) : ℝ) : ℂ) := by
  have h : ∀ k, (starRingEnd ℂ) ((Vᴴ *ᵥ F) k) = ∑ i, (starRingEnd ℂ) (F i) * V i k := by
    intro k
    simp only [mulVec, dotProduct, Matrix.conjTranspose_apply, map_sum, map_mul]
    apply Finset.sum_congr rfl
    intro i _
    have : (starRingEnd ℂ) (star (V i k)) = V i k := Complex.conj_conj _
    rw [this]
    ring
  push_cast
  calc _ = ∑ i, ∑ k, (starRingEnd ℂ) (F i) * (V i k * ((p k : ℂ) * (Vᴴ *ᵥ F) k)) := by
        apply Finset.sum_congr rfl
        intro i _
        rw [← Finset.mul_sum]
        rfl
    _ = ∑ k, ∑ i, (starRingEnd ℂ) (F i) * (V i k * ((p k : ℂ) * (Vᴴ *ᵥ F) k)) := Finset.sum_comm
    _ = _ := by
        apply Finset.sum_congr rfl
        intro k _
        rw [Complex.normSq_eq_conj_mul_self, h k, Finset.sum_mul, Finset.mul_sum]
        apply Finset.sum_congr rfl
        intro i _
        ring

/-- The weights of the pseudo-inverse are not negative. -/
theorem pinv_nonneg (cfg : TdvpCfg n) (heigh : EighCorrect cfg) (hq : cfg.makeReal ≠ "imag")
    (hs : 0 ≤ cfg.diagonalShift) (l : List (ℝ × (Fin 1 → ℂ) × (Fin (n + 1) → ℂ)))
    (hw : ∀ s ∈ l, 0 ≤ s.1) (snr : Fin (n + 1) → Num) (c : ℝ) (p : Fin (n + 1) → ℝ)
    (hp : ∀ k, (tdvpRegularizer cfg (tdvpEigenbasis cfg (specQS cfg l) (specQF cfg l)) snr c k).map
      (fun g => (tdvpEigenbasis cfg (specQS cfg l) (specQF cfg l)).invEv k * g) = some (p k))
    (k : Fin (n + 1)) : 0 ≤ p k := by
  have hk := hp k
  have hev : 0 ≤ (cfg.eigh (specQS cfg l)).1 k :=
    eigenvalue_nonneg _ _ _ (heigh _ (specQS_hermitian cfg l)) (specQS_quad_nonneg cfg hq hs l hw) k
  have hinv : 0 ≤ (tdvpEigenbasis cfg (specQS cfg l) (specQF cfg l)).invEv k := by
    unfold tdvpEigenbasis
    dsimp only
    split
    · exact div_nonneg zero_le_one hev
    · exact le_rfl
  cases hr : tdvpRegularizer cfg (tdvpEigenbasis cfg (specQS cfg l) (specQF cfg l)) snr c k with
  | none => rw [hr] at hk; cases hk
  | some g =>
    rw [hr] at hk
    rw [← Option.some.inj hk]
    exact mul_nonneg hinv (regularizer_nonneg _ _ _ _ _ _ hr)

end JVMC
