import Verif.Props.SymRounding

/-!
# C147 — the average of probabilities with rounding errors
-/

namespace JVMC

open Spec

/-- C147: a symmetrised network with the separate average of modulus and phase, `avgFun_Coefficients_Sep`. -/
theorem c147_sep {r : Rounding} {F : ElemFuns} {v : ℝ} (hF : Accurate F v) (hv0 : 0 ≤ v) (hv : v ≤ 1 / 2) (hu : r.u ≤ 1 / 2)
    {n K : ℕ} (hK : 0 < K) (Net : (Fin n → ℤ) → ℝ → Prop) (net : (Fin n → ℤ) → ℝ) (orbit : Fin K → Matrix (Fin n) (Fin n) ℤ)
    (x : Fin n → ℤ) {M δ : ℝ}
    (hnet : ∀ k y, Net (spinImage (orbit k) x) y → |y - net (spinImage (orbit k) x)| ≤ δ ∧ |y| ≤ M) (out : ℝ)
    (h : SymNetR Net (MeanSepR r F) orbit x out) :
    |out - 1 / 2 * Real.log ((∑ k, Real.exp (2 * net (spinImage (orbit k) x))) / K)| ≤ δ + sepError r.u v M K := by
  have : Nonempty (Fin K) := ⟨⟨0, hK⟩⟩
  obtain ⟨c, hc, a, S, q, ha, hS, hq, ho⟩ := h
  have hKr : (0 : ℝ) < K := by exact_mod_cast hK
  have hu0 := r.u_nonneg
  have hM : ∀ k, |c k| ≤ M := fun k => (hnet k _ (hc k)).2
  -- the terms
  have hterm : ∀ k, Real.exp (-(2 * r.u * M + 2 * v)) * Real.exp (2 * c k) ≤ F.exp (a k) ∧
      F.exp (a k) ≤ Real.exp (2 * r.u * M + 2 * v) * Real.exp (2 * c k) := by
    intro k
    have e1 : |a k - 2 * c k| ≤ 2 * r.u * M := by
      have h1 := near_abs_sub r (near_rd r (ha k))
      rw [pow_one, add_sub_cancel_left, abs_mul, abs_of_pos (by norm_num : (0 : ℝ) < 2)] at h1
      have := mul_le_mul_of_nonneg_left (hM k) hu0
      linarith
    obtain ⟨e2, e3⟩ := abs_le.mp e1
    obtain ⟨f1, f2⟩ := exp_between_of_rel (Real.exp_pos _) hv0 hv (hF.exp (a k))
    rw [← Real.exp_add] at f1 f2
    rw [← Real.exp_add, ← Real.exp_add]
    exact ⟨(Real.exp_le_exp.mpr (by linarith)).trans f1, f2.trans (Real.exp_le_exp.mpr (by linarith))⟩
  have hFpos : ∀ k, 0 < F.exp (a k) := fun k => lt_of_lt_of_le (mul_pos (Real.exp_pos _) (Real.exp_pos _)) (hterm k).1
  -- their mean
  obtain ⟨ys, s1, s2⟩ := sums_near hS
  rw [List.length_ofFn] at s1
  obtain ⟨t, t1, t2, t3⟩ := near_rd r hq
  have s3 : List.Forall₂ (fun x y => Real.exp (-(2 * r.u * K)) * x ≤ y ∧ y ≤ Real.exp (2 * r.u * K) * x)
      (List.ofFn fun k => F.exp (a k)) (ys.map fun y => t * y) := by
    rw [List.forall₂_map_right_iff]
    rw [List.forall₂_iff_get] at s1 ⊢
    refine ⟨s1.1, fun i h1 h2 => ?_⟩
    have hn := near_trans r (s1.2 i h1 h2) (⟨t, t1, t2, rfl⟩ : WithinFactor r.u 1 _ (t * _))
    rw [Nat.sub_add_cancel hK] at hn
    refine exp_between_of_near hu ?_ hn
    rw [List.get_ofFn]
    exact hFpos _
  obtain ⟨s4, s5⟩ := forall₂_sum_between s3
  rw [List.sum_map_mul_left, List.map_id', s2, List.sum_ofFn] at s4 s5
  set X := (∑ k, Real.exp (2 * c k)) / K with hX
  have hqt : q * K = t * S := by rw [t3]; field_simp
  have hXK : X * K = ∑ k, Real.exp (2 * c k) := by rw [hX]; field_simp
  have hXpos : 0 < X := div_pos (Finset.sum_pos (fun k _ => Real.exp_pos _) Finset.univ_nonempty) hKr
  set η := ampSumError r.u v M K with hη
  have hl : Real.exp (-η) * X ≤ q := by
    refine le_of_mul_le_mul_right ?_ hKr
    rw [mul_assoc, hXK, hqt]
    refine le_trans ?_ s4
    have h1 : Real.exp (-(2 * r.u * M + 2 * v)) * ∑ k, Real.exp (2 * c k) ≤ ∑ k, F.exp (a k) := by
      rw [Finset.mul_sum]
      exact Finset.sum_le_sum fun k _ => (hterm k).1
    have h2 := mul_le_mul_of_nonneg_left h1 (Real.exp_pos (-(2 * r.u * K))).le
    rw [← mul_assoc, ← Real.exp_add] at h2
    refine le_trans (le_of_eq ?_) h2
    rw [hη]
    unfold ampSumError
    congr 2
    ring
  have hr : q ≤ Real.exp η * X := by
    refine le_of_mul_le_mul_right ?_ hKr
    rw [mul_assoc, hXK, hqt]
    refine s5.trans ?_
    have h1 : ∑ k, F.exp (a k) ≤ Real.exp (2 * r.u * M + 2 * v) * ∑ k, Real.exp (2 * c k) := by
      rw [Finset.mul_sum]
      exact Finset.sum_le_sum fun k _ => (hterm k).2
    have h2 := mul_le_mul_of_nonneg_left h1 (Real.exp_pos (2 * r.u * K)).le
    rw [← mul_assoc, ← Real.exp_add] at h2
    refine h2.trans (le_of_eq ?_)
    rw [hη]
    unfold ampSumError
    congr 2
    ring
  obtain ⟨hqpos, hlog⟩ := log_between hXpos hl hr
  -- the logarithm
  have hlogX : |Real.log X| ≤ 2 * M := by
    rw [abs_le]
    constructor
    · rw [Real.le_log_iff_exp_le hXpos, hX, le_div_iff₀ hKr]
      have := Finset.sum_le_sum fun k (_ : k ∈ Finset.univ) => Real.exp_le_exp.mpr (by
        have := (abs_le.mp (hM k)).1; linarith : -(2 * M) ≤ 2 * c k)
      simp only [Finset.sum_const, Finset.card_univ, Fintype.card_fin, nsmul_eq_mul] at this
      linarith
    · rw [Real.log_le_iff_le_exp hXpos, hX, div_le_iff₀ hKr]
      have := Finset.sum_le_sum fun k (_ : k ∈ Finset.univ) => Real.exp_le_exp.mpr (by
        have := (abs_le.mp (hM k)).2; linarith : 2 * c k ≤ 2 * M)
      simp only [Finset.sum_const, Finset.card_univ, Fintype.card_fin, nsmul_eq_mul] at this
      linarith
  have hlq : |Real.log q| ≤ 2 * M + η := by
    have := abs_add_le (Real.log q - Real.log X) (Real.log X)
    rw [sub_add_cancel] at this
    linarith
  have hFl : |F.log q - Real.log q| ≤ v * (2 * M + η) := (hF.log q hqpos).trans (mul_le_mul_of_nonneg_left hlq hv0)
  have hFa : |F.log q| ≤ (1 + v) * (2 * M + η) := by
    have := abs_add_le (F.log q - Real.log q) (Real.log q)
    rw [sub_add_cancel] at this
    linarith
  have hout := near_abs_sub r (near_rd r ho)
  rw [pow_one, add_sub_cancel_left, abs_mul, abs_of_pos (by norm_num : (0 : ℝ) < 0.5)] at hout
  have hFa' := mul_le_mul_of_nonneg_left hFa hu0
  -- the errors of the network
  have hδ : |Real.log X - Real.log ((∑ k, Real.exp (2 * net (spinImage (orbit k) x))) / K)| ≤ 2 * δ := by
    have h1 := logSum_lipschitz hK (c := fun k => 2 * c k) (c' := fun k => 2 * net (spinImage (orbit k) x)) (b := fun _ => 1)
      (fun _ => one_pos) (δ := 2 * δ) (fun k => by
        rw [← mul_sub, abs_mul, abs_of_pos (by norm_num : (0 : ℝ) < 2)]
        have := (hnet k _ (hc k)).1
        linarith)
    unfold logSum at h1
    simp only [one_mul] at h1
    rw [hX, Real.log_div (Finset.sum_pos (fun k _ => Real.exp_pos _) Finset.univ_nonempty).ne' hKr.ne',
      Real.log_div (Finset.sum_pos (fun k _ => Real.exp_pos _) Finset.univ_nonempty).ne' hKr.ne', sub_sub_sub_cancel_right]
    exact h1
  unfold sepError
  rw [← hη]
  set Z := Real.log ((∑ k, Real.exp (2 * net (spinImage (orbit k) x))) / K) with hZ
  clear_value Z X η
  rw [abs_le] at hδ hlog hFl hout ⊢
  norm_num at hout
  constructor <;> linarith [hδ.1, hδ.2, hlog.1, hlog.2, hFl.1, hFl.2, hout.1, hout.2]

/-- C147: the machine can compute this average, too. -/
theorem c147_sep_exists (r : Rounding) (F : ElemFuns) {n K : ℕ} (Net : (Fin n → ℤ) → ℝ → Prop) (hN : ∀ s, ∃ y, Net s y)
    (orbit : Fin K → Matrix (Fin n) (Fin n) ℤ) (x : Fin n → ℤ) : ∃ out, SymNetR Net (MeanSepR r F) orbit x out := by
  choose f hf using hN
  obtain ⟨S, hS⟩ := sums_exists r
    (List.ofFn fun k : Fin K => F.exp (r.rnd (2 * f (fun i => Int.fdiv ((orbit k).mulVec (fun j => 2 * x j - 1) i + 1) 2))))
  exact ⟨_, _, fun k => hf _, _, S, _, fun k => Or.inl rfl, hS, Or.inl rfl, Or.inl rfl⟩

/-- A network that counts spins and returns the number up to 1/1000. -/
example : ∃ out, SymNetR (fun s y => y = (s 0 + 2 * s 1 : ℝ) + 1 / 1000) (MeanSepR Rounding.double (roundedFuns Rounding.double))
      (![!![1, 0; 0, 1], !![0, 1; 1, 0]] : Fin 2 → Matrix (Fin 2) (Fin 2) ℤ) ![1, 0] out ∧
    |out - 1 / 2 * Real.log ((Real.exp 2 + Real.exp 4) / 2)| ≤ 1 / 500 := by
  have hu : Rounding.double.u = (2 : ℝ) ^ (-53 : ℤ) := rfl
  obtain ⟨out, ho⟩ := c147_sep_exists Rounding.double (roundedFuns Rounding.double) (K := 2)
    (fun (s : Fin 2 → ℤ) y => y = (s 0 + 2 * s 1 : ℝ) + 1 / 1000) (fun s => ⟨_, rfl⟩)
    ![!![1, 0; 0, 1], !![0, 1; 1, 0]] ![1, 0]
  refine ⟨out, ho, ?_⟩
  have i0 : spinImage (!![1, 0; 0, 1] : Matrix (Fin 2) (Fin 2) ℤ) ![1, 0] = ![1, 0] := by decide
  have i1 : spinImage (!![0, 1; 1, 0] : Matrix (Fin 2) (Fin 2) ℤ) ![1, 0] = ![0, 1] := by decide
  have h := c147_sep (roundedFuns_accurate Rounding.double) Rounding.double.u_nonneg (by rw [hu]; norm_num) (by rw [hu]; norm_num)
    (by norm_num) _ (fun s => (s 0 + 2 * s 1 : ℝ)) _ _ (M := 3) (δ := 1 / 1000) (by
    intro k y hy
    fin_cases k
    · simp only [Fin.zero_eta, Matrix.cons_val_zero, i0] at hy ⊢
      rw [hy]
      norm_num
    · simp only [Fin.mk_one, Matrix.cons_val_one, Matrix.cons_val_fin_one, i1] at hy ⊢
      rw [hy]
      norm_num [abs_of_pos]) out ho
  rw [Fin.sum_univ_two, Matrix.cons_val_zero, Matrix.cons_val_one, Matrix.cons_val_fin_one, i0, i1] at h
  refine (le_of_eq ?_).trans (h.trans ?_)
  · norm_num
  · unfold sepError ampSumError
    rw [hu]
    norm_num

end JVMC
