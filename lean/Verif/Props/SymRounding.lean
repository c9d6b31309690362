import Verif.Spec.SymRounding
import Verif.Props.RbmRounding
import Verif.Lemmas.SymNet

/-!
# C147 — rounding errors of symmetrised networks
-/

namespace JVMC

open Spec

/-- Numbers between `exp (-η) x` and `exp η x`. -/
theorem log_between {x y η : ℝ} (hx : 0 < x) (h1 : Real.exp (-η) * x ≤ y) (h2 : y ≤ Real.exp η * x) :
    0 < y ∧ |Real.log y - Real.log x| ≤ η := by
  have hy : 0 < y := lt_of_lt_of_le (by positivity) h1
  refine ⟨hy, ?_⟩
  have l1 := Real.log_le_log (by positivity) h1
  have l2 := Real.log_le_log hy h2
  rw [Real.log_mul (Real.exp_pos _).ne' hx.ne', Real.log_exp] at l1 l2
  rw [abs_le]
  constructor <;> linarith

/-- The logarithm of a sum of amplitudes changes by no more than their logarithms. -/
theorem logSum_lipschitz {K : ℕ} (hK : 0 < K) {c c' b : Fin K → ℝ} (hb : ∀ k, 0 < b k) {δ : ℝ} (h : ∀ k, |c k - c' k| ≤ δ) :
    |logSum c b - logSum c' b| ≤ δ := by
  have : Nonempty (Fin K) := ⟨⟨0, hK⟩⟩
  unfold logSum
  refine (log_between (Finset.sum_pos (fun k _ => mul_pos (hb k) (Real.exp_pos _)) Finset.univ_nonempty) ?_ ?_).2
  · rw [Finset.mul_sum]
    refine Finset.sum_le_sum fun k _ => ?_
    have := Real.exp_le_exp.mpr (by have := (abs_le.mp (h k)).1; linarith : -δ + c' k ≤ c k)
    rw [Real.exp_add] at this
    have := mul_le_mul_of_nonneg_left this (hb k).le
    linarith
  · rw [Finset.mul_sum]
    refine Finset.sum_le_sum fun k _ => ?_
    have := Real.exp_le_exp.mpr (by have := (abs_le.mp (h k)).2; linarith : c k ≤ δ + c' k)
    rw [Real.exp_add] at this
    have := mul_le_mul_of_nonneg_left this (hb k).le
    linarith

/-- A relative error is an error of the logarithm. -/
theorem exp_between_of_rel {x y v : ℝ} (hx : 0 < x) (hv0 : 0 ≤ v) (hv : v ≤ 1 / 2) (h : |y - x| ≤ v * x) :
    Real.exp (-(2 * v)) * x ≤ y ∧ y ≤ Real.exp (2 * v) * x := by
  obtain ⟨h1, h2⟩ := log_rel hx hv h
  obtain ⟨h3, h4⟩ := abs_le.mp h2
  rw [← Real.exp_log hx, ← Real.exp_add, ← Real.exp_add]
  constructor
  · rw [← Real.le_log_iff_exp_le h1]; linarith
  · rw [← Real.log_le_iff_le_exp h1]; linarith

/-- Several roundings. -/
theorem exp_between_of_near {r : Rounding} (hu : r.u ≤ 1 / 2) {k : ℕ} {x y : ℝ} (hx : 0 < x) (h : WithinFactor r.u k x y) :
    Real.exp (-(2 * r.u * k)) * x ≤ y ∧ y ≤ Real.exp (2 * r.u * k) * x := by
  obtain ⟨t, h1, h2, rfl⟩ := h
  have hu0 := r.u_nonneg
  constructor
  · refine mul_le_mul_of_nonneg_right (le_trans ?_ h1) hx.le
    have := neg_log_one_sub hu0 hu
    have h3 : Real.exp (-(2 * r.u)) ≤ 1 - r.u := by
      rw [← Real.le_log_iff_exp_le (by linarith)]; linarith
    have h4 := pow_le_pow_left₀ (Real.exp_pos _).le h3 k
    rw [← Real.exp_nat_mul] at h4
    rwa [show -(2 * r.u * k) = k * -(2 * r.u) by ring]
  · refine mul_le_mul_of_nonneg_right (h2.trans ?_) hx.le
    have h3 : 1 + r.u ≤ Real.exp (2 * r.u) := by
      have := Real.add_one_le_exp (2 * r.u); linarith
    have h4 := pow_le_pow_left₀ (by linarith) h3 k
    rw [← Real.exp_nat_mul] at h4
    rwa [show 2 * r.u * k = k * (2 * r.u) by ring]

theorem forall₂_sum_between {l ys : List ℝ} {a b : ℝ} (h : List.Forall₂ (fun x y => a * x ≤ y ∧ y ≤ b * x) l ys) :
    a * l.sum ≤ ys.sum ∧ ys.sum ≤ b * l.sum := by
  induction h with
  | nil => simp
  | cons h _ ih =>
    simp only [List.sum_cons]
    constructor <;> nlinarith [h.1, h.2, ih.1, ih.2]

/-- C147: the machine's `logsumexp` of coefficients of size `M` with positive weights. -/
theorem c147_logsumexp {r : Rounding} {F : ElemFuns} {v : ℝ} (hF : Accurate F v) (hv0 : 0 ≤ v) (hv : v ≤ 1 / 2) (hu : r.u ≤ 1 / 2)
    {K : ℕ} {c b : Fin K → ℝ} {M Λ : ℝ} (hM : ∀ k, |c k| ≤ M) (hb : WeightsWithin b Λ) (out : ℝ) (h : LogSumExpR r F c b out) :
    |out - logSum c b| ≤ symError r.u v M Λ K := by
  obtain ⟨m, δ, p, S, ⟨k₀, hk₀⟩, hmax, hδ, hp, hS, hout⟩ := h
  have hu0 := r.u_nonneg
  have hbpos : ∀ k, 0 < b k := fun k => (Real.exp_pos _).trans_le (hb.1 k)
  have hMm : |m| ≤ M := by rw [← hk₀]; exact hM k₀
  have hM0 : 0 ≤ M := (abs_nonneg _).trans hMm
  have hK : 1 ≤ K := Nat.one_le_iff_ne_zero.mpr (by rintro rfl; exact k₀.elim0)
  -- the terms
  have hterm : ∀ k, Real.exp (-(2 * r.u * M + 2 * v + 2 * r.u)) * (b k * Real.exp (c k - m)) ≤ p k ∧
      p k ≤ Real.exp (2 * r.u * M + 2 * v + 2 * r.u) * (b k * Real.exp (c k - m)) := by
    intro k
    have e1 : |δ k - (c k - m)| ≤ 2 * r.u * M := by
      have := near_abs_sub r (near_rd r (hδ k))
      rw [pow_one, add_sub_cancel_left] at this
      have h2 : |c k - m| ≤ 2 * M := by
        rw [abs_le] at hMm ⊢
        have := abs_le.mp (hM k)
        constructor <;> linarith [this.1, this.2, hMm.1, hMm.2]
      have := mul_le_mul_of_nonneg_left h2 hu0
      linarith
    obtain ⟨e2, e3⟩ := abs_le.mp e1
    obtain ⟨f1, f2⟩ := exp_between_of_rel (Real.exp_pos _) hv0 hv (hF.exp (δ k))
    have hFpos : 0 < F.exp (δ k) := lt_of_lt_of_le (by positivity) f1
    obtain ⟨g1, g2⟩ := exp_between_of_near hu (mul_pos (hbpos k) hFpos) (near_rd r (hp k))
    rw [Nat.cast_one, mul_one] at g1 g2
    rw [← Real.exp_add] at f1 f2
    constructor
    · refine le_trans ?_ g1
      have a1 : Real.exp (-(2 * r.u * M) + (-(2 * v)) + (c k - m)) ≤ F.exp (δ k) :=
        (Real.exp_le_exp.mpr (by linarith)).trans f1
      have a2 := mul_le_mul_of_nonneg_left a1 (mul_pos (Real.exp_pos (-(2 * r.u))) (hbpos k)).le
      refine le_trans (le_of_eq ?_) (a2.trans (le_of_eq (by ring)))
      rw [show -(2 * r.u * M + 2 * v + 2 * r.u) = -(2 * r.u) + (-(2 * r.u * M) + -(2 * v)) by ring, Real.exp_add, Real.exp_add _ (c k - m)]
      ring
    · refine le_trans g2 ?_
      have a1 : F.exp (δ k) ≤ Real.exp (2 * r.u * M + 2 * v + (c k - m)) :=
        f2.trans (Real.exp_le_exp.mpr (by linarith))
      have a2 := mul_le_mul_of_nonneg_left a1 (mul_pos (Real.exp_pos (2 * r.u)) (hbpos k)).le
      refine le_trans (le_of_eq (by ring)) (a2.trans (le_of_eq ?_))
      rw [show 2 * r.u * M + 2 * v + 2 * r.u = 2 * r.u + (2 * r.u * M + 2 * v) by ring, Real.exp_add (2 * r.u), Real.exp_add _ (c k - m)]
      ring
  have hppos : ∀ k, 0 < p k := fun k => lt_of_lt_of_le (mul_pos (Real.exp_pos _) (mul_pos (hbpos k) (Real.exp_pos _))) (hterm k).1
  -- their sum
  obtain ⟨ys, s1, s2⟩ := sums_near hS
  rw [List.length_ofFn] at s1
  have s3 : List.Forall₂ (fun x y => Real.exp (-(2 * r.u * (K - 1 : ℕ))) * x ≤ y ∧ y ≤ Real.exp (2 * r.u * (K - 1 : ℕ)) * x)
      (List.ofFn p) ys := by
    rw [List.forall₂_iff_get] at s1 ⊢
    refine ⟨s1.1, fun i h1 h2 => exp_between_of_near hu ?_ (s1.2 i h1 h2)⟩
    rw [List.get_ofFn]
    exact hppos _
  obtain ⟨s4, s5⟩ := forall₂_sum_between s3
  rw [s2, List.sum_ofFn] at s4 s5
  set X := ∑ k, b k * Real.exp (c k - m) with hX
  have hXl : Real.exp (-Λ) ≤ X := by
    have h1 := Finset.single_le_sum (f := fun k => b k * Real.exp (c k - m)) (fun k _ => (mul_pos (hbpos k) (Real.exp_pos _)).le)
      (Finset.mem_univ k₀)
    rw [hk₀, sub_self, Real.exp_zero, mul_one] at h1
    exact (hb.1 k₀).trans h1
  have hXu : X ≤ Real.exp Λ := by
    refine (Finset.sum_le_sum fun k _ => ?_).trans hb.2
    have : Real.exp (c k - m) ≤ 1 := Real.exp_le_one_iff.mpr (by linarith [hmax k])
    have := mul_le_mul_of_nonneg_left this (hbpos k).le
    linarith
  have hXpos : 0 < X := (Real.exp_pos _).trans_le hXl
  have hKc : ((K - 1 : ℕ) : ℝ) = K - 1 := by rw [Nat.cast_sub hK, Nat.cast_one]
  rw [hKc] at s4 s5
  have hSl : Real.exp (-ampSumError r.u v M K) * X ≤ S := by
    refine le_trans ?_ s4
    have h1 : Real.exp (-(2 * r.u * M + 2 * v + 2 * r.u)) * X ≤ ∑ k, p k := by
      rw [hX, Finset.mul_sum]
      exact Finset.sum_le_sum fun k _ => (hterm k).1
    have h2 := mul_le_mul_of_nonneg_left h1 (Real.exp_pos (-(2 * r.u * (K - 1 : ℝ)))).le
    rw [← mul_assoc, ← Real.exp_add] at h2
    refine le_trans (le_of_eq ?_) h2
    unfold ampSumError
    congr 2
    ring
  have hSu : S ≤ Real.exp (ampSumError r.u v M K) * X := by
    refine s5.trans ?_
    have h1 : ∑ k, p k ≤ Real.exp (2 * r.u * M + 2 * v + 2 * r.u) * X := by
      rw [hX, Finset.mul_sum]
      exact Finset.sum_le_sum fun k _ => (hterm k).2
    have h2 := mul_le_mul_of_nonneg_left h1 (Real.exp_pos (2 * r.u * (K - 1 : ℝ))).le
    rw [← mul_assoc, ← Real.exp_add] at h2
    refine h2.trans (le_of_eq ?_)
    unfold ampSumError
    congr 2
    ring
  obtain ⟨hSpos, hlog⟩ := log_between hXpos hSl hSu
  -- the logarithm
  have hlogX : |Real.log X| ≤ Λ := by
    rw [abs_le]
    exact ⟨(Real.le_log_iff_exp_le hXpos).mpr hXl, (Real.log_le_iff_le_exp hXpos).mpr hXu⟩
  have hexact : logSum c b = Real.log X + m := by
    unfold logSum
    have : ∑ k, b k * Real.exp (c k) = X * Real.exp m := by
      rw [hX, Finset.sum_mul]
      refine Finset.sum_congr rfl fun k _ => ?_
      rw [mul_assoc, ← Real.exp_add, sub_add_cancel]
    rw [this, Real.log_mul hXpos.ne' (Real.exp_pos _).ne', Real.log_exp]
  have hFl := hF.log S hSpos
  have hout' := near_abs_sub r (near_rd r hout)
  rw [pow_one, add_sub_cancel_left] at hout'
  have hlS : |Real.log S| ≤ Λ + ampSumError r.u v M K := by
    have := abs_add_le (Real.log S - Real.log X) (Real.log X)
    rw [sub_add_cancel] at this
    linarith
  have hFl' : |F.log S - Real.log S| ≤ v * (Λ + ampSumError r.u v M K) := hFl.trans (mul_le_mul_of_nonneg_left hlS hv0)
  have hFa : |F.log S + m| ≤ (1 + v) * (Λ + ampSumError r.u v M K) + M := by
    have h1 := abs_add_le (F.log S) m
    have h2 := abs_add_le (F.log S - Real.log S) (Real.log S)
    rw [sub_add_cancel] at h2
    linarith
  have h3 := mul_le_mul_of_nonneg_left hFa hu0
  rw [hexact]
  unfold symError
  have t1 := abs_add_le (out - (F.log S + m)) (F.log S - Real.log S + (Real.log S - Real.log X))
  have t2 := abs_add_le (F.log S - Real.log S) (Real.log S - Real.log X)
  rw [show out - (F.log S + m) + (F.log S - Real.log S + (Real.log S - Real.log X)) = out - (Real.log X + m) by ring] at t1
  linarith

/-- C147: a symmetrised network with the default average. If the network errs by at most `δ` on the images of the configuration and
returns numbers of size `M`, the symmetrised coefficient errs by at most `δ + symError`; it is the value of exact arithmetic
(`symNet`, C57) that it approximates. -/
theorem c147_symnet {r : Rounding} {F : ElemFuns} {v : ℝ} (hF : Accurate F v) (hv0 : 0 ≤ v) (hv : v ≤ 1 / 2) (hu : r.u ≤ 1 / 2)
    {n K : ℕ} (hK : 0 < K) (Net : (Fin n → ℤ) → ℝ → Prop) (net : (Fin n → ℤ) → ℝ) (orbit : Fin K → Matrix (Fin n) (Fin n) ℤ)
    (x : Fin n → ℤ) {b : Fin K → ℝ} {M Λ δ : ℝ} (hb : WeightsWithin b Λ)
    (hnet : ∀ k y, Net (spinImage (orbit k) x) y → |y - net (spinImage (orbit k) x)| ≤ δ ∧ |y| ≤ M) (out : ℝ)
    (h : SymNetR Net (fun c => LogSumExpR r F c b) orbit x out) :
    ∃ z, symNet avgExpReal net (List.ofFn orbit) (List.ofFn b) x = .fin z ∧
      z = Real.log (∑ k, b k * Real.exp (net (spinImage (orbit k) x))) ∧ |out - z| ≤ δ + symError r.u v M Λ K := by
  have : Nonempty (Fin K) := ⟨⟨0, hK⟩⟩
  have hbpos : ∀ k, 0 < b k := fun k => (Real.exp_pos _).trans_le (hb.1 k)
  refine ⟨_, ?_, rfl, ?_⟩
  · have hsum : ((((symImages (List.ofFn orbit) x).map net).zip (List.ofFn b)).map fun x => x.2 * Real.exp x.1).sum
        = ∑ k, b k * Real.exp (net (spinImage (orbit k) x)) := by
      rw [← List.sum_ofFn]
      congr 1
      unfold symImages
      rw [List.map_ofFn, List.map_ofFn]
      apply List.ext_getElem
      · simp
      · intro i h1 h2
        simp only [List.getElem_map, List.getElem_zip, List.getElem_ofFn, Function.comp]
        rfl
    have hpos : 0 < ∑ k, b k * Real.exp (net (spinImage (orbit k) x)) :=
      Finset.sum_pos (fun k _ => mul_pos (hbpos k) (Real.exp_pos _)) Finset.univ_nonempty
    unfold symNet
    rw [avgExpReal_eq]
    dsimp only
    rw [hsum, if_neg (not_lt.mpr hpos.le), if_neg hpos.ne']
  · obtain ⟨c, hc, ho⟩ := h
    have h1 := c147_logsumexp hF hv0 hv hu (fun k => (hnet k _ (hc k)).2) hb out ho
    have h2 := logSum_lipschitz hK hbpos (fun k => (hnet k _ (hc k)).1)
    have h3 := abs_add_le (out - logSum c b) (logSum c b - logSum (fun k => net (spinImage (orbit k) x)) b)
    rw [sub_add_sub_cancel] at h3
    unfold logSum at h1 h2 h3
    linarith

/-- C147: a symmetrised network with the average of the logarithms. -/
theorem c147_mean {r : Rounding} {n K : ℕ} (hK : 0 < K) (hKu : K * r.u ≤ 1 / 2) (Net : (Fin n → ℤ) → ℝ → Prop)
    (net : (Fin n → ℤ) → ℝ) (orbit : Fin K → Matrix (Fin n) (Fin n) ℤ) (x : Fin n → ℤ) {M δ : ℝ}
    (hnet : ∀ k y, Net (spinImage (orbit k) x) y → |y - net (spinImage (orbit k) x)| ≤ δ ∧ |y| ≤ M) (out : ℝ)
    (h : SymNetR Net (MeanLogR r) orbit x out) :
    |out - (∑ k, net (spinImage (orbit k) x)) / K| ≤ δ + 2 * (K * r.u) * M := by
  obtain ⟨c, hc, S, hS, ho⟩ := h
  have hKr : (0 : ℝ) < K := by exact_mod_cast hK
  have hu0 := r.u_nonneg
  obtain ⟨ys, g1, g2⟩ := sums_near hS
  obtain ⟨t, t1, t2, t3⟩ := near_rd r ho
  have g4 : List.Forall₂ (fun x y => WithinFactor r.u K x y) (List.ofFn c) (ys.map fun y => t * y) := by
    rw [List.forall₂_map_right_iff]
    refine g1.imp fun a y h => ?_
    have := near_trans r h (⟨t, t1, t2, rfl⟩ : WithinFactor r.u 1 y (t * y))
    rw [List.length_ofFn, Nat.sub_add_cancel hK] at this
    exact this
  have g5 := forall₂_sum_abs r (value := fun y : ℝ => y) g4
  rw [List.sum_map_mul_left, List.map_id', g2] at g5
  simp only [List.map_id', List.map_ofFn, List.sum_ofFn, Function.comp] at g5
  have g6 : ∑ k, |c k| ≤ K * M := by
    refine (Finset.sum_le_sum fun k _ => (hnet k _ (hc k)).2).trans (le_of_eq ?_)
    simp
  have g7 := pow_double_bound hu0 (m := K) (by linarith)
  have g8 : |t * S - ∑ k, c k| ≤ 2 * (K * r.u) * (K * M) := by
    refine g5.trans (mul_le_mul g7 g6 (Finset.sum_nonneg fun _ _ => abs_nonneg _) (by positivity))
  have g9 : |∑ k, c k - ∑ k, net (spinImage (orbit k) x)| ≤ K * δ := by
    rw [← Finset.sum_sub_distrib]
    refine (Finset.abs_sum_le_sum_abs _ _).trans ((Finset.sum_le_sum fun k _ => (hnet k _ (hc k)).1).trans (le_of_eq ?_))
    simp
  have g10 := abs_add_le (t * S - ∑ k, c k) (∑ k, c k - ∑ k, net (spinImage (orbit k) x))
  rw [sub_add_sub_cancel] at g10
  have e : out - (∑ k, net (spinImage (orbit k) x)) / K = (t * S - ∑ k, net (spinImage (orbit k) x)) / K := by
    rw [t3]; ring
  rw [e, abs_div, abs_of_pos hKr, div_le_iff₀ hKr]
  nlinarith

/-- C147: the machine can average the coefficients of every network. -/
theorem c147_exists (r : Rounding) (F : ElemFuns) {n K : ℕ} (hK : 0 < K) (Net : (Fin n → ℤ) → ℝ → Prop) (hN : ∀ s, ∃ y, Net s y)
    (orbit : Fin K → Matrix (Fin n) (Fin n) ℤ) (b : Fin K → ℝ) (x : Fin n → ℤ) :
    (∃ out, SymNetR Net (fun c => LogSumExpR r F c b) orbit x out) ∧ ∃ out, SymNetR Net (MeanLogR r) orbit x out := by
  have : Nonempty (Fin K) := ⟨⟨0, hK⟩⟩
  choose f hf using hN
  constructor
  · set c : Fin K → ℝ := fun k => f (fun i => Int.fdiv ((orbit k).mulVec (fun j => 2 * x j - 1) i + 1) 2)
    obtain ⟨k₀, -, hk₀⟩ := Finset.exists_max_image Finset.univ c Finset.univ_nonempty
    obtain ⟨S, hS⟩ := sums_exists r (List.ofFn fun k => r.rnd (b k * F.exp (r.rnd (c k - c k₀))))
    exact ⟨_, c, fun k => hf _, c k₀, _, _, S, ⟨k₀, rfl⟩, fun k => hk₀ k (Finset.mem_univ _), fun k => Or.inl rfl, fun k => Or.inl rfl, hS,
      Or.inl rfl⟩
  · obtain ⟨S, hS⟩ := sums_exists r
      (List.ofFn fun k : Fin K => f (fun i => Int.fdiv ((orbit k).mulVec (fun j => 2 * x j - 1) i + 1) 2))
    exact ⟨_, _, fun k => hf _, S, hS, Or.inl rfl⟩

/-- Two spins that can be exchanged, a Boltzmann machine with one hidden unit, double precision, factors 1. -/
example : ∃ out, SymNetR (RealRbmR Rounding.double (roundedFuns Rounding.double)
      (fun (i : Fin 2) (_ : Fin 1) => if i = 0 then (1 / 2 : ℝ) else -1) none)
      (fun c => LogSumExpR Rounding.double (roundedFuns Rounding.double) c fun _ => 1) ![!![1, 0; 0, 1], !![0, 1; 1, 0]] ![1, 0] out ∧
    |out - Real.log (∑ k : Fin 2, 1 * Real.exp (realRbm (fun (i : Fin 2) (_ : Fin 1) => if i = 0 then (1 / 2 : ℝ) else -1) none
      (spinImage (![!![1, 0; 0, 1], !![0, 1; 1, 0]] k) ![1, 0])))| ≤ 1 / 10 ^ 12 := by
  have hu : Rounding.double.u = (2 : ℝ) ^ (-53 : ℤ) := rfl
  obtain ⟨⟨out, ho⟩, -⟩ := c147_exists Rounding.double (roundedFuns Rounding.double) (K := 2) (by norm_num)
    (RealRbmR Rounding.double (roundedFuns Rounding.double) (fun (i : Fin 2) (_ : Fin 1) => if i = 0 then (1 / 2 : ℝ) else -1) none)
    (fun s => c145_exists _ _ _ _ s) ![!![1, 0; 0, 1], !![0, 1; 1, 0]] (fun _ => 1) ![1, 0]
  refine ⟨out, ho, ?_⟩
  have hspin : ∀ (k : Fin 2) (i : Fin 2), spinImage ((![!![1, 0; 0, 1], !![0, 1; 1, 0]] : Fin 2 → Matrix (Fin 2) (Fin 2) ℤ) k) ![1, 0] i = 0 ∨
      spinImage ((![!![1, 0; 0, 1], !![0, 1; 1, 0]] : Fin 2 → Matrix (Fin 2) (Fin 2) ℤ) k) ![1, 0] i = 1 := by
    decide
  have hnet : ∀ (k : Fin 2) (y : ℝ), RealRbmR Rounding.double (roundedFuns Rounding.double)
      (fun (i : Fin 2) (_ : Fin 1) => if i = 0 then (1 / 2 : ℝ) else -1) none
      (spinImage ((![!![1, 0; 0, 1], !![0, 1; 1, 0]] : Fin 2 → Matrix (Fin 2) (Fin 2) ℤ) k) ![1, 0]) y →
      |y - realRbm (fun (i : Fin 2) (_ : Fin 1) => if i = 0 then (1 / 2 : ℝ) else -1) none
        (spinImage ((![!![1, 0; 0, 1], !![0, 1; 1, 0]] : Fin 2 → Matrix (Fin 2) (Fin 2) ℤ) k) ![1, 0])| ≤ 1 / 10 ^ 13 ∧ |y| ≤ 2 := by
    intro k y hy
    have h1 := c145_rbm (roundedFuns_accurate Rounding.double) Rounding.double.u_nonneg (by rw [hu]; norm_num) (by rw [hu]; norm_num)
      (by rw [hu]; norm_num) _ _ _ (hspin k) y hy
    have h2 : |y - realRbm (fun (i : Fin 2) (_ : Fin 1) => if i = 0 then (1 / 2 : ℝ) else -1) none
        (spinImage ((![!![1, 0; 0, 1], !![0, 1; 1, 0]] : Fin 2 → Matrix (Fin 2) (Fin 2) ℤ) k) ![1, 0])| ≤ 1 / 10 ^ 13 := by
      refine h1.trans ?_
      unfold unitSize
      rw [hu]
      simp [Fin.sum_univ_two, abs_of_pos]
      norm_num
    refine ⟨h2, ?_⟩
    have h3 : |realRbm (fun (i : Fin 2) (_ : Fin 1) => if i = 0 then (1 / 2 : ℝ) else -1) none
        (spinImage ((![!![1, 0; 0, 1], !![0, 1; 1, 0]] : Fin 2 → Matrix (Fin 2) (Fin 2) ℤ) k) ![1, 0])| ≤ 3 / 2 := by
      have hx : ∀ i, |(((2 * spinImage ((![!![1, 0; 0, 1], !![0, 1; 1, 0]] : Fin 2 → Matrix (Fin 2) (Fin 2) ℤ) k) ![1, 0] i - 1 : ℤ) : ℝ))| = 1 := by
        intro i
        rcases hspin k i with h | h <;> rw [h] <;> norm_num
      unfold realRbm
      rw [Fin.sum_univ_one, abs_of_nonneg (logcosh_range _).1]
      refine ((logcosh_range _).2.trans (dense_le _ _ _ hx 0)).trans ?_
      unfold unitSize
      simp [Fin.sum_univ_two, abs_of_pos]
      norm_num
    have h4 := abs_add_le (y - realRbm (fun (i : Fin 2) (_ : Fin 1) => if i = 0 then (1 / 2 : ℝ) else -1) none
        (spinImage ((![!![1, 0; 0, 1], !![0, 1; 1, 0]] : Fin 2 → Matrix (Fin 2) (Fin 2) ℤ) k) ![1, 0]))
      (realRbm (fun (i : Fin 2) (_ : Fin 1) => if i = 0 then (1 / 2 : ℝ) else -1) none
        (spinImage ((![!![1, 0; 0, 1], !![0, 1; 1, 0]] : Fin 2 → Matrix (Fin 2) (Fin 2) ℤ) k) ![1, 0]))
    rw [sub_add_cancel] at h4
    norm_num at h2
    linarith
  obtain ⟨z, -, hz, he⟩ := c147_symnet (roundedFuns_accurate Rounding.double) Rounding.double.u_nonneg (by rw [hu]; norm_num)
    (by rw [hu]; norm_num) (by norm_num) _ _ _ _ (b := fun _ => 1) (Λ := 1)
    ⟨fun _ => Real.exp_le_one_iff.mpr (by norm_num), by
      have := Real.add_one_le_exp (1 : ℝ)
      simp
      linarith⟩ hnet out ho
  rw [← hz]
  refine he.trans ?_
  unfold symError ampSumError
  rw [hu]
  norm_num

/-- The average of logarithms, for a network that counts spins and returns the number up to 1/1000. -/
example : ∃ out, SymNetR (fun s y => y = (s 0 + 2 * s 1 : ℝ) + 1 / 1000) (MeanLogR Rounding.double)
      (![!![1, 0; 0, 1], !![0, 1; 1, 0]] : Fin 2 → Matrix (Fin 2) (Fin 2) ℤ) ![1, 0] out ∧ |out - 3 / 2| ≤ 1 / 500 := by
  have hu : Rounding.double.u = (2 : ℝ) ^ (-53 : ℤ) := rfl
  obtain ⟨-, out, ho⟩ := c147_exists Rounding.double (roundedFuns Rounding.double) (K := 2) (by norm_num)
    (fun (s : Fin 2 → ℤ) y => y = (s 0 + 2 * s 1 : ℝ) + 1 / 1000) (fun s => ⟨_, rfl⟩)
    ![!![1, 0; 0, 1], !![0, 1; 1, 0]] (fun _ => 1) ![1, 0]
  refine ⟨out, ho, ?_⟩
  have i0 : spinImage (!![1, 0; 0, 1] : Matrix (Fin 2) (Fin 2) ℤ) ![1, 0] = ![1, 0] := by decide
  have i1 : spinImage (!![0, 1; 1, 0] : Matrix (Fin 2) (Fin 2) ℤ) ![1, 0] = ![0, 1] := by decide
  have h := c147_mean (by norm_num) (by rw [hu]; norm_num) _ (fun s => (s 0 + 2 * s 1 : ℝ)) _ _ (M := 3) (δ := 1 / 1000) (by
    intro k y hy
    fin_cases k
    · simp only [Fin.zero_eta, Matrix.cons_val_zero, i0] at hy ⊢
      rw [hy]
      norm_num
    · simp only [Fin.mk_one, Matrix.cons_val_one, Matrix.cons_val_fin_one, i1] at hy ⊢
      rw [hy]
      norm_num [abs_of_pos]) out ho
  rw [Fin.sum_univ_two, Matrix.cons_val_zero, Matrix.cons_val_one, Matrix.cons_val_fin_one, i0, i1, hu] at h
  norm_num at h ⊢
  exact h.trans (by norm_num)

end JVMC
