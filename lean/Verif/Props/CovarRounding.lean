import Verif.Lemmas.CovarRounding
import Verif.Props.Rounding
import Verif.Props.Stats

/-! # Property C137: rounding errors of covariances and of the TDVP equation -/

namespace JVMC

open Spec

variable {r : Rounding} {ι κ : Type}

theorem enlarged_nonneg {l : List (ℝ × (ι → ℂ))} (hp : ∀ s ∈ l, 0 ≤ s.1) (r : Rounding) (K : ℕ) (i : ι) :
    0 ≤ size l i ∧ deviation l i ≤ enlarged r.u K l i ∧ 0 ≤ deviation l i := by
  have h1 : 0 ≤ size l i := list_sum_nonneg' fun s hs => mul_nonneg (hp s hs) (norm_nonneg _)
  have h2 : 0 ≤ (1 + r.u) ^ K - 1 := by linarith [one_le_pow₀ (one_le_hi r) (n := K)]
  refine ⟨h1, ?_, Real.sqrt_nonneg _⟩
  unfold enlarged
  linarith [mul_nonneg (mul_nonneg h2 h1) (Real.sqrt_nonneg (mass l))]

theorem covFactor_ge (r : Rounding) (n d k : ℕ) : 1 ≤ covFactor r.u n d k := by
  unfold covFactor
  have h1 : 1 ≤ (1 + r.u) ^ 6 := one_le_pow₀ (one_le_hi r)
  have h2 : 1 ≤ (1 + r.u) ^ (2 * n + d + k - 2) := one_le_pow₀ (one_le_hi r)
  exact one_le_mul_of_one_le_of_one_le h1 (by linarith)

/-- Cauchy's inequality for covariances. -/
theorem norm_cross_le {l : List (ℝ × (ι → ℂ) × (κ → ℂ))} (hp : ∀ s ∈ l, 0 ≤ s.1) (i : ι) (j : κ) :
    ‖wCross l i j‖ ≤ deviation (l.map fun s => (s.1, s.2.1)) i * deviation (l.map fun s => (s.1, s.2.2)) j := by
  unfold wCross deviation wVar
  rw [List.map_map, List.map_map]
  simp only [Function.comp_def, Complex.normSq_eq_norm_sq]
  generalize wMean (l.map fun s => (s.1, s.2.1)) i = X
  generalize wMean (l.map fun s => (s.1, s.2.2)) j = Y
  refine le_trans ?_ (wcauchy (p := fun s : ℝ × (ι → ℂ) × (κ → ℂ) => s.1) (fun s => ‖s.2.1 i - X‖)
    (fun s => ‖s.2.2 j - Y‖) hp)
  refine (list_norm_sum_le _ l).trans (le_of_eq ?_)
  congr 1
  refine List.map_congr_left fun s hs => ?_
  rw [norm_mul, norm_mul, RCLike.norm_conj, Complex.norm_real, Real.norm_of_nonneg (hp s hs)]

/-- **C137**, covariances: whatever the order of the additions, the entries of `a.covar(b)` differ from the covariances of the
given data by at most `covError`: a relative error of the product of the standard deviations, and the errors of the two means.
In particular there is no cancellation: small fluctuations of large data are not lost. -/
theorem c137_covariance (joint : World (ℝ × (ι → ℂ) × (κ → ℂ))) (a : SObs ι) (b : SObs κ)
    (ha : SampledObsR r (joint.map fun s => (s.1, s.2.1)) a) (hb : SampledObsR r (joint.map fun s => (s.1, s.2.2)) b)
    (i : ι) (j : κ) (v : ℂ) (hv : CovarR r a b i j v) (n d k : ℕ) (hw : AtMost n d k joint)
    (hp : ∀ s ∈ allSamples joint, 0 ≤ s.1) :
    ‖v - wCross (allSamples joint) i j‖ ≤ covError r.u (covFactor r.u n d k) (n + d + k - 2)
      ((allSamples joint).map fun s => (s.1, s.2.1)) ((allSamples joint).map fun s => (s.1, s.2.2)) i j := by
  have hpa : ∀ s ∈ allSamples (joint.map fun s => (s.1, s.2.1)), 0 ≤ s.1 := by
    rw [allSamples_wmap]
    intro s hs
    obtain ⟨t, ht, rfl⟩ := List.mem_map.mp hs
    exact hp t ht
  have hpb : ∀ s ∈ allSamples (joint.map fun s => (s.1, s.2.2)), 0 ≤ s.1 := by
    rw [allSamples_wmap]
    intro s hs
    obtain ⟨t, ht, rfl⟩ := List.mem_map.mp hs
    exact hp t ht
  have na := sampledObs_near ha (atMost_map _ hw) hpa
  have nb := sampledObs_near hb (atMost_map _ hw) hpb
  obtain ⟨z, hza, hzb, hre, him⟩ := hv
  rw [← hza, allSamples_wmap] at na
  rw [← hzb, allSamples_wmap] at nb
  rw [allSamples_wmap] at hpa hpb
  have na' := rel3_map.mp na
  have nb' := rel3_map.mp nb
  have hboth := rel3_and na' nb'
  have hz := rel3_atMost hboth hw
  have hflat := rel3_flat hboth
  have hE := products_err (fun s : (ℝ × (ι → ℂ)) × (ℝ × (κ → ℂ)) => s.1.2 i) (fun s => s.2.2 j) hre him hz
  obtain ⟨ga, -, -⟩ := enlarged_nonneg hpa r (n + d + k - 2) i
  obtain ⟨gb, -, -⟩ := enlarged_nonneg hpb r (n + d + k - 2) j
  have hg0 : 0 ≤ (1 + r.u) ^ (n + d + k - 2) - 1 := by linarith [one_le_pow₀ (one_le_hi r) (n := n + d + k - 2)]
  set ε := ((1 + r.u) ^ (n + d + k - 2) - 1) * size ((allSamples joint).map fun s => (s.1, s.2.1)) i with hε
  set δ := ((1 + r.u) ^ (n + d + k - 2) - 1) * size ((allSamples joint).map fun s => (s.1, s.2.2)) j with hδ
  have hε0 : 0 ≤ ε := mul_nonneg hg0 ga
  have hδ0 : 0 ≤ δ := mul_nonneg hg0 gb
  have hall : everything joint = allSamples joint := rfl
  rw [hall] at hflat
  have hterms := cov_terms (p := fun s : ℝ × (ι → ℂ) × (κ → ℂ) => s.1) (x := fun s => s.2.1 i) (y := fun s => s.2.2 j)
    (d := fun t : (ℝ × (ι → ℂ)) × (ℝ × (κ → ℂ)) => t.1.2 i) (e := fun t => t.2.2 j)
    (forall₂_of_mem (P := fun s => 0 ≤ s.1) (hflat.imp fun s t hst hs => pair_bounds hs (hst.1.2 i) (hst.2.2 j)) hp)
  obtain ⟨q1, q2⟩ := cov_sums (p := fun s : ℝ × (ι → ℂ) × (κ → ℂ) => s.1) (fun s => s.2.1 i) (fun s => s.2.2 j)
    (wMean ((allSamples joint).map fun s => (s.1, s.2.1)) i) (wMean ((allSamples joint).map fun s => (s.1, s.2.2)) j)
    hε0 hδ0 hp (deviation ((allSamples joint).map fun s => (s.1, s.2.1)) i)
    (deviation ((allSamples joint).map fun s => (s.1, s.2.2)) j) (Real.sqrt (mass (allSamples joint)))
    (by simp [deviation, wVar, List.map_map, Function.comp_def, Complex.normSq_eq_norm_sq])
    (by simp [deviation, wVar, List.map_map, Function.comp_def, Complex.normSq_eq_norm_sq]) rfl
  have hm1 : mass ((allSamples joint).map fun s => (s.1, s.2.1)) = mass (allSamples joint) := by
    unfold mass
    rw [List.map_map]
    rfl
  have hm2 : mass ((allSamples joint).map fun s => (s.1, s.2.2)) = mass (allSamples joint) := by
    unfold mass
    rw [List.map_map]
    rfl
  unfold covError enlarged covFactor
  rw [hm1, hm2, ← hε, ← hδ]
  obtain ⟨t1, t2⟩ := hterms
  dsimp only at t1 t2 q1 q2 hE
  have hF : 1 ≤ (1 + r.u) ^ 6 := one_le_pow₀ (one_le_hi r)
  have hG : 0 ≤ (1 + r.u) ^ (2 * n + d + k - 2) - 1 := by linarith [one_le_pow₀ (one_le_hi r) (n := 2 * n + d + k - 2)]
  unfold wCross
  set F := (1 + r.u) ^ 6
  set G := (1 + r.u) ^ (2 * n + d + k - 2) - 1
  have t3 := mul_le_mul_of_nonneg_left t2 (by linarith : 0 ≤ 2 * G)
  refine (norm_sub_le_norm_sub_add_norm_sub v _ _).trans ((add_le_add (hE.trans t3) t1).trans ?_)
  set T := ((allSamples joint).map fun s => s.1 * ((‖s.2.1 i - wMean ((allSamples joint).map fun s => (s.1, s.2.1)) i‖ + ε) *
    (‖s.2.2 j - wMean ((allSamples joint).map fun s => (s.1, s.2.2)) j‖ + δ))).sum
  set A := ((allSamples joint).map fun s => s.1 * (‖s.2.1 i - wMean ((allSamples joint).map fun s => (s.1, s.2.1)) i‖ *
    ‖s.2.2 j - wMean ((allSamples joint).map fun s => (s.1, s.2.2)) j‖)).sum
  have hFG : 1 ≤ F * (1 + 2 * G) := one_le_mul_of_one_le_of_one_le hF (by linarith)
  have k1 := mul_le_mul_of_nonneg_left q1 (by linarith : 0 ≤ F * (1 + 2 * G) - 1)
  have k2 := mul_le_mul_of_nonneg_left q2 (by linarith : 0 ≤ F * (1 + 2 * G))
  linarith

/-- **C137**, exact arithmetic: without rounding errors `covar` has one value, that of the exact model (C41). -/
theorem c137_exact (hu : r.u = 0) (joint : World (ℝ × (ι → ℂ) × (κ → ℂ))) (a : SObs ι) (b : SObs κ)
    (ha : SampledObsR r (joint.map fun s => (s.1, s.2.1)) a) (hb : SampledObsR r (joint.map fun s => (s.1, s.2.2)) b)
    (i : ι) (j : κ) (v : ℂ) (hv : CovarR r a b i j v) (hp : ∀ s ∈ allSamples joint, 0 ≤ s.1) (h : ∀ rk ∈ joint, rk ≠ []) :
    ∃ a' b' c, SObs.create (joint.map fun s => (s.1, s.2.1)) = .ok a' ∧
      SObs.create (joint.map fun s => (s.1, s.2.2)) = .ok b' ∧ a'.covar b' = .ok (List.map (fun _ => c) joint) ∧ v = c i j := by
  obtain ⟨a', b', h1, h2, h3⟩ := c41_covar joint h hp
  refine ⟨a', b', _, h1, h2, h3, ?_⟩
  obtain ⟨n, d, k, hw⟩ := atMost_exists joint
  have := c137_covariance joint a b ha hb i j v hv n d k hw hp
  unfold covError enlarged covFactor at this
  rw [hu] at this
  simp only [add_zero, one_pow, sub_self, mul_zero, mul_one, zero_mul, one_mul] at this
  exact sub_eq_zero.mp (norm_eq_zero.mp (le_antisymm this (norm_nonneg _)))

/-- **C137**, variances: `var` is not negative, and it is the variance up to the errors of the mean and relative errors. -/
theorem c137_variance (world : World (ℝ × (ι → ℂ))) (a : SObs ι) (ha : SampledObsR r world a) (ab : ℂ → ℝ) (δ : ℝ)
    (hδ : 0 ≤ δ) (hab : AbsWithin δ ab) (i : ι) (v : ℝ) (hv : VarR r ab a i v) (n d k : ℕ) (hw : AtMost n d k world)
    (hp : ∀ s ∈ allSamples world, 0 ≤ s.1) :
    0 ≤ v ∧ |v - wVar (allSamples world) i| ≤ covError r.u ((1 + δ) ^ 2 * (1 + r.u) ^ (n + d + k + 4)) (n + d + k - 2)
      (allSamples world) (allSamples world) i i := by
  have na := sampledObs_near ha hw hp
  obtain ⟨ys, hys, hsum⟩ := hv
  have hu := r.u_nonneg
  have hF6 : 1 ≤ (1 + r.u) ^ 6 := one_le_pow₀ (one_le_hi r)
  obtain ⟨ga, -, -⟩ := enlarged_nonneg hp r (n + d + k - 2) i
  have hg0 : 0 ≤ (1 + r.u) ^ (n + d + k - 2) - 1 := by linarith [one_le_pow₀ (one_le_hi r) (n := n + d + k - 2)]
  have hε0 : 0 ≤ ((1 + r.u) ^ (n + d + k - 2) - 1) * size (allSamples world) i := mul_nonneg hg0 ga
  have hX : ∀ s ∈ allSamples world, 0 ≤ s.1 := hp
  -- the numbers that are added up
  have hcomp : Rel3 (fun (s : ℝ × (ι → ℂ)) (y : ℝ) => 0 ≤ s.1 → 0 ≤ y ∧
      |y - s.1 * ‖s.2 i - wMean (allSamples world) i‖ ^ 2| ≤ ((1 + δ) ^ 2 * (1 + r.u) ^ 7) * (s.1 *
          ((‖s.2 i - wMean (allSamples world) i‖ + ((1 + r.u) ^ (n + d + k - 2) - 1) * size (allSamples world) i) *
           (‖s.2 i - wMean (allSamples world) i‖ + ((1 + r.u) ^ (n + d + k - 2) - 1) * size (allSamples world) i))) -
        s.1 * (‖s.2 i - wMean (allSamples world) i‖ * ‖s.2 i - wMean (allSamples world) i‖) ∧
      y ≤ ((1 + δ) ^ 2 * (1 + r.u) ^ 7) * (s.1 *
          ((‖s.2 i - wMean (allSamples world) i‖ + ((1 + r.u) ^ (n + d + k - 2) - 1) * size (allSamples world) i) *
           (‖s.2 i - wMean (allSamples world) i‖ + ((1 + r.u) ^ (n + d + k - 2) - 1) * size (allSamples world) i))))
      world ys := by
    refine rel3_comp na hys fun s t y hst hy hs => ?_
    obtain ⟨p1, p2⟩ := pair_bounds hs (hst.2 i) (hst.2 i)
    dsimp only at p1 p2
    generalize ((1 + r.u) ^ (n + d + k - 2) - 1) * size (allSamples world) i = ε at p1 p2 ⊢
    generalize wMean (allSamples world) i = X at p1 p2 ⊢
    have hy0 : 0 ≤ y := near_nonneg r (mul_self_nonneg _) (near_rd r hy)
    have e1 : |‖t.2 i‖ ^ 2 - s.1 * ‖s.2 i - X‖ ^ 2| ≤ (1 + r.u) ^ 6 * (s.1 * ((‖s.2 i - X‖ + ε) * (‖s.2 i - X‖ + ε))) -
        s.1 * (‖s.2 i - X‖ * ‖s.2 i - X‖) := by
      refine le_trans (le_of_eq ?_) p1
      rw [mul_comm ((starRingEnd ℂ) (t.2 i)), mul_comm ((starRingEnd ℂ) (s.2 i - X)), Complex.mul_conj, Complex.mul_conj,
        Complex.normSq_eq_norm_sq, Complex.normSq_eq_norm_sq, ← Complex.ofReal_mul, ← Complex.ofReal_sub, Complex.norm_real,
        Real.norm_eq_abs]
    have e2 : ‖t.2 i‖ ^ 2 ≤ (1 + r.u) ^ 6 * (s.1 * ((‖s.2 i - X‖ + ε) * (‖s.2 i - X‖ + ε))) := by
      rw [sq]
      exact p2
    have e3 : |y - ‖t.2 i‖ ^ 2| ≤ ((1 + δ) ^ 2 * (1 + r.u) - 1) * ‖t.2 i‖ ^ 2 := by
      have h1 := hab (t.2 i)
      have h2 := rd_err hy
      have hn := norm_nonneg (t.2 i)
      set N := ‖t.2 i‖
      set A := ab (t.2 i)
      rw [abs_of_nonneg (mul_self_nonneg A)] at h2
      have h3 : |A * A - N ^ 2| ≤ (2 * δ + δ ^ 2) * N ^ 2 := by
        have e : A * A - N ^ 2 = (A - N) * (A + N) := by ring
        rw [e, abs_mul]
        have h4 : |A + N| ≤ (2 + δ) * N := by
          have e' : A + N = (A - N) + 2 * N := by ring
          rw [e']
          have := abs_add_le (A - N) (2 * N)
          rw [abs_of_nonneg (by linarith : 0 ≤ 2 * N)] at this
          linarith
        refine (mul_le_mul h1 h4 (abs_nonneg _) (mul_nonneg hδ hn)).trans (le_of_eq ?_)
        ring
      have h5 : A * A ≤ (1 + δ) ^ 2 * N ^ 2 := by
        have := (abs_le.mp h3).2
        linarith
      have h6 := abs_sub_le y (A * A) (N ^ 2)
      have h7 := mul_le_mul_of_nonneg_left h5 hu
      linarith
    have hc : 1 ≤ (1 + δ) ^ 2 * (1 + r.u) := one_le_mul_of_one_le_of_one_le (one_le_pow₀ (by linarith)) (one_le_hi r)
    have e7 : (1 + δ) ^ 2 * (1 + r.u) ^ 7 = ((1 + δ) ^ 2 * (1 + r.u)) * (1 + r.u) ^ 6 := by ring
    rw [e7]
    set C := (1 + δ) ^ 2 * (1 + r.u)
    have e8 := mul_le_mul_of_nonneg_left e2 (by linarith : 0 ≤ C - 1)
    refine ⟨hy0, ?_, ?_⟩
    · have := abs_sub_le y (‖t.2 i‖ ^ 2) (s.1 * ‖s.2 i - X‖ ^ 2)
      linarith
    · have := (abs_le.mp e3).2
      linarith
  have hy := rel3_atMost hcomp hw
  have hflat := rel3_flat hcomp
  have hall : everything world = allSamples world := rfl
  rw [hall] at hflat
  have hflat' := forall₂_of_mem (P := fun s : ℝ × (ι → ℂ) => 0 ≤ s.1) hflat hp
  have hpos : ∀ y ∈ everything ys, 0 ≤ y := fun y hy' => by
    obtain ⟨s, -, hs⟩ := forall₂_mem_right hflat' y hy'
    exact hs.1
  have hb := globalSumR_bounds hsum hy hpos
  refine ⟨le_trans (mul_nonneg (pow_nonneg (lo_pos r).le _) (List.sum_nonneg hpos)) hb.1, ?_⟩
  have hsa : sabs (everything ys) = (everything ys).sum := by
    unfold sabs
    congr 1
    conv_rhs => rw [← List.map_id (everything ys)]
    exact List.map_congr_left fun y hy' => abs_of_nonneg (hpos y hy')
  have hE := (c125_sum (world := ys) v hsum n d k hy).2
  rw [hsa] at hE
  set ε := ((1 + r.u) ^ (n + d + k - 2) - 1) * size (allSamples world) i with hε
  have hterms := cov_terms (p := fun s : ℝ × (ι → ℂ) => s.1) (x := fun s => s.2 i) (y := fun s => s.2 i)
    (X := wMean (allSamples world) i) (Y := wMean (allSamples world) i) (ε := ε) (δ := ε)
    (d := fun y : ℝ => (Real.sqrt y : ℂ)) (e := fun y => (Real.sqrt y : ℂ)) (F := (1 + δ) ^ 2 * (1 + r.u) ^ 7)
    (hflat'.imp fun s y hsy => by
      obtain ⟨y0, y1, y2⟩ := hsy
      have c1 : (starRingEnd ℂ) (Real.sqrt y : ℂ) * (Real.sqrt y : ℂ) = (y : ℂ) := by
        rw [Complex.conj_ofReal, ← Complex.ofReal_mul, Real.mul_self_sqrt y0]
      have c2 : ‖(Real.sqrt y : ℂ)‖ * ‖(Real.sqrt y : ℂ)‖ = y := by
        rw [Complex.norm_real, Real.norm_of_nonneg (Real.sqrt_nonneg _), Real.mul_self_sqrt y0]
      rw [c1, c2]
      refine ⟨le_trans (le_of_eq ?_) y1, y2⟩
      rw [mul_comm ((starRingEnd ℂ) _), Complex.mul_conj, Complex.normSq_eq_norm_sq, ← Complex.ofReal_mul, ← Complex.ofReal_sub,
        Complex.norm_real, Real.norm_eq_abs])
  obtain ⟨q1, q2⟩ := cov_sums (p := fun s : ℝ × (ι → ℂ) => s.1) (fun s => s.2 i) (fun s => s.2 i)
    (wMean (allSamples world) i) (wMean (allSamples world) i) hε0 hε0 hp (deviation (allSamples world) i)
    (deviation (allSamples world) i) (Real.sqrt (mass (allSamples world)))
    (by simp [deviation, wVar, Complex.normSq_eq_norm_sq]) (by simp [deviation, wVar, Complex.normSq_eq_norm_sq]) rfl
  obtain ⟨t1, t2⟩ := hterms
  have f1 : ((everything ys).map fun y => (starRingEnd ℂ) (Real.sqrt y : ℂ) * (Real.sqrt y : ℂ)).sum =
      (((everything ys).sum : ℝ) : ℂ) := by
    clear hE hb hsa hflat hflat' t1 t2
    generalize everything ys = L at hpos ⊢
    induction L with
    | nil => simp
    | cons y l ih =>
      rw [List.map_cons, List.sum_cons, List.sum_cons, ih fun z hz => hpos z (List.mem_cons_of_mem _ hz), Complex.conj_ofReal,
        ← Complex.ofReal_mul, Real.mul_self_sqrt (hpos y List.mem_cons_self), Complex.ofReal_add]
  have f2 : ((everything ys).map fun y => ‖(Real.sqrt y : ℂ)‖ * ‖(Real.sqrt y : ℂ)‖).sum = (everything ys).sum := by
    congr 1
    conv_rhs => rw [← List.map_id (everything ys)]
    refine List.map_congr_left fun y hy' => ?_
    rw [Complex.norm_real, Real.norm_of_nonneg (Real.sqrt_nonneg _), Real.mul_self_sqrt (hpos y hy')]
    rfl
  have f3 : ((allSamples world).map fun s => (s.1 : ℂ) * ((starRingEnd ℂ) (s.2 i - wMean (allSamples world) i) *
      (s.2 i - wMean (allSamples world) i))).sum = ((wVar (allSamples world) i : ℝ) : ℂ) := by
    unfold wVar
    generalize wMean (allSamples world) i = X
    clear * -
    induction allSamples world with
    | nil => simp
    | cons s l ih =>
      rw [List.map_cons, List.sum_cons, ih, List.map_cons, List.sum_cons, Complex.ofReal_add, mul_comm ((starRingEnd ℂ) _),
        Complex.mul_conj, Complex.ofReal_mul]
  rw [f1, f3, ← Complex.ofReal_sub, Complex.norm_real, Real.norm_eq_abs] at t1
  rw [f2] at t2
  unfold covError enlarged
  rw [← hε]
  have hpow : (1 + δ) ^ 2 * (1 + r.u) ^ (n + d + k + 4) = ((1 + δ) ^ 2 * (1 + r.u) ^ 7) * (1 + r.u) ^ (n + d + k - 3) := by
    rw [mul_assoc, ← pow_add]
    congr 2
    have := hw.pos
    omega
  rw [hpow]
  have hF : 1 ≤ (1 + δ) ^ 2 * (1 + r.u) ^ 7 :=
    one_le_mul_of_one_le_of_one_le (one_le_pow₀ (by linarith)) (one_le_pow₀ (one_le_hi r))
  have hG : 1 ≤ (1 + r.u) ^ (n + d + k - 3) := one_le_pow₀ (one_le_hi r)
  set F := (1 + δ) ^ 2 * (1 + r.u) ^ 7
  set G := (1 + r.u) ^ (n + d + k - 3)
  have t3 := mul_le_mul_of_nonneg_left t2 (by linarith : 0 ≤ G - 1)
  refine (abs_sub_le v (everything ys).sum _).trans ((add_le_add (hE.trans t3) t1).trans ?_)
  have hFG : 1 ≤ F * G := one_le_mul_of_one_le_of_one_le hF hG
  have k1 := mul_le_mul_of_nonneg_left q1 (by linarith : 0 ≤ F * G - 1)
  have k2 := mul_le_mul_of_nonneg_left q2 (by linarith : 0 ≤ F * G)
  linarith

/-! ## The TDVP equation -/

variable {n : ℕ}

theorem q_sub (cfg : TdvpCfg n) (x y : ℂ) : cfg.q x - cfg.q y = cfg.q (x - y) := by
  unfold TdvpCfg.q
  split
  · rw [map_sub]
    ring
  · rw [Complex.sub_re, Complex.ofReal_sub]

theorem q_norm (cfg : TdvpCfg n) (x : ℂ) : ‖cfg.q x‖ ≤ ‖x‖ := by
  unfold TdvpCfg.q
  split
  · rw [norm_mul]
    have h1 := norm_sub_le x ((starRingEnd ℂ) x)
    rw [RCLike.norm_conj] at h1
    have h2 : ‖(1 / 2 : ℂ)‖ = 1 / 2 := by norm_num
    rw [h2]
    linarith
  · rw [Complex.norm_real, Real.norm_eq_abs]
    exact Complex.abs_re_le_norm x

/-- An entry and its error, with further relative errors. -/
theorem more_errors {c C E : ℂ} {P Q F G L : ℝ} (h1 : ‖c - C‖ ≤ F * P - Q) (h2 : ‖C‖ ≤ Q) (hG : 1 ≤ G) (hL : 0 ≤ L)
    (h3 : ‖E - L * c‖ ≤ (G - 1) * (L * ‖c‖)) : ‖E - L * C‖ ≤ L * (F * G * P - Q) := by
  have h4 : ‖c‖ ≤ F * P := by
    have := norm_sub_norm_le c C
    linarith
  have h5 : ‖(L : ℂ) * c - L * C‖ ≤ L * (F * P - Q) := by
    rw [← mul_sub, norm_mul, Complex.norm_real, Real.norm_of_nonneg hL]
    exact mul_le_mul_of_nonneg_left h1 hL
  have h6 := norm_sub_le_norm_sub_add_norm_sub E (L * c) (L * C)
  have h7 := mul_le_mul_of_nonneg_left (mul_le_mul_of_nonneg_left h4 hL) (by linarith : 0 ≤ G - 1)
  linarith

/-- The gradients of all samples. -/
abbrev gradsOf (joint : World (ℝ × (Fin (n + 1) → ℂ) × (Fin 1 → ℂ))) : List (ℝ × (Fin (n + 1) → ℂ)) :=
  (allSamples joint).map fun s => (s.1, s.2.1)

/-- The local energies of all samples. -/
abbrev energiesOf (joint : World (ℝ × (Fin (n + 1) → ℂ) × (Fin 1 → ℂ))) : List (ℝ × (Fin 1 → ℂ)) :=
  (allSamples joint).map fun s => (s.1, s.2.2)

/-- The covariances of the gradients. -/
noncomputable abbrev metricOf (joint : World (ℝ × (Fin (n + 1) → ℂ) × (Fin 1 → ℂ))) (i j : Fin (n + 1)) : ℂ :=
  wCross ((allSamples joint).map fun s => (s.1, s.2.1, s.2.1)) i j

theorem metricOf_eq (joint : World (ℝ × (Fin (n + 1) → ℂ) × (Fin 1 → ℂ))) (i j : Fin (n + 1)) :
    metricOf joint i j = ((allSamples joint).map fun s => (s.1 : ℂ) *
      ((starRingEnd ℂ) (s.2.1 i - wMean (gradsOf joint) i) * (s.2.1 j - wMean (gradsOf joint) j))).sum := by
  unfold metricOf wCross gradsOf
  simp only [List.map_map, Function.comp_def]

/-- **C137**, forces: the right-hand side of the TDVP equation. -/
theorem c137_force (cfg : TdvpCfg n) (joint : World (ℝ × (Fin (n + 1) → ℂ) × (Fin 1 → ℂ))) (Eloc : SObs (Fin 1))
    (gradients : SObs (Fin (n + 1))) (hO : SampledObsR r (joint.map fun s => (s.1, s.2.1)) gradients)
    (hE : SampledObsR r (joint.map fun s => (s.1, s.2.2)) Eloc) (S : Matrix (Fin (n + 1)) (Fin (n + 1)) ℂ)
    (F : Fin (n + 1) → ℂ) (h : TdvpEquationR r cfg Eloc gradients S F) (m d k : ℕ) (hw : AtMost m d k joint)
    (hp : ∀ s ∈ allSamples joint, 0 ≤ s.1) (i : Fin (n + 1)) :
    ‖F i - cfg.q (-cfg.rhsPrefactor * wCross (allSamples joint) i 0)‖ ≤ ‖cfg.rhsPrefactor‖ *
      covError r.u (covFactor r.u m d k * (1 + 2 * ((1 + r.u) ^ 2 - 1))) (m + d + k - 2) (gradsOf joint) (energiesOf joint) i 0 := by
  obtain ⟨c, F0, S0, hc, hF0, hF, -, -⟩ := h
  rw [hF i, q_sub]
  refine (q_norm _ _).trans ?_
  have h1 := c137_covariance joint gradients Eloc hO hE i 0 (c i) (hc i) m d k hw hp
  have h2 := norm_cross_le hp i (0 : Fin 1)
  have h3 := cmul_err (hF0 i)
  rw [norm_neg] at h3
  have hG : 0 ≤ 2 * ((1 + r.u) ^ 2 - 1) := by linarith [one_le_pow₀ (one_le_hi r) (n := 2)]
  unfold covError at h1 ⊢
  set P := enlarged r.u (m + d + k - 2) (gradsOf joint) i * enlarged r.u (m + d + k - 2) (energiesOf joint) 0
  set Q := deviation (gradsOf joint) i * deviation (energiesOf joint) 0
  set C := wCross (allSamples joint) i 0
  have h4 : ‖c i‖ ≤ covFactor r.u m d k * P := by
    have := norm_sub_norm_le (c i) C
    linarith
  have h5 : ‖-cfg.rhsPrefactor * c i - -cfg.rhsPrefactor * C‖ ≤ ‖cfg.rhsPrefactor‖ * (covFactor r.u m d k * P - Q) := by
    rw [← mul_sub, norm_mul, norm_neg]
    exact mul_le_mul_of_nonneg_left h1 (norm_nonneg _)
  have h6 := norm_sub_le_norm_sub_add_norm_sub (F0 i) (-cfg.rhsPrefactor * c i) (-cfg.rhsPrefactor * C)
  have h7 := mul_le_mul_of_nonneg_left (mul_le_mul_of_nonneg_left h4 (norm_nonneg cfg.rhsPrefactor)) hG
  linarith

/-- The factor of the diagonal shift. -/
noncomputable def shiftAt (cfg : TdvpCfg n) (i j : Fin (n + 1)) : ℝ :=
  if cfg.diagonalShift > 1e-10 ∧ i = j then cfg.diagonalShift else 0

theorem shiftAt_nonneg (cfg : TdvpCfg n) (i j : Fin (n + 1)) : 0 ≤ shiftAt cfg i j := by
  unfold shiftAt
  split
  · rename_i h
    have : (0 : ℝ) < 1e-10 := by norm_num
    linarith [h.1]
  · exact le_rfl

/-- **C137**, matrix: the left-hand side of the TDVP equation, with the diagonal shift. -/
theorem c137_matrix (cfg : TdvpCfg n) (joint : World (ℝ × (Fin (n + 1) → ℂ) × (Fin 1 → ℂ))) (Eloc : SObs (Fin 1))
    (gradients : SObs (Fin (n + 1))) (hO : SampledObsR r (joint.map fun s => (s.1, s.2.1)) gradients)
    (S : Matrix (Fin (n + 1)) (Fin (n + 1)) ℂ) (F : Fin (n + 1) → ℂ) (h : TdvpEquationR r cfg Eloc gradients S F)
    (m d k : ℕ) (hw : AtMost m d k joint) (hp : ∀ s ∈ allSamples joint, 0 ≤ s.1) (i j : Fin (n + 1)) :
    ‖S i j - (1 + shiftAt cfg i j : ℝ) * cfg.q (metricOf joint i j)‖ ≤ (1 + shiftAt cfg i j) *
      covError r.u (covFactor r.u m d k * (1 + r.u) ^ 2) (m + d + k - 2) (gradsOf joint) (gradsOf joint) i j := by
  obtain ⟨c, F0, S0, -, -, -, hS0, hS⟩ := h
  have hall : allSamples (joint.map fun s => (s.1, s.2.1, s.2.1)) = (allSamples joint).map fun s => (s.1, s.2.1, s.2.1) :=
    allSamples_wmap _ _
  have hp' : ∀ s ∈ allSamples (joint.map fun s => (s.1, s.2.1, s.2.1)), 0 ≤ s.1 := by
    rw [hall]
    intro s hs
    obtain ⟨t, ht, rfl⟩ := List.mem_map.mp hs
    exact hp t ht
  have h1 := c137_covariance (joint.map fun s => (s.1, s.2.1, s.2.1)) gradients gradients
    (by rw [World.map_map]; exact hO) (by rw [World.map_map]; exact hO) i j (S0 i j) (hS0 i j) m d k (atMost_map _ hw) hp'
  have h2 := norm_cross_le hp' i j
  rw [hall] at h1 h2
  rw [List.map_map, List.map_map] at h1 h2
  have hu := r.u_nonneg
  unfold covError at h1 ⊢
  change ‖metricOf joint i j‖ ≤ deviation (gradsOf joint) i * deviation (gradsOf joint) j at h2
  change ‖S0 i j - metricOf joint i j‖ ≤ covFactor r.u m d k * (enlarged r.u (m + d + k - 2) (gradsOf joint) i *
    enlarged r.u (m + d + k - 2) (gradsOf joint) j) - deviation (gradsOf joint) i * deviation (gradsOf joint) j at h1
  have h3 : ‖cfg.q (S0 i j) - cfg.q (metricOf joint i j)‖ ≤ covFactor r.u m d k * (enlarged r.u (m + d + k - 2) (gradsOf joint) i *
      enlarged r.u (m + d + k - 2) (gradsOf joint) j) - deviation (gradsOf joint) i * deviation (gradsOf joint) j := by
    rw [q_sub]
    exact (q_norm _ _).trans h1
  have hL : 0 ≤ 1 + shiftAt cfg i j := by linarith [shiftAt_nonneg cfg i j]
  refine more_errors h3 ((q_norm _ _).trans h2) (one_le_pow₀ (one_le_hi r)) hL ?_
  have hn := norm_nonneg (cfg.q (S0 i j))
  unfold shiftAt
  by_cases hs : cfg.diagonalShift > 1e-10
  · rw [if_pos hs] at hS
    obtain ⟨t, ht, hS⟩ := hS
    have e1 := cadd_err (hS i j)
    by_cases hij : i = j
    · subst hij
      rw [if_pos ⟨hs, rfl⟩]
      rw [if_pos rfl] at e1
      have hpos : 0 ≤ cfg.diagonalShift := by
        have : (0 : ℝ) < 1e-10 := by norm_num
        linarith
      have e2 := rmul_err (ht i)
      rw [norm_mul, Complex.norm_real, Real.norm_of_nonneg hpos] at e2
      set s := cfg.q (S0 i i)
      set l := cfg.diagonalShift
      have e3 : ‖s + t i‖ ≤ (1 + l) * ‖s‖ + r.u * (l * ‖s‖) := by
        have e : s + t i = ((1 + l : ℝ) : ℂ) * s + (t i - (l : ℂ) * s) := by
          push_cast
          ring
        rw [e]
        refine (norm_add_le _ _).trans (add_le_add (le_of_eq ?_) e2)
        rw [norm_mul, Complex.norm_real, Real.norm_of_nonneg (by linarith)]
      have e4 := mul_le_mul_of_nonneg_left e3 hu
      have e5 : S i i - ((1 + l : ℝ) : ℂ) * s = (S i i - (s + t i)) + (t i - (l : ℂ) * s) := by
        push_cast
        ring
      rw [e5]
      refine (norm_add_le _ _).trans ?_
      have e6 : 0 ≤ r.u * ‖s‖ := mul_nonneg hu hn
      have e7 : 0 ≤ r.u * (r.u * ‖s‖) := mul_nonneg hu e6
      nlinarith
    · rw [if_neg (fun hc => hij hc.2)]
      rw [if_neg hij, add_zero] at e1
      simp only [add_zero, Complex.ofReal_one, one_mul]
      refine e1.trans (mul_le_mul_of_nonneg_right ?_ hn)
      nlinarith
  · rw [if_neg hs] at hS
    rw [if_neg (fun hc => hs hc.1), hS i j]
    simp only [add_zero, Complex.ofReal_one, one_mul, sub_self, norm_zero]
    exact mul_nonneg (by nlinarith) hn

/-- The quadratic form of the exact matrix is at least that of the diagonal shift. -/
theorem form_shift (cfg : TdvpCfg n) (joint : World (ℝ × (Fin (n + 1) → ℂ) × (Fin 1 → ℂ)))
    (hp : ∀ s ∈ allSamples joint, 0 ≤ s.1) (v : Fin (n + 1) → ℝ) :
    ∑ i, shiftAt cfg i i * (v i ^ 2 * wVar (gradsOf joint) i) ≤
      ∑ i, ∑ j, v i * v j * ((1 + shiftAt cfg i j) * (metricOf joint i j).re) := by
  have hdiag : ∀ i, (metricOf joint i i).re = wVar (gradsOf joint) i := by
    intro i
    rw [metricOf_eq]
    unfold wVar
    generalize wMean (gradsOf joint) i = X
    unfold gradsOf
    rw [List.map_map]
    clear * -
    induction allSamples joint with
    | nil => rfl
    | cons s l ih =>
      simp only [List.map_cons, List.sum_cons, Complex.add_re, ih]
      congr 1
      simp only [Function.comp]
      rw [mul_comm ((starRingEnd ℂ) _), Complex.mul_conj, ← Complex.ofReal_mul, Complex.ofReal_re]
  have hsplit : ∑ i, ∑ j, v i * v j * ((1 + shiftAt cfg i j) * (metricOf joint i j).re) =
      ∑ i, ∑ j, v i * v j * (metricOf joint i j).re + ∑ i, shiftAt cfg i i * (v i ^ 2 * wVar (gradsOf joint) i) := by
    rw [← Finset.sum_add_distrib]
    refine Finset.sum_congr rfl fun i _ => ?_
    have : ∑ j, v i * v j * (shiftAt cfg i j * (metricOf joint i j).re) = shiftAt cfg i i * (v i ^ 2 * wVar (gradsOf joint) i) := by
      rw [Finset.sum_eq_single i]
      · rw [hdiag i]
        ring
      · intro j _ hj
        have : shiftAt cfg i j = 0 := if_neg fun hc => hj hc.2.symm
        rw [this]
        ring
      · intro hc
        exact absurd (Finset.mem_univ i) hc
    rw [← this, ← Finset.sum_add_distrib]
    exact Finset.sum_congr rfl fun j _ => by ring
  rw [hsplit]
  refine le_add_of_nonneg_left ?_
  simp only [metricOf_eq]
  generalize wMean (gradsOf joint) = X
  have hpos : ∀ s ∈ allSamples joint, 0 ≤ s.1 := hp
  generalize allSamples joint = l at hpos ⊢
  induction l with
  | nil => simp
  | cons s l ih =>
    have i1 := ih fun t ht => hpos t (List.mem_cons_of_mem _ ht)
    simp only [List.map_cons, List.sum_cons, Complex.add_re, mul_add, Finset.sum_add_distrib]
    refine add_nonneg ?_ i1
    have hs := hpos s List.mem_cons_self
    have e : ∑ i, ∑ j, v i * v j * ((s.1 : ℂ) * ((starRingEnd ℂ) (s.2.1 i - X i) * (s.2.1 j - X j))).re =
        s.1 * ((∑ i, v i * (s.2.1 i - X i).re) ^ 2 + (∑ i, v i * (s.2.1 i - X i).im) ^ 2) := by
      rw [sq, sq, Finset.sum_mul_sum, Finset.sum_mul_sum, ← Finset.sum_add_distrib, Finset.mul_sum]
      refine Finset.sum_congr rfl fun i _ => ?_
      rw [← Finset.sum_add_distrib, Finset.mul_sum]
      refine Finset.sum_congr rfl fun j _ => ?_
      rw [Complex.re_ofReal_mul, Complex.mul_re, Complex.conj_re, Complex.conj_im]
      ring
    refine le_of_le_of_eq ?_ e.symm
    exact mul_nonneg hs (add_nonneg (sq_nonneg _) (sq_nonneg _))

/-- **C137**, positivity: with `makeReal='real'`, the quadratic form of the computed matrix is at least that of the diagonal
shift, up to the rounding errors; so its negative eigenvalues are of the size of these errors. -/
theorem c137_positive (cfg : TdvpCfg n) (hreal : cfg.makeReal ≠ "imag") (joint : World (ℝ × (Fin (n + 1) → ℂ) × (Fin 1 → ℂ)))
    (Eloc : SObs (Fin 1)) (gradients : SObs (Fin (n + 1))) (hO : SampledObsR r (joint.map fun s => (s.1, s.2.1)) gradients)
    (S : Matrix (Fin (n + 1)) (Fin (n + 1)) ℂ) (F : Fin (n + 1) → ℂ) (h : TdvpEquationR r cfg Eloc gradients S F)
    (m d k : ℕ) (hw : AtMost m d k joint) (hp : ∀ s ∈ allSamples joint, 0 ≤ s.1) (v : Fin (n + 1) → ℝ) :
    ∑ i, shiftAt cfg i i * (v i ^ 2 * wVar (gradsOf joint) i) -
        ∑ i, ∑ j, |v i| * |v j| * ((1 + shiftAt cfg i j) *
          covError r.u (covFactor r.u m d k * (1 + r.u) ^ 2) (m + d + k - 2) (gradsOf joint) (gradsOf joint) i j) ≤
      ∑ i, ∑ j, v i * v j * (S i j).re := by
  have hexact := form_shift cfg joint hp v
  refine le_trans (sub_le_sub_right hexact _) ?_
  rw [← Finset.sum_sub_distrib]
  refine Finset.sum_le_sum fun i _ => ?_
  rw [← Finset.sum_sub_distrib]
  refine Finset.sum_le_sum fun j _ => ?_
  have hm := c137_matrix cfg joint Eloc gradients hO S F h m d k hw hp i j
  set E := (1 + shiftAt cfg i j) * covError r.u (covFactor r.u m d k * (1 + r.u) ^ 2) (m + d + k - 2) (gradsOf joint)
    (gradsOf joint) i j
  have hq : cfg.q (metricOf joint i j) = ((metricOf joint i j).re : ℂ) := if_neg hreal
  have h1 : |(S i j).re - (1 + shiftAt cfg i j) * (metricOf joint i j).re| ≤ E := by
    refine le_trans (le_of_eq ?_) ((Complex.abs_re_le_norm _).trans hm)
    rw [Complex.sub_re, hq, ← Complex.ofReal_mul, Complex.ofReal_re]
  have h2 : |v i * v j * ((S i j).re - (1 + shiftAt cfg i j) * (metricOf joint i j).re)| ≤ |v i| * |v j| * E := by
    rw [abs_mul, abs_mul]
    exact mul_le_mul_of_nonneg_left h1 (mul_nonneg (abs_nonneg _) (abs_nonneg _))
  have := (abs_le.mp h2).1
  linarith

/-- **C137**, residual: any vector solves the exact TDVP equation up to what it leaves of the computed one, plus the rounding
errors of the matrix and of the force. -/
theorem c137_residual (cfg : TdvpCfg n) (joint : World (ℝ × (Fin (n + 1) → ℂ) × (Fin 1 → ℂ))) (Eloc : SObs (Fin 1))
    (gradients : SObs (Fin (n + 1))) (hO : SampledObsR r (joint.map fun s => (s.1, s.2.1)) gradients)
    (hE : SampledObsR r (joint.map fun s => (s.1, s.2.2)) Eloc) (S : Matrix (Fin (n + 1)) (Fin (n + 1)) ℂ)
    (F : Fin (n + 1) → ℂ) (h : TdvpEquationR r cfg Eloc gradients S F) (m d k : ℕ) (hw : AtMost m d k joint)
    (hp : ∀ s ∈ allSamples joint, 0 ≤ s.1) (x : Fin (n + 1) → ℂ) (i : Fin (n + 1)) :
    ‖∑ j, ((1 + shiftAt cfg i j : ℝ) * cfg.q (metricOf joint i j)) * x j -
        cfg.q (-cfg.rhsPrefactor * wCross (allSamples joint) i 0)‖ ≤
      ‖∑ j, S i j * x j - F i‖ + (∑ j, (1 + shiftAt cfg i j) *
        covError r.u (covFactor r.u m d k * (1 + r.u) ^ 2) (m + d + k - 2) (gradsOf joint) (gradsOf joint) i j * ‖x j‖ +
      ‖cfg.rhsPrefactor‖ * covError r.u (covFactor r.u m d k * (1 + 2 * ((1 + r.u) ^ 2 - 1))) (m + d + k - 2)
        (gradsOf joint) (energiesOf joint) i 0) := by
  have hF := c137_force cfg joint Eloc gradients hO hE S F h m d k hw hp i
  have hS := c137_matrix cfg joint Eloc gradients hO S F h m d k hw hp i
  generalize cfg.q (-cfg.rhsPrefactor * wCross (allSamples joint) i 0) = G at hF ⊢
  have e : ∑ j, ((1 + shiftAt cfg i j : ℝ) * cfg.q (metricOf joint i j)) * x j - G =
      (∑ j, S i j * x j - F i) - ∑ j, (S i j - (1 + shiftAt cfg i j : ℝ) * cfg.q (metricOf joint i j)) * x j + (F i - G) := by
    simp only [sub_mul, Finset.sum_sub_distrib]
    ring
  rw [e]
  refine (norm_add_le _ _).trans ?_
  rw [← add_assoc]
  refine add_le_add ((norm_sub_le _ _).trans (add_le_add le_rfl ?_)) hF
  refine (norm_sum_le _ _).trans (Finset.sum_le_sum fun j _ => ?_)
  rw [norm_mul]
  exact mul_le_mul_of_nonneg_right (hS j) (norm_nonneg _)

/-- **C137**, solution: if the exact matrix has no eigenvalue below `lam`, its equation has one solution, and any vector is as
close to it as what it leaves of the computed equation and the rounding errors, divided by `lam`. (`makeReal='real'`) -/
theorem c137_solution (cfg : TdvpCfg n) (hreal : cfg.makeReal ≠ "imag") (joint : World (ℝ × (Fin (n + 1) → ℂ) × (Fin 1 → ℂ)))
    (Eloc : SObs (Fin 1)) (gradients : SObs (Fin (n + 1))) (hO : SampledObsR r (joint.map fun s => (s.1, s.2.1)) gradients)
    (hE : SampledObsR r (joint.map fun s => (s.1, s.2.2)) Eloc) (S : Matrix (Fin (n + 1)) (Fin (n + 1)) ℂ)
    (F : Fin (n + 1) → ℂ) (h : TdvpEquationR r cfg Eloc gradients S F) (m d k : ℕ) (hw : AtMost m d k joint)
    (hp : ∀ s ∈ allSamples joint, 0 ≤ s.1) (lam : ℝ) (hlam : 0 < lam)
    (hgap : ∀ v : Fin (n + 1) → ℝ, lam * ∑ i, v i ^ 2 ≤
      ∑ i, ∑ j, v i * v j * ((1 + shiftAt cfg i j) * (metricOf joint i j).re)) :
    ∃! x : Fin (n + 1) → ℝ, (∀ i, ∑ j, (1 + shiftAt cfg i j) * (metricOf joint i j).re * x j =
        (-cfg.rhsPrefactor * wCross (allSamples joint) i 0).re) ∧
      ∀ x' : Fin (n + 1) → ℝ, lam * Real.sqrt (∑ i, (x' i - x i) ^ 2) ≤
        Real.sqrt (∑ i, (‖∑ j, S i j * x' j - F i‖ + (∑ j, (1 + shiftAt cfg i j) *
          covError r.u (covFactor r.u m d k * (1 + r.u) ^ 2) (m + d + k - 2) (gradsOf joint) (gradsOf joint) i j * |x' j| +
        ‖cfg.rhsPrefactor‖ * covError r.u (covFactor r.u m d k * (1 + 2 * ((1 + r.u) ^ 2 - 1))) (m + d + k - 2)
          (gradsOf joint) (energiesOf joint) i 0)) ^ 2) := by
  set A : Matrix (Fin (n + 1)) (Fin (n + 1)) ℝ := Matrix.of fun i j => (1 + shiftAt cfg i j) * (metricOf joint i j).re with hA
  set G : Fin (n + 1) → ℝ := fun i => (-cfg.rhsPrefactor * wCross (allSamples joint) i 0).re with hG
  have hform : ∀ v : Fin (n + 1) → ℝ, lam * ∑ i, v i ^ 2 ≤ ∑ i, v i * A.mulVec v i := by
    intro v
    refine (hgap v).trans (le_of_eq (Finset.sum_congr rfl fun i _ => ?_))
    rw [Matrix.mulVec, dotProduct, Finset.mul_sum]
    exact Finset.sum_congr rfl fun j _ => by rw [hA, Matrix.of_apply]; ring
  have hzero : ∀ v, A.mulVec v = 0 → v = 0 := by
    intro v hv
    have h1 := hform v
    rw [hv] at h1
    simp only [Pi.zero_apply, mul_zero, Finset.sum_const_zero] at h1
    have h2 : ∑ i, v i ^ 2 = 0 := le_antisymm (by nlinarith) (Finset.sum_nonneg fun i _ => sq_nonneg _)
    funext i
    have := (Finset.sum_eq_zero_iff_of_nonneg fun i _ => sq_nonneg (v i)).mp h2 i (Finset.mem_univ i)
    simpa using this
  have hinj : Function.Injective (Matrix.toLin' A) := by
    rw [injective_iff_map_eq_zero]
    exact fun v hv => hzero v hv
  obtain ⟨x, hx⟩ := LinearMap.injective_iff_surjective.mp hinj G
  have hx' : A.mulVec x = G := hx
  refine ⟨x, ⟨fun i => congrFun hx' i, fun x' => ?_⟩, ?_⟩
  · set B : Fin (n + 1) → ℝ := fun i => ‖∑ j, S i j * x' j - F i‖ + (∑ j, (1 + shiftAt cfg i j) *
          covError r.u (covFactor r.u m d k * (1 + r.u) ^ 2) (m + d + k - 2) (gradsOf joint) (gradsOf joint) i j * |x' j| +
        ‖cfg.rhsPrefactor‖ * covError r.u (covFactor r.u m d k * (1 + 2 * ((1 + r.u) ^ 2 - 1))) (m + d + k - 2)
          (gradsOf joint) (energiesOf joint) i 0) with hB
    have hres : ∀ i, |A.mulVec (fun i => x' i - x i) i| ≤ B i := by
      intro i
      have h1 := c137_residual cfg joint Eloc gradients hO hE S F h m d k hw hp (fun j => (x' j : ℂ)) i
      simp only [Complex.norm_real, Real.norm_eq_abs] at h1
      refine le_trans (le_of_eq ?_) h1
      have hq : ∀ z, cfg.q z = (z.re : ℂ) := fun z => if_neg hreal
      have h2 : A.mulVec (fun i => x' i - x i) i = A.mulVec x' i - G i := by
        rw [← hx']
        exact congrFun (Matrix.mulVec_sub A x' x) i
      rw [h2]
      simp only [hq, ← Complex.ofReal_mul, ← Complex.ofReal_sum, ← Complex.ofReal_sub, Complex.norm_real, Real.norm_eq_abs]
      rfl
    have h1 := hform fun i => x' i - x i
    have h2 : ∑ i, (x' i - x i) * A.mulVec (fun i => x' i - x i) i ≤
        Real.sqrt (∑ i, (x' i - x i) ^ 2) * Real.sqrt (∑ i, B i ^ 2) := by
      refine (Real.sum_mul_le_sqrt_mul_sqrt _ _ _).trans (mul_le_mul_of_nonneg_left (Real.sqrt_le_sqrt ?_) (Real.sqrt_nonneg _))
      exact Finset.sum_le_sum fun i _ => sq_le_sq' (by linarith [(abs_le.mp (hres i)).1]) (abs_le.mp (hres i)).2
    have h3 : 0 ≤ ∑ i, (x' i - x i) ^ 2 := Finset.sum_nonneg fun i _ => sq_nonneg _
    have h4 := Real.sq_sqrt h3
    rcases (Real.sqrt_nonneg (∑ i, (x' i - x i) ^ 2)).eq_or_lt with h5 | h5
    · rw [← h5, mul_zero]
      exact Real.sqrt_nonneg _
    · have h6 : Real.sqrt (∑ i, (x' i - x i) ^ 2) * (lam * Real.sqrt (∑ i, (x' i - x i) ^ 2)) ≤
          Real.sqrt (∑ i, (x' i - x i) ^ 2) * Real.sqrt (∑ i, B i ^ 2) := by
        calc _ = lam * Real.sqrt (∑ i, (x' i - x i) ^ 2) ^ 2 := by ring
          _ = lam * ∑ i, (x' i - x i) ^ 2 := by rw [h4]
          _ ≤ _ := h1.trans h2
      exact le_of_mul_le_mul_left h6 h5
  · rintro y ⟨hy, -⟩
    refine hinj (Eq.trans ?_ hx.symm)
    funext i
    exact hy i

/-- **C137**, diagonal shift: the condition of `c137_solution` holds with the diagonal shift times the least variance of the
derivatives. -/
theorem c137_shift (cfg : TdvpCfg n) (joint : World (ℝ × (Fin (n + 1) → ℂ) × (Fin 1 → ℂ)))
    (hp : ∀ s ∈ allSamples joint, 0 ≤ s.1) (hs : 1e-10 < cfg.diagonalShift) (c : ℝ)
    (hc : ∀ i, c ≤ wVar (gradsOf joint) i) (v : Fin (n + 1) → ℝ) :
    cfg.diagonalShift * c * ∑ i, v i ^ 2 ≤
      ∑ i, ∑ j, v i * v j * ((1 + shiftAt cfg i j) * (metricOf joint i j).re) := by
  refine le_trans ?_ (form_shift cfg joint hp v)
  rw [Finset.mul_sum]
  refine Finset.sum_le_sum fun i _ => ?_
  have h1 : shiftAt cfg i i = cfg.diagonalShift := if_pos ⟨hs, rfl⟩
  have h0 : (0 : ℝ) < 1e-10 := by norm_num
  rw [h1, mul_assoc, mul_comm c]
  exact mul_le_mul_of_nonneg_left (mul_le_mul_of_nonneg_left (hc i) (sq_nonneg _)) (by linarith)

/-- Case: two samples with derivatives of opposite sign and the diagonal shift of the examples; the least eigenvalue is at
least ten. -/
example (cfg : TdvpCfg 0) (hs : cfg.diagonalShift = 10) (v : Fin 1 → ℝ) :
    10 * 1 * ∑ i, v i ^ 2 ≤ ∑ i, ∑ j, v i * v j * ((1 + shiftAt cfg i j) *
      (metricOf [[[((1 / 2 : ℝ), (fun _ : Fin 1 => (1 : ℂ)), fun _ : Fin 1 => (2 : ℂ)), (1 / 2, fun _ => -1, fun _ => 3)]]] i j).re) := by
  have := c137_shift cfg [[[((1 / 2 : ℝ), (fun _ : Fin 1 => (1 : ℂ)), fun _ : Fin 1 => (2 : ℂ)), (1 / 2, fun _ => -1, fun _ => 3)]]]
    (by simp [allSamples]) (by rw [hs]; norm_num) 1 (fun i => by simp [wVar, wMean, allSamples, Complex.normSq]; norm_num) v
  rwa [hs] at this

/-- **C137**, double precision: with normalised weights and at most `2 ^ 49` samples, devices and ranks, the bounds of the other
theorems are at most `2 ^ (-49) (4 m + 2 d + 2 k + 4)` times the sizes of the data. -/
theorem c137_double (l : List (ℝ × (ι → ℂ))) (l' : List (ℝ × (κ → ℂ))) (hl : ∀ s ∈ l, 0 ≤ s.1) (hl' : ∀ s ∈ l', 0 ≤ s.1)
    (h1 : mass l = 1) (h1' : mass l' = 1) (m d k : ℕ) (hm : 1 ≤ m ∧ 1 ≤ d ∧ 1 ≤ k)
    (hmax : 4 * m + 2 * d + 2 * k + 4 ≤ 2 ^ 52) (u : ℝ) (hu : u = (2 : ℝ) ^ (-53 : ℤ)) (i : ι) (j : κ) :
    covError u (covFactor u m d k * (1 + u) ^ 2) (m + d + k - 2) l l' i j ≤
      (2 : ℝ) ^ (-49 : ℤ) * (4 * m + 2 * d + 2 * k + 4) * ((deviation l i + size l i) * (deviation l' j + size l' j)) := by
  have hu0 : 0 ≤ u := by rw [hu]; exact (zpow_pos (by norm_num) _).le
  obtain ⟨J, hJ⟩ : ∃ J : ℕ, J = 4 * m + 2 * d + 2 * k + 4 := ⟨_, rfl⟩
  have hJr : (4 * m + 2 * d + 2 * k + 4 : ℝ) = J := by rw [hJ]; push_cast; ring
  rw [hJr]
  have hJle : (J : ℝ) ≤ 2 ^ 52 := by rw [hJ]; exact_mod_cast hmax
  have hu53 : (2 : ℝ) ^ (-53 : ℤ) = 1 / 2 ^ 53 := by norm_num
  have hJu : 2 * ((J : ℝ) * u) ≤ 1 := by
    rw [hu, hu53]
    have : (2 : ℝ) ^ 53 = 2 * 2 ^ 52 := by norm_num
    rw [this, mul_one_div, ← mul_div_assoc, div_le_one (by positivity)]
    linarith
  set η := 2 * ((J : ℝ) * u) with hη
  have hη0 : 0 ≤ η := by positivity
  have hpJ := pow_double_bound hu0 (m := J) (by linarith)
  have h1u : 1 ≤ 1 + u := by linarith
  -- the factor
  have hfac : covFactor u m d k * (1 + u) ^ 2 ≤ 1 + η := by
    have hM : (1 + 2 * ((1 + u) ^ (2 * m + d + k - 2) - 1)) ≤ (1 + u) ^ (2 * (2 * m + d + k - 2)) := by
      rw [mul_comm 2 (2 * m + d + k - 2), pow_mul]
      nlinarith [sq_nonneg ((1 + u) ^ (2 * m + d + k - 2) - 1)]
    have : covFactor u m d k * (1 + u) ^ 2 ≤ (1 + u) ^ J := by
      unfold covFactor
      have e : (1 + u) ^ J = (1 + u) ^ 6 * (1 + u) ^ (2 * (2 * m + d + k - 2)) * (1 + u) ^ 2 := by
        rw [← pow_add, ← pow_add]
        congr 1
        omega
      rw [e]
      exact mul_le_mul_of_nonneg_right (mul_le_mul_of_nonneg_left hM (by positivity)) (by positivity)
    linarith
  have hK : (1 + u) ^ (m + d + k - 2) - 1 ≤ η := by
    have : (1 + u) ^ (m + d + k - 2) ≤ (1 + u) ^ J := pow_le_pow_right₀ h1u (by omega)
    linarith
  have hK0 : 0 ≤ (1 + u) ^ (m + d + k - 2) - 1 := by linarith [one_le_pow₀ h1u (n := m + d + k - 2)]
  have s1 : 0 ≤ size l i := list_sum_nonneg' fun s hs => mul_nonneg (hl s hs) (norm_nonneg _)
  have s2 : 0 ≤ size l' j := list_sum_nonneg' fun s hs => mul_nonneg (hl' s hs) (norm_nonneg _)
  have d1 : 0 ≤ deviation l i := Real.sqrt_nonneg _
  have d2 : 0 ≤ deviation l' j := Real.sqrt_nonneg _
  have hF0 : 0 ≤ covFactor u m d k * (1 + u) ^ 2 := by
    unfold covFactor
    have := one_le_pow₀ h1u (n := 2 * m + d + k - 2)
    have : 0 ≤ 1 + 2 * ((1 + u) ^ (2 * m + d + k - 2) - 1) := by linarith
    positivity
  unfold covError enlarged
  rw [h1, h1', Real.sqrt_one, mul_one, mul_one]
  set σ := deviation l i
  set τ := deviation l' j
  set a := size l i
  set b := size l' j
  have e1 : σ + ((1 + u) ^ (m + d + k - 2) - 1) * a ≤ σ + η * a := by
    have := mul_le_mul_of_nonneg_right hK s1
    linarith
  have e2 : τ + ((1 + u) ^ (m + d + k - 2) - 1) * b ≤ τ + η * b := by
    have := mul_le_mul_of_nonneg_right hK s2
    linarith
  have e1' : 0 ≤ σ + ((1 + u) ^ (m + d + k - 2) - 1) * a := add_nonneg d1 (mul_nonneg hK0 s1)
  have e2' : 0 ≤ τ + ((1 + u) ^ (m + d + k - 2) - 1) * b := add_nonneg d2 (mul_nonneg hK0 s2)
  have e3 : covFactor u m d k * (1 + u) ^ 2 * ((σ + ((1 + u) ^ (m + d + k - 2) - 1) * a) * (τ + ((1 + u) ^ (m + d + k - 2) - 1) * b)) ≤
      (1 + η) * ((σ + η * a) * (τ + η * b)) :=
    mul_le_mul hfac (mul_le_mul e1 e2 e2' (e1'.trans e1)) (mul_nonneg e1' e2') (by linarith)
  refine (sub_le_sub_right e3 _).trans ?_
  have e4 : (2 : ℝ) ^ (-49 : ℤ) * J = 8 * η := by
    rw [hη, hu]
    have : (2 : ℝ) ^ (-49 : ℤ) = 16 * (2 : ℝ) ^ (-53 : ℤ) := by norm_num
    rw [this]
    ring
  rw [e4]
  have t1 := mul_nonneg d1 d2
  have t2 := mul_nonneg d1 s2
  have t3 := mul_nonneg s1 d2
  have t4 := mul_nonneg s1 s2
  have hη2 : η * η ≤ η := by nlinarith
  have hη3 : η * η * η ≤ η := by nlinarith
  have e5 : (1 + η) * ((σ + η * a) * (τ + η * b)) - σ * τ = η * (σ * τ) + (η + η * η) * (σ * b) + (η + η * η) * (a * τ) +
      (η * η + η * η * η) * (a * b) := by ring
  rw [e5]
  have f1 : (η + η * η) * (σ * b) ≤ 8 * η * (σ * b) := mul_le_mul_of_nonneg_right (by linarith) t2
  have f2 : (η + η * η) * (a * τ) ≤ 8 * η * (a * τ) := mul_le_mul_of_nonneg_right (by linarith) t3
  have f3 : (η * η + η * η * η) * (a * b) ≤ 8 * η * (a * b) := mul_le_mul_of_nonneg_right (by linarith) t4
  have f4 : η * (σ * τ) ≤ 8 * η * (σ * τ) := mul_le_mul_of_nonneg_right (by linarith) t1
  have e6 : 8 * η * ((σ + a) * (τ + b)) = 8 * η * (σ * τ) + 8 * η * (σ * b) + 8 * η * (a * τ) + 8 * η * (a * b) := by ring
  rw [e6]
  linarith

/-- The hypotheses of the theorems can be met, for all data on ranks with devices: there are values of the objects, of the
covariances and of the TDVP equation. -/
theorem c137_exists (r : Rounding) (cfg : TdvpCfg n) (joint : World (ℝ × (Fin (n + 1) → ℂ) × (Fin 1 → ℂ)))
    (h : ∀ rk ∈ joint, rk ≠ []) :
    ∃ Eloc gradients S F, SampledObsR r (joint.map fun s => (s.1, s.2.1)) gradients ∧
      SampledObsR r (joint.map fun s => (s.1, s.2.2)) Eloc ∧ TdvpEquationR r cfg Eloc gradients S F := by
  obtain ⟨ma, ha⟩ := sampledObsR_exists r joint (fun s => (s.1, s.2.1)) h
  obtain ⟨mb, hb⟩ := sampledObsR_exists r joint (fun s => (s.1, s.2.2)) h
  choose c hc using fun i : Fin (n + 1) => covarR_exists r joint h (ι := Fin (n + 1)) (κ := Fin 1)
    (fun s => (s.1, fun i => (Real.sqrt s.1 : ℂ) * (s.2.1 i - ma i))) (fun s => (s.1, fun i => (Real.sqrt s.1 : ℂ) * (s.2.2 i - mb i)))
    (List.map (fun _ => ma) joint) (List.map (fun _ => mb) joint) i 0
  choose S0 hS0 using fun i j : Fin (n + 1) => covarR_exists r joint h (ι := Fin (n + 1)) (κ := Fin (n + 1))
    (fun s => (s.1, fun i => (Real.sqrt s.1 : ℂ) * (s.2.1 i - ma i))) (fun s => (s.1, fun i => (Real.sqrt s.1 : ℂ) * (s.2.1 i - ma i)))
    (List.map (fun _ => ma) joint) (List.map (fun _ => ma) joint) i j
  refine ⟨_, _, Matrix.of fun i j => if cfg.diagonalShift > 1e-10 then
      cfg.q (S0 i j) + (if i = j then (cfg.diagonalShift : ℂ) * cfg.q (S0 i i) else 0) else cfg.q (S0 i j),
    fun i => cfg.q (-cfg.rhsPrefactor * c i), ha, hb, c, fun i => -cfg.rhsPrefactor * c i, Matrix.of S0, hc, fun i => ?_, fun i => rfl,
    hS0, ?_⟩
  · exact ⟨_, _, _, _, .inr rfl, .inr rfl, .inr (Complex.mul_re _ _), .inr rfl, .inr rfl, .inr (Complex.mul_im _ _)⟩
  · by_cases hs : cfg.diagonalShift > 1e-10
    · rw [if_pos hs]
      refine ⟨fun i => (cfg.diagonalShift : ℂ) * cfg.q (S0 i i), fun i => ⟨.inr (Complex.re_ofReal_mul _ _), .inr (Complex.im_ofReal_mul _ _)⟩,
        fun i j => ?_⟩
      simp only [Matrix.of_apply, if_pos hs]
      exact ⟨.inr (Complex.add_re _ _), .inr (Complex.add_im _ _)⟩
    · rw [if_neg hs]
      intro i j
      simp only [Matrix.of_apply, if_neg hs]

/-- Case: two ranks, the first with two devices. -/
example : ∃ Eloc gradients S F,
    SampledObsR Rounding.double (World.map (fun s => (s.1, s.2.1))
      [[[((1 / 4 : ℝ), (fun _ : Fin 3 => (1 : ℂ)), fun _ : Fin 1 => (2 : ℂ))], [(1 / 4, fun _ => Complex.I, fun _ => 3)]],
       [[(1 / 2, fun i => (i : ℂ), fun _ => 5)]]]) gradients ∧
    SampledObsR Rounding.double (World.map (fun s => (s.1, s.2.2))
      [[[((1 / 4 : ℝ), (fun _ : Fin 3 => (1 : ℂ)), fun _ : Fin 1 => (2 : ℂ))], [(1 / 4, fun _ => Complex.I, fun _ => 3)]],
       [[(1 / 2, fun i => (i : ℂ), fun _ => 5)]]]) Eloc ∧
    TdvpEquationR Rounding.double ⟨2, 1e-14, 1e-8, "real", Complex.I, 1e-4, false, false, 3, fun _ => (0, 0)⟩ Eloc gradients S F :=
  c137_exists (n := 2) Rounding.double _ _ (by simp)

/-- The hypotheses of `c137_variance` can be met. -/
example (r : Rounding) (w : World (ℝ × (Fin 3 → ℂ))) (h : ∀ rk ∈ w, rk ≠ []) (i : Fin 3) :
    AbsWithin 0 (fun z : ℂ => ‖z‖) ∧ ∃ a v, SampledObsR r (w.map id) a ∧ VarR r (fun z => ‖z‖) a i v := by
  refine ⟨fun z => by simp, ?_⟩
  obtain ⟨m, hm⟩ := sampledObsR_exists r w id h
  obtain ⟨v, hv⟩ := globalSumR_exists r (world := w.map fun s => ‖(Real.sqrt s.1 : ℂ) * (s.2 i - m i)‖ * ‖(Real.sqrt s.1 : ℂ) * (s.2 i - m i)‖)
    (World.map_ne _ _ h)
  refine ⟨_, v, hm, _, ?_, hv⟩
  refine rel3_map.mpr ?_
  unfold Rel3
  simp only [List.forall₂_same]
  exact fun _ _ _ _ _ _ => .inr rfl

/-- Case: `10⁶` samples on each of 4 devices of each of 64 ranks: the errors are at most `10⁻⁸` times the sizes of the data. -/
example (l : List (ℝ × (Fin 3 → ℂ))) (hl : ∀ s ∈ l, 0 ≤ s.1) (h1 : mass l = 1) (i j : Fin 3) (u : ℝ)
    (hu : u = (2 : ℝ) ^ (-53 : ℤ)) :
    covError u (covFactor u 1000000 4 64 * (1 + u) ^ 2) (1000000 + 4 + 64 - 2) l l i j ≤
      1e-8 * ((deviation l i + size l i) * (deviation l j + size l j)) := by
  refine (c137_double l l hl hl h1 h1 1000000 4 64 (by norm_num) (by norm_num) u hu i j).trans ?_
  have s1 : ∀ i, 0 ≤ size l i := fun i => list_sum_nonneg' fun s hs => mul_nonneg (hl s hs) (norm_nonneg _)
  have d1 : ∀ i, 0 ≤ deviation l i := fun i => Real.sqrt_nonneg _
  exact mul_le_mul_of_nonneg_right (by norm_num) (mul_nonneg (add_nonneg (d1 i) (s1 i)) (add_nonneg (d1 j) (s1 j)))

end JVMC
