import Verif.Lemmas.MinsrRounding

/-!
# C139 — Rounding errors of the MinSR update
-/

namespace JVMC

open Spec

variable {r : Rounding} {n : ℕ}

/-- **C139**, tangent kernel: its entries differ from those of the exact kernel by at most `kernelError`, whatever the
order of the summation and the distribution over devices and ranks. -/
theorem c139_kernel (joint : World (ℝ × (Fin 1 → ℂ) × (Fin (n + 1) → ℂ))) (gradients : SObs (Fin (n + 1)))
    (hO : SampledObsR r (joint.map fun s => (s.1, s.2.2)) gradients) (m d k : ℕ) (hw : AtMost m d k joint)
    (hp : ∀ s ∈ allSamples joint, 0 ≤ s.1)
    (T : Matrix (Fin (allSamples joint).length) (Fin (allSamples joint).length) ℂ)
    (hT : TangentKernelR r gradients (allSamples joint).length T) (a b : Fin (allSamples joint).length) :
    ‖T a b - kernelOf (allSamples joint) a b‖ ≤ kernelError r.u (m + d + k - 2) (allSamples joint) a b := by
  have h := enclosed_dot (Nat.le_add_left 1 n) (fun i => grad_enclosed hO hw hp a i)
    (fun i => (grad_enclosed hO hw hp b i).conj) (hT.2 a b)
  rw [kernelOf_eq]
  exact h.err

/-- **C139**, update: with the matrix `P` that `pinv` returns for the computed kernel, the update is `-X† P E` with the exact
centred gradients `X` and energies `E`, up to `updateError`. -/
theorem c139_update (pinv : ∀ N : ℕ, Matrix (Fin N) (Fin N) ℂ → Matrix (Fin N) (Fin N) ℂ)
    (joint : World (ℝ × (Fin 1 → ℂ) × (Fin (n + 1) → ℂ))) (eloc : SObs (Fin 1)) (gradients : SObs (Fin (n + 1)))
    (hO : SampledObsR r (joint.map fun s => (s.1, s.2.2)) gradients)
    (hE : SampledObsR r (joint.map fun s => (s.1, s.2.1)) eloc) (m d k : ℕ) (hw : AtMost m d k joint)
    (hp : ∀ s ∈ allSamples joint, 0 ≤ s.1)
    (T : Matrix (Fin (allSamples joint).length) (Fin (allSamples joint).length) ℂ) (U : Fin (n + 1) → ℂ)
    (hU : MinsrSolveR r pinv eloc gradients (allSamples joint).length T U) (i : Fin (n + 1)) :
    ‖U i - -∑ b, (∑ a, (starRingEnd ℂ) (sampleX (allSamples joint) a i) * pinv _ T a b) * sampleE (allSamples joint) b‖ ≤
      updateError r.u (m + d + k - 2) (allSamples joint) (pinv _ T) i := by
  obtain ⟨-, -, M, hM, hU⟩ := hU
  rcases Nat.eq_zero_or_pos (allSamples joint).length with h0 | h0
  · have hnil : IsEmpty (Fin (allSamples joint).length) := by
      rw [h0]
      infer_instance
    have hu := cdot_err (hU i) (N := 1) (by simp [h0]) le_rfl
    rw [List.map_ofFn, List.map_ofFn, List.sum_ofFn, List.sum_ofFn] at hu
    unfold updateError
    simpa using hu
  · have h1 := fun b => enclosed_dot h0 (fun a => (grad_enclosed hO hw hp a i).conj.neg)
      (fun a => Enclosed.exact (pinv _ T a b)) (hM i b)
    have h2 := enclosed_dot h0 h1 (fun b => eloc_enclosed hE hw hp b) (hU i)
    have e1 : -∑ b, (∑ a, (starRingEnd ℂ) (sampleX (allSamples joint) a i) * pinv _ T a b) * sampleE (allSamples joint) b =
        ∑ b, (∑ a, -(starRingEnd ℂ) (sampleX (allSamples joint) a i) * pinv _ T a b) * sampleE (allSamples joint) b := by
      simp [Finset.sum_neg_distrib]
    rw [e1]
    refine h2.err.trans (le_of_eq ?_)
    unfold updateError
    rw [pow_two, mul_assoc (dotFactor _ _)]
    congr 2
    rw [Finset.mul_sum]
    refine Finset.sum_congr rfl fun b _ => ?_
    ring

/-- **C139**, what the update is for: MinSR looks for `X U = -E`. If `pinv` inverts the kernel it was given, the update that
is returned satisfies this equation of the exact data up to the errors of the kernel and of the update; otherwise the
residual of `pinv` on the energies is added. -/
theorem c139_step (pinv : ∀ N : ℕ, Matrix (Fin N) (Fin N) ℂ → Matrix (Fin N) (Fin N) ℂ)
    (joint : World (ℝ × (Fin 1 → ℂ) × (Fin (n + 1) → ℂ))) (eloc : SObs (Fin 1)) (gradients : SObs (Fin (n + 1)))
    (hO : SampledObsR r (joint.map fun s => (s.1, s.2.2)) gradients)
    (hE : SampledObsR r (joint.map fun s => (s.1, s.2.1)) eloc) (m d k : ℕ) (hw : AtMost m d k joint)
    (hp : ∀ s ∈ allSamples joint, 0 ≤ s.1)
    (T : Matrix (Fin (allSamples joint).length) (Fin (allSamples joint).length) ℂ) (U : Fin (n + 1) → ℂ)
    (hU : MinsrSolveR r pinv eloc gradients (allSamples joint).length T U) (a : Fin (allSamples joint).length) :
    ‖∑ i, sampleX (allSamples joint) a i * U i + sampleE (allSamples joint) a‖ ≤
      ‖∑ b, (T * pinv _ T) a b * sampleE (allSamples joint) b - sampleE (allSamples joint) a‖ +
      ∑ c, kernelError r.u (m + d + k - 2) (allSamples joint) a c *
        ‖∑ b, pinv _ T c b * sampleE (allSamples joint) b‖ +
      ∑ i, gradSize (allSamples joint) a i * updateError r.u (m + d + k - 2) (allSamples joint) (pinv _ T) i := by
  have hk := fun c => c139_kernel joint gradients hO m d k hw hp T hU.1 a c
  have hu := fun i => c139_update pinv joint eloc gradients hO hE m d k hw hp T U hU i
  rw [kernelOf_eq] at hk
  generalize pinv _ T = P at *
  generalize hX : sampleX (allSamples joint) = X at *
  generalize hE' : sampleE (allSamples joint) = E at *
  have hsize : ∀ i, ‖X a i‖ = gradSize (allSamples joint) a i := by
    intro i
    rw [← hX]
    unfold sampleX gradSize
    rw [Matrix.of_apply, norm_mul, Complex.norm_real, Real.norm_of_nonneg (Real.sqrt_nonneg _)]
  -- the three contributions
  have key : ∑ i, X a i * U i + E a =
      -(∑ b, (T * P) a b * E b - E a) + ∑ c, (T a c - (X * X.conjTranspose) a c) * ∑ b, P c b * E b +
      ∑ i, X a i * (U i - -∑ b, (∑ c, (starRingEnd ℂ) (X c i) * P c b) * E b) := by
    have e1 : ∑ b, (T * P) a b * E b = ∑ c, T a c * ∑ b, P c b * E b := by
      simp only [Matrix.mul_apply, Finset.sum_mul, Finset.mul_sum]
      rw [Finset.sum_comm]
      simp only [mul_assoc]
    have e2 : ∑ c, (X * X.conjTranspose) a c * ∑ b, P c b * E b =
        ∑ i, X a i * ∑ b, (∑ c, (starRingEnd ℂ) (X c i) * P c b) * E b := by
      have f1 : ∑ c, (X * X.conjTranspose) a c * ∑ b, P c b * E b =
          ∑ c, ∑ b, ∑ i, X a i * ((starRingEnd ℂ) (X c i) * P c b * E b) := by
        refine Finset.sum_congr rfl fun c _ => ?_
        rw [Finset.mul_sum]
        refine Finset.sum_congr rfl fun b _ => ?_
        rw [Matrix.mul_apply, Finset.sum_mul]
        refine Finset.sum_congr rfl fun i _ => ?_
        rw [Matrix.conjTranspose_apply]
        simp only [RCLike.star_def]
        ring
      have f2 : ∑ i, X a i * ∑ b, (∑ c, (starRingEnd ℂ) (X c i) * P c b) * E b =
          ∑ i, ∑ b, ∑ c, X a i * ((starRingEnd ℂ) (X c i) * P c b * E b) := by
        refine Finset.sum_congr rfl fun i _ => ?_
        rw [Finset.mul_sum]
        refine Finset.sum_congr rfl fun b _ => ?_
        rw [Finset.sum_mul, Finset.mul_sum]
      rw [f1, f2, Finset.sum_congr rfl fun c _ => Finset.sum_comm, Finset.sum_comm]
      exact Finset.sum_congr rfl fun i _ => Finset.sum_comm
    simp only [sub_mul, mul_sub, mul_neg, Finset.sum_sub_distrib, Finset.sum_neg_distrib, e1, e2]
    ring
  rw [key]
  refine (norm_add_le _ _).trans (add_le_add ((norm_add_le _ _).trans (add_le_add (le_of_eq (norm_neg _)) ?_)) ?_)
  · refine (norm_sum_le _ _).trans (Finset.sum_le_sum fun c _ => ?_)
    rw [norm_mul]
    exact mul_le_mul_of_nonneg_right (hk c) (norm_nonneg _)
  · refine (norm_sum_le _ _).trans (Finset.sum_le_sum fun i _ => ?_)
    rw [norm_mul, hsize]
    refine mul_le_mul_of_nonneg_left (hu i) ?_
    rw [← hsize]
    exact norm_nonneg _

/-- **C139**: with exact arithmetic the relation is the function `minsrSolve`. -/
theorem c139_exact (hr : r.u = 0) (cfg : MinSRCfg) (rk : ℕ) (joint : World (ℝ × (Fin 1 → ℂ) × (Fin (n + 1) → ℂ)))
    (E : SObs (Fin 1)) (G : SObs (Fin (n + 1))) (hi : TdvpInput joint rk E G) (eloc : SObs (Fin 1))
    (gradients : SObs (Fin (n + 1))) (hO : SampledObsR r (joint.map fun s => (s.1, s.2.2)) gradients)
    (hE : SampledObsR r (joint.map fun s => (s.1, s.2.1)) eloc)
    (T : Matrix (Fin (allSamples joint).length) (Fin (allSamples joint).length) ℂ) (U : Fin (n + 1) → ℂ)
    (hU : MinsrSolveR r (fun _ => pinvHermitian cfg.eigh cfg.pinvTol) eloc gradients (allSamples joint).length T U) :
    minsrSolve cfg rk E G = .ok U := by
  obtain ⟨m, d, k, hw⟩ := atMost_exists joint
  have hT : T = kernelOf (allSamples joint) := by
    apply Matrix.ext
    intro a b
    have h := c139_kernel joint gradients hO m d k hw hi.weights T hU.1 a b
    have h0 : kernelError r.u (m + d + k - 2) (allSamples joint) a b = 0 := by
      simp [kernelError, hr, dotFactor, gradUpper, gradSize]
    rw [h0] at h
    exact sub_eq_zero.1 (norm_le_zero_iff.1 h)
  rw [minsrSolve_eq cfg rk joint E G hi]
  congr 1
  funext i
  have h := c139_update (fun _ => pinvHermitian cfg.eigh cfg.pinvTol) joint eloc gradients hO hE m d k hw hi.weights T U hU i
  have h0 : updateError r.u (m + d + k - 2) (allSamples joint) (pinvHermitian cfg.eigh cfg.pinvTol T) i = 0 := by
    simp [updateError, hr, dotFactor, gradUpper, gradSize, elocUpper, elocSize]
  rw [h0] at h
  rw [sub_eq_zero.1 (norm_le_zero_iff.1 h), hT, Pi.neg_apply]
  congr 1
  simp only [Matrix.mulVec, dotProduct, Matrix.conjTranspose_apply, RCLike.star_def, Finset.sum_mul, Finset.mul_sum]
  rw [Finset.sum_comm]
  simp only [mul_assoc]

/-- **C139**: the factor of a sum of `N` products in double precision, for up to `2 ^ 50` products. -/
theorem c139_double (N : ℕ) (hN : N ≤ 2 ^ 50) (u : ℝ) (hu : u = (2 : ℝ) ^ (-53 : ℤ)) :
    dotFactor u N ≤ 1 + (2 : ℝ) ^ (-50 : ℤ) * N := by
  have hu0 : 0 ≤ u := by rw [hu]; exact (zpow_pos (by norm_num) _).le
  have hN' : (N : ℝ) ≤ 2 ^ 50 := by exact_mod_cast hN
  have h := pow_double_bound hu0 (m := 2 * N) (by
    rw [hu]
    push_cast
    calc 2 * (N : ℝ) * 2 ^ (-53 : ℤ) ≤ 2 * 2 ^ 50 * 2 ^ (-53 : ℤ) := by gcongr
      _ ≤ 1 := by norm_num)
  unfold dotFactor
  have e : (2 : ℝ) ^ (-50 : ℤ) * N = 2 * (2 * (((2 * N : ℕ) : ℝ) * u)) := by
    rw [hu]
    push_cast
    norm_num
    ring
  rw [e]
  linarith

/-- **C139**: such values exist for all data with at least one device on every rank. -/
theorem c139_exists (r : Rounding) (pinv : ∀ N : ℕ, Matrix (Fin N) (Fin N) ℂ → Matrix (Fin N) (Fin N) ℂ)
    (joint : World (ℝ × (Fin 1 → ℂ) × (Fin (n + 1) → ℂ))) (h : ∀ rk ∈ joint, rk ≠ []) :
    ∃ eloc gradients T U, SampledObsR r (joint.map fun s => (s.1, s.2.2)) gradients ∧
      SampledObsR r (joint.map fun s => (s.1, s.2.1)) eloc ∧
      MinsrSolveR r pinv eloc gradients (allSamples joint).length T U := by
  obtain ⟨ma, ha⟩ := sampledObsR_exists r joint (fun s => (s.1, s.2.2)) h
  obtain ⟨mb, hb⟩ := sampledObsR_exists r joint (fun s => (s.1, s.2.1)) h
  generalize hG : (⟨_, _⟩ : SObs (Fin (n + 1))) = G at ha
  generalize hE : (⟨_, _⟩ : SObs (Fin 1)) = E at hb
  choose T hT using fun a b : Fin (allSamples joint).length => cdot_exists r
    (List.ofFn fun i => (gatheredAt G a i, (starRingEnd ℂ) (gatheredAt G b i)))
  choose M hM using fun (i : Fin (n + 1)) (b : Fin (allSamples joint).length) => cdot_exists r
    (List.ofFn fun a : Fin (allSamples joint).length => (-(starRingEnd ℂ) (gatheredAt G a i), pinv _ (Matrix.of T) a b))
  choose U hU using fun i => cdot_exists r
    (List.ofFn fun b : Fin (allSamples joint).length => (M i b, gatheredAt E b 0))
  refine ⟨E, G, Matrix.of T, U, ha, hb, ⟨?_, hT⟩, ?_, M, hM, hU⟩
  · rw [← hG]
    exact gathered_length _ _ _
  · rw [← hE]
    exact gathered_length _ _ _

/-- Case: two ranks, the first with two devices, three parameters, double precision. -/
example (pinv : ∀ N : ℕ, Matrix (Fin N) (Fin N) ℂ → Matrix (Fin N) (Fin N) ℂ) : ∃ eloc gradients T U,
    SampledObsR Rounding.double (World.map (fun s => (s.1, s.2.2))
      [[[((1 / 4 : ℝ), (fun _ : Fin 1 => (2 : ℂ)), fun _ : Fin 3 => (1 : ℂ))], [(1 / 4, fun _ => 3, fun _ => Complex.I)]],
       [[(1 / 2, fun _ => 5, fun i => (i : ℂ))]]]) gradients ∧
    SampledObsR Rounding.double (World.map (fun s => (s.1, s.2.1))
      [[[((1 / 4 : ℝ), (fun _ : Fin 1 => (2 : ℂ)), fun _ : Fin 3 => (1 : ℂ))], [(1 / 4, fun _ => 3, fun _ => Complex.I)]],
       [[(1 / 2, fun _ => 5, fun i => (i : ℂ))]]]) eloc ∧
    MinsrSolveR Rounding.double pinv eloc gradients 3 T U :=
  c139_exists (n := 2) Rounding.double pinv
    [[[((1 / 4 : ℝ), (fun _ : Fin 1 => (2 : ℂ)), fun _ : Fin 3 => (1 : ℂ))], [(1 / 4, fun _ => 3, fun _ => Complex.I)]],
     [[(1 / 2, fun _ => 5, fun i => (i : ℂ))]]] (by simp)

/-- Case: the bound on the number of samples and devices of this data. -/
example : AtMost 1 2 2
      [[[((1 / 4 : ℝ), (fun _ : Fin 1 => (2 : ℂ)), fun _ : Fin 3 => (1 : ℂ))], [(1 / 4, fun _ => 3, fun _ => Complex.I)]],
       [[(1 / 2, fun _ => 5, fun i => (i : ℂ))]]] :=
  ⟨by simp, by simp, by simp, by norm_num⟩

/-- Case: a million parameters. -/
example : dotFactor ((2 : ℝ) ^ (-53 : ℤ)) 1000000 ≤ 1 + 1e-9 := by
  refine (c139_double 1000000 (by norm_num) _ rfl).trans ?_
  norm_num

end JVMC
