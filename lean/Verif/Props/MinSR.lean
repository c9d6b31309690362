import Verif.Lemmas.MinSR
import Verif.Props.Tdvp

/-!
# Properties of the MinSR update

C47 (the update solves the stochastic reconfiguration equation, with minimal norm), C71 (real
parameters), C72 (a call restores the parameters).
-/

namespace JVMC

open Spec Matrix ComplexOrder

variable {n : ℕ}

/-- The eigensolver does its job on Hermitian matrices of every size. -/
def MinSRCfg.EighCorrect (cfg : MinSRCfg) : Prop :=
  ∀ (N : ℕ) (S : Matrix (Fin N) (Fin N) ℂ), S.IsHermitian → IsEigh S (cfg.eigh N S).1 (cfg.eigh N S).2

theorem minsrEigh_correct (cfg : MinSRCfg) (h : cfg.eigh = fun _ => someEigh) : cfg.EighCorrect := by
  intro N S hS
  rw [h]
  unfold someEigh
  dsimp only
  rw [dif_pos hS]
  exact (exists_eigh S hS).choose_spec.choose_spec

/-- Weighted centred gradients and energies as arrays. -/
noncomputable def sampleX (l : List (ℝ × (Fin 1 → ℂ) × (Fin (n + 1) → ℂ))) :
    Matrix (Fin l.length) (Fin (n + 1)) ℂ :=
  Matrix.of fun a i => (Real.sqrt l[a].1 : ℂ) * dGrad l l[a] i

noncomputable def sampleE (l : List (ℝ × (Fin 1 → ℂ) × (Fin (n + 1) → ℂ))) (a : Fin l.length) : ℂ :=
  (Real.sqrt l[a].1 : ℂ) * dEloc l l[a]

theorem kernelOf_eq (l : List (ℝ × (Fin 1 → ℂ) × (Fin (n + 1) → ℂ))) :
    kernelOf l = sampleX l * (sampleX l)ᴴ := by
  ext a b
  unfold kernelOf sampleX
  rw [Matrix.mul_apply, Matrix.of_apply, Finset.mul_sum]
  refine Finset.sum_congr rfl fun i _ => ?_
  simp only [Matrix.of_apply, Matrix.conjTranspose_apply, RCLike.star_def, map_mul, Complex.conj_ofReal]
  ring

theorem gather_map {A B : Type} (f : A → B) (w : World A) (r : ℕ) (hr : r < List.length w) :
    atRank r (gather (World.map f w)) = .ok ((allSamples w).map f) := by
  unfold gather
  rw [World.const_map, atRank_map _ _ _ hr]
  congr 1
  rw [← allSamples_wmap]
  unfold allSamples
  rw [List.flatten_flatten]

theorem rows_getD {A : Type} (l : List A) (f : A → A → ℂ) (a b : ℕ) (ha : a < l.length)
    (hb : b < l.length) :
    ((l.map fun s => l.map fun t => f s t).getD a []).getD b 0 = f l[a] l[b] := by
  simp [List.getD_eq_getElem?_getD, ha, hb]

/-- What `solve` computes. -/
theorem minsrSolve_eq (cfg : MinSRCfg) (r : ℕ) (joint : World (ℝ × (Fin 1 → ℂ) × (Fin (n + 1) → ℂ)))
    (E : SObs (Fin 1)) (G : SObs (Fin (n + 1))) (hi : TdvpInput joint r E G) :
    minsrSolve cfg r E G = .ok (-((sampleX (allSamples joint))ᴴ *ᵥ
      (pinvHermitian cfg.eigh cfg.pinvTol (kernelOf (allSamples joint)) *ᵥ
        sampleE (allSamples joint)))) := by
  set l := allSamples joint with hl
  have hE := create_eq _ (World.map_ne (fun s : ℝ × (Fin 1 → ℂ) × (Fin (n + 1) → ℂ) => (s.1, s.2.1))
    joint hi.devices)
  have hG := create_eq _ (World.map_ne (fun s : ℝ × (Fin 1 → ℂ) × (Fin (n + 1) → ℂ) => (s.1, s.2.2))
    joint hi.devices)
  obtain rfl := Except.ok.inj (hE.symm.trans hi.data.1)
  obtain ⟨G', hG', hT⟩ := c67_tangent_kernel _
    (World.map_ne (fun s : ℝ × (Fin 1 → ℂ) × (Fin (n + 1) → ℂ) => (s.1, s.2.2)) joint hi.devices)
  obtain rfl := Except.ok.inj (hG'.symm.trans hi.data.2)
  have hGG := Except.ok.inj (hG.symm.trans hG')
  have hEr : atRank r (gather (World.map (fun s : ℝ × (Fin 1 → ℂ) => s.2 0) (SObs.rows
      ⟨World.map (fun s => (s.1, fun i => (Real.sqrt s.1 : ℂ) * (s.2 i - wMean (allSamples (World.map
        (fun s : ℝ × (Fin 1 → ℂ) × (Fin (n + 1) → ℂ) => (s.1, s.2.1)) joint)) i)))
        (World.map (fun s : ℝ × (Fin 1 → ℂ) × (Fin (n + 1) → ℂ) => (s.1, s.2.1)) joint),
        List.map (fun _ => wMean (allSamples (World.map
        (fun s : ℝ × (Fin 1 → ℂ) × (Fin (n + 1) → ℂ) => (s.1, s.2.1)) joint)))
        (World.map (fun s : ℝ × (Fin 1 → ℂ) × (Fin (n + 1) → ℂ) => (s.1, s.2.1)) joint)⟩)))
      = .ok (l.map fun s => (Real.sqrt s.1 : ℂ) * dEloc l s) := by
    dsimp only
    rw [World.map_map, World.map_map, gather_map _ _ _ hi.rank, allSamples_wmap]
    rfl
  have hGr : atRank r (gather (World.map (fun s : ℝ × (Fin (n + 1) → ℂ) => s.2) G'.rows))
      = .ok (l.map fun s => fun i => (Real.sqrt s.1 : ℂ) * dGrad l s i) := by
    rw [← hGG]
    dsimp only
    rw [World.map_map, World.map_map, gather_map _ _ _ hi.rank, allSamples_wmap]
    rfl
  unfold minsrSolve
  rw [hT, World.const_map, atRank_map _ _ _ hi.rank, allSamples_wmap, ← hl]
  change Except.bind (atRank r (gather _)) _ = _
  rw [hEr]
  change Except.bind (atRank r (gather _)) _ = _
  rw [hGr]
  dsimp only [Except.bind]
  generalize hTT : List.map (fun s : ℝ × (Fin (n + 1) → ℂ) => List.map (fun t => _) _) _ = T
  have hlen : T.length = l.length := by rw [← hTT]; simp
  have hK : squareOfRows l.length T = kernelOf l := by
    ext a b
    unfold squareOfRows kernelOf
    rw [Matrix.of_apply, Matrix.of_apply, ← hTT, rows_getD _ _ _ _ (by simp) (by simp),
      List.getElem_map, List.getElem_map, Finset.mul_sum]
    refine Finset.sum_congr rfl fun i _ => ?_
    simp only [map_mul, Complex.conj_ofReal]
    unfold dGrad
    simp only [Fin.getElem_fin]
    ring
  generalize hN : T.length = N
  rw [hN] at hlen
  subst hlen
  rw [hK, if_pos (by simp)]
  change Except.ok _ = _
  congr 1
  funext i
  rw [Matrix.mulVec_mulVec]
  simp only [Pi.neg_apply, Matrix.mulVec, dotProduct, Matrix.mul_apply, Matrix.conjTranspose_apply]
  congr 1
  refine Finset.sum_congr rfl fun a _ => ?_
  congr 1
  · refine Finset.sum_congr rfl fun b _ => ?_
    congr 1
    rw [List.getD_eq_getElem _ _ (by simp), List.getElem_map]
    rfl
  · rw [List.getD_eq_getElem _ _ (by simp), List.getElem_map]
    rfl

section Bridge

variable (l : List (ℝ × (Fin 1 → ℂ) × (Fin (n + 1) → ℂ))) (hw : ∀ s ∈ l, 0 ≤ s.1)

include hw

theorem fisherOf_eq (i j : Fin (n + 1)) : fisherOf l i j = ((sampleX l)ᴴ * sampleX l) i j := by
  unfold fisherOf
  rw [← Fin.sum_univ_fun_getElem, Matrix.mul_apply]
  refine Finset.sum_congr rfl fun a _ => ?_
  have h0 := sqrt_mul_self_cast l[a.1].1 (hw _ (List.getElem_mem _))
  unfold sampleX
  simp only [Matrix.conjTranspose_apply, Matrix.of_apply, RCLike.star_def, map_mul, Complex.conj_ofReal,
    Fin.getElem_fin]
  unfold dGrad
  rw [← h0]
  ring

theorem forceOf_eq (i : Fin (n + 1)) : forceOf l i = ((sampleX l)ᴴ *ᵥ sampleE l) i := by
  unfold forceOf
  rw [← Fin.sum_univ_fun_getElem, Matrix.mulVec, dotProduct]
  refine Finset.sum_congr rfl fun a _ => ?_
  have h0 := sqrt_mul_self_cast l[a.1].1 (hw _ (List.getElem_mem _))
  unfold sampleX sampleE
  simp only [Matrix.conjTranspose_apply, Matrix.of_apply, RCLike.star_def, map_mul, Complex.conj_ofReal,
    Fin.getElem_fin]
  unfold dGrad dEloc
  rw [← h0]
  ring

theorem stepDistance_eq (y : Fin (n + 1) → ℂ) :
    stepDistance l y = euclid (sampleX l *ᵥ y + sampleE l) ^ 2 := by
  unfold stepDistance euclid
  rw [Real.sq_sqrt (Finset.sum_nonneg fun i _ => Complex.normSq_nonneg _), ← Fin.sum_univ_fun_getElem]
  refine Finset.sum_congr rfl fun a _ => ?_
  have h0 : 0 ≤ l[a.1].1 := hw _ (List.getElem_mem _)
  have : (sampleX l *ᵥ y + sampleE l) a
      = (Real.sqrt l[a.1].1 : ℂ) * (∑ k, dGrad l l[a.1] k * y k + dEloc l l[a.1]) := by
    unfold sampleX sampleE
    simp only [Pi.add_apply, Matrix.mulVec, dotProduct, Matrix.of_apply, Fin.getElem_fin]
    rw [mul_add, Finset.mul_sum]
    congr 1
    refine Finset.sum_congr rfl fun k _ => ?_
    ring
  rw [this, Complex.normSq_mul, Complex.normSq_ofReal, Real.mul_self_sqrt h0]

end Bridge

theorem kernel_hermitian (l : List (ℝ × (Fin 1 → ℂ) × (Fin (n + 1) → ℂ))) : (kernelOf l).IsHermitian := by
  rw [kernelOf_eq]
  exact Matrix.isHermitian_mul_conjTranspose_self _

/-! ## C47 -/

/-- C47: `solve` returns for every data set. -/
theorem c47_returns (cfg : MinSRCfg) (r : ℕ) (joint : World (ℝ × (Fin 1 → ℂ) × (Fin (n + 1) → ℂ)))
    (E : SObs (Fin 1)) (G : SObs (Fin (n + 1))) (hi : TdvpInput joint r E G) :
    ∃ x, minsrSolve cfg r E G = .ok x := ⟨_, minsrSolve_eq cfg r joint E G hi⟩

/-- C47: if the cutoff `pinvTol` removes no non-zero eigenvalue of the kernel, the update solves the
stochastic reconfiguration equation `S x = -F`. Missing: smaller eigenvalues
(`c47_truncation_violated`). -/
theorem c47_equation_partial (cfg : MinSRCfg) (heigh : cfg.EighCorrect) (ht : 0 ≤ cfg.pinvTol) (r : ℕ)
    (joint : World (ℝ × (Fin 1 → ℂ) × (Fin (n + 1) → ℂ))) (E : SObs (Fin 1)) (G : SObs (Fin (n + 1)))
    (hi : TdvpInput joint r E G) (hs : SpectrumAbove (kernelOf (allSamples joint)) cfg.pinvTol)
    (x : Fin (n + 1) → ℂ) (hx : minsrSolve cfg r E G = .ok x) (i : Fin (n + 1)) :
    ∑ j, fisherOf (allSamples joint) i j * x j = -forceOf (allSamples joint) i := by
  obtain rfl := Except.ok.inj ((minsrSolve_eq cfg r joint E G hi).symm.trans hx)
  have he := heigh _ _ (kernel_hermitian (allSamples joint))
  have hP := mul_pinv cfg.eigh cfg.pinvTol ht _ he
  have hk := kept_of_spectrum _ _ _ _ he hs
  have hX := conjTranspose_mul_keptProj cfg.pinvTol (sampleX (allSamples joint)) _ _
    (by rw [← kernelOf_eq]; exact he) hk
  have hS : ∀ j, fisherOf (allSamples joint) i j = _ := fisherOf_eq _ hi.weights i
  simp_rw [hS]
  rw [forceOf_eq _ hi.weights]
  change (((sampleX (allSamples joint))ᴴ * sampleX (allSamples joint)) *ᵥ _) i = _
  rw [Matrix.mulVec_neg, Pi.neg_apply, Matrix.mulVec_mulVec, Matrix.mul_assoc, ← kernelOf_eq,
    Matrix.mulVec_mulVec, Matrix.mul_assoc, hP, hX]

/-- C47: ... and no other update is closer to the exact step. -/
theorem c47_least_squares_partial (cfg : MinSRCfg) (heigh : cfg.EighCorrect) (ht : 0 ≤ cfg.pinvTol) (r : ℕ)
    (joint : World (ℝ × (Fin 1 → ℂ) × (Fin (n + 1) → ℂ))) (E : SObs (Fin 1)) (G : SObs (Fin (n + 1)))
    (hi : TdvpInput joint r E G) (hs : SpectrumAbove (kernelOf (allSamples joint)) cfg.pinvTol)
    (x y : Fin (n + 1) → ℂ) (hx : minsrSolve cfg r E G = .ok x) :
    stepDistance (allSamples joint) x ≤ stepDistance (allSamples joint) y := by
  have h := c47_equation_partial cfg heigh ht r joint E G hi hs x hx
  rw [stepDistance_eq _ hi.weights, stepDistance_eq _ hi.weights]
  refine pow_le_pow_left₀ (euclid_nonneg' _) (least_squares _ _ _ _ ?_) 2
  funext i
  have hS : ∀ j, fisherOf (allSamples joint) i j = _ := fisherOf_eq _ hi.weights i
  have hi' := h i
  simp_rw [hS] at hi'
  rw [forceOf_eq _ hi.weights] at hi'
  change (((sampleX (allSamples joint))ᴴ * sampleX (allSamples joint)) *ᵥ x) i = _ at hi'
  rw [Matrix.mulVec_add, Matrix.mulVec_mulVec, Pi.add_apply, hi', Pi.zero_apply, neg_add_cancel]

/-- C47: for every cutoff, the update has minimal norm among all with the same effect on the samples. -/
theorem c47_minimal_norm (cfg : MinSRCfg) (r : ℕ)
    (joint : World (ℝ × (Fin 1 → ℂ) × (Fin (n + 1) → ℂ))) (E : SObs (Fin 1)) (G : SObs (Fin (n + 1)))
    (hi : TdvpInput joint r E G) (x y : Fin (n + 1) → ℂ) (hx : minsrSolve cfg r E G = .ok x)
    (hy : ∀ s ∈ allSamples joint, 0 < s.1 →
      ∑ k, dGrad (allSamples joint) s k * y k = ∑ k, dGrad (allSamples joint) s k * x k) :
    euclid x ≤ euclid y := by
  obtain rfl := Except.ok.inj ((minsrSolve_eq cfg r joint E G hi).symm.trans hx)
  rw [← Matrix.mulVec_neg] at hy ⊢
  apply minimal_norm
  funext a
  have ha : (allSamples joint)[a] ∈ allSamples joint := List.getElem_mem _
  rcases (hi.weights _ ha).eq_or_lt with h0 | h0
  · unfold sampleX
    simp only [Matrix.mulVec, dotProduct, Matrix.of_apply]
    rw [← h0]
    simp
  · have := hy _ ha h0
    unfold sampleX at this ⊢
    simp only [Matrix.mulVec, dotProduct, Matrix.of_apply] at this ⊢
    simp_rw [mul_assoc (Real.sqrt _ : ℂ)]
    rw [← Finset.mul_sum, ← Finset.mul_sum, this]

/-- C47: ... and is the solution of `S y = -F` of minimal norm. -/
theorem c47_minimal_solution_partial (cfg : MinSRCfg) (heigh : cfg.EighCorrect) (ht : 0 ≤ cfg.pinvTol) (r : ℕ)
    (joint : World (ℝ × (Fin 1 → ℂ) × (Fin (n + 1) → ℂ))) (E : SObs (Fin 1)) (G : SObs (Fin (n + 1)))
    (hi : TdvpInput joint r E G) (hs : SpectrumAbove (kernelOf (allSamples joint)) cfg.pinvTol)
    (x y : Fin (n + 1) → ℂ) (hx : minsrSolve cfg r E G = .ok x)
    (hy : ∀ i, ∑ j, fisherOf (allSamples joint) i j * y j = -forceOf (allSamples joint) i) :
    euclid x ≤ euclid y := by
  have h := c47_equation_partial cfg heigh ht r joint E G hi hs x hx
  have hd : ((sampleX (allSamples joint))ᴴ * sampleX (allSamples joint)) *ᵥ (y - x) = 0 := by
    funext i
    have := (hy i).trans (h i).symm
    have hS : ∀ j, fisherOf (allSamples joint) i j = _ := fisherOf_eq _ hi.weights i
    simp_rw [hS] at this
    rw [Matrix.mulVec_sub, Pi.sub_apply, Pi.zero_apply, sub_eq_zero]
    exact this
  rw [Matrix.conjTranspose_mul_self_mulVec_eq_zero, Matrix.mulVec_sub, sub_eq_zero] at hd
  obtain rfl := Except.ok.inj ((minsrSolve_eq cfg r joint E G hi).symm.trans hx)
  rw [← Matrix.mulVec_neg] at hd ⊢
  exact minimal_norm _ _ _ hd

/-- C47: with `pinvTol = 0` no eigenvalue is removed, for any data. -/
theorem spectrumAbove_zero {N : ℕ} (T : Matrix (Fin N) (Fin N) ℂ) : SpectrumAbove T 0 := by
  intro a b u v _ _ _ _ ha
  rw [zero_mul]
  exact norm_pos_iff.mpr ha

/-- A projector has the eigenvalues 0 and 1. -/
theorem spectrumAbove_idempotent {N : ℕ} (T : Matrix (Fin N) (Fin N) ℂ) (hT : T * T = T) (tol : ℝ)
    (ht1 : tol < 1) : SpectrumAbove T tol := by
  have key : ∀ (a : ℂ) (u : Fin N → ℂ), u ≠ 0 → T *ᵥ u = a • u → a = 0 ∨ a = 1 := by
    intro a u hu h
    have h2 : T *ᵥ (T *ᵥ u) = T *ᵥ u := by rw [Matrix.mulVec_mulVec, hT]
    rw [h, Matrix.mulVec_smul, h, smul_smul] at h2
    obtain ⟨i, hi⟩ := Function.ne_iff.mp hu
    have := congrFun h2 i
    simp only [Pi.smul_apply, smul_eq_mul] at this
    have h3 := mul_right_cancel₀ hi this
    rcases eq_or_ne a 0 with h0 | h0
    · exact .inl h0
    · exact .inr (mul_left_cancel₀ h0 (by rw [h3, mul_one]))
  intro a b u v hu hv hau hbv ha
  rcases key a u hu hau with h | rfl
  · exact absurd h ha
  · rcases key b v hv hbv with rfl | rfl
    · simp
    · simpa using ht1

theorem oneKernel (e : ℂ) : kernelOf [(1 / 2, ![e], ![1]), (1 / 2, ![-e], ![(-1 : ℂ)])]
    = !![1 / 2, -1 / 2; -1 / 2, 1 / 2] := by
  have hr : ((Real.sqrt (1 / 2) : ℂ)) * (Real.sqrt (1 / 2) : ℂ) = 1 / 2 := by
    rw [sqrt_mul_self_cast _ (by norm_num)]
    norm_num
  ext a b
  unfold kernelOf dGrad
  fin_cases a <;> fin_cases b <;>
    simp [wMean, Matrix.of_apply] <;>
    · norm_num at hr ⊢
      rw [hr]

theorem half_idempotent : (!![1 / 2, -1 / 2; -1 / 2, 1 / 2] * !![1 / 2, -1 / 2; -1 / 2, 1 / 2] :
    Matrix (Fin 2) (Fin 2) ℂ) = !![1 / 2, -1 / 2; -1 / 2, 1 / 2] := by
  ext a b
  fin_cases a <;> fin_cases b <;> simp [Matrix.mul_apply] <;> norm_num

/-- Two samples of one real parameter with gradients `1, -1` and local energies `e, -e`. -/
noncomputable def pairJoint (e : ℂ) : World (ℝ × (Fin 1 → ℂ) × (Fin 1 → ℂ)) :=
  [[[(1 / 2, ![e], ![1]), (1 / 2, ![-e], ![-1])]]]

theorem pair_input (e : ℂ) : ∃ E G, TdvpInput (pairJoint e) 0 E G := by
  refine tdvpInput_exists _ _ ?_ ?_ ?_
  · intro rk hrk
    simp only [pairJoint, List.mem_cons, List.not_mem_nil, or_false] at hrk
    rcases hrk with rfl
    simp
  · intro s hs
    simp only [pairJoint, allSamples, List.flatten_cons, List.flatten_nil, List.append_nil,
      List.mem_cons, List.not_mem_nil, or_false] at hs
    rcases hs with rfl | rfl <;> norm_num
  · simp [pairJoint]

theorem pair_spectrum (e : ℂ) (tol : ℝ) (ht1 : tol < 1) :
    SpectrumAbove (kernelOf (allSamples (pairJoint e))) tol := by
  apply spectrumAbove_idempotent _ _ _ ht1
  have h : kernelOf (allSamples (pairJoint e)) = !![1 / 2, -1 / 2; -1 / 2, 1 / 2] := oneKernel e
  rw [h]
  exact half_idempotent

/-- Case: the hypotheses of the theorems above, with the default `pinvTol`. -/
example : ∃ (cfg : MinSRCfg) (E : SObs (Fin 1)) (G : SObs (Fin 1)), cfg.EighCorrect ∧ 0 ≤ cfg.pinvTol ∧
    TdvpInput (pairJoint 1) 0 E G ∧ SpectrumAbove (kernelOf (allSamples (pairJoint 1))) cfg.pinvTol := by
  obtain ⟨E, G, h⟩ := pair_input 1
  exact ⟨⟨1e-14, "real", fun _ => someEigh⟩, E, G, minsrEigh_correct _ rfl, by norm_num, h,
    pair_spectrum _ _ (by norm_num)⟩

/-- The pseudo-inverse removes eigenvectors whose eigenvalue is small against another one. -/
theorem pinv_drops (eigh : ∀ N : ℕ, Matrix (Fin N) (Fin N) ℂ → (Fin N → ℝ) × Matrix (Fin N) (Fin N) ℂ)
    {N : ℕ} (tol : ℝ) (ht : 0 ≤ tol) (T : Matrix (Fin N) (Fin N) ℂ)
    (h : IsEigh T (eigh N T).1 (eigh N T).2)
    (e v : Fin N → ℂ) (a b : ℂ) (hv : v ≠ 0) (hTe : T *ᵥ e = a • e) (hTv : T *ᵥ v = b • v)
    (hab : ‖a‖ ≤ tol * ‖b‖) : pinvHermitian eigh tol T *ᵥ e = 0 := by
  set ev := (eigh N T).1 with hev
  set V := (eigh N T).2 with hV
  have hcomm : ∀ (w : Fin N → ℂ) (c : ℂ), T *ᵥ w = c • w → ∀ k, (ev k : ℂ) * (Vᴴ *ᵥ w) k = c * (Vᴴ *ᵥ w) k := by
    intro w c hw k
    have h1 : Vᴴ *ᵥ (T *ᵥ w) = diagonal (fun k => (ev k : ℂ)) *ᵥ (Vᴴ *ᵥ w) := by
      conv_lhs => rw [eigh_decomp T V ev h]
      rw [Matrix.mulVec_mulVec, ← Matrix.mul_assoc, ← Matrix.mul_assoc, h.unitary, Matrix.one_mul,
        ← Matrix.mulVec_mulVec]
    rw [hw, Matrix.mulVec_smul] at h1
    have := congrFun h1 k
    rw [Matrix.mulVec_diagonal, Pi.smul_apply, smul_eq_mul] at this
    exact this.symm
  have hb : ‖b‖ ≤ ⨆ j, |ev j| := by
    have hne : Vᴴ *ᵥ v ≠ 0 := by
      intro h0
      apply hv
      have : V *ᵥ (Vᴴ *ᵥ v) = 0 := by rw [h0, Matrix.mulVec_zero]
      rwa [Matrix.mulVec_mulVec, conj_unitary V h.unitary, Matrix.one_mulVec] at this
    obtain ⟨k, hk⟩ := Function.ne_iff.mp hne
    have := mul_right_cancel₀ hk (hcomm v b hTv k)
    rw [← this, Complex.norm_real, Real.norm_eq_abs]
    exact le_ciSup (f := fun j => |ev j|) (Set.finite_range _).bddAbove k
  unfold pinvHermitian
  dsimp only
  rw [Matrix.mul_assoc, ← Matrix.mulVec_mulVec, ← Matrix.mulVec_mulVec]
  have : diagonal (fun k => ((if |ev k| > tol * ⨆ j, |ev j| then 1 / ev k else 0 : ℝ) : ℂ))
      *ᵥ (Vᴴ *ᵥ e) = 0 := by
    funext k
    rw [Matrix.mulVec_diagonal, Pi.zero_apply]
    by_cases h0 : (Vᴴ *ᵥ e) k = 0
    · rw [h0, mul_zero]
    · have := mul_right_cancel₀ h0 (hcomm e a hTe k)
      rw [if_neg, Complex.ofReal_zero, zero_mul]
      rw [not_lt]
      rw [← this, Complex.norm_real, Real.norm_eq_abs] at hab
      exact hab.trans (mul_le_mul_of_nonneg_left hb ht)
  rw [this, Matrix.mulVec_zero]

/-- Four samples, two parameters, the second with gradients of size `δ`. -/
noncomputable def stiffJoint (δ : ℝ) : World (ℝ × (Fin 1 → ℂ) × (Fin 2 → ℂ)) :=
  [[[(1 / 4, ![1], ![1, (δ : ℂ)]), (1 / 4, ![-1], ![1, -(δ : ℂ)]), (1 / 4, ![1], ![-1, (δ : ℂ)]),
    (1 / 4, ![-1], ![-1, -(δ : ℂ)])]]]

theorem stiff_input (δ : ℝ) : ∃ E G, TdvpInput (stiffJoint δ) 0 E G := by
  refine tdvpInput_exists _ _ ?_ ?_ ?_
  · intro rk hrk
    simp only [stiffJoint, List.mem_cons, List.not_mem_nil, or_false] at hrk
    rcases hrk with rfl
    simp
  · intro s hs
    simp only [stiffJoint, allSamples, List.flatten_cons, List.flatten_nil, List.append_nil,
      List.mem_cons, List.not_mem_nil, or_false] at hs
    rcases hs with rfl | rfl | rfl | rfl <;> norm_num
  · simp [stiffJoint]

/-- C47 is violated for every positive cutoff: with gradients of different size the update is zero,
although the force is not and `S y = -F` has a solution. -/
theorem c47_truncation_violated (cfg : MinSRCfg) (heigh : cfg.EighCorrect) (ht : 0 < cfg.pinvTol) :
    ∃ (joint : World (ℝ × (Fin 1 → ℂ) × (Fin 2 → ℂ))) (E : SObs (Fin 1)) (G : SObs (Fin 2)),
      TdvpInput joint 0 E G ∧ minsrSolve cfg 0 E G = .ok 0 ∧
      (∃ y : Fin 2 → ℂ, ∀ i, ∑ j, fisherOf (allSamples joint) i j * y j = -forceOf (allSamples joint) i) ∧
      ¬ ∀ i, ∑ j, fisherOf (allSamples joint) i j * (0 : Fin 2 → ℂ) j = -forceOf (allSamples joint) i := by
  set δ := min 1 cfg.pinvTol with hδ
  have hδ0 : 0 < δ := lt_min one_pos ht
  have hδ1 : δ ≤ 1 := min_le_left _ _
  have hδt : δ ≤ cfg.pinvTol := min_le_right _ _
  have hc : (δ : ℂ) ≠ 0 := by exact_mod_cast hδ0.ne'
  obtain ⟨E, G, hi⟩ := stiff_input δ
  have hF : forceOf (allSamples (stiffJoint δ)) = ![0, (δ : ℂ)] := by
    funext i
    fin_cases i <;> simp [forceOf, stiffJoint, allSamples, wMean]
    ring
  have hS : ∀ i j, fisherOf (allSamples (stiffJoint δ)) i j = (!![1, 0; 0, (δ : ℂ) ^ 2] : Matrix _ _ ℂ) i j := by
    intro i j
    fin_cases i <;> fin_cases j <;> simp [fisherOf, stiffJoint, allSamples, wMean] <;> ring
  have hdg : ∀ s ∈ allSamples (stiffJoint δ), dGrad (allSamples (stiffJoint δ)) s 1
      = δ * dEloc (allSamples (stiffJoint δ)) s := by
    intro s hs
    simp only [stiffJoint, allSamples, List.flatten_cons, List.flatten_nil, List.append_nil,
      List.mem_cons, List.not_mem_nil, or_false] at hs
    rcases hs with rfl | rfl | rfl | rfl <;> simp [dGrad, dEloc, stiffJoint, allSamples, wMean]
  refine ⟨stiffJoint δ, E, G, hi, ?_, ⟨![0, -1 / δ], ?_⟩, ?_⟩
  · rw [minsrSolve_eq cfg 0 _ E G hi]
    have hk : kernelOf (allSamples (stiffJoint δ)) = _ := kernelOf_eq _
    set X := sampleX (allSamples (stiffJoint δ)) with hX
    have hXe : Xᴴ *ᵥ sampleE (allSamples (stiffJoint δ)) = ![0, (δ : ℂ)] := by
      funext i
      rw [← forceOf_eq _ hi.weights, hF]
    have hXX : Xᴴ *ᵥ (X *ᵥ ![1, 0]) = ![1, 0] := by
      rw [Matrix.mulVec_mulVec]
      have : Xᴴ * X = !![1, 0; 0, (δ : ℂ) ^ 2] := by
        ext i j
        rw [← fisherOf_eq _ hi.weights, hS]
      rw [this]
      funext i
      fin_cases i <;> simp
    have := pinv_drops cfg.eigh cfg.pinvTol ht.le (kernelOf (allSamples (stiffJoint δ)))
      (heigh _ _ (kernel_hermitian _)) (sampleE (allSamples (stiffJoint δ))) (X *ᵥ ![1, 0]) (δ ^ 2) 1
      ?_ ?_ ?_ ?_
    · rw [this, Matrix.mulVec_zero, neg_zero]
    · intro h
      rw [h, Matrix.mulVec_zero] at hXX
      simpa using congrFun hXX 0
    · rw [hk, ← Matrix.mulVec_mulVec, hXe]
      funext a
      have := hdg _ (List.getElem_mem (l := allSamples (stiffJoint δ)) a.2)
      simp only [hX, sampleX, sampleE, Matrix.mulVec, dotProduct, Matrix.of_apply,
        Fin.getElem_fin, Pi.smul_apply, smul_eq_mul]
      refine (Fin.sum_univ_two _).trans ?_
      rw [this]
      simp
      ring
    · rw [hk, ← Matrix.mulVec_mulVec, hXX, one_smul]
    · rw [norm_pow, Complex.norm_real, Real.norm_eq_abs, abs_of_pos hδ0, norm_one, mul_one]
      nlinarith
  · intro i
    simp_rw [hS, hF]
    fin_cases i
    · simp
    · simp
      field_simp
  · intro h
    have := h 1
    rw [hF] at this
    simp [hc] at this

/-- Case: the eigensolver of the theorem exists. -/
example : MinSRCfg.EighCorrect ⟨1e-14, "imag", fun _ => someEigh⟩ := minsrEigh_correct _ rfl

/-! ## C71 -/

/-- C71 is violated: whatever `makeReal` is, real gradients (a network with one real parameter) can
give an update that is not real. -/
theorem c71_violated (cfg : MinSRCfg) (heigh : cfg.EighCorrect) (ht : 0 ≤ cfg.pinvTol)
    (ht1 : cfg.pinvTol < 1) :
    ∃ (joint : World (ℝ × (Fin 1 → ℂ) × (Fin 1 → ℂ))) (E : SObs (Fin 1)) (G : SObs (Fin 1))
      (x : Fin 1 → ℂ), TdvpInput joint 0 E G ∧ (∀ s ∈ allSamples joint, (s.2.2 0).im = 0) ∧
      minsrSolve cfg 0 E G = .ok x ∧ (x 0).im = -1 := by
  obtain ⟨E, G, hi⟩ := pair_input Complex.I
  obtain ⟨x, hx⟩ := c47_returns cfg 0 _ E G hi
  refine ⟨_, E, G, x, hi, ?_, hx, ?_⟩
  · intro s hs
    simp only [pairJoint, allSamples, List.flatten_cons, List.flatten_nil, List.append_nil,
      List.mem_cons, List.not_mem_nil, or_false] at hs
    rcases hs with rfl | rfl <;> simp
  · have h := c47_equation_partial cfg heigh ht 0 _ E G hi (pair_spectrum _ _ ht1) x hx 0
    have hS : fisherOf (allSamples (pairJoint Complex.I)) 0 0 = 1 := by
      simp [fisherOf, pairJoint, allSamples, wMean]
      norm_num
    have hF : forceOf (allSamples (pairJoint Complex.I)) 0 = Complex.I := by
      simp [forceOf, pairJoint, allSamples, wMean]
      ring
    rw [Fin.sum_univ_one, hS, hF, one_mul] at h
    rw [h]
    simp

/-- C71: the argument `makeReal` has no effect on the update. -/
theorem c71_makeReal_ignored (cfg : MinSRCfg) (q : String) (r : ℕ) (E : SObs (Fin 1))
    (G : SObs (Fin (n + 1))) : minsrSolve { cfg with makeReal := q } r E G = minsrSolve cfg r E G := rfl

/-! ## C72 -/

/-- The steps of a call that returned. -/
theorem minsrCall_ok {smp : Type} (env : TdvpEnv n smp) (cfg : MinSRCfg) (r : ℕ)
    (netP : List ℝ) (t : ℝ) (k : Option ℕ) (sm sm' : smp) (at₀ at₁ : MinSRAttrs) (st : NqsInit)
    (st' : NqsState) (u : Fin (n + 1) → ℂ)
    (h : (minsrCall env cfg r netP t k sm at₀).call (some st) = (.ok (u, at₁, sm'), st')) :
    ∃ p joint E G p', paramUnflatten st.realParams st.sizes netP = .ok p ∧
      env.measure p sm t = .ok (joint, sm') ∧ IsTdvpData joint E G ∧ minsrSolve cfg r E G = .ok u ∧
      paramUnflatten st.realParams st.sizes (flattenParams st.params) = .ok p' ∧
      st' = some { st with params := p' } ∧ (k ≠ some 0 → at₁ = at₀) ∧
      (k = some 0 → ∃ m vs v, atRank r E.mean = .ok m ∧ E.var = .ok vs ∧ atRank r vs = .ok v ∧
        at₁ = some (m 0, v 0)) := by
  unfold minsrCall at h
  rw [bind_ok _ _ _ _ _ (call_getParameters st), call_bind, call_setVec] at h
  cases hp : paramUnflatten st.realParams st.sizes netP with
  | error e => rw [hp] at h; cases h
  | ok p =>
    rw [hp] at h
    dsimp only at h
    rw [bind_ok _ _ _ _ _ (call_getParams _)] at h
    dsimp only at h
    rw [call_bind, call_lift] at h
    cases hm : env.measure p sm t with
    | error e => rw [hm] at h; cases h
    | ok jm =>
      obtain ⟨joint, sm''⟩ := jm
      rw [hm] at h
      dsimp only at h
      rw [call_bind, call_lift] at h
      cases hE : SObs.create (World.map (fun s => (s.1, s.2.1)) joint) with
      | error e => rw [hE] at h; cases h
      | ok E =>
        rw [hE] at h
        dsimp only at h
        rw [call_bind, call_lift] at h
        cases hG : SObs.create (World.map (fun s => (s.1, s.2.2)) joint) with
        | error e => rw [hG] at h; cases h
        | ok G =>
          rw [hG] at h
          dsimp only at h
          rw [call_bind, call_lift] at h
          cases hs : minsrSolve cfg r E G with
          | error e => rw [hs] at h; cases h
          | ok x =>
            rw [hs] at h
            dsimp only at h
            rw [call_bind, call_setVec] at h
            dsimp only at h
            cases hp' : paramUnflatten st.realParams st.sizes (flattenParams st.params) with
            | error e => rw [hp'] at h; cases h
            | ok p' =>
              rw [hp'] at h
              dsimp only at h
              refine ⟨p, joint, E, G, p', rfl, ?_⟩
              by_cases hk : k = some 0
              · rw [if_pos hk, call_bind, call_lift] at h
                cases hme : atRank r E.mean with
                | error e => rw [hme] at h; cases h
                | ok m =>
                  rw [hme] at h
                  dsimp only at h
                  rw [call_bind, call_lift] at h
                  cases hv : E.var with
                  | error e => rw [hv] at h; cases h
                  | ok vs =>
                    rw [hv] at h
                    dsimp only at h
                    rw [call_bind, call_lift] at h
                    cases hvr : atRank r vs with
                    | error e => rw [hvr] at h; cases h
                    | ok v =>
                      rw [hvr] at h
                      obtain ⟨h1, h2⟩ := Prod.mk.inj h
                      cases h1
                      exact ⟨hm, ⟨hE, hG⟩, hs, rfl, h2.symm, fun h => absurd hk h, fun _ =>
                        ⟨m, vs, v, rfl, rfl, hvr, rfl⟩⟩
              · rw [if_neg hk] at h
                obtain ⟨h1, h2⟩ := Prod.mk.inj h
                cases h1
                exact ⟨hm, ⟨hE, hG⟩, hs, rfl, h2.symm, fun _ => rfl, fun h => absurd h hk⟩

/-- C72: after every history of calls on `psi`, a call of the MinSR object that returns leaves `psi`
exactly as it was. -/
theorem c72_restores {smp : Type} (env : TdvpEnv n smp) (cfg : MinSRCfg) (r : ℕ)
    (netP : List ℝ) (t : ℝ) (k : Option ℕ) (sm : smp) (at₀ : MinSRAttrs) (p₀ : Params)
    (ops : List NqsOp) (hops : ∀ op ∈ ops, op.Fits p₀)
    (a : (Fin (n + 1) → ℂ) × MinSRAttrs × smp)
    (h : ((minsrCall env cfg r netP t k sm at₀).call (nqsRun p₀ ops)).1 = .ok a) :
    ((minsrCall env cfg r netP t k sm at₀).call (nqsRun p₀ ops)).2 = nqsRun p₀ ops := by
  cases hst : nqsRun p₀ ops with
  | none => rw [hst] at h; cases h
  | some st =>
    rw [hst] at h
    have hw := wf_run p₀ ops hops st hst
    obtain ⟨u, at₁, sm'⟩ := a
    obtain ⟨p, joint, E, G, p', _, _, _, _, hp', hs, _⟩ :=
      minsrCall_ok env cfg r netP t k sm sm' at₀ at₁ st _ u (Prod.ext h rfl)
    refine hs.trans ?_
    rw [hw.1, ← hw.2.2.1, hw.2.1, ← hw.2.2.2, flattenParams_unflatten] at hp'
    obtain rfl := Except.ok.inj hp'
    rfl

/-- C72: a call with parameters of the right number returns the update for the samples taken with those
parameters; it sets the energy mean and variance exactly if `intStep` is 0, to those of the samples. -/
theorem c72_call {smp : Type} (env : TdvpEnv n smp) (cfg : MinSRCfg) (r : ℕ)
    (netP : List ℝ) (t : ℝ) (k : Option ℕ) (sm sm' : smp) (at₀ : MinSRAttrs) (p₀ : Params)
    (ops : List NqsOp) (hops : ∀ op ∈ ops, op.Fits p₀) (st : NqsInit) (hst : nqsRun p₀ ops = some st)
    (p : Params) (hp : paramUnflatten st.realParams st.sizes netP = .ok p)
    (joint : World (ℝ × (Fin 1 → ℂ) × (Fin (n + 1) → ℂ)))
    (hm : env.measure p sm t = .ok (joint, sm')) (E : SObs (Fin 1)) (G : SObs (Fin (n + 1)))
    (hi : TdvpInput joint r E G) :
    ∃ u, minsrSolve cfg r E G = .ok u ∧
      ((minsrCall env cfg r netP t k sm at₀).call (nqsRun p₀ ops)).1 = .ok (u, (if k = some 0 then
        some (wMean ((allSamples joint).map fun s => (s.1, s.2.1)) 0,
          wVar ((allSamples joint).map fun s => (s.1, s.2.1)) 0) else at₀), sm') := by
  obtain ⟨u, hu⟩ := c47_returns cfg r joint E G hi
  refine ⟨u, hu, ?_⟩
  have hw := wf_run p₀ ops hops st hst
  have hp' : paramUnflatten st.realParams st.sizes (flattenParams st.params) = .ok st.params := by
    rw [hw.1, ← hw.2.2.1, hw.2.1, ← hw.2.2.2, flattenParams_unflatten]
  rw [hst]
  unfold minsrCall
  rw [bind_ok _ _ _ _ _ (call_getParameters st), call_bind, call_setVec, hp]
  dsimp only
  rw [bind_ok _ _ _ _ _ (call_getParams _)]
  dsimp only
  rw [call_bind, call_lift, hm]
  dsimp only
  rw [call_bind, call_lift, hi.data.1]
  dsimp only
  rw [call_bind, call_lift, hi.data.2]
  dsimp only
  rw [call_bind, call_lift, hu]
  dsimp only
  rw [call_bind, call_setVec]
  dsimp only
  rw [hp']
  dsimp only
  by_cases hk : k = some 0
  · have hne := World.map_ne (fun s : ℝ × (Fin 1 → ℂ) × (Fin (n + 1) → ℂ) => (s.1, s.2.1)) joint hi.devices
    have hE := create_eq _ hne
    have hmean : atRank r E.mean = .ok (wMean ((allSamples joint).map fun s => (s.1, s.2.1))) := by
      rw [← Except.ok.inj (hE.symm.trans hi.data.1)]
      dsimp only
      rw [World.const_map, atRank_map _ _ _ hi.rank, allSamples_wmap]
    have hvar : E.var = .ok (List.map (fun _ => wVar ((allSamples joint).map fun s => (s.1, s.2.1))) joint) := by
      have := var_of_create _ hne (by
        intro s hs
        rw [allSamples_wmap] at hs
        obtain ⟨s', hs', rfl⟩ := List.mem_map.mp hs
        exact hi.weights s' hs') E hi.data.1
      rw [this, World.const_map, allSamples_wmap]
    rw [if_pos hk, call_bind, call_lift, hmean]
    dsimp only
    rw [call_bind, call_lift, hvar]
    dsimp only
    rw [call_bind, call_lift, atRank_map _ _ _ hi.rank]
    dsimp only
    rw [if_pos hk]
    rfl
  · rw [if_neg hk, if_neg hk]
    rfl

/-- Case: a network with one parameter whose sampler yields `pairJoint`. -/
example : ∃ (env : TdvpEnv 0 Unit) (E : SObs (Fin 1)) (G : SObs (Fin 1)) (st : NqsInit) (p : Params),
    nqsRun (.real [[3]]) [.eval] = some st ∧ paramUnflatten st.realParams st.sizes [4] = .ok p ∧
    env.measure p () 0 = .ok (pairJoint 1, ()) ∧ TdvpInput (pairJoint 1) 0 E G := by
  obtain ⟨E, G, h⟩ := pair_input 1
  exact ⟨⟨fun _ _ _ => .ok (pairJoint 1, ())⟩, E, G, _, _, rfl, rfl, rfl, h⟩

end JVMC
