import Verif.Lemmas.MinsrUnique

/-!
# C47, C71: what the update of MinSR depends on
-/

namespace JVMC

open Spec Matrix

variable {n : ℕ}

/-- C47: the update does not depend on which eigenvectors the eigensolver returns, also for degenerate eigenvalues and for
every cutoff. -/
theorem c47_eigensolver (cfg cfg' : MinSRCfg) (heigh : cfg.EighCorrect) (heigh' : cfg'.EighCorrect)
    (ht : cfg.pinvTol = cfg'.pinvTol) (r : ℕ) (joint : World (ℝ × (Fin 1 → ℂ) × (Fin (n + 1) → ℂ)))
    (E : SObs (Fin 1)) (G : SObs (Fin (n + 1))) (hi : TdvpInput joint r E G) :
    minsrSolve cfg r E G = minsrSolve cfg' r E G := by
  rw [minsrSolve_eq cfg r joint E G hi, minsrSolve_eq cfg' r joint E G hi, ht,
    pinv_transfer cfg.eigh cfg'.eigh cfg'.pinvTol (kernelOf (allSamples joint)) (kernelOf (allSamples joint))
      (Equiv.refl _) rfl (heigh _ _ (kernel_hermitian _)) (heigh' _ _ (kernel_hermitian _))]
  rfl

theorem wMean_real {A : Type} (l : List (ℝ × (A → ℂ))) (h : ∀ s ∈ l, ∀ i, (s.2 i).im = 0) (i : A) :
    (starRingEnd ℂ) (wMean l i) = wMean l i := by
  rw [Complex.conj_eq_iff_im]
  unfold wMean
  induction l with
  | nil => simp
  | cons s l ih =>
    rw [List.map_cons, List.sum_cons, Pi.add_apply, Complex.add_im, ih fun t ht => h t (List.mem_cons_of_mem _ ht)]
    simp [h s List.mem_cons_self i]

/-- C71 for real wave functions: if the gradients and the local energies are real, the update is real, whatever the
eigensolver returns for degenerate eigenvalues. Missing: local energies with an imaginary part, see `c71_violated`. -/
theorem c71_real_partial (cfg : MinSRCfg) (heigh : cfg.EighCorrect) (r : ℕ)
    (joint : World (ℝ × (Fin 1 → ℂ) × (Fin (n + 1) → ℂ))) (E : SObs (Fin 1)) (G : SObs (Fin (n + 1)))
    (hi : TdvpInput joint r E G) (hE : ∀ s ∈ allSamples joint, (s.2.1 0).im = 0)
    (hG : ∀ s ∈ allSamples joint, ∀ k, (s.2.2 k).im = 0) :
    ∃ x, minsrSolve cfg r E G = .ok x ∧ ∀ k, (x k).im = 0 := by
  refine ⟨_, minsrSolve_eq cfg r joint E G hi, fun k => ?_⟩
  generalize allSamples joint = l at hE hG
  have hg : ∀ a i, (starRingEnd ℂ) (sampleX l a i) = sampleX l a i := by
    intro a i
    unfold sampleX dGrad
    rw [Matrix.of_apply, map_mul, map_sub, Complex.conj_ofReal, Complex.conj_eq_iff_im.2 (hG l[a] (List.getElem_mem _) i),
      wMean_real _ (by
        intro s hs i
        obtain ⟨t, ht, rfl⟩ := List.mem_map.1 hs
        exact hG t ht i)]
  have he : ∀ a, (starRingEnd ℂ) (sampleE l a) = sampleE l a := by
    intro a
    unfold sampleE dEloc
    rw [map_mul, map_sub, Complex.conj_ofReal, Complex.conj_eq_iff_im.2 (hE l[a] (List.getElem_mem _)),
      wMean_real _ (by
        intro s hs i
        obtain ⟨t, ht, rfl⟩ := List.mem_map.1 hs
        rw [Subsingleton.elim i 0]
        exact hE t ht)]
  have hk : (kernelOf l).map (starRingEnd ℂ) = kernelOf l := by
    ext a b
    rw [Matrix.map_apply, kernelOf_eq, Matrix.mul_apply, map_sum]
    refine Finset.sum_congr rfl fun i _ => ?_
    rw [Matrix.conjTranspose_apply, RCLike.star_def, map_mul, hg, hg, hg]
  have hp := pinv_real cfg.eigh cfg.pinvTol _ hk (heigh _ _ (kernel_hermitian l))
  have hp' : ∀ a b, (starRingEnd ℂ) (pinvHermitian cfg.eigh cfg.pinvTol (kernelOf l) a b) =
      pinvHermitian cfg.eigh cfg.pinvTol (kernelOf l) a b := fun a b => congrFun (congrFun hp a) b
  rw [← Complex.conj_eq_iff_im, Pi.neg_apply, map_neg]
  unfold Matrix.mulVec dotProduct
  simp only [map_sum, map_mul, Matrix.conjTranspose_apply, RCLike.star_def, hg, he, hp']

/-- Case: two samples, one parameter, real energies. -/
example (cfg : MinSRCfg) (heigh : cfg.EighCorrect) :
    ∃ E G x, TdvpInput (pairJoint 2) 0 E G ∧ minsrSolve cfg 0 E G = .ok x ∧ ∀ k : Fin 1, (x k).im = 0 := by
  obtain ⟨E, G, hi⟩ := pair_input 2
  obtain ⟨x, h1, h2⟩ := c71_real_partial cfg heigh 0 _ E G hi
    (by
      intro s hs
      simp only [pairJoint, allSamples, List.flatten_cons, List.flatten_nil, List.append_nil, List.mem_cons,
        List.not_mem_nil, or_false] at hs
      rcases hs with rfl | rfl <;> simp)
    (by
      intro s hs k
      simp only [pairJoint, allSamples, List.flatten_cons, List.flatten_nil, List.append_nil, List.mem_cons,
        List.not_mem_nil, or_false] at hs
      rcases hs with rfl | rfl <;> simp)
  exact ⟨E, G, x, hi, h1, h2⟩

/-- Case: eigensolvers that satisfy the hypothesis of `c47_eigensolver` exist. -/
example : MinSRCfg.EighCorrect ⟨0, "imag", fun _ => someEigh⟩ := minsrEigh_correct _ rfl

end JVMC
