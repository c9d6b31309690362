import Verif.Props.Vqs

/-!
# The gradient mode in terms of derivatives of the wave function (C24)

The mode which is selected when a network is initialised depends on the derivatives of the logarithmic amplitude `f` of
the probe configuration at the initial parameters `L`: these theorems say how, without reference to the internals of the
test.
-/

namespace JVMC

/-! ## Helper lemmas -/

theorem zipWith_flatten_map {A B C : Type} (F : A → B → C) (ls : List ℕ) (m : ℕ → ℕ) (g : ℕ → ℕ → A) (h : ℕ → ℕ → B) :
    List.zipWith F (ls.map fun l => (List.range (m l)).map (g l)).flatten
      (ls.map fun l => (List.range (m l)).map (h l)).flatten =
    (ls.map fun l => (List.range (m l)).map fun j => F (g l j) (h l j)).flatten := by
  induction ls with
  | nil => rfl
  | cons l ls ih =>
    simp only [List.map_cons, List.flatten_cons]
    rw [List.zipWith_append (by simp), ih]
    congr 1
    rw [List.zipWith_map, List.zipWith_self]

theorem grad_cases (realParams : Bool) (gr gi : List ℂ) :
    (gradMode realParams gr gi = .holo ↔ crDefect gr gi ≤ 1e-14) ∧
    (gradMode realParams gr gi = (if realParams then .real else .cpxNonholo) ↔ 1e-14 < crDefect gr gi) := by
  have h0 : |crDefect gr gi| = crDefect gr gi := abs_of_nonneg (by unfold crDefect; positivity)
  unfold gradMode
  have e : (|crDefect gr gi| ≤ max (1e-9 * |crDefect gr gi|) 1e-14) ↔ crDefect gr gi ≤ 1e-14 := by
    rw [isclose_iff, h0]
  by_cases hc : crDefect gr gi ≤ 1e-14
  · rw [if_pos (e.2 hc)]
    refine ⟨⟨fun _ => hc, fun _ => rfl⟩, ⟨fun h => ?_, fun h => absurd hc (not_le.2 h)⟩⟩
    cases realParams <;> cases h
  · rw [if_neg (fun h => hc (e.1 h))]
    refine ⟨⟨fun h => ?_, fun h => absurd h hc⟩, ⟨fun _ => not_le.1 hc, fun _ => rfl⟩⟩
    cases realParams <;> cases h

/-! ## Properties -/

/-- **C24**, real parameters: the real mode is selected if and only if the root of the sum of the squared moduli of the
derivatives of `log ψ` with respect to the parameters (`flatGradient`, see `c23_real`), divided by their number, is
above `1e-14`; otherwise the network is treated as holomorphic. -/
theorem c24_real_iff (f : List (List ℝ) → ℂ) (L : List (List ℝ)) :
    (initModeReal f L = .real ↔
      1e-14 < Real.sqrt (((flatGradient f L).map Complex.normSq).sum) / (flatGradient f L).length) ∧
    (initModeReal f L ≠ .real → initModeReal f L = .holo) := by
  have hd : crDefect ((jaxGradReal (fun p => (f p).re) L).flatten.map fun r : ℝ => (r : ℂ))
      ((jaxGradReal (fun p => (f p).im) L).flatten.map fun r : ℝ => (r : ℂ)) =
      Real.sqrt (((flatGradient f L).map Complex.normSq).sum) / (flatGradient f L).length := by
    have hlen : (flatGradient f L).length = (jaxGradReal (fun p => (f p).re) L).flatten.length := by
      unfold flatGradient
      rw [List.length_zipWith, List.length_flatten, List.length_flatten, jaxGradReal_lengths, jaxGradReal_lengths,
        min_self]
    unfold crDefect
    rw [hlen, List.length_map]
    congr 3
    unfold flatGradient
    rw [List.map_zipWith, List.zipWith_map]
    congr 1
    funext a b
    rw [Complex.normSq_apply, Complex.normSq_apply]
    simp
  have h := grad_cases true ((jaxGradReal (fun p => (f p).re) L).flatten.map fun r : ℝ => (r : ℂ))
    ((jaxGradReal (fun p => (f p).im) L).flatten.map fun r : ℝ => (r : ℂ))
  rw [hd] at h
  refine ⟨h.2, fun hne => h.1.2 (not_lt.1 fun hlt => hne (h.2.2 hlt))⟩

/-- The derivatives of `f` with respect to the real and to the imaginary part of entry `j` of parameter array `l`. -/
noncomputable def partialRe (f : List (List ℂ) → ℂ) (L : List (List ℂ)) (l j : ℕ) : ℂ :=
  deriv (fun t : ℝ => f (setEntry L l j ((leafOf L l).getD j 0 + (t : ℂ)))) 0

@[inherit_doc partialRe]
noncomputable def partialIm (f : List (List ℂ) → ℂ) (L : List (List ℂ)) (l j : ℕ) : ℂ :=
  deriv (fun t : ℝ => f (setEntry L l j ((leafOf L l).getD j 0 + Complex.I * (t : ℂ)))) 0

/-- `f` can be differentiated with respect to real and imaginary parts of all parameters. -/
def RealDifferentiable (f : List (List ℂ) → ℂ) (L : List (List ℂ)) : Prop := ∀ l j,
  DifferentiableAt ℝ (fun t : ℝ => f (setEntry L l j ((leafOf L l).getD j 0 + (t : ℂ)))) 0 ∧
  DifferentiableAt ℝ (fun t : ℝ => f (setEntry L l j ((leafOf L l).getD j 0 + Complex.I * (t : ℂ)))) 0

/-- The norm of the vector of the derivatives `∂f/∂x + i ∂f/∂y` over all entries; it is zero if and only if the
Cauchy-Riemann equations hold. -/
noncomputable def cauchyRiemannNorm (f : List (List ℂ) → ℂ) (L : List (List ℂ)) : ℝ :=
  Real.sqrt (((List.range L.length).map fun l => ((List.range (leafOf L l).length).map fun j =>
    ‖partialRe f L l j + Complex.I * partialIm f L l j‖ ^ 2).sum).sum)

/-- **C24**, complex parameters: the holomorphic mode is selected if and only if the Cauchy-Riemann equations hold at the
probe point up to `1e-14` times the number of parameters; otherwise the non-holomorphic mode is. -/
theorem c24_cpx_iff (f : List (List ℂ) → ℂ) (L : List (List ℂ)) (hf : RealDifferentiable f L) :
    (initModeCpx f L = .holo ↔ cauchyRiemannNorm f L / L.flatten.length ≤ 1e-14) ∧
    (initModeCpx f L = .cpxNonholo ↔ 1e-14 < cauchyRiemannNorm f L / L.flatten.length) := by
  have hre : ∀ {g : ℝ → ℂ}, DifferentiableAt ℝ g 0 → deriv (fun t => (g t).re) 0 = (deriv g 0).re := fun hg =>
    (Complex.reCLM.hasFDerivAt.comp_hasDerivAt (0 : ℝ) hg.hasDerivAt).deriv
  have him : ∀ {g : ℝ → ℂ}, DifferentiableAt ℝ g 0 → deriv (fun t => (g t).im) 0 = (deriv g 0).im := fun hg =>
    (Complex.imCLM.hasFDerivAt.comp_hasDerivAt (0 : ℝ) hg.hasDerivAt).deriv
  have hd : crDefect (jaxGradCpx (fun p => (f p).re) L).flatten (jaxGradCpx (fun p => (f p).im) L).flatten
      = cauchyRiemannNorm f L / L.flatten.length := by
    have hlen : (jaxGradCpx (fun p => (f p).re) L).flatten.length = L.flatten.length := by
      rw [List.length_flatten, List.length_flatten]
      congr 1
      unfold jaxGradCpx
      apply List.ext_getElem
      · simp
      · intro i h1 h2
        have hi : i < L.length := by simpa using h1
        simp [leafOf, hi]
    unfold crDefect cauchyRiemannNorm
    rw [hlen]
    congr 2
    unfold jaxGradCpx
    rw [zipWith_flatten_map, List.sum_flatten, List.map_map]
    congr 2
    funext l
    rw [Function.comp_apply]
    congr 2
    funext j
    rw [← Complex.normSq_eq_norm_sq, hre (hf l j).1, hre (hf l j).2, him (hf l j).1, him (hf l j).2]
    change Complex.normSq (⟨(partialRe f L l j).re, -(partialIm f L l j).re⟩ -
      Complex.I * ⟨(partialRe f L l j).im, -(partialIm f L l j).im⟩) = _
    rw [Complex.normSq_apply, Complex.normSq_apply]
    simp
    ring
  have h := grad_cases false (jaxGradCpx (fun p => (f p).re) L).flatten (jaxGradCpx (fun p => (f p).im) L).flatten
  rw [hd] at h
  exact h

/-- **C24**: a network that depends holomorphically on its complex parameters always gets the holomorphic mode. -/
theorem c24_holomorphic (f : List (List ℂ) → ℂ) (L : List (List ℂ))
    (hf : ∀ l j, DifferentiableAt ℂ (fun w : ℂ => f (setEntry L l j w)) ((leafOf L l).getD j 0)) :
    initModeCpx f L = .holo := by
  have hx : ∀ l j, HasDerivAt (fun t : ℝ => f (setEntry L l j ((leafOf L l).getD j 0 + (t : ℂ))))
      (deriv (fun w : ℂ => f (setEntry L l j w)) ((leafOf L l).getD j 0)) 0 := by
    intro l j
    have h1 : HasDerivAt (fun t : ℝ => (leafOf L l).getD j 0 + (t : ℂ)) 1 0 :=
      (Complex.ofRealCLM.hasDerivAt (x := (0 : ℝ))).const_add _
    have h2 := HasDerivAt.comp_of_eq (0 : ℝ) (hf l j).hasDerivAt h1 (by simp)
    rw [mul_one] at h2
    exact h2
  have hy : ∀ l j, HasDerivAt (fun t : ℝ => f (setEntry L l j ((leafOf L l).getD j 0 + Complex.I * (t : ℂ))))
      (deriv (fun w : ℂ => f (setEntry L l j w)) ((leafOf L l).getD j 0) * Complex.I) 0 := by
    intro l j
    have h1 : HasDerivAt (fun t : ℝ => (leafOf L l).getD j 0 + Complex.I * (t : ℂ)) (Complex.I * 1) 0 :=
      ((Complex.ofRealCLM.hasDerivAt (x := (0 : ℝ))).const_mul Complex.I).const_add _
    rw [mul_one] at h1
    exact HasDerivAt.comp_of_eq (0 : ℝ) (hf l j).hasDerivAt h1 (by simp)
  rw [(c24_cpx_iff f L fun l j => ⟨(hx l j).differentiableAt, (hy l j).differentiableAt⟩).1]
  have h0 : cauchyRiemannNorm f L = 0 := by
    unfold cauchyRiemannNorm
    have hz : ∀ l j, ‖partialRe f L l j + Complex.I * partialIm f L l j‖ ^ 2 = 0 := by
      intro l j
      have e1 : partialRe f L l j = _ := (hx l j).deriv
      have e2 : partialIm f L l j = _ := (hy l j).deriv
      rw [e1, e2, mul_left_comm, Complex.I_mul_I]
      simp
    simp only [hz]
    simp
  rw [h0, zero_div]
  norm_num

/-- Case: one complex parameter `z` with `log ψ = conj z` does not get the holomorphic mode. -/
example : initModeCpx (fun M => (starRingEnd ℂ) ((leafOf M 0).getD 0 0)) [[1]] = .cpxNonholo := by
  have e : ∀ l j, (∀ w : ℂ, (leafOf (setEntry [[(1 : ℂ)]] l j w) 0).getD 0 0 = if l = 0 ∧ j = 0 then w else 1) := by
    intro l j w
    cases l with
    | zero => cases j <;> simp [setEntry, leafOf]
    | succ l => simp [setEntry, leafOf]
  have hx : ∀ l j, HasDerivAt (fun t : ℝ => (starRingEnd ℂ) ((leafOf (setEntry [[(1 : ℂ)]] l j
      ((leafOf [[(1 : ℂ)]] l).getD j 0 + (t : ℂ))) 0).getD 0 0)) (if l = 0 ∧ j = 0 then 1 else 0) 0 := by
    intro l j
    simp only [e]
    by_cases h : l = 0 ∧ j = 0
    · simp only [h, and_self, if_true, map_add, Complex.conj_ofReal]
      exact (Complex.ofRealCLM.hasDerivAt (x := (0 : ℝ))).const_add _
    · simp only [h, if_false]
      exact hasDerivAt_const _ _
  have hy : ∀ l j, HasDerivAt (fun t : ℝ => (starRingEnd ℂ) ((leafOf (setEntry [[(1 : ℂ)]] l j
      ((leafOf [[(1 : ℂ)]] l).getD j 0 + Complex.I * (t : ℂ))) 0).getD 0 0))
      (if l = 0 ∧ j = 0 then -Complex.I * 1 else 0) 0 := by
    intro l j
    simp only [e]
    by_cases h : l = 0 ∧ j = 0
    · simp only [h, and_self, if_true, map_add, map_mul, Complex.conj_ofReal, Complex.conj_I]
      exact ((Complex.ofRealCLM.hasDerivAt (x := (0 : ℝ))).const_mul (-Complex.I)).const_add _
    · simp only [h, if_false]
      exact hasDerivAt_const _ _
  rw [(c24_cpx_iff _ _ fun l j => ⟨(hx l j).differentiableAt, (hy l j).differentiableAt⟩).2]
  have e1 : partialRe (fun M => (starRingEnd ℂ) ((leafOf M 0).getD 0 0)) [[1]] 0 0 = 1 := (hx 0 0).deriv
  have e2 : partialIm (fun M => (starRingEnd ℂ) ((leafOf M 0).getD 0 0)) [[1]] 0 0 = -Complex.I * 1 := (hy 0 0).deriv
  unfold cauchyRiemannNorm
  simp only [List.length_singleton, List.range_one, List.map_cons, List.map_nil, List.sum_singleton,
    show leafOf [[(1 : ℂ)]] 0 = [1] from rfl, e1, e2]
  rw [show (1 : ℂ) + Complex.I * (-Complex.I * 1) = 2 by
    rw [mul_one, mul_neg, Complex.I_mul_I]; norm_num]
  norm_num
  rw [show (4 : ℝ) = 2 ^ 2 by norm_num, Real.sqrt_sq (by norm_num)]
  norm_num

end JVMC
