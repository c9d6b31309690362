import Verif.Lemmas.MeanGrad
import Verif.Props.Stats
import Verif.Props.Vqs

/-! # Property C68: means and gradients of parametrised estimators -/

namespace JVMC

open Spec

variable {C : Type}

/-- Every estimator with partial derivatives: `_estimator_grad` returns them, in the order of the
parameter vector, for real and for complex parameters. -/
theorem estimatorGrad_isGradient (f : Params → ℂ) (p : Params)
    (hF : HasPartials (logPsiOfVector f p.isReal p.sizes) (flattenParams p)) :
    IsGradient (logPsiOfVector f p.isReal p.sizes) (flattenParams p) (estimatorGrad f p) := by
  cases p with
  | real L => exact c23_real f L hF
  | cpx L => exact c23_cpx_nonholo f L hF

/-- The call on one device per rank, for arbitrary weights and lists of gradients. -/
theorem meanAndGrad_eq (o : EstObs C) (est : Params → C → ℂ) (p : Params) (psiGrad : C → List ℂ)
    (hone : ∀ r ∈ o.samples, List.length r = 1) (hw : ∀ s ∈ allSamples o.samples, 0 ≤ s.1) :
    ∃ obs, o.evaluate est p = .ok obs ∧
    o.meanAndGrad est p psiGrad (flattenParams p).length = .ok ({ o with obs := some obs },
      List.map (fun _ => (wMean ((allSamples o.samples).map fun s =>
          (s.1, (fun _ => est p s.2 : Fin 1 → ℂ))),
        (List.range (flattenParams p).length).map fun i =>
          wCross ((allSamples o.samples).map fun s => (s.1,
            (fun i : ℕ => ((2 * ((psiGrad s.2).getD i 0).re : ℝ) : ℂ)),
            (fun _ => est p s.2 : Fin 1 → ℂ))) i 0
          + ((allSamples o.samples).map fun s : ℝ × C =>
            (s.1 : ℂ) * (estimatorGrad (fun q => est q s.2) p).getD i 0).sum)) o.samples) := by
  have hne : ∀ r ∈ o.samples, r ≠ [] := by
    intro r hr h0
    have := hone r hr
    rw [h0] at this
    cases this
  obtain ⟨a, b, ha, hb, hc⟩ := c41_covar (World.map (fun s : ℝ × C => (s.1,
      (fun i : ℕ => ((2 * ((psiGrad s.2).getD i 0).re : ℝ) : ℂ)),
      (fun _ => est p s.2 : Fin 1 → ℂ))) o.samples) (World.map_ne _ _ hne) (by
    intro s hs
    rw [allSamples_wmap] at hs
    obtain ⟨t, ht, rfl⟩ := List.mem_map.mp hs
    exact hw t ht)
  rw [World.map_map] at ha hb
  have hev : o.evaluate est p = .ok b := hb
  refine ⟨b, hev, ?_⟩
  have hmean : b.mean = List.map (fun _ => wMean ((allSamples o.samples).map fun s =>
      (s.1, (fun _ => est p s.2 : Fin 1 → ℂ)))) o.samples := by
    have h := create_eq (World.map (fun s : ℝ × C => (s.1, (fun _ => est p s.2 : Fin 1 → ℂ)))
      o.samples) (World.map_ne _ _ hne)
    rw [show SObs.create _ = _ from hb] at h
    rw [Except.ok.inj h]
    dsimp only
    rw [World.const_map, allSamples_wmap]
  unfold EstObs.meanAndGrad
  rw [hev]
  change Except.bind (globalSumNone _) _ = _
  rw [globalSumNone_eq _ (by
    intro r hr
    obtain ⟨d, hd, rfl⟩ := List.mem_map.mp hr
    rw [List.length_map]
    exact hone d hd)]
  change Except.bind (SObs.create _) _ = _
  rw [ha]
  change Except.bind (SObs.covar a b) _ = _
  rw [hc]
  change Except.bind (List.mapM _ _) _ = _
  rw [World.const_map, List.map_map]
  dsimp only [Function.comp_def]
  rw [List.zip_map', mapM_ok _ (fun x => (List.range (flattenParams p).length).map fun i =>
    x.1 i 0 + x.2 i) _ (by
      intro x _
      unfold addBroadcast
      rw [if_pos rfl])]
  change Except.ok _ = Except.ok _
  congr 2
  rw [hmean, List.map_map, List.zip_map']
  apply List.map_congr_left
  intro _ _
  dsimp only [Function.comp_def]
  congr 1
  apply List.map_congr_left
  intro i _
  rw [allSamples_wmap]
  congr 1
  rw [← List.map_flatten, list_sum_apply, List.map_map]
  unfold allSamples
  conv_rhs => rw [List.map_flatten, List.sum_flatten, List.map_map]
  congr 1
  apply List.map_congr_left
  intro dev _
  dsimp only [Function.comp]
  rw [list_sum_apply, List.map_map]
  rfl

/-- **C68**: with one device per rank, samples that carry the Born weights of the network, and a
network whose parameters are the `params` handed over: on every rank, `mean_and_grad` returns the
expectation value of the estimator and its gradient with respect to the parameters (both through the
estimator and through the distribution), for every differentiable estimator and network, real or
complex parameters, any number of ranks and samples.

Missing: ranks with several devices, for which the call raises (`c68_devices_violated`). -/
theorem c68_gradient_partial [Fintype C] [DecidableEq C] [Nonempty C] (logPsi est : Params → C → ℂ)
    (p : Params) (psiGrad : C → List ℂ) (o : EstObs C)
    (hone : ∀ r ∈ o.samples, List.length r = 1)
    (hborn : BornWeights (fun s => Complex.exp (logPsi p s)) (allSamples o.samples))
    (hpsi : ∀ s, IsGradient (logPsiOfVector (fun q => logPsi q s) p.isReal p.sizes)
      (flattenParams p) (psiGrad s))
    (hest : ∀ s, HasPartials (logPsiOfVector (fun q => est q s) p.isReal p.sizes)
      (flattenParams p)) :
    ∃ o' g, o.meanAndGrad est p psiGrad (flattenParams p).length = .ok (o', List.map (fun _ =>
        (fun _ => bornMean (fun s => Complex.exp (logPsi p s)) (est p), g)) o.samples) ∧
      IsGradient (logPsiOfVector (fun q => bornMean (fun s => Complex.exp (logPsi q s)) (est q))
        p.isReal p.sizes) (flattenParams p) g := by
  obtain ⟨obs, _, h⟩ := meanAndGrad_eq o est p psiGrad hone hborn.nonneg
  have hm : ∀ f : C → ℂ, ((allSamples o.samples).map fun s => (s.1 : ℂ) * f s.2).sum
      = bornMean (fun s => Complex.exp (logPsi p s)) f := by
    intro f
    rw [sum_weighted]
    unfold bornMean
    simp only [hborn.born]
  refine ⟨{ o with obs := some obs }, (List.range (flattenParams p).length).map fun i =>
      wCross ((allSamples o.samples).map fun s => (s.1,
        (fun i : ℕ => ((2 * ((psiGrad s.2).getD i 0).re : ℝ) : ℂ)),
        (fun _ => est p s.2 : Fin 1 → ℂ))) i 0
      + ((allSamples o.samples).map fun s : ℝ × C =>
        (s.1 : ℂ) * (estimatorGrad (fun q => est q s.2) p).getD i 0).sum, h.trans ?_, ?_⟩
  · congr 2
    apply List.map_congr_left
    intro _ _
    congr 1
    funext i
    rw [wMean_apply, List.map_map]
    exact hm (est p)
  · refine ⟨by simp, fun k hk hg => ?_⟩
    have hself : ∀ f : Params → ℂ,
        logPsiOfVector f p.isReal p.sizes ((flattenParams p).set k ((flattenParams p)[k] + 0)) = f p := by
      intro f
      rw [add_zero, List.set_getElem_self]
      exact logPsi_flatten f p p rfl rfl
    have hd := hasDerivAt_bornMean
      (fun t s => logPsiOfVector (fun q => logPsi q s) p.isReal p.sizes
        ((flattenParams p).set k ((flattenParams p)[k] + t)))
      (fun t s => logPsiOfVector (fun q => est q s) p.isReal p.sizes
        ((flattenParams p).set k ((flattenParams p)[k] + t)))
      (fun s => (psiGrad s).getD k 0) (fun s => (estimatorGrad (fun q => est q s) p).getD k 0) 0
      (fun s => by
        have hk' : k < (psiGrad s).length := by rw [(hpsi s).1]; exact hk
        rw [List.getD_eq_getElem _ _ hk']
        exact (hpsi s).2 k hk hk')
      (fun s => by
        have hi := estimatorGrad_isGradient (fun q => est q s) p (hest s)
        have hk' : k < (estimatorGrad (fun q => est q s) p).length := by rw [hi.1]; exact hk
        rw [List.getD_eq_getElem _ _ hk']
        exact hi.2 k hk hk')
      (weightOf (allSamples o.samples))
      (fun s => by simp only [hself]; exact hborn.born s)
    have hfun : ∀ v, logPsiOfVector (fun q => bornMean (fun s => Complex.exp (logPsi q s)) (est q))
        p.isReal p.sizes v = bornMean
        (fun s => Complex.exp (logPsiOfVector (fun q => logPsi q s) p.isReal p.sizes v))
        (fun s => logPsiOfVector (fun q => est q s) p.isReal p.sizes v) := by
      intro v
      unfold logPsiOfVector
      split
      · rfl
      · unfold bornMean
        simp
    simp only [hfun]
    refine hd.congr_deriv ?_
    rw [List.getElem_map, List.getElem_range]
    simp only [hself]
    rw [sum_weighted (allSamples o.samples) (fun s => (estimatorGrad (fun q => est q s) p).getD k 0)]
    congr 1
    unfold wCross
    rw [wMean_apply, wMean_apply]
    simp only [List.map_map, Function.comp_def]
    rw [sum_weighted (allSamples o.samples) (fun s => ((2 * ((psiGrad s).getD k 0).re : ℝ) : ℂ)),
      sum_weighted (allSamples o.samples) (est p)]
    have hre : ∀ s : C, (starRingEnd ℂ) (((2 * ((psiGrad s).getD k 0).re : ℝ) : ℂ)
        - ∑ s', (weightOf (allSamples o.samples) s' : ℂ)
          * ((2 * ((psiGrad s').getD k 0).re : ℝ) : ℂ))
        = ((2 * ((psiGrad s).getD k 0).re : ℝ) : ℂ) - ∑ s', (weightOf (allSamples o.samples) s' : ℂ)
          * ((2 * ((psiGrad s').getD k 0).re : ℝ) : ℂ) := by
      intro s
      rw [map_sub, map_sum, Complex.conj_ofReal]
      simp only [map_mul, Complex.conj_ofReal]
    simp only [hre]
    rw [sum_weighted (allSamples o.samples) (fun s => (((2 * ((psiGrad s).getD k 0).re : ℝ) : ℂ)
        - ∑ s', (weightOf (allSamples o.samples) s' : ℂ)
          * ((2 * ((psiGrad s').getD k 0).re : ℝ) : ℂ))
        * (est p s - ∑ s', (weightOf (allSamples o.samples) s' : ℂ) * est p s'))]
    exact Finset.sum_congr rfl fun s _ => by ring

/-- C68: if the estimator is the local estimator of an operator `O` (`O_loc` as a function of the
parameters), `mean_and_grad` returns `⟨O⟩` and its gradient. -/
theorem c68_operator_gradient_partial [Fintype C] [DecidableEq C] [Nonempty C]
    (O : Matrix C C ℂ) (logPsi est : Params → C → ℂ)
    (p : Params) (psiGrad : C → List ℂ) (o : EstObs C)
    (hone : ∀ r ∈ o.samples, List.length r = 1)
    (hborn : BornWeights (fun s => Complex.exp (logPsi p s)) (allSamples o.samples))
    (hpsi : ∀ s, IsGradient (logPsiOfVector (fun q => logPsi q s) p.isReal p.sizes)
      (flattenParams p) (psiGrad s))
    (hest : ∀ s, HasPartials (logPsiOfVector (fun q => est q s) p.isReal p.sizes)
      (flattenParams p))
    (hO : ∀ q s, est q s = localValue O (fun s' => Complex.exp (logPsi q s')) s) :
    ∃ o' g, o.meanAndGrad est p psiGrad (flattenParams p).length = .ok (o', List.map (fun _ =>
        (fun _ => expect O (fun s => Complex.exp (logPsi p s)), g)) o.samples) ∧
      IsGradient (logPsiOfVector (fun q => expect O (fun s => Complex.exp (logPsi q s)))
        p.isReal p.sizes) (flattenParams p) g := by
  obtain ⟨o', g, h1, h2⟩ := c68_gradient_partial logPsi est p psiGrad o hone hborn hpsi hest
  have hb : ∀ q, bornMean (fun s => Complex.exp (logPsi q s)) (est q)
      = expect O (fun s => Complex.exp (logPsi q s)) := by
    intro q
    rw [← born_mean O _ (fun s => Complex.exp_ne_zero _)]
    unfold bornMean
    simp only [hO]
  refine ⟨o', g, ?_, ?_⟩
  · rw [h1, hb]
  · simp only [hb] at h2
    exact h2

/-- C68, disagreement: if some rank has several devices, `mean_and_grad` raises `ValueError`, for
every estimator, network and sample. -/
theorem c68_devices_violated (est : Params → C → ℂ) (p : Params) (psiGrad : C → List ℂ) (n : ℕ)
    (o : EstObs C) (hne : ∀ r ∈ o.samples, r ≠ []) (r : List (List (ℝ × C))) (hr : r ∈ o.samples)
    (h2 : 2 ≤ r.length) :
    o.meanAndGrad est p psiGrad n = .error .valueError := by
  unfold EstObs.meanAndGrad EstObs.evaluate
  rw [create_eq _ (World.map_ne _ _ hne)]
  change Except.bind (globalSumNone _) _ = _
  rw [globalSumNone_error _ _ (List.mem_map_of_mem hr) (by rw [List.length_map]; omega)]
  rfl

/-- C68: `mean(params)` on the other hand works with any number of devices: the weighted mean of the
estimator at `params`, whatever was evaluated before. -/
theorem c68_mean (est : Params → C → ℂ) (p : Params) (o : EstObs C)
    (hne : ∀ r ∈ o.samples, r ≠ []) :
    ∃ o', o.mean est (some p) = .ok (o', some (List.map (fun _ => fun _ =>
      ((allSamples o.samples).map fun s => (s.1 : ℂ) * est p s.2).sum) o.samples)) ∧
      o'.samples = o.samples ∧ o'.mean est none = .ok (o', some (List.map (fun _ => fun _ =>
      ((allSamples o.samples).map fun s => (s.1 : ℂ) * est p s.2).sum) o.samples)) := by
  have h := create_eq (World.map (fun s : ℝ × C => (s.1, (fun _ => est p s.2 : Fin 1 → ℂ)))
      o.samples) (World.map_ne _ _ hne)
  have hm : ∀ i : Fin 1, wMean (allSamples (World.map (fun s : ℝ × C =>
      (s.1, (fun _ => est p s.2 : Fin 1 → ℂ))) o.samples)) i
      = ((allSamples o.samples).map fun s => (s.1 : ℂ) * est p s.2).sum := by
    intro i
    rw [wMean_apply, allSamples_wmap, List.map_map]
    rfl
  have hm' : List.map (fun _ => wMean (allSamples (World.map (fun s : ℝ × C =>
      (s.1, (fun _ => est p s.2 : Fin 1 → ℂ))) o.samples))) (World.map (fun s : ℝ × C =>
      (s.1, (fun _ => est p s.2 : Fin 1 → ℂ))) o.samples)
      = List.map (fun _ => fun _ =>
      ((allSamples o.samples).map fun s => (s.1 : ℂ) * est p s.2).sum) o.samples := by
    rw [World.const_map]
    apply List.map_congr_left
    intro _ _
    funext i
    exact hm i
  rw [← hm']
  refine ⟨{ o with obs := some ⟨World.map (fun s => (s.1, fun i =>
      (Real.sqrt s.1 : ℂ) * (s.2 i - wMean (allSamples (World.map (fun s : ℝ × C =>
        (s.1, (fun _ => est p s.2 : Fin 1 → ℂ))) o.samples)) i))) (World.map (fun s : ℝ × C =>
        (s.1, (fun _ => est p s.2 : Fin 1 → ℂ))) o.samples), _⟩ }, ?_, rfl, rfl⟩
  unfold EstObs.mean EstObs.evaluate
  change Except.bind (SObs.create _) _ = _
  rw [h]
  rfl

/-! ### Cases -/

private noncomputable def mgNet : Params → Bool → ℂ
  | .real [[a]], s => if s then (a : ℂ) else 0
  | _, _ => 0

private noncomputable def mgEst : Params → Bool → ℂ
  | .real [[a]], s => if s then (a : ℂ) * Complex.I else 3
  | _, _ => 0

private noncomputable def mgObs : EstObs Bool := ⟨[[[(1 / 4, true), (1 / 2, false)]], [[(1 / 4, true)]]], none⟩

private theorem mg_vec (f : Params → ℂ) (a : ℝ) :
    logPsiOfVector f true [1] [a] = f (.real [[a]]) := by
  have h : paramUnflatten true [1] [a] = .ok (.real [[a]]) :=
    flattenParams_unflatten (.real [[a]])
  unfold logPsiOfVector
  rw [h]

/-- The hypotheses of `c68_gradient_partial` are met by a network and a (complex) estimator with one
parameter, two ranks and three samples. -/
example : ∃ o' g, mgObs.meanAndGrad mgEst (.real [[0]]) (fun s => if s then [1] else [0]) 1
      = .ok (o', List.map (fun _ => (fun _ => bornMean (fun s => Complex.exp (mgNet (.real [[0]]) s))
        (mgEst (.real [[0]])), g)) mgObs.samples) ∧
      IsGradient (logPsiOfVector (fun q => bornMean (fun s => Complex.exp (mgNet q s)) (mgEst q))
        true [1]) [0] g := by
  refine c68_gradient_partial mgNet mgEst (.real [[0]]) (fun s => if s then [1] else [0]) mgObs
    ?_ ?_ ?_ ?_
  · intro r hr
    simp only [mgObs, List.mem_cons, List.not_mem_nil, or_false] at hr
    rcases hr with rfl | rfl <;> rfl
  · constructor
    · intro x hx
      simp only [mgObs, allSamples, List.flatten_cons, List.flatten_nil, List.append_nil,
        List.cons_append, List.nil_append, List.mem_cons, List.not_mem_nil, or_false] at hx
      rcases hx with rfl | rfl | rfl <;> norm_num
    · intro s
      have hn : norm2 (fun s => Complex.exp (mgNet (.real [[0]]) s)) = 2 := by
        unfold norm2
        rw [Fintype.sum_bool]
        simp [mgNet]
        norm_num
      rw [hn]
      cases s
      · simp [mgNet, mgObs, allSamples, weightOf]
      · simp [mgNet, mgObs, allSamples, weightOf]
        norm_num
  · intro s
    refine ⟨by cases s <;> rfl, ?_⟩
    intro k hk hg
    have hk0 : k = 0 := by
      have : k < 1 := hk
      omega
    subst hk0
    show HasDerivAt (fun t : ℝ => logPsiOfVector (fun q => mgNet q s) true [1] [0 + t]) _ 0
    simp only [mg_vec, zero_add]
    cases s
    · exact hasDerivAt_const _ _
    · exact Complex.ofRealCLM.hasDerivAt
  · intro s k hk
    have hk0 : k = 0 := by
      have : k < 1 := hk
      omega
    subst hk0
    show DifferentiableAt ℝ (fun t : ℝ => logPsiOfVector (fun q => mgEst q s) true [1] [0 + t]) 0
    simp only [mg_vec, zero_add]
    cases s
    · exact differentiableAt_const _
    · exact (Complex.ofRealCLM.differentiableAt).mul_const _

/-- A rank with two devices (`c68_devices_violated`). -/
example : (⟨[[[((1 : ℝ) / 2, true)], [(1 / 2, false)]]], none⟩ : EstObs Bool).meanAndGrad mgEst
    (.real [[0]]) (fun s => if s then [1] else [0]) 1 = .error .valueError :=
  c68_devices_violated _ _ _ _ _ (by simp) _ (List.mem_singleton.mpr rfl) (by simp)

end JVMC
