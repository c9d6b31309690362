import Verif.Lemmas.RnnSym
import Verif.Props.SymNet

/-!
# Properties of recurrent networks (C58, C59)

Missing: networks with complex parameters, for which both properties are false.
-/

namespace JVMC

open Spec Matrix

/-! ## C58 -/

/-- C58 for chains: the probabilities `|RNN(s)|^(1/logProbFactor)` of all configurations add up to one. `cell` is any
stack of cells and `dense` any output layer with real parameters. -/
theorem c58_1d_partial {H O : Type} (inputDim : ℕ) (hD : 0 < inputDim) (logProbFactor : ℝ) (hκ : logProbFactor ≠ 0)
    (realValuedOutput : Bool) (dense : O → ℕ → ℝ) (cell : H → (ℕ → ℝ) → H × O) (zeroCarry : H) (L : ℕ) :
    let net : Rnn1D H O := ⟨realHead inputDim logProbFactor realValuedOutput dense, cell, zeroCarry⟩
    ∑ s : Fin L → Fin inputDim, ‖Complex.exp (rnn1d net (listConfig fun i => (s i : ℤ)))‖ ^ (1 / logProbFactor) = 1 :=
  sum_rnn1d ⟨realHead inputDim logProbFactor realValuedOutput dense, cell, zeroCarry⟩
    (realHead_normed inputDim hD logProbFactor hκ realValuedOutput dense) L

/-- C58 for square lattices: rows `s i` of entries `s i j`. -/
theorem c58_2d_partial {H O : Type} (inputDim : ℕ) (hD : 0 < inputDim) (logProbFactor : ℝ) (hκ : logProbFactor ≠ 0)
    (realValuedOutput : Bool) (dense : O → ℕ → ℝ) (cell : H → H → (ℕ → ℝ) → (ℕ → ℝ) → H × O) (zeroCarry : ℕ → H)
    (L : ℕ) :
    let net : Rnn2D H O := ⟨realHead inputDim logProbFactor realValuedOutput dense, cell, zeroCarry⟩
    ∑ s : Fin L → Fin L → Fin inputDim,
      ‖Complex.exp (rnn2d net L (List.ofFn fun i => List.ofFn fun j => (s i j : ℤ)))‖ ^ (1 / logProbFactor) = 1 :=
  sum_rnn2d ⟨realHead inputDim logProbFactor realValuedOutput dense, cell, zeroCarry⟩
    (realHead_normed inputDim hD logProbFactor hκ realValuedOutput dense) L

/-! ## C59 -/

/-- C59 for chains: the probability to draw `s` is `|RNN(s)|^(1/logProbFactor)`. -/
theorem c59_1d_partial {H O : Type} (inputDim : ℕ) (logProbFactor : ℝ) (hκ : logProbFactor ≠ 0)
    (realValuedOutput : Bool) (dense : O → ℕ → ℝ) (cell : H → (ℕ → ℝ) → H × O) (zeroCarry : H) (L : ℕ)
    (hD : 0 < inputDim) (s : Fin L → Fin inputDim) :
    let net : Rnn1D H O := ⟨realHead inputDim logProbFactor realValuedOutput dense, cell, zeroCarry⟩
    prob (rnn1dSample net L) (listConfig fun i => (s i : ℤ)) =
      ‖Complex.exp (rnn1d net (listConfig fun i => (s i : ℤ)))‖ ^ (1 / logProbFactor) :=
  prob_rnn1d ⟨realHead inputDim logProbFactor realValuedOutput dense, cell, zeroCarry⟩
    (realHead_normed inputDim hD logProbFactor hκ realValuedOutput dense) L
    (listConfig_mem (D := inputDim) fun i => ⟨by positivity, by exact_mod_cast (s i).isLt⟩)

/-- C59 for square lattices. -/
theorem c59_2d_partial {H O : Type} (inputDim : ℕ) (hD : 0 < inputDim) (logProbFactor : ℝ) (hκ : logProbFactor ≠ 0)
    (realValuedOutput : Bool) (dense : O → ℕ → ℝ) (cell : H → H → (ℕ → ℝ) → (ℕ → ℝ) → H × O) (zeroCarry : ℕ → H)
    (L : ℕ) (s : Fin L → Fin L → Fin inputDim) :
    let net : Rnn2D H O := ⟨realHead inputDim logProbFactor realValuedOutput dense, cell, zeroCarry⟩
    prob (rnn2dSample net L) (List.ofFn fun i => List.ofFn fun j => (s i j : ℤ)) =
      ‖Complex.exp (rnn2d net L (List.ofFn fun i => List.ofFn fun j => (s i j : ℤ)))‖ ^ (1 / logProbFactor) := by
  refine prob_rnn2d ⟨realHead inputDim logProbFactor realValuedOutput dense, cell, zeroCarry⟩
    (realHead_normed inputDim hD logProbFactor hκ realValuedOutput dense) L ?_
  rw [mem_listsOver]
  refine ⟨List.length_ofFn, fun a ha => ?_⟩
  obtain ⟨i, rfl⟩ := (List.mem_ofFn' _ _).mp ha
  exact listConfig_mem (D := inputDim) fun j => ⟨by positivity, by exact_mod_cast (s i j).isLt⟩

/-- C59 for symmetrised networks on chains, with separate averaging and the default `logProbFactor`: after the random
symmetry operation, the probability of a configuration is the square of the modulus of the symmetrised wave function.
(Flipping spins needs two local states.) -/
theorem c59_sym_1d_partial {H O : Type} (inputDim : ℕ) (hD : 0 < inputDim) (realValuedOutput : Bool) (dense : O → ℕ → ℝ)
    (cell : H → (ℕ → ℝ) → H × O) (zeroCarry : H) (L : ℕ) (hL : 0 < L) (translation reflection spinflip : Bool)
    (tf rf sf : ℂ) (hsf : spinflip = true → inputDim = 2) (s : Fin L → ℤ) (hs : ∀ i, 0 ≤ s i ∧ s i < inputDim) :
    let net : Rnn1D H O := ⟨realHead inputDim (1 / 2) realValuedOutput dense, cell, zeroCarry⟩
    let sym := getOrbit1D L translation reflection spinflip tf rf sf
    prob (genSample1D net L sym.orbit) s =
      ‖Complex.exp (symNet avgSep (fun x => rnn1d net (listConfig x)) sym.orbit sym.factor s)‖ ^ 2 := by
  have : NeZero L := ⟨hL.ne'⟩
  have hg := group1D L translation reflection spinflip tf rf sf
  refine prob_genSample1D ⟨realHead inputDim (1 / 2) realValuedOutput dense, cell, zeroCarry⟩
    (realHead_normed inputDim hD (1 / 2) (by norm_num) realValuedOutput dense) rfl hg _ s fun o ho => ?_
  refine imageOf_valid (hg.signed o ho) ?_ hs
  cases spinflip with
  | true => exact Or.inl (hsf rfl)
  | false =>
    right
    intro i
    rw [ones_closure _ (ones_1d L hL translation reflection) o ((hg.generated o).mp ho)]

/-- C59 for symmetrised networks on square lattices. -/
theorem c59_sym_2d_partial {H O : Type} (inputDim : ℕ) (hD : 0 < inputDim) (realValuedOutput : Bool) (dense : O → ℕ → ℝ)
    (cell : H → H → (ℕ → ℝ) → (ℕ → ℝ) → H × O) (zeroCarry : ℕ → H) (L : ℕ) (hL : 0 < L)
    (translation reflection rotation spinflip : Bool) (tf rf qf sf : ℂ) (hsf : spinflip = true → inputDim = 2)
    (s : Fin (L * L) → ℤ) (hs : ∀ i, 0 ≤ s i ∧ s i < inputDim) :
    let net : Rnn2D H O := ⟨realHead inputDim (1 / 2) realValuedOutput dense, cell, zeroCarry⟩
    let sym := getOrbit2D L translation reflection rotation spinflip tf rf qf sf
    prob (genSample2D net L sym.orbit) s =
      ‖Complex.exp (symNet avgSep (fun x => rnn2d net L (rowsConfig x)) sym.orbit sym.factor s)‖ ^ 2 := by
  have : NeZero L := ⟨hL.ne'⟩
  have hg := group2D L translation reflection rotation spinflip tf rf qf sf
  refine prob_genSample2D ⟨realHead inputDim (1 / 2) realValuedOutput dense, cell, zeroCarry⟩
    (realHead_normed inputDim hD (1 / 2) (by norm_num) realValuedOutput dense) rfl hg _ s fun o ho => ?_
  refine imageOf_valid (hg.signed o ho) ?_ hs
  cases spinflip with
  | true => exact Or.inl (hsf rfl)
  | false =>
    right
    intro i
    rw [ones_closure _ (ones_2d L hL translation reflection rotation) o ((hg.generated o).mp ho)]

/-! ## Complex parameters -/

/-- A network with complex parameters whose output layer returns `log(-1/2)`. -/
noncomputable def cpxExampleNet : Rnn1D Unit Unit :=
  ⟨cpxHead 2 (1 / 2) fun _ _ => Complex.log (-1 / 2), fun _ _ => ((), ()), ()⟩

theorem cpxExample_logProbs (j : ℕ) (hj : j < 2) :
    Real.exp ((cpxExampleNet.head.logProbs () j).re / (1 / 2)) = if j = 0 then 2 else 1 := by
  have hlog : (Complex.log (-1 / 2)).re < 0 := by
    rw [Complex.log_re]
    apply Real.log_neg <;> norm_num
  have hm : lexMax 0 (Complex.log (-1 / 2)) = 0 := by
    unfold lexMax
    rw [if_neg]
    rintro (h | h)
    · rw [Complex.zero_re] at h
      linarith
    · rw [Complex.zero_re] at h
      linarith [h.1]
  change Real.exp ((logCoeffsToLogProbsCpx 2 (1 / 2) (fun _ => Complex.log (-1 / 2)) j).re / (1 / 2)) = _
  unfold logCoeffsToLogProbsCpx
  have hexp : Complex.exp (Complex.log (-1 / 2)) = -1 / 2 := Complex.exp_log (by norm_num)
  have hsum : Complex.log (1 + -1 / 2) = ((Real.log (1 / 2) : ℝ) : ℂ) := by
    rw [Complex.ofReal_log (by norm_num)]
    norm_num
  have hl2 : Real.exp (Real.log (1 / 2)) = 1 / 2 := Real.exp_log (by norm_num)
  have hl3 : Real.log ‖(-1 / 2 : ℂ)‖ = Real.log (1 / 2) := by norm_num
  dsimp only
  rw [show (List.range (2 - 1)) = [0] from rfl]
  simp only [List.map_cons, List.map_nil, List.foldl_cons, List.foldl_nil, Nat.add_eq_zero_iff, one_ne_zero, and_false,
    if_false, if_true, hm]
  rw [Finset.sum_range_succ, Finset.sum_range_one]
  simp only [one_ne_zero, if_false, if_true, sub_zero, Complex.exp_zero, hexp]
  rw [hsum]
  have h12 : j = 0 ∨ j = 1 := by omega
  rcases h12 with rfl | rfl
  · simp only [if_true, zero_sub]
    have : (((1 / 2 : ℝ) : ℂ) * -((Real.log (1 / 2) : ℝ) : ℂ)).re / (1 / 2) = -Real.log (1 / 2) := by
      rw [Complex.re_ofReal_mul, Complex.neg_re, Complex.ofReal_re]
      ring
    rw [this, Real.exp_neg, hl2]
    norm_num
  · simp only [one_ne_zero, if_false]
    have : (((1 / 2 : ℝ) : ℂ) * (Complex.log (-1 / 2) - ((Real.log (1 / 2) : ℝ) : ℂ))).re / (1 / 2) = 0 := by
      rw [Complex.re_ofReal_mul, Complex.sub_re, Complex.ofReal_re, Complex.log_re, hl3]
      ring
    rw [this, Real.exp_zero]

theorem cpxExample_select (x : ℤ) (hx : 0 ≤ x ∧ x < 2) :
    ‖Complex.exp (rnn1d cpxExampleNet [x])‖ ^ (1 / (1 / 2 : ℝ)) = if x = 0 then 2 else 1 := by
  have h1 : rnn1d cpxExampleNet [x] = cpxExampleNet.head.logProbs () x.toNat := by
    unfold rnn1d
    simp only [List.map_cons, List.map_nil, rnnScan, List.sum_cons, List.sum_nil, add_zero]
    exact select_oneHot cpxExampleNet.head () (mem_localStates.mpr hx)
  rw [h1, norm_exp_rpow, cpxExample_logProbs _ (by omega)]
  have : x.toNat = 0 ↔ x = 0 := by omega
  simp only [this]

/-- C58 fails with complex parameters (`realValuedParams=False`): for one site with two local states the
"probabilities" are 2 and 1. -/
theorem c58_complex_violated :
    ∃ (dense : Unit → ℕ → ℂ) (cell : Unit → (ℕ → ℝ) → Unit × Unit),
      let net : Rnn1D Unit Unit := ⟨cpxHead 2 (1 / 2) dense, cell, ()⟩
      ∑ s : Fin 1 → Fin 2, ‖Complex.exp (rnn1d net (listConfig fun i => (s i : ℤ)))‖ ^ (1 / (1 / 2) : ℝ) = 3 := by
  refine ⟨fun _ _ => Complex.log (-1 / 2), fun _ _ => ((), ()), ?_⟩
  change ∑ s : Fin 1 → Fin 2, ‖Complex.exp (rnn1d cpxExampleNet (listConfig fun i => (s i : ℤ)))‖ ^ (1 / (1 / 2) : ℝ) = 3
  rw [Fintype.sum_equiv (Equiv.funUnique (Fin 1) (Fin 2)) _
    (fun a : Fin 2 => ‖Complex.exp (rnn1d cpxExampleNet [(a : ℤ)])‖ ^ (1 / (1 / 2) : ℝ)) (by
      intro s
      rfl), Fin.sum_univ_two, cpxExample_select _ (by norm_num), cpxExample_select _ (by norm_num)]
  norm_num

/-- C59 fails with complex parameters: the configuration with `|RNN(s)|^2 = 2` is drawn with probability 2/3. -/
theorem c59_complex_violated :
    ∃ (dense : Unit → ℕ → ℂ) (cell : Unit → (ℕ → ℝ) → Unit × Unit),
      let net : Rnn1D Unit Unit := ⟨cpxHead 2 (1 / 2) dense, cell, ()⟩
      prob (rnn1dSample net 1) (listConfig fun _ : Fin 1 => 0) = 2 / 3 ∧
        ‖Complex.exp (rnn1d net (listConfig fun _ : Fin 1 => 0))‖ ^ (1 / (1 / 2) : ℝ) = 2 := by
  refine ⟨fun _ _ => Complex.log (-1 / 2), fun _ _ => ((), ()), ?_⟩
  constructor
  · change prob (rnn1dSample cpxExampleNet 1) [0] = 2 / 3
    rw [prob_eq_expect, rnn1dSample, rnnSampleScan, expect_bind]
    simp_rw [expect_bind, rnnSampleScan, expect_pure]
    unfold RnnHead.draw categorical expect
    change (((List.range 2).map fun j : ℕ => ((j : ℤ), Real.exp ((cpxExampleNet.head.logProbs () j).re / (1 / 2)) /
      ∑ k ∈ Finset.range 2, Real.exp ((cpxExampleNet.head.logProbs () k).re / (1 / 2)))).map _).sum = _
    rw [Finset.sum_range_succ, Finset.sum_range_one, cpxExample_logProbs 0 (by norm_num),
      cpxExample_logProbs 1 (by norm_num)]
    rw [show List.range 2 = [0, 1] from rfl]
    simp only [List.map_cons, List.map_nil, List.sum_cons, List.sum_nil, cpxExample_logProbs 0 (by norm_num),
      cpxExample_logProbs 1 (by norm_num)]
    norm_num
  · exact (cpxExample_select 0 (by norm_num)).trans (if_pos rfl)

/-! ## Other averages and factors -/

/-- A network on two sites whose output is determined by the previous local state. -/
noncomputable def pairNet (κ : ℝ) (r : Bool) (dense : (ℕ → ℝ) → ℕ → ℝ) : Rnn1D Unit (ℕ → ℝ) :=
  ⟨realHead 2 κ r dense, fun _ x => ((), x), ()⟩

theorem pairNet_eq (κ : ℝ) (r : Bool) (dense : (ℕ → ℝ) → ℕ → ℝ) (a b : ℤ) (ha : 0 ≤ a ∧ a < 2) (hb : 0 ≤ b ∧ b < 2) :
    rnn1d (pairNet κ r dense) (listConfig ![a, b]) =
      logCoeffsToLogProbs 2 κ r (dense fun _ => 0) a.toNat +
        logCoeffsToLogProbs 2 κ r (dense (oneHot 2 a)) b.toNat := by
  rw [show listConfig ![a, b] = [a, b] from rfl]
  unfold rnn1d
  simp only [List.map_cons, List.map_nil, rnnScan, List.sum_cons, List.sum_nil, add_zero]
  congr 1
  · exact select_oneHot (pairNet κ r dense).head _ (mem_localStates.mpr ha)
  · exact select_oneHot (pairNet κ r dense).head _ (mem_localStates.mpr hb)

theorem pair_re (κ : ℝ) (r : Bool) (c : ℕ → ℝ) (j : ℕ) :
    (logCoeffsToLogProbs 2 κ r c j).re = κ * ((if j = 0 then 0 else c (j - 1)) - Real.log (1 + Real.exp (c 0))) := by
  rw [logCoeffs_re, logSoftmax_eq 2 (by norm_num), Finset.sum_range_succ, Finset.sum_range_one]
  simp

theorem pair_valid : ∀ o ∈ (getOrbit1D 2 false true false 1 1 1).orbit, ValidConfig 2 (imageOf o ![0, 1]) := by
  intro o ho
  have hs : ValidConfig 2 (![0, 1] : Fin 2 → ℤ) := by
    unfold ValidConfig
    decide
  exact imageOf_valid ((group1D 2 false true false 1 1 1).signed o ho) (Or.inl rfl) hs

/-- The mean over the orbit of two sites. -/
theorem pair_prob (κ : ℝ) (hκ : κ ≠ 0) (r : Bool) (dense : (ℕ → ℝ) → ℕ → ℝ) :
    prob (genSample1D (pairNet κ r dense) 2 (getOrbit1D 2 false true false 1 1 1).orbit) ![0, 1] =
      (Real.exp ((rnn1d (pairNet κ r dense) (listConfig ![0, 1])).re / κ) +
        Real.exp ((rnn1d (pairNet κ r dense) (listConfig ![1, 0])).re / κ)) / 2 := by
  rw [prob_genSample1D_mean (pairNet κ r dense) (realHead_normed 2 (by norm_num) κ hκ r dense)
    (group1D 2 false true false 1 1 1) _ pair_valid, ((orbit_two 1).map _).sum_eq, (orbit_two 1).length_eq]
  simp only [List.map_cons, List.map_nil, List.sum_cons, List.sum_nil, add_zero, imageOf_two.1, imageOf_two.2.1]
  norm_num
  rfl

/-- Separate averaging does not describe the samples if `logProbFactor` is one (e.g. POVM distributions). -/
theorem c59_sym_povm_violated :
    ∃ (dense : (ℕ → ℝ) → ℕ → ℝ) (cell : Unit → (ℕ → ℝ) → Unit × (ℕ → ℝ)),
      let net : Rnn1D Unit (ℕ → ℝ) := ⟨realHead 2 1 true dense, cell, ()⟩
      let sym := getOrbit1D 2 false true false 1 1 1
      prob (genSample1D net 2 sym.orbit) ![0, 1] ≠
        ‖Complex.exp (symNet avgSep (fun x => rnn1d net (listConfig x)) sym.orbit sym.factor ![0, 1])‖ ^ (1 / 1 : ℝ) := by
  refine ⟨fun x _ => x 0 * Real.log 3, fun _ x => ((), x), ?_⟩
  change prob (genSample1D (pairNet 1 true fun x _ => x 0 * Real.log 3) 2 (getOrbit1D 2 false true false 1 1 1).orbit)
    ![0, 1] ≠ ‖Complex.exp (symNet avgSep (fun x => rnn1d (pairNet 1 true fun x _ => x 0 * Real.log 3) (listConfig x)) _
      _ ![0, 1])‖ ^ (1 / 1 : ℝ)
  intro h
  have hsq := congrArg (fun x => x ^ 2) h
  rw [div_one, Real.rpow_one, pair_prob 1 one_ne_zero] at hsq
  unfold symNet at hsq
  rw [avgSep_norm _ _ (by
    rw [symImages_eq]
    have := List.ne_nil_of_mem (group1D 2 false true false 1 1 1).one
    simpa using this), symImages_eq, List.length_map, List.length_map, List.map_map, List.map_map,
    ((orbit_two 1).map _).sum_eq, (orbit_two 1).length_eq] at hsq
  simp only [List.map_cons, List.map_nil, List.sum_cons, List.sum_nil, add_zero, imageOf_two.1, imageOf_two.2.1,
    Function.comp_apply] at hsq
  have e1 : Real.exp ((rnn1d (pairNet 1 true fun x _ => x 0 * Real.log 3) (listConfig ![0, 1])).re) = 3 / 8 := by
    rw [pairNet_eq _ _ _ _ _ (by norm_num) (by norm_num), Complex.add_re, pair_re, pair_re]
    simp only [oneHot, zero_mul, Real.exp_zero, Int.toNat_zero, Int.toNat_one, if_true, one_ne_zero, if_false]
    norm_num
    rw [Real.exp_log (by norm_num : (0 : ℝ) < 3), Real.exp_add, Real.exp_neg, Real.exp_sub,
      Real.exp_log (by norm_num : (0 : ℝ) < 2), Real.exp_log (by norm_num : (0 : ℝ) < 3),
      Real.exp_log (by norm_num : (0 : ℝ) < 1 + 3)]
    norm_num
  have e2 : Real.exp ((rnn1d (pairNet 1 true fun x _ => x 0 * Real.log 3) (listConfig ![1, 0])).re) = 1 / 4 := by
    rw [pairNet_eq _ _ _ _ _ (by norm_num) (by norm_num), Complex.add_re, pair_re, pair_re]
    simp only [oneHot, zero_mul, Real.exp_zero, Int.toNat_zero, Int.toNat_one, if_true, one_ne_zero, if_false]
    norm_num
    rw [Real.exp_add, Real.exp_neg, Real.exp_log (by norm_num : (0 : ℝ) < 2)]
    norm_num
  have e3 : ∀ z : ℂ, Real.exp (z.re / (1 / 2)) = Real.exp z.re ^ 2 := by
    intro z
    rw [← Real.exp_nat_mul]
    congr 1
    push_cast
    ring
  rw [div_one, div_one, e3, e3, e1, e2] at hsq
  norm_num at hsq

/-- The default averaging does not describe the samples: a configuration with amplitude zero is drawn. -/
theorem c59_sym_default_violated :
    ∃ (dense : (ℕ → ℝ) → ℕ → ℝ) (cell : Unit → (ℕ → ℝ) → Unit × (ℕ → ℝ)),
      let net : Rnn1D Unit (ℕ → ℝ) := ⟨realHead 2 (1 / 2) false dense, cell, ()⟩
      let sym := getOrbit1D 2 false true false 1 1 1
      prob (genSample1D net 2 sym.orbit) ![0, 1] = 1 / 4 ∧
        (symNet avgExp (fun x => rnn1d net (listConfig x)) sym.orbit sym.factor ![0, 1]).amp = 0 := by
  refine ⟨fun x k => if k = 1 then x 0 * Real.pi else 0, fun _ x => ((), x), ?_⟩
  have e1 : rnn1d (pairNet (1 / 2) false fun x k => if k = 1 then x 0 * Real.pi else 0) (listConfig ![0, 1]) =
      ((-Real.log 2 : ℝ) : ℂ) + Real.pi * Complex.I := by
    rw [pairNet_eq _ _ _ _ _ (by norm_num) (by norm_num)]
    unfold logCoeffsToLogProbs
    dsimp only
    rw [logSoftmax_eq 2 (by norm_num), logSoftmax_eq 2 (by norm_num), Finset.sum_range_succ, Finset.sum_range_one,
      Finset.sum_range_succ, Finset.sum_range_one]
    simp [oneHot]
    norm_num
    ring
  have e2 : rnn1d (pairNet (1 / 2) false fun x k => if k = 1 then x 0 * Real.pi else 0) (listConfig ![1, 0]) =
      ((-Real.log 2 : ℝ) : ℂ) := by
    rw [pairNet_eq _ _ _ _ _ (by norm_num) (by norm_num)]
    unfold logCoeffsToLogProbs
    dsimp only
    rw [logSoftmax_eq 2 (by norm_num), logSoftmax_eq 2 (by norm_num), Finset.sum_range_succ, Finset.sum_range_one,
      Finset.sum_range_succ, Finset.sum_range_one]
    simp
    norm_num
    ring
  constructor
  · change prob (genSample1D (pairNet (1 / 2) false fun x k => if k = 1 then x 0 * Real.pi else 0) 2
      (getOrbit1D 2 false true false 1 1 1).orbit) ![0, 1] = 1 / 4
    rw [pair_prob (1 / 2) (by norm_num), e1, e2]
    have h : ∀ z : ℂ, z.re = -Real.log 2 → Real.exp (z.re / (1 / 2)) = 1 / 4 := by
      intro z hz
      rw [hz, show -Real.log 2 / (1 / 2) = -Real.log 2 + -Real.log 2 by ring, Real.exp_add, Real.exp_neg,
        Real.exp_log (by norm_num)]
      norm_num
    rw [h _ (by rw [Complex.add_re, Complex.ofReal_re, Complex.re_ofReal_mul, Complex.I_re, mul_zero, add_zero]),
      h _ (Complex.ofReal_re _)]
    norm_num
  · change (symNet avgExp (fun x => rnn1d (pairNet (1 / 2) false fun x k => if k = 1 then x 0 * Real.pi else 0)
      (listConfig x)) (getOrbit1D 2 false true false 1 1 1).orbit (getOrbit1D 2 false true false 1 1 1).factor
      ![0, 1]).amp = 0
    rw [factor1D 2 false true false 1 1 1 (fun _ => 1) (trivial_character _) (fun _ _ _ => rfl)
      (fun _ _ _ => rfl) (fun _ _ _ => rfl)]
    unfold symNet
    rw [avgExp_amp, symImages_eq, List.map_map, zip_map_map, List.map_map, ((orbit_two 1).map _).sum_eq]
    simp only [List.map_cons, List.map_nil, List.sum_cons, List.sum_nil, add_zero, Function.comp_apply, imageOf_two.1,
      imageOf_two.2.1, one_mul, e1, e2]
    rw [Complex.exp_add, Complex.exp_pi_mul_I]
    ring

/-! ## The hypotheses are met -/

/-- Two sites, where the second one depends on the first one. -/
example :
    let net : Rnn1D Unit (ℕ → ℝ) := ⟨realHead 2 (1 / 2) true fun x _ => x 0 * Real.log 3, fun _ x => ((), x), ()⟩
    let sym := getOrbit1D 2 false true false 1 1 1
    prob (genSample1D net 2 sym.orbit) ![0, 1] =
      ‖Complex.exp (symNet avgSep (fun x => rnn1d net (listConfig x)) sym.orbit sym.factor ![0, 1])‖ ^ 2 := by
  have h := c59_sym_1d_partial 2 (by norm_num) true (fun x _ => x 0 * Real.log 3)
    (fun (_ : Unit) (x : ℕ → ℝ) => ((), x)) () 2 (by norm_num) false true false 1 1 1 (by decide) ![0, 1] (by decide)
  exact h

/-- Three local states on a lattice, with translations, reflections and rotations. -/
example (L : ℕ) (hL : 0 < L) (s : Fin (L * L) → ℤ) (hs : ∀ i, 0 ≤ s i ∧ s i < (3 : ℕ)) :
    let net : Rnn2D ℝ (ℕ → ℝ) := ⟨realHead 3 (1 / 2) false fun x k => x k + k, fun h v xh xv =>
      (h + v, fun j => xh j + xv j + h), fun _ => 0⟩
    let sym := getOrbit2D L true true true false 1 1 1 1
    prob (genSample2D net L sym.orbit) s =
      ‖Complex.exp (symNet avgSep (fun x => rnn2d net L (rowsConfig x)) sym.orbit sym.factor s)‖ ^ 2 := by
  have h := c59_sym_2d_partial 3 (by norm_num) false (fun x k => x k + k)
    (fun (h v : ℝ) (xh xv : ℕ → ℝ) => (h + v, fun j => xh j + xv j + h))
    (fun _ => 0) L hL true true true false 1 1 1 1 (by decide) s hs
  exact h

end JVMC
