import Verif.Lemmas.DirectSampling
import Verif.Props.MCSampler
import Verif.Props.Rnn
import Verif.Props.Variational

/-!
# C92 — estimates from directly drawn samples

`Spec.expect O ψ` is `⟨ψ|O|ψ⟩ / ⟨ψ|ψ⟩`, `spread O ψ` its variance (`Spec/Variational`); `average` and
`chance` refer to the random samples (`Spec/Statistics`).
-/

namespace JVMC

open Spec Matrix

/-! ## The samples of all ranks -/

theorem genSampleWorld_eq {S : Type} (s D N : ℕ) (hs : 0 < s) (hD : 0 < D) (sample : WDist S) (logPsi : S → ℂ) :
    ∃ (nss : List (List ℕ)) (n : ℕ), genSampleWorld s D N 1 sample logPsi
      = .ok (WDist.each (nss.map fun ns => WDist.map (List.map (List.map fun x => (x, logPsi x, 1 / (n : ℝ))))
        (WDist.each (ns.map (WDist.many sample))))) ∧
      nss.flatten.sum = n ∧ N ≤ n ∧ nss.length = s ∧ (∀ ns ∈ nss, ns.length = D) ∧
      (s ≤ N → ∀ ns ∈ nss, ∀ k ∈ ns, 0 < k) := by
  obtain ⟨counts, n, h1, h2, h3⟩ := c12_direct_counts s D N 1 hs hD one_pos
  refine ⟨(List.range s).map counts, n, ?_, ?_, h3, by simp, ?_, ?_⟩
  · unfold genSampleWorld
    rw [mapM_ok _ (fun r => WDist.map (List.map (List.map fun x => (x, logPsi x, 1 / (n : ℝ))))
        (WDist.each ((counts r).map (WDist.many sample))))]
    · rw [List.map_map]
      rfl
    · intro r hr
      rw [h1 r (List.mem_range.mp hr)]
      rfl
  · rw [mul_one] at h2
    rw [← h2, List.sum_flatten, List.map_map]
    rfl
  all_goals
    have hc : ∀ r < s, counts r = List.replicate D (samplesPerChain (D * 1) (samplesPerProcess s r N)) := by
      intro r hr
      have := h1 r hr
      unfold getSamplesGenCounts distributeSampling at this
      rw [if_neg hs.ne'] at this
      simp only [mul_one, hD.ne', if_false] at this
      have := Except.ok.inj this
      rw [mul_one]
      exact (congrArg Prod.fst this).symm
  · intro ns hns
    obtain ⟨r, hr, rfl⟩ := List.mem_map.mp hns
    rw [hc r (List.mem_range.mp hr), List.length_replicate]
  · intro hsN ns hns k hk
    obtain ⟨r, hr, rfl⟩ := List.mem_map.mp hns
    rw [hc r (List.mem_range.mp hr)] at hk
    rw [List.eq_of_mem_replicate hk]
    unfold samplesPerChain samplesPerProcess
    have := Nat.div_pos hsN hs
    apply Nat.div_pos _ (by omega)
    omega

/-- Every outcome is a sample of the network, with equal weights. -/
theorem genSampleWorld_samples {S : Type} (sample : WDist S) (logPsi : S → ℂ) (D n : ℕ) (hD : 0 < D)
    (nss : List (List ℕ)) (hlen : ∀ ns ∈ nss, ns.length = D) (hpos : ∀ ns ∈ nss, ∀ k ∈ ns, 0 < k) :
    ∀ e ∈ WDist.each (nss.map fun ns => WDist.map (List.map (List.map fun x => (x, logPsi x, 1 / (n : ℝ))))
        (WDist.each (ns.map (WDist.many sample)))),
      SamplesOf logPsi e.1 ∧ List.length e.1 = nss.length ∧ (∀ rk ∈ e.1, rk.length = D) ∧
        ∀ x ∈ allSamples e.1, x.2.2 = 1 / (n : ℝ) := by
  intro e he
  have h := each_spec _ e he
  have hl : List.length e.1 = nss.length := by simpa using h.length_eq
  have hrk : ∀ rk ∈ e.1, rk.length = D ∧ (∀ dev ∈ rk, dev ≠ []) ∧
      ∀ dev ∈ rk, ∀ x ∈ dev, x.2.1 = logPsi x.1 ∧ x.2.2 = 1 / (n : ℝ) := by
    intro rk hrk
    obtain ⟨i, hi, rfl⟩ := List.mem_iff_getElem.mp hrk
    have hi' : i < nss.length := hl ▸ hi
    obtain ⟨p, hp⟩ := h.get hi (by simpa using hi')
    simp only [List.get_eq_getElem, List.getElem_map] at hp
    obtain ⟨e', he', heq⟩ := List.mem_map.mp hp
    have hns := List.getElem_mem hi'
    rw [← (Prod.mk.inj heq).1]
    have hd := each_spec _ e' he'
    have hdl : e'.1.length = nss[i].length := by simpa using hd.length_eq
    refine ⟨by rw [List.length_map, hdl]; exact hlen _ hns, ?_, ?_⟩
    · intro dev hdev
      obtain ⟨dev', hdev', rfl⟩ := List.mem_map.mp hdev
      obtain ⟨j, hj, rfl⟩ := List.mem_iff_getElem.mp hdev'
      have hj' : j < nss[i].length := hdl ▸ hj
      obtain ⟨q, hq⟩ := hd.get hj (by simpa using hj')
      simp only [List.get_eq_getElem, List.getElem_map] at hq
      have := many_length sample _ _ hq
      have h0 := hpos _ hns _ (List.getElem_mem hj')
      intro hnil
      have := congrArg List.length hnil
      simp only [List.length_map, List.length_nil] at this
      dsimp only at *
      omega
    · intro dev hdev x hx
      obtain ⟨dev', _, rfl⟩ := List.mem_map.mp hdev
      obtain ⟨y, _, rfl⟩ := List.mem_map.mp hx
      exact ⟨rfl, rfl⟩
  have hall : ∀ x ∈ allSamples e.1, x.2.1 = logPsi x.1 ∧ x.2.2 = 1 / (n : ℝ) := by
    intro x hx
    obtain ⟨dev, hdev, hx⟩ := List.mem_flatten.mp hx
    obtain ⟨rk, hr, hdev⟩ := List.mem_flatten.mp hdev
    exact (hrk rk hr).2.2 dev hdev x hx
  refine ⟨⟨?_, fun rk h' => (hrk rk h').2.1, fun x hx => (hall x hx).1⟩, hl, fun rk h' => (hrk rk h').1,
    fun x hx => (hall x hx).2⟩
  intro rk h' h0
  have := (hrk rk h').1
  rw [h0] at this
  simp at this
  omega

section

variable {C : Type} [Fintype C] [DecidableEq C] {kernel : C → List (C × ℂ)} {O : Matrix C C ℂ}

/-- The distribution of a sample is the Born distribution. -/
structure BornLaw {C : Type} [Fintype C] (ψ : C → ℂ) (sample : WDist C) : Prop where
  law : IsLaw sample
  born : ∀ s, prob sample s = Complex.normSq (ψ s) / norm2 ψ

omit [DecidableEq C] in
theorem average_born {ψ : C → ℂ} {sample : WDist C} (h : BornLaw ψ sample) (F : C → ℝ) :
    average sample F = ∑ s, Complex.normSq (ψ s) / norm2 ψ * F s := by
  rw [average_finite]
  simp only [h.born]

omit [DecidableEq C] in
theorem average_local {logPsi : C → ℂ} {sample : WDist C} (h : BornLaw (fun c => Complex.exp (logPsi c)) sample) :
    average sample (fun s => (localValue O (fun c => Complex.exp (logPsi c)) s).re)
      = (Spec.expect O fun c => Complex.exp (logPsi c)).re ∧
    average sample (fun s => (localValue O (fun c => Complex.exp (logPsi c)) s).im)
      = (Spec.expect O fun c => Complex.exp (logPsi c)).im := by
  have hm := born_mean O (fun c => Complex.exp (logPsi c)) fun _ => Complex.exp_ne_zero _
  rw [average_born h, average_born h, ← hm, Complex.re_sum, Complex.im_sum]
  simp only [Complex.re_ofReal_mul, Complex.im_ofReal_mul, and_self]

omit [DecidableEq C] in
/-- The mean square deviation of the local estimator is the quantum variance. -/
theorem average_spread [Nonempty C] {logPsi : C → ℂ} {sample : WDist C}
    (h : BornLaw (fun c => Complex.exp (logPsi c)) sample) :
    average sample (fun s => Complex.normSq (localValue O (fun c => Complex.exp (logPsi c)) s
      - Spec.expect O fun c => Complex.exp (logPsi c))) = spread O fun c => Complex.exp (logPsi c) := by
  set ψ : C → ℂ := fun c => Complex.exp (logPsi c) with hψ
  have h0 : ∀ s, ψ s ≠ 0 := fun s => Complex.exp_ne_zero _
  have hZ : 0 < norm2 ψ := norm2_pos ψ (Classical.arbitrary C) (h0 _)
  rw [average_born h, weighted_variance _ _ (born_total ψ hZ) _ (born_mean O ψ h0), born_second O ψ h0]
  rfl

/-- What `measure` reports as mean, as a function of the samples. -/
theorem mean_of_samples (hk : OperatorOf kernel O) (psi : Net C) (hlog : psi.logarithmic = true) (zeroCfg : C)
    (b : ℤ) (k : Option ℕ) (n : ℕ) (w : World (C × ℂ × ℝ)) (hw : SamplesOf psi.val w)
    (hn : ∀ x ∈ allSamples w, x.2.2 = 1 / (n : ℝ)) :
    ∃ res, measureOp kernel psi zeroCfg b k w = .ok res ∧ res.length = List.length w ∧ ∀ r ∈ res, r.mean
      = (((allSamples w).map fun x => (localValue O (fun c => Complex.exp (psi.val c)) x.1).re).sum) / n := by
  unfold measureOp
  rw [oLocWorld_eq hk psi hlog zeroCfg b w hw]
  obtain ⟨res, h1, h2, h3⟩ := measureOne_mean k (World.map (fun x =>
      (x.2.2, fun _ => localValue O (fun c => Complex.exp (psi.val c)) x.1)) w) (World.map_ne _ _ hw.devices)
  refine ⟨res, h1, by simpa [World.map] using h2, fun r hr => ?_⟩
  rw [h3 r hr, wMean_apply, re_list_sum, allSamples_wmap, List.map_map, List.map_map, div_eq_inv_mul,
    ← List.sum_map_mul_left]
  congr 1
  apply List.map_congr_left
  intro x hx
  simp [hn x hx]

/-- The sample variance of equally weighted values, with deviations from any value. -/
theorem sample_variance {A : Type} (f : A → ℂ) (E : ℂ) (n : ℕ) (hn : (0 : ℝ) < n) (l : List A) (hl : l.length = n) :
    wVar (l.map fun c => ((1 / (n : ℝ), fun _ => f c) : ℝ × (Fin 1 → ℂ))) 0
      = (1 / (n : ℝ)) * (l.map fun c => Complex.normSq (f c - E)).sum
        - (1 / (n : ℝ)) ^ 2 * ((l.map fun c => (f c - E).re).sum ^ 2 + (l.map fun c => (f c - E).im).sum ^ 2) := by
  have hm : wMean (l.map fun c => ((1 / (n : ℝ), fun _ => f c) : ℝ × (Fin 1 → ℂ))) 0
      = E + (1 / (n : ℝ) : ℝ) * (l.map fun c => f c - E).sum := by
    rw [wMean_apply, List.map_map, list_sum_map_sub, List.map_const', List.sum_replicate, hl, nsmul_eq_mul]
    have : ((n : ℝ) : ℂ) ≠ 0 := by exact_mod_cast hn.ne'
    simp only [Function.comp_def]
    rw [List.sum_map_mul_left]
    push_cast at this ⊢
    field_simp
    ring
  unfold wVar
  rw [hm, List.map_map]
  set S := (l.map fun c => f c - E).sum with hS
  have hSre : S.re = (l.map fun c => (f c - E).re).sum := by
    rw [hS, re_list_sum, List.map_map]
    rfl
  have hSim : S.im = (l.map fun c => (f c - E).im).sum := by
    rw [hS, im_list_sum, List.map_map]
    rfl
  have hterm : ∀ c, 1 / (n : ℝ) * Complex.normSq (f c - (E + (1 / (n : ℝ) : ℝ) * S))
      = 1 / (n : ℝ) * Complex.normSq (f c - E)
        - (2 * (1 / (n : ℝ)) ^ 2 * S.re) * (f c - E).re - (2 * (1 / (n : ℝ)) ^ 2 * S.im) * (f c - E).im
        + (1 / (n : ℝ)) ^ 3 * Complex.normSq S := by
    intro c
    simp only [Complex.normSq_apply, Complex.sub_re, Complex.sub_im, Complex.add_re, Complex.add_im,
      Complex.re_ofReal_mul, Complex.im_ofReal_mul]
    ring
  simp only [Function.comp_def, hterm]
  rw [List.sum_map_add, list_sum_map_sub, list_sum_map_sub, List.sum_map_mul_left, List.sum_map_mul_left,
    List.sum_map_mul_left, List.map_const', List.sum_replicate, hl, nsmul_eq_mul, ← hSre, ← hSim,
    Complex.normSq_apply]
  field_simp
  ring

/-! ## C92 -/

/-- C92: the mean that `measure` reports for directly drawn samples, on any number of ranks and devices and
with any batch size, is the quantum expectation value on average; the mean square deviation is a variance
divided by the number of samples, so that deviations are improbable if there are many samples. -/
theorem c92_mean [Nonempty C] (hk : OperatorOf kernel O) (psi : Net C) (hlog : psi.logarithmic = true)
    (zeroCfg : C) (b : ℤ) (s D N : ℕ) (hs : 0 < s) (hD : 0 < D) (hN : s ≤ N) (sample : WDist C)
    (hb : BornLaw (fun c => Complex.exp (psi.val c)) sample) :
    ∃ W n M, genSampleWorld s D N 1 sample psi.val = .ok W ∧ N ≤ n ∧ IsLaw W ∧
      (∀ e ∈ W, ∃ res, measureOp kernel psi zeroCfg b (some n) e.1 = .ok res ∧ res.length = s ∧
        ∀ r ∈ res, r.mean = M e.1) ∧
      average W M = (Spec.expect O fun c => Complex.exp (psi.val c)).re ∧
      average W (fun w => (M w - (Spec.expect O fun c => Complex.exp (psi.val c)).re) ^ 2)
        = average sample (fun c => ((O *ᵥ fun c => Complex.exp (psi.val c)) c / Complex.exp (psi.val c)
          - Spec.expect O fun c => Complex.exp (psi.val c)).re ^ 2) / n ∧
      average W (fun w => (M w - (Spec.expect O fun c => Complex.exp (psi.val c)).re) ^ 2)
        ≤ spread O (fun c => Complex.exp (psi.val c)) / n ∧
      ∀ ε > 0, chance W (fun w => ε ≤ |M w - (Spec.expect O fun c => Complex.exp (psi.val c)).re|)
        ≤ spread O (fun c => Complex.exp (psi.val c)) / n / ε ^ 2 := by
  obtain ⟨nss, n, hW, hsum, hNn, hlen, hD', hpos⟩ := genSampleWorld_eq s D N hs hD sample psi.val
  have hn : (0 : ℝ) < n := by
    have : 0 < n := by omega
    exact_mod_cast this
  set ψ : C → ℂ := fun c => Complex.exp (psi.val c) with hψ
  set E := Spec.expect O ψ with hE
  set M : World (C × ℂ × ℝ) → ℝ := fun w => (((allSamples w).map fun x => (localValue O ψ x.1).re).sum) / n
  set W := WDist.each (nss.map fun ns => WDist.map (List.map (List.map fun x => (x, psi.val x, 1 / (n : ℝ))))
        (WDist.each (ns.map (WDist.many sample)))) with hWd
  have hlaw : IsLaw W := by
    apply isLaw_each
    intro d hd
    obtain ⟨ns, _, rfl⟩ := List.mem_map.mp hd
    apply isLaw_map
    apply isLaw_each
    intro d' hd'
    obtain ⟨k, _, rfl⟩ := List.mem_map.mp hd'
    exact isLaw_many hb.law k
  have hav : ∀ F : ℝ → ℝ, average W (fun w => F (M w))
      = average (WDist.many sample n) fun l => F ((l.map fun c => (localValue O ψ c).re).sum / n) := by
    intro F
    have := average_each_ranks sample (fun x => (x, psi.val x, 1 / (n : ℝ))) nss
      (fun l => F ((l.map fun x => (localValue O ψ x.1).re).sum / n))
    rw [hsum] at this
    refine this.trans ?_
    simp only [List.map_map]
    rfl
  have hsq : average W (fun w => (M w - E.re) ^ 2)
      = average sample (fun c => ((O *ᵥ ψ) c / ψ c - E).re ^ 2) / n := by
    rw [hav fun x => (x - E.re) ^ 2]
    have h0 : average sample (fun c => (localValue O ψ c).re - E.re) = 0 := by
      rw [average_sub, average_const hb.law, (average_local hb).1, sub_self]
    have h2 := average_sum_sq hb.law (fun c => (localValue O ψ c).re - E.re) h0 n
    have e : average (WDist.many sample n) (fun l => ((l.map fun c => (localValue O ψ c).re).sum / n - E.re) ^ 2)
        = average (WDist.many sample n) (fun l => (1 / (n : ℝ)) ^ 2
          * ((l.map fun c => (localValue O ψ c).re - E.re).sum) ^ 2) := by
      apply average_congr
      intro e he
      have hl := many_length sample n e he
      rw [list_sum_map_sub, List.map_const', List.sum_replicate, hl, nsmul_eq_mul]
      field_simp
    rw [e, average_mul, h2]
    simp only [Complex.sub_re]
    unfold localValue
    field_simp
  have hle : average W (fun w => (M w - E.re) ^ 2) ≤ spread O ψ / n := by
    rw [hsq, ← average_spread hb]
    apply div_le_div_of_nonneg_right _ hn.le
    apply average_mono hb.law.nonneg
    intro e _
    rw [Complex.normSq_apply]
    unfold localValue
    nlinarith [sq_nonneg ((O *ᵥ ψ) e.1 / ψ e.1 - E).im]
  refine ⟨W, n, M, hW, hNn, hlaw, ?_, ?_, hsq, hle, ?_⟩
  · intro e he
    obtain ⟨h1, h2, _, h4⟩ := genSampleWorld_samples sample psi.val D n hD nss hD' (hpos hN) e he
    obtain ⟨res, h5, h6, h7⟩ := mean_of_samples hk psi hlog zeroCfg b (some n) n e.1 h1 h4
    exact ⟨res, h5, by rw [h6, h2, hlen], h7⟩
  · have := hav fun x => x
    rw [this]
    simp only [div_eq_inv_mul]
    rw [average_mul, average_sum hb.law, (average_local hb).1, ← hE]
    field_simp
  · intro ε hε
    refine (chebyshev hlaw.nonneg (fun w => M w - E.re) ε hε).trans ?_
    exact div_le_div_of_nonneg_right hle (by positivity)

/-- C92: with one device per rank, the square of the reported error is on average the variance of the operator
divided by the number of samples, up to the factor `1 - 1/n` of the sample variance. -/
theorem c92_error_partial [Nonempty C] (hk : OperatorOf kernel O) (psi : Net C) (hlog : psi.logarithmic = true)
    (zeroCfg : C) (b : ℤ) (s N : ℕ) (hs : 0 < s) (hN : s ≤ N) (sample : WDist C)
    (hb : BornLaw (fun c => Complex.exp (psi.val c)) sample) :
    ∃ W n V, genSampleWorld s 1 N 1 sample psi.val = .ok W ∧ N ≤ n ∧ IsLaw W ∧
      (∀ e ∈ W, ∃ res, measureOp kernel psi zeroCfg b (some n) e.1 = .ok res ∧ res.length = s ∧
        ∀ r ∈ res, r.variance = V e.1 ∧ r.mcError ^ 2 = V e.1 / n) ∧
      average W V = (1 - 1 / n) * spread O fun c => Complex.exp (psi.val c) := by
  obtain ⟨nss, n, hW, hsum, hNn, hlen, hD', hpos⟩ := genSampleWorld_eq s 1 N hs one_pos sample psi.val
  have hn : (0 : ℝ) < n := by
    have : 0 < n := by omega
    exact_mod_cast this
  set ψ : C → ℂ := fun c => Complex.exp (psi.val c) with hψ
  set E := Spec.expect O ψ with hE
  set obs : C × ℂ × ℝ → ℝ × (Fin 1 → ℂ) := fun x => (x.2.2, fun _ => localValue O ψ x.1)
  set V : World (C × ℂ × ℝ) → ℝ := fun w => wVar ((allSamples w).map obs) 0
  set W := WDist.each (nss.map fun ns => WDist.map (List.map (List.map fun x => (x, psi.val x, 1 / (n : ℝ))))
        (WDist.each (ns.map (WDist.many sample)))) with hWd
  have hlaw : IsLaw W := by
    apply isLaw_each
    intro d hd
    obtain ⟨ns, _, rfl⟩ := List.mem_map.mp hd
    apply isLaw_map
    apply isLaw_each
    intro d' hd'
    obtain ⟨k, _, rfl⟩ := List.mem_map.mp hd'
    exact isLaw_many hb.law k
  refine ⟨W, n, V, hW, hNn, hlaw, ?_, ?_⟩
  · intro e he
    obtain ⟨h1, h2, h3, h4⟩ := genSampleWorld_samples sample psi.val 1 n one_pos nss hD' (hpos hN) e he
    have hnn : ∀ x ∈ allSamples (World.map obs e.1), 0 ≤ x.1 := by
      intro x hx
      rw [allSamples_wmap] at hx
      obtain ⟨y, hy, rfl⟩ := List.mem_map.mp hx
      change 0 ≤ y.2.2
      rw [h4 y hy]
      positivity
    obtain ⟨res, h5, h6, h7⟩ := c62_measure_partial (World.map obs e.1) (by
      intro rk hrk
      obtain ⟨rk', h', rfl⟩ := List.mem_map.mp hrk
      rw [List.length_map]
      exact h3 rk' h') hnn n
    refine ⟨res, ?_, by rw [h6]; simpa [World.map] using h2.trans hlen, fun r hr => ?_⟩
    · unfold measureOp
      rw [oLocWorld_eq hk psi hlog zeroCfg b e.1 h1]
      exact h5
    · obtain ⟨_, h8, h9⟩ := h7 r hr
      rw [allSamples_wmap] at h8 h9
      refine ⟨h8, ?_⟩
      rw [h9, Real.sq_sqrt]
      apply div_nonneg _ hn.le
      unfold wVar
      apply List.sum_nonneg
      intro x hx
      obtain ⟨y, hy, rfl⟩ := List.mem_map.mp hx
      rw [allSamples_wmap] at hnn
      exact mul_nonneg (hnn y hy) (Complex.normSq_nonneg _)
  · have hav := average_each_ranks sample (fun x => (x, psi.val x, 1 / (n : ℝ))) nss
      (fun l => wVar (l.map obs) 0)
    rw [hsum] at hav
    refine hav.trans ?_
    simp only [List.map_map]
    have hre : average sample (fun c => (localValue O ψ c - E).re) = 0 := by
      simp only [Complex.sub_re]
      rw [average_sub, average_const hb.law, (average_local hb).1, sub_self]
    have him : average sample (fun c => (localValue O ψ c - E).im) = 0 := by
      simp only [Complex.sub_im]
      rw [average_sub, average_const hb.law, (average_local hb).2, sub_self]
    have e : average (WDist.many sample n) (fun l => wVar (l.map (obs ∘ fun x => (x, psi.val x, 1 / (n : ℝ)))) 0)
        = average (WDist.many sample n) (fun l => (1 / (n : ℝ))
            * ((l.map fun c => Complex.normSq (localValue O ψ c - E)).sum)
          - (1 / (n : ℝ)) ^ 2 * (((l.map fun c => (localValue O ψ c - E).re).sum) ^ 2
            + ((l.map fun c => (localValue O ψ c - E).im).sum) ^ 2)) := by
      apply average_congr
      intro e he
      have hl := many_length sample n e he
      exact sample_variance (fun c => localValue O ψ c) E n hn e.1 hl
    rw [e, average_sub, average_mul, average_mul, average_add, average_sum hb.law,
      average_sum_sq hb.law _ hre, average_sum_sq hb.law _ him, average_spread hb]
    have hsp : average sample (fun c => (localValue O ψ c - E).re ^ 2)
        + average sample (fun c => (localValue O ψ c - E).im ^ 2) = spread O ψ := by
      rw [← average_add, ← average_spread hb]
      congr 1
      funext c
      rw [Complex.normSq_apply]
      ring
    rw [← mul_add, hsp]
    change 1 / (n : ℝ) * (n * spread O ψ) - (1 / (n : ℝ)) ^ 2 * (n * spread O ψ) = (1 - 1 / (n : ℝ)) * spread O ψ
    field_simp

end

/-! ## C92 for recurrent networks -/

theorem isLaw_rnnSampleScan {H O : Type} (net : Rnn1D H O) (hh : Normed net.head) (n : ℕ) (c : H × (ℕ → ℝ)) :
    IsLaw (rnnSampleScan net c n) := by
  induction n generalizing c with
  | zero => exact isLaw_pure _
  | succ n ih =>
    rw [rnnSampleScan]
    apply isLaw_bind
    · refine ⟨?_, expect_draw_one hh _⟩
      intro e he
      obtain ⟨j, _, rfl⟩ := List.mem_map.mp he
      positivity
    · intro e
      apply isLaw_bind (ih _)
      intro _
      exact isLaw_pure _

theorem decodeChain_eq_iff {L d : ℕ} [NeZero d] {l : List ℤ} (hl : l ∈ listsOver (localStates d) L)
    (s : Fin L → Fin d) : decodeChain L d l = s ↔ l = listConfig fun i => (s i : ℤ) := by
  obtain ⟨h1, h2⟩ := mem_listsOver.mp hl
  constructor
  · rintro rfl
    apply List.ext_getElem
    · simp [listConfig, h1]
    · intro i hi hi'
      have := mem_localStates.mp (h2 _ (List.getElem_mem hi))
      simp only [listConfig, decodeChain, List.getElem_ofFn]
      rw [List.getD_eq_getElem _ _ hi]
      simp only [Fin.ofNat, Nat.mod_eq_of_lt (show l[i].toNat < d by omega)]
      omega
  · rintro rfl
    funext i
    simp [decodeChain, listConfig]

/-- Recurrent networks with real parameters and `logProbFactor = 1/2` draw from the Born distribution. -/
theorem bornLaw_rnn1d {H O : Type} (d : ℕ) [NeZero d] (realValuedOutput : Bool) (dense : O → ℕ → ℝ)
    (cell : H → (ℕ → ℝ) → H × O) (zeroCarry : H) (L : ℕ) :
    BornLaw (fun c : Fin L → Fin d => Complex.exp (rnn1d ⟨realHead d (1 / 2) realValuedOutput dense, cell, zeroCarry⟩
        (listConfig fun i => (c i : ℤ))))
      (WDist.map (decodeChain L d)
        (rnn1dSample ⟨realHead d (1 / 2) realValuedOutput dense, cell, zeroCarry⟩ L)) := by
  have hd : 0 < d := Nat.pos_of_ne_zero (NeZero.ne d)
  set net : Rnn1D H O := ⟨realHead d (1 / 2) realValuedOutput dense, cell, zeroCarry⟩
  have hh : Normed net.head := realHead_normed d hd (1 / 2) (by norm_num) realValuedOutput dense
  have hnsq : ∀ z : ℂ, ‖Complex.exp z‖ ^ (1 / (1 / 2 : ℝ)) = Complex.normSq (Complex.exp z) := by
    intro z
    rw [Complex.normSq_eq_norm_sq]
    norm_num
  have h1 : norm2 (fun c : Fin L → Fin d => Complex.exp (rnn1d net (listConfig fun i => (c i : ℤ)))) = 1 := by
    have := c58_1d_partial d hd (1 / 2) (by norm_num) realValuedOutput dense cell zeroCarry L
    simp only [hnsq] at this
    exact this
  refine ⟨isLaw_map _ (isLaw_rnnSampleScan net hh L _), fun s => ?_⟩
  rw [h1, div_one]
  have h2 := c59_1d_partial d (1 / 2) (by norm_num) realValuedOutput dense cell zeroCarry L hd s
  simp only [hnsq] at h2
  refine Eq.trans ?_ h2
  rw [prob_eq_expect, prob_eq_expect, rnn1dSample]
  rw [← average_expect, average_map, average_expect, expect_rnnSampleScan net hh, expect_rnnSampleScan net hh]
  congr 1
  apply List.map_congr_left
  intro l hl
  congr 1
  simp only [decodeChain_eq_iff (d := d) (show l ∈ listsOver (localStates d) L from hl)]
  congr

/-- C92 for recurrent networks on chains: the estimates from the samples the network draws. -/
theorem c92_rnn {H O' : Type} (L d : ℕ) [NeZero d] (realValuedOutput : Bool) (dense : O' → ℕ → ℝ)
    (cell : H → (ℕ → ℝ) → H × O') (zeroCarry : H)
    {kernel : (Fin L → Fin d) → List ((Fin L → Fin d) × ℂ)} {O : Matrix (Fin L → Fin d) (Fin L → Fin d) ℂ}
    (hk : OperatorOf kernel O) (psi : Net (Fin L → Fin d)) (hlog : psi.logarithmic = true)
    (hpsi : ∀ c, psi.val c = rnn1d ⟨realHead d (1 / 2) realValuedOutput dense, cell, zeroCarry⟩
      (listConfig fun i => (c i : ℤ)))
    (zeroCfg : Fin L → Fin d) (b : ℤ) (s D N : ℕ) (hs : 0 < s) (hD : 0 < D) (hN : s ≤ N) :
    ∃ W n M, genSampleWorld s D N 1 (WDist.map (decodeChain L d)
        (rnn1dSample ⟨realHead d (1 / 2) realValuedOutput dense, cell, zeroCarry⟩ L)) psi.val = .ok W ∧
      N ≤ n ∧ IsLaw W ∧
      (∀ e ∈ W, ∃ res, measureOp kernel psi zeroCfg b (some n) e.1 = .ok res ∧ res.length = s ∧
        ∀ r ∈ res, r.mean = M e.1) ∧
      average W M = (Spec.expect O fun c => Complex.exp (psi.val c)).re ∧
      ∀ ε > 0, chance W (fun w => ε ≤ |M w - (Spec.expect O fun c => Complex.exp (psi.val c)).re|)
        ≤ spread O (fun c => Complex.exp (psi.val c)) / n / ε ^ 2 := by
  have hb := bornLaw_rnn1d d realValuedOutput dense cell zeroCarry L
  rw [show (fun c : Fin L → Fin d => Complex.exp (rnn1d ⟨realHead d (1 / 2) realValuedOutput dense, cell, zeroCarry⟩
    (listConfig fun i => (c i : ℤ)))) = fun c => Complex.exp (psi.val c) from by simp only [hpsi]] at hb
  obtain ⟨W, n, M, h1, h2, h3, h4, h5, _, _, h6⟩ := c92_mean hk psi hlog zeroCfg b s D N hs hD hN _ hb
  exact ⟨W, n, M, h1, h2, h3, h4, h5, h6⟩

/-! ## Cases -/

/-- One spin in the state `(1, 1)`, the Hamiltonian `σz' + σx`, and 5 samples on two ranks with two devices each:
both outcomes of a measurement have probability 1/2, the expectation value is 1 and the variance is 1. -/
example : ∃ W n M, genSampleWorld 2 2 5 1 [((0 : Fin 2), (1 / 2 : ℝ)), (1, 1 / 2)] (spinLog 0) = .ok W ∧ 5 ≤ n ∧
    IsLaw W ∧
    (∀ e ∈ W, ∃ res, measureOp spinKernel ⟨spinLog 0, true⟩ 0 1 (some n) e.1 = .ok res ∧ res.length = 2 ∧
      ∀ r ∈ res, r.mean = M e.1) ∧
    average W M = 1 ∧ average W (fun w => (M w - 1) ^ 2) ≤ 1 / n := by
  have hψ : (fun c => Complex.exp (spinLog 0 c)) = fun _ => 1 := by
    funext c
    simp [spinLog]
  have hn : norm2 (fun _ : Fin 2 => (1 : ℂ)) = 2 := by
    simp [norm2]
  have hE : Spec.expect spinMatrix (fun _ => 1) = 1 := by
    rw [Spec.expect, hn]
    simp [spinMatrix, Matrix.mulVec, dotProduct, Fin.sum_univ_two]
  have hS : spread spinMatrix (fun _ => 1) = 1 := by
    rw [spread, hE, hn]
    simp [norm2, spinMatrix, Matrix.mulVec, dotProduct, Fin.sum_univ_two, Complex.normSq_apply]
    norm_num
  have hb : BornLaw (fun c => Complex.exp (spinLog 0 c)) [((0 : Fin 2), (1 / 2 : ℝ)), (1, 1 / 2)] := by
    refine ⟨⟨?_, ?_⟩, ?_⟩
    · intro e he
      simp only [List.mem_cons, List.not_mem_nil, or_false] at he
      rcases he with rfl | rfl <;> norm_num
    · norm_num [average]
    · intro s
      rw [hψ, hn]
      fin_cases s <;> simp [prob, spinLog]
  obtain ⟨W, n, M, h1, h2, h3, h4, h5, _, h6, _⟩ := c92_mean spin_operator ⟨spinLog 0, true⟩ rfl 0 1 2 2 5
    (by norm_num) (by norm_num) (by norm_num) _ hb
  change average W M = (Spec.expect spinMatrix fun c => Complex.exp (spinLog 0 c)).re at h5
  change average W (fun w => (M w - (Spec.expect spinMatrix fun c => Complex.exp (spinLog 0 c)).re) ^ 2)
    ≤ spread spinMatrix (fun c => Complex.exp (spinLog 0 c)) / n at h6
  rw [hψ, hE] at h5 h6
  rw [hS] at h6
  exact ⟨W, n, M, h1, h2, h3, h4, h5, h6⟩

/-- The operator that flips both spins of a chain, and a recurrent network whose two local states have the
probabilities 1/4 and 3/4. -/
example : ∃ (W : _) (n : _) (M : World ((Fin 2 → Fin 2) × ℂ × ℝ) → ℝ), genSampleWorld 3 1 100 1 (WDist.map (decodeChain 2 2)
      (rnn1dSample ⟨realHead 2 (1 / 2) true fun (_ : ℕ → ℝ) k => k * Real.log 3, fun h x => (h, x), ()⟩ 2))
      (fun c => rnn1d ⟨realHead 2 (1 / 2) true fun (_ : ℕ → ℝ) k => k * Real.log 3, fun h x => (h, x), ()⟩
        (listConfig fun i => (c i : ℤ))) = .ok W ∧
    100 ≤ n ∧ IsLaw W ∧
    (∀ e ∈ W, ∃ res, measureOp (fun s : Fin 2 → Fin 2 => [((fun i => 1 - s i), 1)]) ⟨fun c =>
        rnn1d ⟨realHead 2 (1 / 2) true fun (_ : ℕ → ℝ) k => k * Real.log 3, fun h x => (h, x), ()⟩
          (listConfig fun i => (c i : ℤ)), true⟩ 0 7 (some n) e.1 = .ok res ∧ res.length = 3 ∧ ∀ r ∈ res, r.mean = M e.1) := by
  have hk : OperatorOf (fun s : Fin 2 → Fin 2 => [((fun i => 1 - s i), (1 : ℂ))])
      (fun s s' => if (fun i => 1 - s i) = s' then 1 else 0) := by
    refine ⟨?_, ⟨1, fun _ => rfl⟩, ?_⟩
    · intro s s'
      simp only [elementOf, List.filter_cons, List.filter_nil]
      by_cases h : (fun i => 1 - s i) = s' <;> simp [h]
    · intro s e he
      right
      simp only [List.mem_singleton] at he
      subst he
      norm_num
  obtain ⟨W, n, M, h1, h2, h3, h4, _⟩ := c92_rnn 2 2 true (fun (_ : ℕ → ℝ) k => k * Real.log 3) (fun h x => (h, x)) ()
    hk ⟨fun c => rnn1d ⟨realHead 2 (1 / 2) true fun (_ : ℕ → ℝ) k => k * Real.log 3,
      fun h x => (h, x), ()⟩ (listConfig fun i => (c i : ℤ)), true⟩ rfl (fun _ => rfl) 0 7 3 1 100 (by norm_num) (by norm_num)
    (by norm_num)
  exact ⟨W, n, M, h1, h2, h3, h4⟩

end JVMC
