import Verif.Lemmas.McmcSampling
import Verif.Props.DirectSampling
import Verif.Props.MCSampler
import Verif.Props.Variational

/-!
# C93 — estimates from Markov chain samples

`Spec.expect O ψ` is `⟨ψ|O|ψ⟩ / ⟨ψ|ψ⟩` (`Spec/Variational`); `average` and `chance` refer to the random samples
(`Spec/Statistics`).
-/

namespace JVMC

open Spec Matrix Relation

/-! ## The samples of all ranks -/

theorem sq_sum_le_list {A : Type} (a : A → ℝ) (l : List A) :
    (l.map a).sum ^ 2 ≤ l.length * (l.map fun x => a x ^ 2).sum := by
  induction l with
  | nil => simp
  | cons x l ih =>
    simp only [List.map_cons, List.sum_cons, List.length_cons]
    push_cast
    set S := (l.map a).sum
    set Q := (l.map fun x => a x ^ 2).sum
    have hQ : 0 ≤ Q := by
      apply List.sum_nonneg
      intro y hy
      obtain ⟨z, _, rfl⟩ := List.mem_map.mp hy
      positivity
    rcases Nat.eq_zero_or_pos l.length with h | h
    · have : l = [] := List.length_eq_zero_iff.mp h
      have hS : S = 0 := by simp [S, this]
      rw [hS, h]
      push_cast
      nlinarith
    · have hk : (0 : ℝ) < l.length := by exact_mod_cast h
      have h1 : 2 * a x * S * l.length ≤ (l.length : ℝ) * (l.length * a x ^ 2 + Q) := by
        nlinarith [sq_nonneg (l.length * a x - S)]
      have h2 : 2 * a x * S ≤ l.length * a x ^ 2 + Q := by
        have : 2 * a x * S * l.length = l.length * (2 * a x * S) := by ring
        rw [this] at h1
        exact le_of_mul_le_mul_left h1 hk
      nlinarith

theorem mcmcConfigWorld_eq {Ω S : Type} (s D nc N m : ℕ) (hs : 0 < s) (hD : 0 < D) (hnc : 0 < nc) (hm : 0 < m)
    (W : Finset Ω) (step : Ω → ℝ → S → S) (X : Finset S) (therm sweepSteps : ℕ) (states : ℕ → List (Fin nc → S))
    (hst : ∀ r < s, (states r).length = D) :
    ∃ ns : ℕ → ℕ, mcmcConfigWorld s nc W step X therm sweepSteps N m states
        = .ok (WDist.each ((List.range s).map fun r =>
          WDist.each ((states r).map (samplesLaw W step X therm sweepSteps (ns r))))) ∧
      N * nc ≤ (∑ r ∈ Finset.range s, ns r) * (D * nc) * Nat.lcm nc m ∧ (s ≤ N → ∀ r < s, 0 < ns r) := by
  have hlcm : 0 < Nat.lcm nc m := Nat.lcm_pos hnc hm
  obtain ⟨ns, glob, h1, h2, h3, _⟩ := c01_distribute_sampling_devices s N D (Nat.lcm nc m) hs hD hlcm
  refine ⟨ns, ?_, ?_, ?_⟩
  · unfold mcmcConfigWorld
    rw [mapM_ok _ (fun r => WDist.each ((states r).map (samplesLaw W step X therm sweepSteps (ns r))))]
    · rfl
    · intro r hr
      rw [hst r (List.mem_range.mp hr), h1 r (List.mem_range.mp hr)]
      rfl
  · have : (∑ r ∈ Finset.range s, ns r) * (D * nc) * Nat.lcm nc m
        = (∑ r ∈ Finset.range s, ns r) * (D * Nat.lcm nc m) * nc := by ring
    rw [this, Finset.sum_mul, h2]
    exact Nat.mul_le_mul_right nc h3
  · intro hN r hr
    have h := h1 r hr
    unfold distributeSampling at h
    rw [if_neg hs.ne'] at h
    have hne : D * Nat.lcm nc m ≠ 0 := (Nat.mul_pos hD hlcm).ne'
    simp only [hne, if_false] at h
    have h := congrArg Prod.fst (Except.ok.inj h)
    simp only at h
    rw [← h]
    unfold samplesPerChain samplesPerProcess
    have := Nat.div_pos hN hs
    have := Nat.mul_pos hD hlcm
    apply Nat.div_pos _ this
    omega

/-- The shape of the outcomes. -/
theorem samplesLaw_spec {Ω S : Type} [DecidableEq S] {nc : ℕ} (W : Finset Ω) (propose : Ω → S → S) (lw : S → ℝ)
    (hW : W.Nonempty) (X : Finset S) (hX : ∀ ω ∈ W, ∀ s ∈ X, propose ω s ∈ X) (therm sweepSteps n : ℕ)
    (s : Fin nc → S) (hs : ∀ i, s i ∈ X) :
    IsLaw (samplesLaw W (metropolisStep propose lw) X therm sweepSteps n s) ∧
    ∀ e ∈ samplesLaw W (metropolisStep propose lw) X therm sweepSteps n s,
      e.1.length = n * nc ∧ ∀ x ∈ e.1, x ∈ X := by
  have hupd := fun x hx => updateLaw_law (C := nc) W propose lw hW X hX x hx
  have hth := iterLaw_law (fun x : Fin nc → S => ∀ i, x i ∈ X) _ hupd (therm * sweepSteps) s hs
  have hsw := fun x hx => iterLaw_law (fun x : Fin nc → S => ∀ i, x i ∈ X) _ hupd sweepSteps x hx
  have hcol := fun x hx => collectLaw_law (fun x : Fin nc → S => ∀ i, x i ∈ X) _ hsw n x hx
  refine ⟨isLaw_bind' hth.1 _ fun e he => isLaw_map _ (hcol _ (hth.2 e he)).1, ?_⟩
  intro e he
  obtain ⟨e', he', e'', he'', h⟩ := mem_bind he
  obtain ⟨e₃, he₃, rfl⟩ := List.mem_map.mp he''
  have h' := (hcol _ (hth.2 e' he')).2 e₃ he₃
  rw [h]
  refine ⟨?_, ?_⟩
  · dsimp only
    rw [List.length_flatten, List.map_map]
    have : (List.length ∘ List.ofFn : (Fin nc → S) → ℕ) = fun _ => nc := by
      funext x
      simp
    rw [this, List.map_const', List.sum_replicate, h'.1, smul_eq_mul]
  · intro x hx
    obtain ⟨l, hl, hx⟩ := List.mem_flatten.mp hx
    obtain ⟨y, hy, rfl⟩ := List.mem_map.mp hl
    obtain ⟨i, rfl⟩ := (List.mem_ofFn' _ _).mp hx
    exact h'.2 y hy i

theorem mcmcWorld_spec {Ω S : Type} [DecidableEq S] {nc : ℕ} (W : Finset Ω) (propose : Ω → S → S) (lw : S → ℝ)
    (hW : W.Nonempty) (X : Finset S) (hX : ∀ ω ∈ W, ∀ s ∈ X, propose ω s ∈ X) (therm sweepSteps s D : ℕ)
    (ns : ℕ → ℕ) (states : ℕ → List (Fin nc → S)) (hst : ∀ r < s, (states r).length = D)
    (hin : ∀ r < s, ∀ st ∈ states r, ∀ i, st i ∈ X) :
    IsLaw (WDist.each ((List.range s).map fun r =>
        WDist.each ((states r).map (samplesLaw W (metropolisStep propose lw) X therm sweepSteps (ns r))))) ∧
    ∀ e ∈ WDist.each ((List.range s).map fun r =>
        WDist.each ((states r).map (samplesLaw W (metropolisStep propose lw) X therm sweepSteps (ns r)))),
      e.1.length = s ∧ (∀ r (hr : r < e.1.length), e.1[r].length = D ∧
        ∀ dev ∈ e.1[r], dev.length = ns r * nc ∧ ∀ x ∈ dev, x ∈ X) := by
  have hdev : ∀ r < s, ∀ d ∈ (states r).map (samplesLaw W (metropolisStep propose lw) X therm sweepSteps (ns r)),
      IsLaw d ∧ ∀ e ∈ d, e.1.length = ns r * nc ∧ ∀ x ∈ e.1, x ∈ X := by
    intro r hr d hd
    obtain ⟨st, hst', rfl⟩ := List.mem_map.mp hd
    exact samplesLaw_spec W propose lw hW X hX therm sweepSteps (ns r) st (hin r hr st hst')
  constructor
  · apply isLaw_each
    intro d hd
    obtain ⟨r, hr, rfl⟩ := List.mem_map.mp hd
    exact isLaw_each _ fun d hd => (hdev r (List.mem_range.mp hr) d hd).1
  · intro e he
    have h := each_spec _ e he
    have hl : e.1.length = s := by simpa using h.length_eq
    refine ⟨hl, ?_⟩
    intro r hr
    obtain ⟨p, hp⟩ := h.get hr (by simpa [hl] using hr)
    simp only [List.get_eq_getElem, List.getElem_map, List.getElem_range] at hp
    have h2 := each_spec _ _ hp
    have hl2 : e.1[r].length = (states r).length := by simpa using h2.length_eq
    have hrs : r < s := hl ▸ hr
    refine ⟨by rw [hl2, hst r hrs], ?_⟩
    intro dev hd
    obtain ⟨i, hi, rfl⟩ := List.mem_iff_getElem.mp hd
    obtain ⟨p, hp⟩ := h2.get hi (by simpa [hl2] using hi)
    exact (hdev r hrs _ (List.get_mem _ _)).2 _ hp

/-- The second moment of a sum over all samples. -/
theorem mcmcWorld_sq {Ω S : Type} [DecidableEq S] {nc : ℕ} (W : Finset Ω) (propose : Ω → S → S) (lw : S → ℝ)
    (hW : W.Nonempty) (X : Finset S) (hX : ∀ ω ∈ W, ∀ s ∈ X, propose ω s ∈ X) (therm sweepSteps s D : ℕ)
    (ns : ℕ → ℕ) (states : ℕ → List (Fin nc → S)) (hst : ∀ r < s, (states r).length = D)
    (hin : ∀ r < s, ∀ st ∈ states r, ∀ i, st i ∈ X) (h : S → ℝ) (K : ℝ)
    (hK : ∀ (n : ℕ) (st : Fin nc → S), (∀ i, st i ∈ X) →
      average (samplesLaw W (metropolisStep propose lw) X therm sweepSteps n st) (fun l => (l.map h).sum ^ 2) ≤ n * K) :
    average (WDist.each ((List.range s).map fun r =>
        WDist.each ((states r).map (samplesLaw W (metropolisStep propose lw) X therm sweepSteps (ns r)))))
      (fun w => ((allSamples w).map h).sum ^ 2) ≤ (s * D : ℝ) * (((∑ r ∈ Finset.range s, ns r : ℕ) : ℝ) * D * K) := by
  obtain ⟨hlaw, hspec⟩ := mcmcWorld_spec W propose lw hW X hX therm sweepSteps s D ns states hst hin
  have hdl : ∀ r < s, ∀ d ∈ (states r).map (samplesLaw W (metropolisStep propose lw) X therm sweepSteps (ns r)),
      IsLaw d := by
    intro r hr d hd
    obtain ⟨st, hst', rfl⟩ := List.mem_map.mp hd
    exact (samplesLaw_spec W propose lw hW X hX therm sweepSteps (ns r) st (hin r hr st hst')).1
  refine le_trans (average_mono hlaw.nonneg (G := fun w => (s * D : ℝ) * (w.map fun rk =>
    (rk.map fun dev => (dev.map h).sum ^ 2).sum).sum) ?_) ?_
  · intro e he
    obtain ⟨h1, h2⟩ := hspec e he
    have hlen : e.1.flatten.length = s * D := by
      rw [List.length_flatten]
      have : e.1.map List.length = List.replicate s D := by
        rw [List.eq_replicate_iff]
        refine ⟨by simp [h1], ?_⟩
        intro b hb
        obtain ⟨rk, hrk, rfl⟩ := List.mem_map.mp hb
        obtain ⟨r, hr, rfl⟩ := List.mem_iff_getElem.mp hrk
        exact (h2 r hr).1
      rw [this, List.sum_replicate, smul_eq_mul]
    have e1 : ((allSamples e.1).map h).sum = (e.1.flatten.map fun dev => (dev.map h).sum).sum := by
      unfold allSamples
      rw [List.map_flatten, List.sum_flatten, List.map_map]
      rfl
    have e2 : (e.1.map fun rk => (rk.map fun dev => (dev.map h).sum ^ 2).sum).sum
        = (e.1.flatten.map fun dev => (dev.map h).sum ^ 2).sum := by
      rw [List.map_flatten, List.sum_flatten, List.map_map]
      rfl
    rw [e1, e2]
    have := sq_sum_le_list (fun dev : List S => (dev.map h).sum) e.1.flatten
    rw [hlen] at this
    push_cast at this
    exact this
  · rw [average_mul, average_each_sum]
    · apply mul_le_mul_of_nonneg_left _ (by positivity)
      rw [List.map_map]
      have hr : ∀ r ∈ List.range s, ((fun d => average d fun rk => (rk.map fun dev => (dev.map h).sum ^ 2).sum) ∘ fun r =>
          WDist.each ((states r).map (samplesLaw W (metropolisStep propose lw) X therm sweepSteps (ns r)))) r
          ≤ (ns r : ℝ) * D * K := by
        intro r hr
        rw [List.mem_range] at hr
        simp only [Function.comp_apply]
        rw [average_each_sum _ _ (hdl r hr), List.map_map]
        calc _ ≤ ((states r).map fun _ => (ns r : ℝ) * K).sum := by
              apply List.sum_le_sum
              intro st hst'
              exact hK (ns r) st (hin r hr st hst')
          _ = (ns r : ℝ) * D * K := by
              rw [List.map_const', List.sum_replicate, hst r hr, nsmul_eq_mul]
              ring
      refine (List.sum_le_sum hr).trans (le_of_eq ?_)
      push_cast
      rw [Finset.sum_mul, Finset.sum_mul]
      rfl
    · intro d hd
      obtain ⟨r, hr, rfl⟩ := List.mem_map.mp hd
      exact isLaw_each _ (hdl r (List.mem_range.mp hr))

/-! ## The returned weights -/

/-- The samples with normalised weights. -/
theorem mcmcSampleOf_eq {Cfg : Type} (f mu : ℝ) (logPsi : Cfg → ℂ) (w : World Cfg) (hw : ∀ r ∈ w, r ≠ [])
    (hne : allSamples w ≠ []) :
    mcmcSampleOf f mu logPsi w = .ok (World.map (fun c => (c, logPsi c,
      Real.exp ((1 / f - mu) * (logPsi c).re) / ((allSamples w).map fun c => Real.exp ((1 / f - mu) * (logPsi c).re)).sum)) w) := by
  obtain ⟨Z, hZ, h1, h2⟩ := c19_mcmc_weights f mu (World.map logPsi w) (World.map_ne _ _ hw)
    (by rw [allSamples_wmap]; simpa using hne)
  have hexp : ∀ z : ℂ, Real.exp (z.re / f) / Real.exp (mu * z.re) = Real.exp ((1 / f - mu) * z.re) := by
    intro z
    rw [← Real.exp_sub]
    congr 1
    ring
  simp only [hexp] at h1 h2
  have hsum : ((allSamples w).map fun c => Real.exp ((1 / f - mu) * (logPsi c).re)).sum = Z := by
    rw [allSamples_wmap, List.map_map] at h2
    simp only [div_eq_mul_inv] at h2
    have h3 := List.sum_map_mul_right (allSamples w) (fun c => Real.exp ((1 / f - mu) * (logPsi c).re)) Z⁻¹
    have h4 : ((allSamples w).map fun c => Real.exp ((1 / f - mu) * (logPsi c).re)).sum * Z⁻¹ = 1 := by
      rw [← h3]
      simpa [Function.comp_def, div_eq_mul_inv] using h2
    field_simp at h4
    exact h4
  unfold mcmcSampleOf
  rw [h1, hsum]
  change Except.ok _ = _
  congr 1
  unfold World.map
  simp only [List.map_map]
  rw [zipWith_map_self]
  apply List.map_congr_left
  intro rk _
  simp only [Function.comp_apply, List.map_map]
  rw [zipWith_map_self]
  apply List.map_congr_left
  intro dev _
  simp only [Function.comp_apply, List.map_map]
  rw [zipWith_map_self]
  rfl

theorem length_allSamples {A : Type} (w : World A) (s D nc : ℕ) (ns : ℕ → ℕ) (hl : List.length w = s)
    (h : ∀ r (hr : r < List.length w), w[r].length = D ∧ ∀ dev ∈ w[r], dev.length = ns r * nc) :
    (allSamples w).length = (∑ r ∈ Finset.range s, ns r) * (D * nc) := by
  unfold allSamples
  rw [List.length_flatten, List.map_flatten, List.sum_flatten, List.map_map]
  have : List.map (List.sum ∘ List.map List.length) w = (List.range s).map fun r => ns r * (D * nc) := by
    apply List.ext_getElem
    · simp [hl]
    · intro r h1 h2
      simp only [List.getElem_map, List.getElem_range, Function.comp_apply]
      have hr : r < List.length w := by simpa using h1
      obtain ⟨ha, hb⟩ := h r hr
      rw [List.map_congr_left hb, List.map_const', List.sum_replicate, ha, smul_eq_mul]
      ring
  rw [this, Finset.sum_mul]
  rfl

/-- What is sampled, for any configurations the chains may visit. -/
theorem mcmcWorld_samples {Ω S Cfg : Type} [DecidableEq S] (W : Finset Ω) (propose : Ω → S → S) (lw : S → ℝ) (hW : W.Nonempty)
    (X : Finset S) (hX : ∀ ω ∈ W, ∀ s ∈ X, propose ω s ∈ X) (decode : S → Cfg) (logPsi : Cfg → ℂ) (f mu : ℝ)
    (sweepSteps s D nc m : ℕ) (hs : 0 < s) (hD : 0 < D) (hnc : 0 < nc) (hm : 0 < m) (therm N : ℕ) (hN : s ≤ N)
    (states : ℕ → List (Fin nc → S)) (hst : ∀ r < s, (states r).length = D)
    (hin : ∀ r < s, ∀ st ∈ states r, ∀ i, st i ∈ X) :
    ∃ ns : ℕ → ℕ, N * nc ≤ (∑ r ∈ Finset.range s, ns r) * (D * nc) * Nat.lcm nc m ∧
      mcmcConfigWorld s nc W (metropolisStep propose lw) X therm sweepSteps N m states
        = .ok (WDist.each ((List.range s).map fun r =>
          WDist.each ((states r).map (samplesLaw W (metropolisStep propose lw) X therm sweepSteps (ns r))))) ∧
      IsLaw (WDist.each ((List.range s).map fun r =>
          WDist.each ((states r).map (samplesLaw W (metropolisStep propose lw) X therm sweepSteps (ns r))))) ∧
      ∀ e ∈ WDist.each ((List.range s).map fun r =>
          WDist.each ((states r).map (samplesLaw W (metropolisStep propose lw) X therm sweepSteps (ns r)))),
        e.1.length = s ∧ (allSamples e.1).length = (∑ r ∈ Finset.range s, ns r) * (D * nc) ∧
        (∀ x ∈ allSamples e.1, x ∈ X) ∧
        ∃ w, mcmcSampleOf f mu logPsi (World.map decode e.1) = .ok w ∧
          List.length w = s ∧ N * nc ≤ (allSamples w).length * Nat.lcm nc m ∧ SamplesOf logPsi w ∧
          ((allSamples w).map fun x => x.2.2).sum = 1 ∧ (∀ x ∈ allSamples w, 0 ≤ x.2.2) ∧
          ∀ F : Cfg → ℝ, ((allSamples w).map fun x => x.2.2 * F x.1).sum
            = ((allSamples e.1).map fun x => Real.exp ((1 / f - mu) * (logPsi (decode x)).re) * F (decode x)).sum
              / ((allSamples e.1).map fun x => Real.exp ((1 / f - mu) * (logPsi (decode x)).re)).sum := by
  set p : S → ℝ := fun x => Real.exp ((1 / f - mu) * (logPsi (decode x)).re) with hp
  obtain ⟨ns, hL, hNn, hpos⟩ := mcmcConfigWorld_eq s D nc N m hs hD hnc hm W (metropolisStep propose lw) X therm sweepSteps
    states hst
  obtain ⟨hlaw, hspec⟩ := mcmcWorld_spec W propose lw hW X hX therm sweepSteps s D ns states hst hin
  refine ⟨ns, hNn, hL, hlaw, ?_⟩
  set L := WDist.each ((List.range s).map fun r =>
    WDist.each ((states r).map (samplesLaw W (metropolisStep propose lw) X therm sweepSteps (ns r)))) with hLdef
  set n : ℕ := (∑ r ∈ Finset.range s, ns r) * (D * nc) with hn
  have hlen : ∀ e ∈ L, (allSamples e.1).length = n := fun e he =>
    length_allSamples e.1 s D nc ns (hspec e he).1 fun r hr =>
      ⟨((hspec e he).2 r hr).1, fun dev hd => (((hspec e he).2 r hr).2 dev hd).1⟩
  have hn0 : 0 < n := by
    rcases Nat.eq_zero_or_pos n with h0 | h0
    · rw [h0, Nat.zero_mul] at hNn
      have := Nat.mul_pos (lt_of_lt_of_le hs hN) hnc
      omega
    · exact h0
  have hall : ∀ e ∈ L, ∀ x ∈ allSamples e.1, x ∈ X := by
    intro e he x hx
    obtain ⟨dev, hdev, hx⟩ := List.mem_flatten.mp hx
    obtain ⟨rk, hrk, hdev⟩ := List.mem_flatten.mp hdev
    obtain ⟨r, hr, rfl⟩ := List.mem_iff_getElem.mp hrk
    exact (((hspec e he).2 r hr).2 dev hdev).2 x hx
  intro e he
  have hden0 : 0 < ((allSamples e.1).map p).sum := by
    apply List.sum_pos
    · intro y hy
      obtain ⟨x, _, rfl⟩ := List.mem_map.mp hy
      exact Real.exp_pos _
    · intro h0
      have := congrArg List.length h0
      rw [List.length_map, hlen e he, List.length_nil] at this
      omega
  obtain ⟨h1, h2⟩ := hspec e he
  refine ⟨h1, hlen e he, hall e he, ?_⟩
  have hdev : ∀ rk ∈ e.1, rk ≠ [] ∧ ∀ dev ∈ rk, dev ≠ [] := by
    intro rk hrk
    obtain ⟨r, hr, rfl⟩ := List.mem_iff_getElem.mp hrk
    obtain ⟨ha, hb⟩ := h2 r hr
    refine ⟨?_, ?_⟩
    · intro h0
      rw [h0] at ha
      simp at ha
      omega
    · intro dev hd h0
      have := (hb dev hd).1
      rw [h0] at this
      have hp1 := Nat.mul_pos (hpos hN r (h1 ▸ hr)) hnc
      rw [List.length_nil] at this
      omega
  have hwne : ∀ rk ∈ World.map decode e.1, rk ≠ [] := World.map_ne _ _ fun rk hrk => (hdev rk hrk).1
  have hane : allSamples (World.map decode e.1) ≠ [] := by
    rw [allSamples_wmap]
    intro h0
    have := congrArg List.length h0
    rw [List.length_map, hlen e he] at this
    simp at this
    omega
  refine ⟨_, mcmcSampleOf_eq f mu logPsi _ hwne hane, ?_, ?_, ?_, ?_, ?_, ?_⟩
  · simpa [World.map] using h1
  · rw [allSamples_wmap, List.length_map, allSamples_wmap, List.length_map, hlen e he]
    exact hNn
  · refine ⟨World.map_ne _ _ hwne, ?_, ?_⟩
    · intro rk hrk dev hd
      obtain ⟨rk1, hrk1, rfl⟩ := List.mem_map.mp hrk
      obtain ⟨dev1, hd1, rfl⟩ := List.mem_map.mp hd
      obtain ⟨rk2, hrk2, rfl⟩ := List.mem_map.mp hrk1
      obtain ⟨dev2, hd2, rfl⟩ := List.mem_map.mp hd1
      have := (hdev rk2 hrk2).2 dev2 hd2
      simpa using this
    · intro x hx
      rw [allSamples_wmap] at hx
      obtain ⟨c, _, rfl⟩ := List.mem_map.mp hx
      rfl
  · rw [allSamples_wmap, List.map_map, allSamples_wmap, List.map_map, List.map_map]
    have := hden0.ne'
    simp only [Function.comp_def, div_eq_mul_inv]
    rw [List.sum_map_mul_right]
    exact mul_inv_cancel₀ this
  · intro x hx
    rw [allSamples_wmap] at hx
    obtain ⟨c, _, rfl⟩ := List.mem_map.mp hx
    refine div_nonneg (Real.exp_pos _).le (List.sum_nonneg fun y hy => ?_)
    obtain ⟨c', _, rfl⟩ := List.mem_map.mp hy
    exact (Real.exp_pos _).le
  · intro F
    rw [allSamples_wmap, List.map_map, allSamples_wmap, List.map_map, List.map_map]
    simp only [Function.comp_def, div_mul_eq_mul_div]
    simp only [div_eq_mul_inv]
    rw [List.sum_map_mul_right, hp]
    simp only [div_eq_mul_inv]

/-! ## C93 -/

/-- C93, functions of the configurations: the weighted mean over the samples of any function `F` approaches its mean
in the distribution `|ψ|^(1/logProbFactor)` on the configuration space `X`; the mean square deviation is at most `A/N`
for `N` requested samples, where `A` does not depend on `N`, on the initial states and on the number of
thermalisation sweeps. The number of samples is at least `N nc / lcm(nc, multipleOf)` (at least `N` if `multipleOf`
divides the number of chains; see C12 for the other case). -/
theorem c93_configurations_partial {Ω S Cfg : Type} [DecidableEq S] (W : Finset Ω) (propose : Ω → S → S) (hW : W.Nonempty)
    (X : Finset S) (hne : X.Nonempty) (hX : ∀ ω ∈ W, ∀ s ∈ X, propose ω s ∈ X)
    (hsym : ∀ s ∈ X, ∀ s' ∈ X, (W.filter fun ω => propose ω s = s').card = (W.filter fun ω => propose ω s' = s).card)
    (hirr : ∀ s ∈ X, ∀ t ∈ X, ReflTransGen (fun a b => ∃ ω ∈ W, propose ω a = b) s t)
    (decode : S → Cfg) (logPsi : Cfg → ℂ) (f mu : ℝ)
    (hap : (∃ s ∈ X, ∃ t ∈ X, mu * (logPsi (decode s)).re ≠ mu * (logPsi (decode t)).re) ∨
      ∃ s ∈ X, ∃ ds : List Ω, (∀ d ∈ ds, d ∈ W) ∧ Odd ds.length ∧ ds.foldl (fun s d => propose d s) s = s)
    (sweepSteps : ℕ) (hsw : 0 < sweepSteps) (s D nc m : ℕ) (hs : 0 < s) (hD : 0 < D) (hnc : 0 < nc) (hm : 0 < m)
    (F : Cfg → ℝ) :
    ∃ A : ℝ, ∀ (therm N : ℕ) (states : ℕ → List (Fin nc → S)), s ≤ N → (∀ r < s, (states r).length = D) →
      (∀ r < s, ∀ st ∈ states r, ∀ i, st i ∈ X) →
      ∃ (L : WDist (World S)) (M : World S → ℝ), mcmcConfigWorld s nc W (metropolisStep propose fun x => mu * (logPsi (decode x)).re) X therm sweepSteps N m
          states = .ok L ∧ IsLaw L ∧
        (∀ e ∈ L, e.1.length = s ∧ ∃ w, mcmcSampleOf f mu logPsi (World.map decode e.1) = .ok w ∧
          List.length w = s ∧ N * nc ≤ (allSamples w).length * Nat.lcm nc m ∧ SamplesOf logPsi w ∧
          ((allSamples w).map fun x => x.2.2).sum = 1 ∧ (∀ x ∈ allSamples w, 0 ≤ x.2.2) ∧
          M e.1 = ((allSamples w).map fun x => x.2.2 * F x.1).sum) ∧
        average L (fun w => (M w - (∑ x ∈ X, Real.exp ((logPsi (decode x)).re / f) * F (decode x))
          / ∑ x ∈ X, Real.exp ((logPsi (decode x)).re / f)) ^ 2) ≤ A / N := by
  set lw : S → ℝ := fun x => mu * (logPsi (decode x)).re with hlw
  set p : S → ℝ := fun x => Real.exp ((1 / f - mu) * (logPsi (decode x)).re) with hp
  set Z : ℝ := ∑ x ∈ X, Real.exp ((logPsi (decode x)).re / f) with hZdef
  set E : ℝ := (∑ x ∈ X, Real.exp ((logPsi (decode x)).re / f) * F (decode x)) / Z with hE
  set h : S → ℝ := fun x => p x * (F (decode x) - E) with hh
  have hZ : 0 < Z := Finset.sum_pos (fun x _ => Real.exp_pos _) hne
  have hmean : ∑ x ∈ X, Real.exp (lw x) * h x = 0 := by
    have e : ∀ x, Real.exp (lw x) * h x = Real.exp ((logPsi (decode x)).re / f) * F (decode x)
        - Real.exp ((logPsi (decode x)).re / f) * E := by
      intro x
      have : Real.exp (lw x) * p x = Real.exp ((logPsi (decode x)).re / f) := by
        rw [hlw, hp, ← Real.exp_add]
        congr 1
        ring
      rw [hh, ← this]
      ring
    simp only [e]
    rw [Finset.sum_sub_distrib, ← Finset.sum_mul, ← hZdef, hE]
    field_simp
    ring
  obtain ⟨K, hK0, hK⟩ := average_samples_sq (C := nc) W propose lw hW X hX hsym hirr hap hne h hmean sweepSteps hsw
  obtain ⟨x₀, hx₀, hmin⟩ := X.exists_min_image p hne
  have hp0 : ∀ x, 0 < p x := fun x => Real.exp_pos _
  refine ⟨s * D * K / (nc * p x₀ ^ 2) * (Nat.lcm nc m / nc), ?_⟩
  intro therm N states hN hst hin
  obtain ⟨ns, hNn, hL, hlaw, hspec⟩ := mcmcWorld_samples W propose lw hW X hX decode logPsi f mu sweepSteps s D nc m hs hD hnc
    hm therm N hN states hst hin
  set L := WDist.each ((List.range s).map fun r =>
    WDist.each ((states r).map (samplesLaw W (metropolisStep propose lw) X therm sweepSteps (ns r)))) with hLdef
  set n : ℕ := (∑ r ∈ Finset.range s, ns r) * (D * nc) with hn
  set M : World S → ℝ := fun w =>
    ((allSamples w).map fun x => p x * F (decode x)).sum / ((allSamples w).map p).sum with hM
  have hlen : ∀ e ∈ L, (allSamples e.1).length = n := fun e he => (hspec e he).2.1
  have hn0 : 0 < n := by
    rcases Nat.eq_zero_or_pos n with h0 | h0
    · rw [h0, Nat.zero_mul] at hNn
      have := Nat.mul_pos (lt_of_lt_of_le hs hN) hnc
      omega
    · exact h0
  have hnR : (0 : ℝ) < n := by exact_mod_cast hn0
  have hNR : (0 : ℝ) < N := by
    have : 0 < N := by omega
    exact_mod_cast this
  have hall : ∀ e ∈ L, ∀ x ∈ allSamples e.1, x ∈ X := fun e he => (hspec e he).2.2.1
  have hden : ∀ e ∈ L, n * p x₀ ≤ ((allSamples e.1).map p).sum := by
    intro e he
    rw [← hlen e he]
    have : ((allSamples e.1).map fun _ => p x₀).sum ≤ ((allSamples e.1).map p).sum :=
      List.sum_le_sum fun x hx => hmin x (hall e he x hx)
    rwa [List.map_const', List.sum_replicate, nsmul_eq_mul] at this
  have hden0 : ∀ e ∈ L, 0 < ((allSamples e.1).map p).sum := fun e he =>
    lt_of_lt_of_le (mul_pos hnR (hp0 _)) (hden e he)
  refine ⟨L, M, hL, hlaw, ?_, ?_⟩
  · intro e he
    obtain ⟨h1, _, _, w, h2, h3, h4, h5, h6, h6', h7⟩ := hspec e he
    exact ⟨h1, w, h2, h3, h4, h5, h6, h6', (h7 F).symm⟩
  · have hsq := mcmcWorld_sq W propose lw hW X hX therm sweepSteps s D ns states hst hin h K fun n st hst => hK therm n st hst
    have hpt : ∀ e ∈ L, (M e.1 - E) ^ 2 ≤ (1 / (n * p x₀) ^ 2) * ((allSamples e.1).map h).sum ^ 2 := by
      intro e he
      have hd := hden0 e he
      have e1 : M e.1 - E = ((allSamples e.1).map h).sum / ((allSamples e.1).map p).sum := by
        have : ((allSamples e.1).map h).sum
            = ((allSamples e.1).map fun x => p x * F (decode x)).sum - ((allSamples e.1).map p).sum * E := by
          rw [← List.sum_map_mul_right, ← list_sum_map_sub]
          congr 2
          funext x
          rw [hh]
          ring
        rw [this, hM]
        field_simp
      rw [e1, div_pow, one_div, inv_mul_eq_div]
      apply div_le_div_of_nonneg_left (sq_nonneg _) (by have := hp0 x₀; positivity)
      exact pow_le_pow_left₀ (by have := hp0 x₀; positivity) (hden e he) 2
    calc average L (fun w => (M w - E) ^ 2)
        ≤ average L (fun w => (1 / (n * p x₀) ^ 2) * ((allSamples w).map h).sum ^ 2) :=
          average_mono hlaw.nonneg hpt
      _ ≤ (1 / (n * p x₀) ^ 2) * ((s * D : ℝ) * (((∑ r ∈ Finset.range s, ns r : ℕ) : ℝ) * D * K)) := by
          rw [average_mul]
          exact mul_le_mul_of_nonneg_left hsq (by have := hp0 x₀; positivity)
      _ = (s * D * K / (nc * p x₀ ^ 2)) / n := by
          have hncR : (0 : ℝ) < nc := by exact_mod_cast hnc
          have := hp0 x₀
          have hnn : (n : ℝ) = ((∑ r ∈ Finset.range s, ns r : ℕ) : ℝ) * (D * nc) := by
            rw [hn]
            push_cast
            ring
          have hsumD : (((∑ r ∈ Finset.range s, ns r : ℕ) : ℝ)) * D = n / nc := by
            rw [hnn]
            field_simp
          rw [hsumD]
          field_simp
      _ ≤ (s * D * K / (nc * p x₀ ^ 2)) * (Nat.lcm nc m / nc) / N := by
          have := hp0 x₀
          have hncR : (0 : ℝ) < nc := by exact_mod_cast hnc
          have hNn' : (N : ℝ) * nc ≤ n * (Nat.lcm nc m : ℕ) := by exact_mod_cast hNn
          rw [div_le_div_iff₀ hnR hNR, mul_assoc (s * D * K / (nc * p x₀ ^ 2))]
          apply mul_le_mul_of_nonneg_left _ (by positivity)
          rw [div_mul_eq_mul_div, le_div_iff₀ hncR]
          linarith

/-- What `measure` reports as mean, for any weights. -/
theorem mean_of_weighted {C : Type} [Fintype C] [DecidableEq C] {kernel : C → List (C × ℂ)} {O : Matrix C C ℂ}
    (hk : OperatorOf kernel O) (psi : Net C) (hlog : psi.logarithmic = true) (zeroCfg : C)
    (b : ℤ) (k : Option ℕ) (w : World (C × ℂ × ℝ)) (hw : SamplesOf psi.val w) :
    ∃ res, measureOp kernel psi zeroCfg b k w = .ok res ∧ res.length = List.length w ∧ ∀ r ∈ res, r.mean
      = ((allSamples w).map fun x => x.2.2 * (localValue O (fun c => Complex.exp (psi.val c)) x.1).re).sum := by
  unfold measureOp
  rw [oLocWorld_eq hk psi hlog zeroCfg b w hw]
  obtain ⟨res, h1, h2, h3⟩ := measureOne_mean k (World.map (fun x =>
      (x.2.2, fun _ => localValue O (fun c => Complex.exp (psi.val c)) x.1)) w) (World.map_ne _ _ hw.devices)
  refine ⟨res, h1, by simpa [World.map] using h2, fun r hr => ?_⟩
  rw [h3 r hr, wMean_apply, re_list_sum, allSamples_wmap, List.map_map, List.map_map]
  congr 1
  apply List.map_congr_left
  intro x _
  simp

/-- C93: the mean that `measure` reports for the samples of the Markov chains, on any number of ranks and devices
and with any batch size, approaches the quantum expectation value as the number of samples grows. -/
theorem c93_measure_partial {Ω S C : Type} [DecidableEq S] [Fintype C] [DecidableEq C] {kernel : C → List (C × ℂ)}
    {O : Matrix C C ℂ} (hk : OperatorOf kernel O) (psi : Net C) (hlog : psi.logarithmic = true) (zeroCfg : C) (b : ℤ)
    (W : Finset Ω) (propose : Ω → S → S) (hW : W.Nonempty)
    (X : Finset S) (hne : X.Nonempty) (hX : ∀ ω ∈ W, ∀ s ∈ X, propose ω s ∈ X)
    (hsym : ∀ s ∈ X, ∀ s' ∈ X, (W.filter fun ω => propose ω s = s').card = (W.filter fun ω => propose ω s' = s).card)
    (hirr : ∀ s ∈ X, ∀ t ∈ X, ReflTransGen (fun a b => ∃ ω ∈ W, propose ω a = b) s t)
    (decode : S → C) (hdec : Set.BijOn decode X Set.univ) (mu : ℝ)
    (hap : (∃ s ∈ X, ∃ t ∈ X, mu * (psi.val (decode s)).re ≠ mu * (psi.val (decode t)).re) ∨
      ∃ s ∈ X, ∃ ds : List Ω, (∀ d ∈ ds, d ∈ W) ∧ Odd ds.length ∧ ds.foldl (fun s d => propose d s) s = s)
    (sweepSteps : ℕ) (hsw : 0 < sweepSteps) (s D nc m : ℕ) (hs : 0 < s) (hD : 0 < D) (hnc : 0 < nc) (hm : 0 < m) :
    ∃ A : ℝ, ∀ (therm N : ℕ) (states : ℕ → List (Fin nc → S)), s ≤ N → (∀ r < s, (states r).length = D) →
      (∀ r < s, ∀ st ∈ states r, ∀ i, st i ∈ X) →
      ∃ (L : WDist (World S)) (M : World S → ℝ),
        mcmcConfigWorld s nc W (metropolisStep propose fun x => mu * (psi.val (decode x)).re) X therm sweepSteps N m
          states = .ok L ∧ IsLaw L ∧
        (∀ e ∈ L, ∃ w, mcmcSampleOf (1 / 2) mu psi.val (World.map decode e.1) = .ok w ∧ N * nc ≤ (allSamples w).length * Nat.lcm nc m ∧
          ∀ k, ∃ res, measureOp kernel psi zeroCfg b k w = .ok res ∧ res.length = s ∧ ∀ r ∈ res, r.mean = M e.1) ∧
        average L (fun w => (M w - (Spec.expect O fun c => Complex.exp (psi.val c)).re) ^ 2) ≤ A / N ∧
        ∀ ε > 0, chance L (fun w => ε ≤ |M w - (Spec.expect O fun c => Complex.exp (psi.val c)).re|)
          ≤ A / N / ε ^ 2 := by
  set ψ : C → ℂ := fun c => Complex.exp (psi.val c) with hψ
  obtain ⟨A, hA⟩ := c93_configurations_partial W propose hW X hne hX hsym hirr decode psi.val (1 / 2) mu hap sweepSteps hsw
    s D nc m hs hD hnc hm fun c => (localValue O ψ c).re
  have hsum : ∀ G : C → ℝ, ∑ x ∈ X, Real.exp ((psi.val (decode x)).re / (1 / 2)) * G (decode x)
      = ∑ c, Complex.normSq (ψ c) * G c := by
    intro G
    apply Finset.sum_nbij decode (fun x _ => Finset.mem_univ _) hdec.injOn (by simpa using hdec.surjOn)
    intro x _
    congr 1
    rw [hψ, Complex.normSq_eq_norm_sq, Complex.norm_exp, ← Real.exp_nat_mul]
    congr 1
    push_cast
    ring
  have hE : (∑ x ∈ X, Real.exp ((psi.val (decode x)).re / (1 / 2)) * (localValue O ψ (decode x)).re)
      / ∑ x ∈ X, Real.exp ((psi.val (decode x)).re / (1 / 2)) = (Spec.expect O ψ).re := by
    have h1 := hsum fun _ => 1
    simp only [mul_one] at h1
    rw [hsum fun c => (localValue O ψ c).re, h1, ← born_mean O ψ fun _ => Complex.exp_ne_zero _, Complex.re_sum]
    simp only [Complex.re_ofReal_mul]
    rw [Finset.sum_div]
    apply Finset.sum_congr rfl
    intro c _
    rw [div_mul_eq_mul_div]
    rfl
  refine ⟨A, fun therm N states hN hst hin => ?_⟩
  obtain ⟨L, M, h1, h2, h3, h4⟩ := hA therm N states hN hst hin
  rw [hE] at h4
  refine ⟨L, M, h1, h2, ?_, h4, ?_⟩
  · intro e he
    obtain ⟨h5, w, h6, h7, h8, h9, _, _, h10⟩ := h3 e he
    refine ⟨w, h6, h8, fun k => ?_⟩
    obtain ⟨res, h11, h12, h13⟩ := mean_of_weighted hk psi hlog zeroCfg b k w h9
    exact ⟨res, h11, by rw [h12, h7], fun r hr => by rw [h13 r hr, h10]⟩
  · intro ε hε
    refine (chebyshev h2.nonneg (fun w => M w - (Spec.expect O ψ).re) ε hε).trans ?_
    exact div_le_div_of_nonneg_right h4 (by positivity)

/-! ## C93 for the proposers of the library -/

theorem spinConfigs_lists (L : ℕ) : ∀ l ∈ spinConfigs L, l ∈ listsOver (localStates 2) L := by
  intro l hl
  obtain ⟨h1, h2⟩ := (mem_spinConfigs L l).mp hl
  refine mem_listsOver.mpr ⟨h2, fun x hx => mem_localStates.mpr ?_⟩
  have := h1 x hx
  constructor
  · omega
  · push_cast
    omega

theorem decodeChain_bijOn (L : ℕ) : Set.BijOn (decodeChain L 2) (spinConfigs L) Set.univ := by
  have hmem := spinConfigs_lists L
  refine ⟨fun _ _ => Set.mem_univ _, ?_, ?_⟩
  · intro a ha b hb hab
    have h1 := (decodeChain_eq_iff (hmem a ha) _).mp hab
    have h2 := (decodeChain_eq_iff (hmem b hb) _).mp rfl
    rw [h1, ← h2]
  · intro c _
    have hl : (listConfig fun i => (c i : ℤ)) ∈ spinConfigs L := by
      rw [mem_spinConfigs]
      refine ⟨?_, by simp [listConfig]⟩
      rw [← bin_iff]
      intro x hx
      obtain ⟨i, rfl⟩ := (List.mem_ofFn' _ _).mp hx
      have := (c i).isLt
      dsimp only
      omega
    exact ⟨_, hl, (decodeChain_eq_iff (hmem _ hl) c).mpr rfl⟩

theorem spinConfigs_nonempty (L : ℕ) : (spinConfigs L).Nonempty := by
  refine ⟨List.replicate L 0, (mem_spinConfigs _ _).mpr ⟨?_, by simp⟩⟩
  rw [← bin_iff]
  intro x hx
  exact Or.inl (List.eq_of_mem_replicate hx)

/-- C93 with single spin flips, for wave functions whose amplitudes differ in magnitude. -/
theorem c93_spin_flip_partial (n : ℕ) (hn : 0 < n) {kernel : (Fin n → Fin 2) → List ((Fin n → Fin 2) × ℂ)}
    {O : Matrix (Fin n → Fin 2) (Fin n → Fin 2) ℂ} (hk : OperatorOf kernel O) (psi : Net (Fin n → Fin 2))
    (hlog : psi.logarithmic = true) (zeroCfg : Fin n → Fin 2) (b : ℤ) (mu : ℝ) (hmu : 0 < mu)
    (hpsi : ∃ c c', (psi.val c).re ≠ (psi.val c').re)
    (sweepSteps : ℕ) (hsw : 0 < sweepSteps) (s D nc m : ℕ) (hs : 0 < s) (hD : 0 < D) (hnc : 0 < nc) (hm : 0 < m) :
    ∃ A : ℝ, ∀ (therm N : ℕ) (states : ℕ → List (Fin nc → List ℤ)), s ≤ N → (∀ r < s, (states r).length = D) →
      (∀ r < s, ∀ st ∈ states r, ∀ i, st i ∈ spinConfigs n) →
      ∃ (L : WDist (World (List ℤ))) (M : World (List ℤ) → ℝ),
        mcmcConfigWorld s nc (spinFlipDraws n) (metropolisStep proposeSpinFlip fun x =>
          mu * (psi.val (decodeChain n 2 x)).re) (spinConfigs n) therm sweepSteps N m states = .ok L ∧ IsLaw L ∧
        (∀ e ∈ L, ∃ w, mcmcSampleOf (1 / 2) mu psi.val (World.map (decodeChain n 2) e.1) = .ok w ∧
          N * nc ≤ (allSamples w).length * Nat.lcm nc m ∧
          ∀ k, ∃ res, measureOp kernel psi zeroCfg b k w = .ok res ∧ res.length = s ∧ ∀ r ∈ res, r.mean = M e.1) ∧
        average L (fun w => (M w - (Spec.expect O fun c => Complex.exp (psi.val c)).re) ^ 2) ≤ A / N ∧
        ∀ ε > 0, chance L (fun w => ε ≤ |M w - (Spec.expect O fun c => Complex.exp (psi.val c)).re|)
          ≤ A / N / ε ^ 2 := by
  obtain ⟨h1, h2, h3, h4⟩ := spinFlip_moves n hn
  refine c93_measure_partial hk psi hlog zeroCfg b _ _ h1 _ (spinConfigs_nonempty n) h2 h3 h4 _ (decodeChain_bijOn n) mu
    (Or.inl ?_) sweepSteps hsw s D nc m hs hD hnc hm
  obtain ⟨c, c', hcc⟩ := hpsi
  obtain ⟨a, ha, rfl⟩ := (decodeChain_bijOn n).surjOn (Set.mem_univ c)
  obtain ⟨a', ha', rfl⟩ := (decodeChain_bijOn n).surjOn (Set.mem_univ c')
  exact ⟨a, ha, a', ha', fun h => hcc (mul_left_cancel₀ hmu.ne' h)⟩

/-- C93 with single spin flips and global flips. -/
theorem c93_spin_flip_Z2_partial (n : ℕ) (hn : 0 < n) {kernel : (Fin n → Fin 2) → List ((Fin n → Fin 2) × ℂ)}
    {O : Matrix (Fin n → Fin 2) (Fin n → Fin 2) ℂ} (hk : OperatorOf kernel O) (psi : Net (Fin n → Fin 2))
    (hlog : psi.logarithmic = true) (zeroCfg : Fin n → Fin 2) (b : ℤ) (mu : ℝ) (hmu : 0 < mu)
    (hpsi : (∃ c c', (psi.val c).re ≠ (psi.val c').re) ∨ Odd n)
    (sweepSteps : ℕ) (hsw : 0 < sweepSteps) (s D nc m : ℕ) (hs : 0 < s) (hD : 0 < D) (hnc : 0 < nc) (hm : 0 < m) :
    ∃ A : ℝ, ∀ (therm N : ℕ) (states : ℕ → List (Fin nc → List ℤ)), s ≤ N → (∀ r < s, (states r).length = D) →
      (∀ r < s, ∀ st ∈ states r, ∀ i, st i ∈ spinConfigs n) →
      ∃ (L : WDist (World (List ℤ))) (M : World (List ℤ) → ℝ),
        mcmcConfigWorld s nc (z2Draws n) (metropolisStep (fun d => proposeSpinFlipZ2 d.1 d.2) fun x =>
          mu * (psi.val (decodeChain n 2 x)).re) (spinConfigs n) therm sweepSteps N m states = .ok L ∧ IsLaw L ∧
        (∀ e ∈ L, ∃ w, mcmcSampleOf (1 / 2) mu psi.val (World.map (decodeChain n 2) e.1) = .ok w ∧
          N * nc ≤ (allSamples w).length * Nat.lcm nc m ∧
          ∀ k, ∃ res, measureOp kernel psi zeroCfg b k w = .ok res ∧ res.length = s ∧ ∀ r ∈ res, r.mean = M e.1) ∧
        average L (fun w => (M w - (Spec.expect O fun c => Complex.exp (psi.val c)).re) ^ 2) ≤ A / N ∧
        ∀ ε > 0, chance L (fun w => ε ≤ |M w - (Spec.expect O fun c => Complex.exp (psi.val c)).re|)
          ≤ A / N / ε ^ 2 := by
  obtain ⟨h1, h2, h3, h4, h5⟩ := z2_moves n hn
  have hap : (∃ s ∈ spinConfigs n, ∃ t ∈ spinConfigs n,
      mu * (psi.val (decodeChain n 2 s)).re ≠ mu * (psi.val (decodeChain n 2 t)).re) ∨
      ∃ s ∈ spinConfigs n, ∃ ds : List (ℕ × ℕ), (∀ d ∈ ds, d ∈ z2Draws n) ∧ Odd ds.length ∧
        ds.foldl (fun s d => proposeSpinFlipZ2 d.1 d.2 s) s = s := by
    refine hpsi.imp ?_ h5
    rintro ⟨c, c', hcc⟩
    obtain ⟨a, ha, rfl⟩ := (decodeChain_bijOn n).surjOn (Set.mem_univ c)
    obtain ⟨a', ha', rfl⟩ := (decodeChain_bijOn n).surjOn (Set.mem_univ c')
    exact ⟨a, ha, a', ha', fun h => hcc (mul_left_cancel₀ hmu.ne' h)⟩
  have h := c93_measure_partial hk psi hlog zeroCfg b (z2Draws n) (fun d => proposeSpinFlipZ2 d.1 d.2) h1 (spinConfigs n)
    (spinConfigs_nonempty n) h2 h3 h4 (decodeChain n 2) (decodeChain_bijOn n) mu hap sweepSteps hsw s D nc m hs hD hnc hm
  exact h

/-- C93 with exchanges of spins, for any wave function: the mean in the sector with as many zeros as ones. -/
theorem c93_zeroMag {Cfg : Type} (n : ℕ) (hn : 2 ≤ n) (hne : Even n) (decode : List ℤ → Cfg) (logPsi : Cfg → ℂ) (f mu : ℝ)
    (sweepSteps : ℕ) (hsw : 0 < sweepSteps) (s D nc m : ℕ) (hs : 0 < s) (hD : 0 < D) (hnc : 0 < nc) (hm : 0 < m)
    (F : Cfg → ℝ) :
    ∃ A : ℝ, ∀ (therm N : ℕ) (states : ℕ → List (Fin nc → List ℤ)), s ≤ N → (∀ r < s, (states r).length = D) →
      (∀ r < s, ∀ st ∈ states r, ∀ i, st i ∈ (spinConfigs n).filter fun s => s.count 0 = s.count 1) →
      ∃ (L : WDist (World (List ℤ))) (M : World (List ℤ) → ℝ),
        mcmcConfigWorld s nc (zeroMagDraws n) (metropolisStep (fun d => proposeSpinFlipZeroMag d.1 d.2.1 d.2.2) fun x =>
          mu * (logPsi (decode x)).re) ((spinConfigs n).filter fun s => s.count 0 = s.count 1) therm sweepSteps N m
          states = .ok L ∧ IsLaw L ∧
        (∀ e ∈ L, e.1.length = s ∧ ∃ w, mcmcSampleOf f mu logPsi (World.map decode e.1) = .ok w ∧
          List.length w = s ∧ N * nc ≤ (allSamples w).length * Nat.lcm nc m ∧ SamplesOf logPsi w ∧
          ((allSamples w).map fun x => x.2.2).sum = 1 ∧ (∀ x ∈ allSamples w, 0 ≤ x.2.2) ∧
          M e.1 = ((allSamples w).map fun x => x.2.2 * F x.1).sum) ∧
        average L (fun w => (M w - (∑ x ∈ (spinConfigs n).filter fun s => s.count 0 = s.count 1,
            Real.exp ((logPsi (decode x)).re / f) * F (decode x))
          / ∑ x ∈ (spinConfigs n).filter fun s => s.count 0 = s.count 1,
            Real.exp ((logPsi (decode x)).re / f)) ^ 2) ≤ A / N := by
  obtain ⟨h1, h2, h3, h4, h5⟩ := zeroMag_moves n hn hne
  obtain ⟨x, hx, _⟩ := id h5
  have h := c93_configurations_partial (zeroMagDraws n) (fun d => proposeSpinFlipZeroMag d.1 d.2.1 d.2.2) h1
    ((spinConfigs n).filter fun s => s.count 0 = s.count 1) ⟨x, hx⟩ h2 h3 h4 decode logPsi f mu (Or.inr h5) sweepSteps hsw
    s D nc m hs hD hnc hm F
  exact h

/-! ## The proviso of C93 is necessary -/

/-- The outcomes of positive probability have a property. -/
def Supported {A : Type} (d : WDist A) (P : A → Prop) : Prop := ∀ e ∈ d, e.2 ≠ 0 → P e.1

theorem supported_bind {A B : Type} {d : WDist A} {f : A → WDist B} {P : A → Prop} {Q : B → Prop} (hd : Supported d P)
    (hf : ∀ a, P a → Supported (f a) Q) : Supported (WDist.bind d f) Q := by
  intro e he h0
  obtain ⟨e', he', he⟩ := List.mem_flatMap.mp he
  obtain ⟨e'', he'', rfl⟩ := List.mem_map.mp he
  exact hf _ (hd e' he' (left_ne_zero_of_mul h0)) e'' he'' (right_ne_zero_of_mul h0)

theorem supported_map {A B : Type} {d : WDist A} {f : A → B} {P : A → Prop} {Q : B → Prop} (hd : Supported d P)
    (hf : ∀ a, P a → Q (f a)) : Supported (WDist.map f d) Q := by
  intro e he h0
  obtain ⟨e', he', rfl⟩ := List.mem_map.mp he
  exact hf _ (hd e' he' h0)

theorem supported_each {A : Type} (P : A → Prop) (ds : List (WDist A)) (h : ∀ d ∈ ds, Supported d P) :
    Supported (WDist.each ds) fun l => ∀ a ∈ l, P a := by
  induction ds with
  | nil =>
    intro e he _
    obtain rfl := List.mem_singleton.mp he
    simp
  | cons d ds ih =>
    refine supported_bind (h d (by simp)) fun a ha => ?_
    exact supported_map (ih fun d' hd' => h d' (by simp [hd'])) fun l hl => by simpa using ⟨ha, hl⟩

theorem supported_collect {T : Type} (sw : T → WDist T) (P : T → Prop) (h : ∀ x, P x → Supported (sw x) P) (n : ℕ) (x : T)
    (hx : P x) : Supported (collectLaw sw n x) fun l => ∀ a ∈ l, P a := by
  induction n generalizing x with
  | zero =>
    intro e he _
    obtain rfl := List.mem_singleton.mp he
    simp
  | succ n ih =>
    refine supported_bind (h x hx) fun a ha => ?_
    exact supported_map (ih a ha) fun l hl => by simpa using ⟨ha, hl⟩

/-- Single spin flips that are always accepted change the parity of the number of ones. -/
theorem uniform_parity (n nc : ℕ) (lw : List ℤ → ℝ) (c : ℝ) (hlw : ∀ x ∈ spinConfigs n, lw x = c) (k : ℕ)
    (x : Fin nc → List ℤ) (hx : ∀ i, x i ∈ spinConfigs n) :
    Supported (iterLaw (updateLaw (spinFlipDraws n) (metropolisStep proposeSpinFlip lw) (spinConfigs n)) k x)
      fun y => ∀ i, y i ∈ spinConfigs n ∧ Even ((y i).sum + (x i).sum + k) := by
  induction k generalizing x with
  | zero =>
    intro e he _
    obtain rfl := List.mem_singleton.mp he
    intro i
    refine ⟨hx i, (x i).sum, ?_⟩
    push_cast
    ring
  | succ k ih =>
    refine supported_bind (P := fun y => ∀ i, y i ∈ spinConfigs n ∧ Even ((y i).sum + (x i).sum + 1)) ?_ fun y hy => ?_
    · intro e he h0
      obtain ⟨t, ht, rfl⟩ := List.mem_map.mp he
      rw [Finset.mem_toList, Fintype.mem_piFinset] at ht
      intro i
      refine ⟨ht i, ?_⟩
      dsimp only at h0
      rw [transProb_eq] at h0
      have hk := Finset.prod_ne_zero_iff.mp h0 i (Finset.mem_univ i)
      obtain ⟨ω, hω, heq⟩ : ∃ ω ∈ spinFlipDraws n, proposeSpinFlip ω (x i) = t i := by
        by_contra hc
        push Not at hc
        apply hk
        unfold chainKernel
        rw [Finset.sum_eq_zero, zero_div]
        intro ω hω
        have hm : proposeSpinFlip ω (x i) ∈ spinConfigs n := by
          have h := (mem_spinConfigs n _).mp (hx i)
          have := c13_spin_flip (x i) h.1 ω
          exact (mem_spinConfigs n _).mpr ⟨this.1, this.2.trans h.2⟩
        rw [if_neg (hc ω hω), hlw _ hm, hlw _ (hx i), div_self (Real.exp_pos _).ne']
        simp
      have h := (mem_spinConfigs n _).mp (hx i)
      obtain ⟨a, ha⟩ := spinFlip_parity (x i) ((bin_iff _).mpr h.1) ω (by rw [h.2]; exact Finset.mem_range.mp hω)
      dsimp only
      rw [← heq]
      exact ⟨a, by linarith⟩
    · intro e he h0 i
      obtain ⟨h1, a, ha⟩ := ih y (fun i => (hy i).1) e he h0 i
      obtain ⟨b, hb⟩ := (hy i).2
      refine ⟨h1, a + b - (y i).sum, ?_⟩
      push_cast
      linarith

/-- The product of all `σ^z`. -/
noncomputable def parityKernel (n : ℕ) (c : Fin n → Fin 2) : List ((Fin n → Fin 2) × ℂ) :=
  [(c, (-1) ^ (∑ i, (c i : ℕ)))]

/-- C93 is violated for uniform `|ψ|^mu`, single spin flips and even `sweepSteps`: if all chains start in the default
initial state, `measure` reports 1 for the product of all `σ^z`, for every number of samples and for every outcome, while
the quantum expectation value is 0. -/
theorem c93_uniform_violated (n : ℕ) (hn : 0 < n) (psi : Net (Fin n → Fin 2)) (hlog : psi.logarithmic = true)
    (a : ℝ) (hpsi : ∀ c, (psi.val c).re = a) (zeroCfg : Fin n → Fin 2) (b : ℤ) (mu : ℝ)
    (sweepSteps : ℕ) (heven : Even sweepSteps)
    (s D nc m : ℕ) (hs : 0 < s) (hD : 0 < D) (hnc : 0 < nc) (hm : 0 < m) (therm N : ℕ) (hN : s ≤ N) :
    ∃ O, OperatorOf (parityKernel n) O ∧ Spec.expect O (fun c => Complex.exp (psi.val c)) = 0 ∧
      ∃ L, mcmcConfigWorld s nc (spinFlipDraws n) (metropolisStep proposeSpinFlip fun x =>
          mu * (psi.val (decodeChain n 2 x)).re) (spinConfigs n) therm sweepSteps N m
          (fun _ => List.replicate D fun _ => List.replicate n 0) = .ok L ∧ IsLaw L ∧
        ∀ e ∈ L, e.2 ≠ 0 → ∃ w, mcmcSampleOf (1 / 2) mu psi.val (World.map (decodeChain n 2) e.1) = .ok w ∧
          N * nc ≤ (allSamples w).length * Nat.lcm nc m ∧
          ∀ k, ∃ res, measureOp (parityKernel n) psi zeroCfg b k w = .ok res ∧ res.length = s ∧
            ∀ r ∈ res, r.mean = 1 := by
  set ψ : (Fin n → Fin 2) → ℂ := fun c => Complex.exp (psi.val c) with hψ
  have hk : OperatorOf (parityKernel n) (Matrix.diagonal fun c => (-1) ^ (∑ i, (c i : ℕ))) := by
    refine ⟨?_, ⟨1, fun _ => rfl⟩, ?_⟩
    · intro c c'
      simp only [elementOf, parityKernel, List.filter_cons, List.filter_nil]
      by_cases h : c = c'
      · subst h
        simp
      · simp [h]
    · intro c e he
      simp only [parityKernel, List.mem_singleton] at he
      subst he
      right
      norm_num
  have hloc : ∀ c, localValue (Matrix.diagonal fun c => (-1) ^ (∑ i, (c i : ℕ))) ψ c = (-1) ^ (∑ i, (c i : ℕ)) := by
    intro c
    unfold localValue
    rw [Matrix.mulVec_diagonal]
    exact mul_div_cancel_right₀ _ (Complex.exp_ne_zero _)
  refine ⟨_, hk, ?_, ?_⟩
  · rw [← born_mean _ ψ fun _ => Complex.exp_ne_zero _]
    simp only [hloc]
    have hc : ∀ c, Complex.normSq (ψ c) = Real.exp a ^ 2 := by
      intro c
      rw [hψ, Complex.normSq_eq_norm_sq, Complex.norm_exp, hpsi]
    simp only [hc]
    rw [← Finset.mul_sum]
    have h0 : ∑ c : Fin n → Fin 2, (-1 : ℂ) ^ (∑ i, (c i : ℕ)) = 0 := by
      simp only [← Finset.prod_pow_eq_pow_sum]
      rw [← Fintype.piFinset_univ]
      refine (Finset.prod_univ_sum (fun _ => Finset.univ) fun (_ : Fin n) (x : Fin 2) => (-1 : ℂ) ^ (x : ℕ)).symm.trans ?_
      apply Finset.prod_eq_zero (Finset.mem_univ (⟨0, hn⟩ : Fin n))
      simp
    rw [h0, mul_zero]
  · have hz : (List.replicate n (0 : ℤ)) ∈ spinConfigs n := by
      refine (mem_spinConfigs _ _).mpr ⟨?_, by simp⟩
      rw [← bin_iff]
      intro x hx
      exact Or.inl (List.eq_of_mem_replicate hx)
    obtain ⟨h1, h2, _, _⟩ := spinFlip_moves n hn
    set lw : List ℤ → ℝ := fun x => mu * (psi.val (decodeChain n 2 x)).re with hlw
    obtain ⟨ns, hNn, hL, hlaw, hspec⟩ := mcmcWorld_samples (spinFlipDraws n) proposeSpinFlip lw h1 (spinConfigs n) h2
      (decodeChain n 2) psi.val (1 / 2) mu sweepSteps s D nc m hs hD hnc hm therm N hN
      (fun _ => List.replicate D fun _ => List.replicate n 0) (fun _ _ => by simp)
      (fun _ _ st hst i => by rw [List.eq_of_mem_replicate hst]; exact hz)
    refine ⟨_, hL, hlaw, fun e he h0 => ?_⟩
    obtain ⟨_, hlen, hall, w, h3, h4, h5, h6, _, _, h7⟩ := hspec e he
    refine ⟨w, h3, h5, fun k => ?_⟩
    obtain ⟨res, h8, h9, h10⟩ := mean_of_weighted hk psi hlog zeroCfg b k w h6
    refine ⟨res, h8, h9.trans h4, fun r hr => ?_⟩
    have huni : ∀ x ∈ spinConfigs n, lw x = mu * a := fun x _ => by rw [hlw]; simp only [hpsi]
    have hsup : ∀ rk ∈ e.1, ∀ dev ∈ rk, ∀ x ∈ dev, x ∈ spinConfigs n ∧ Even x.sum := by
      refine supported_each (fun rk => ∀ dev ∈ rk, ∀ x ∈ dev, x ∈ spinConfigs n ∧ Even x.sum) _ ?_ e he h0
      intro d hd
      obtain ⟨r, _, rfl⟩ := List.mem_map.mp hd
      apply supported_each
      intro d hd
      obtain ⟨st, hst, rfl⟩ := List.mem_map.mp hd
      rw [List.eq_of_mem_replicate hst]
      refine supported_bind (P := fun y => ∀ i, y i ∈ spinConfigs n ∧ Even (y i).sum) ?_ fun y hy => ?_
      · intro e' he' h0' i
        obtain ⟨ha, hb⟩ := uniform_parity n nc lw (mu * a) huni _ _ (fun _ => hz) e' he' h0' i
        refine ⟨ha, ?_⟩
        have hev : Even ((therm * sweepSteps : ℕ) : ℤ) := by
          exact_mod_cast heven.mul_left therm
        simp only [List.sum_replicate, smul_zero, add_zero] at hb
        have := hb.sub hev
        simpa using this
      · refine supported_map (P := fun l => ∀ y ∈ l, ∀ i : Fin nc, y i ∈ spinConfigs n ∧ Even (y i).sum)
          (supported_collect _ _ ?_ _ _ hy) ?_
        · intro y hy e' he' h0' i
          obtain ⟨ha, hb⟩ := uniform_parity n nc lw (mu * a) huni _ _ (fun i => (hy i).1) e' he' h0' i
          refine ⟨ha, ?_⟩
          have hev : Even ((sweepSteps : ℕ) : ℤ) := by exact_mod_cast heven
          have := (hb.sub hev).sub (hy i).2
          simpa using this
        · intro l hl x hx
          obtain ⟨l', hl', hx⟩ := List.mem_flatten.mp hx
          obtain ⟨y, hy, rfl⟩ := List.mem_map.mp hl'
          obtain ⟨i, rfl⟩ := (List.mem_ofFn' _ _).mp hx
          exact hl y hy i
    rw [h10 r hr, h7 fun c => (localValue _ ψ c).re]
    have hone : ∀ x ∈ allSamples e.1,
        (localValue (Matrix.diagonal fun c => (-1) ^ (∑ i, (c i : ℕ))) ψ (decodeChain n 2 x)).re = 1 := by
      intro x hx
      obtain ⟨dev, hdev, hx⟩ := List.mem_flatten.mp hx
      obtain ⟨rk, hrk, hdev⟩ := List.mem_flatten.mp hdev
      obtain ⟨hx1, hx2⟩ := hsup rk hrk dev hdev x hx
      have hsum : ((∑ i, (decodeChain n 2 x i : ℕ) : ℕ) : ℤ) = x.sum := by
        conv_rhs => rw [(decodeChain_eq_iff (spinConfigs_lists n x hx1) (decodeChain n 2 x)).mp rfl]
        rw [listConfig, List.sum_ofFn]
        push_cast
        rfl
      rw [hloc, Even.neg_one_pow]
      · simp
      · rw [← Int.even_coe_nat, hsum]
        exact hx2
    have hpos : 0 < ((allSamples e.1).map fun x =>
        Real.exp ((1 / (1 / 2) - mu) * (psi.val (decodeChain n 2 x)).re)).sum := by
      apply List.sum_pos
      · intro y hy
        obtain ⟨x, _, rfl⟩ := List.mem_map.mp hy
        exact Real.exp_pos _
      · intro h0
        have := congrArg List.length h0
        rw [List.length_map, hlen, List.length_nil] at this
        rw [this, Nat.zero_mul] at hNn
        have := Nat.mul_pos (lt_of_lt_of_le hs hN) hnc
        omega
    rw [div_eq_one_iff_eq hpos.ne']
    congr 1
    apply List.map_congr_left
    intro x hx
    rw [hone x hx, mul_one]

/-! ## Cases -/

/-- Two spins, single spin flips, a wave function with amplitudes of different magnitude, `mu = 2`; the operator that flips
both spins; two ranks with three devices, five chains each, 2 updates per sweep, an even number of samples. -/
example : ∃ A : ℝ, ∀ (therm N : ℕ) (states : ℕ → List (Fin 5 → List ℤ)), 2 ≤ N → (∀ r < 2, (states r).length = 3) →
      (∀ r < 2, ∀ st ∈ states r, ∀ i, st i ∈ spinConfigs 2) →
      ∃ (L : WDist (World (List ℤ))) (M : World (List ℤ) → ℝ),
        mcmcConfigWorld 2 5 (spinFlipDraws 2) (metropolisStep proposeSpinFlip fun x =>
          2 * ((fun c : Fin 2 → Fin 2 => ((c 0 : ℕ) : ℂ)) (decodeChain 2 2 x)).re) (spinConfigs 2) therm 2 N 2 states
          = .ok L ∧ IsLaw L ∧ ∀ ε > 0, ∃ E : ℝ, chance L (fun w => ε ≤ |M w - E|) ≤ A / N / ε ^ 2 := by
  have hk : OperatorOf (fun s : Fin 2 → Fin 2 => [((fun i => 1 - s i), (1 : ℂ))])
      (fun s s' => if (fun i => 1 - s i) = s' then 1 else 0) := by
    refine ⟨?_, ⟨1, fun _ => rfl⟩, ?_⟩
    · intro s s'
      simp only [elementOf, List.filter_cons, List.filter_nil]
      by_cases h : (fun i => 1 - s i) = s' <;> simp [h]
    · intro s e he
      right
      simp only [List.mem_singleton] at he
      subst he
      norm_num
  obtain ⟨A, hA⟩ := c93_spin_flip_partial 2 (by norm_num) hk ⟨fun c : Fin 2 → Fin 2 => ((c 0 : ℕ) : ℂ), true⟩ rfl 0 7 2
    (by norm_num) ⟨0, 1, by simp⟩ 2 (by norm_num) 2 3 5 2 (by norm_num) (by norm_num) (by norm_num) (by norm_num)
  refine ⟨A, fun therm N states h1 h2 h3 => ?_⟩
  obtain ⟨L, M, h4, h5, _, _, h6⟩ := hA therm N states h1 h2 h3
  exact ⟨L, M, h4, h5, fun ε hε => ⟨_, h6 ε hε⟩⟩

/-- The initial states of these samplers satisfy the hypotheses. -/
example : (∀ r < 2, ((fun _ => List.replicate 3 fun _ => [0, 0]) r : List (Fin 5 → List ℤ)).length = 3) ∧
    ∀ r < 2, ∀ st ∈ ((fun _ => List.replicate 3 fun _ => [0, 0]) r : List (Fin 5 → List ℤ)), ∀ i,
      st i ∈ spinConfigs 2 := by
  refine ⟨fun _ _ => by simp, fun _ _ st hst i => ?_⟩
  rw [List.eq_of_mem_replicate hst, mem_spinConfigs, ← bin_iff]
  refine ⟨?_, rfl⟩
  intro x hx
  simp at hx
  omega

end JVMC
