import Verif.Props.McmcSampling
import Verif.Props.Ergodic
import Verif.Props.Proposers
import Verif.Spec.ZeroMag

/-!
# C121 — sampling at zero magnetisation

`UpAsDown c`: the configuration has as many spins up as down; `partIn P ψ`: the component of `ψ` in the sector `P`
(`Spec/ZeroMag`); `Spec.expect O ψ` is `⟨ψ|O|ψ⟩ / ⟨ψ|ψ⟩` (`Spec/Variational`).
-/

namespace JVMC

open Spec Matrix Relation

section
variable {C : Type} [Fintype C] [DecidableEq C] {kernel : C → List (C × ℂ)} {O : Matrix C C ℂ}

omit [DecidableEq C] in
theorem mixedExpect_keeps (P : C → Prop) (hO : KeepsSector P O) (ψ : C → ℂ) :
    mixedExpect P O ψ = Spec.expect O (partIn P ψ) := by
  classical
  unfold mixedExpect Spec.expect
  congr 1
  apply Finset.sum_congr rfl
  intro c _
  by_cases hc : P c
  · congr 1
    unfold mulVec dotProduct
    apply Finset.sum_congr rfl
    intro c' _
    by_cases h : O c c' = 0
    · simp [h]
    · simp [partIn, (hO c c' h).mp hc]
  · simp [partIn, hc]

omit [DecidableEq C] in
theorem sector_mean (P : C → Prop) [DecidablePred P] (ψ : C → ℂ) (hψ : ∀ c, ψ c ≠ 0) :
    (∑ c ∈ Finset.univ.filter P, Complex.normSq (ψ c) * (localValue O ψ c).re)
      / ∑ c ∈ Finset.univ.filter P, Complex.normSq (ψ c) = (mixedExpect P O ψ).re := by
  have h1 : norm2 (partIn P ψ) = ∑ c ∈ Finset.univ.filter P, Complex.normSq (ψ c) := by
    unfold norm2
    rw [Finset.sum_filter]
    apply Finset.sum_congr rfl
    intro c _
    unfold partIn
    split_ifs <;> simp
  have h2 : ∑ c, (starRingEnd ℂ) (partIn P ψ c) * (O *ᵥ ψ) c
      = ∑ c ∈ Finset.univ.filter P, (Complex.normSq (ψ c) : ℂ) * localValue O ψ c := by
    rw [Finset.sum_filter]
    apply Finset.sum_congr rfl
    intro c _
    have := born_mul_local O ψ c (hψ c) 1
    rw [one_mul, one_mul] at this
    unfold partIn
    split_ifs
    · exact this.symm
    · simp
  unfold mixedExpect
  rw [h1, h2, Complex.div_ofReal_re, Complex.re_sum]
  simp only [Complex.re_ofReal_mul]

/-- C121 for any proposals that stay in a sector and reach all of it: the mean that `measure` reports approaches
`⟨Pψ|O|ψ⟩ / ⟨Pψ|Pψ⟩`. -/
theorem c121_sector (hk : OperatorOf kernel O) (psi : Net C) (hlog : psi.logarithmic = true) (zeroCfg : C) (b : ℤ)
    {Ω S : Type} [DecidableEq S] (W : Finset Ω) (propose : Ω → S → S) (hW : W.Nonempty)
    (X : Finset S) (hne : X.Nonempty) (hX : ∀ ω ∈ W, ∀ s ∈ X, propose ω s ∈ X)
    (hsym : ∀ s ∈ X, ∀ s' ∈ X, (W.filter fun ω => propose ω s = s').card = (W.filter fun ω => propose ω s' = s).card)
    (hirr : ∀ s ∈ X, ∀ t ∈ X, ReflTransGen (fun a b => ∃ ω ∈ W, propose ω a = b) s t)
    (P : C → Prop) (decode : S → C) (hdec : Set.BijOn decode X {c | P c}) (mu : ℝ)
    (hap : (∃ s ∈ X, ∃ t ∈ X, mu * (psi.val (decode s)).re ≠ mu * (psi.val (decode t)).re) ∨
      ∃ s ∈ X, ∃ ds : List Ω, (∀ d ∈ ds, d ∈ W) ∧ Odd ds.length ∧ ds.foldl (fun s d => propose d s) s = s)
    (sweepSteps : ℕ) (hsw : 0 < sweepSteps) (s D nc m : ℕ) (hs : 0 < s) (hD : 0 < D) (hnc : 0 < nc) (hm : 0 < m) :
    ∃ A : ℝ, ∀ (therm N : ℕ) (states : ℕ → List (Fin nc → S)), s ≤ N → (∀ r < s, (states r).length = D) →
      (∀ r < s, ∀ st ∈ states r, ∀ i, st i ∈ X) →
      ∃ (L : WDist (World S)) (M : World S → ℝ),
        mcmcConfigWorld s nc W (metropolisStep propose fun x => mu * (psi.val (decode x)).re) X therm sweepSteps N m
          states = .ok L ∧ IsLaw L ∧
        (∀ e ∈ L, ∃ w, mcmcSampleOf (1 / 2) mu psi.val (World.map decode e.1) = .ok w ∧ N * nc ≤ (allSamples w).length * Nat.lcm nc m ∧
          ∀ k, ∃ res, measureOp kernel psi zeroCfg b k w = .ok res ∧ res.length = s ∧ ∀ r ∈ res, r.mean = M e.1) ∧
        average L (fun w => (M w - (mixedExpect P O fun c => Complex.exp (psi.val c)).re) ^ 2) ≤ A / N ∧
        ∀ ε > 0, chance L (fun w => ε ≤ |M w - (mixedExpect P O fun c => Complex.exp (psi.val c)).re|)
          ≤ A / N / ε ^ 2 := by
  classical
  set ψ : C → ℂ := fun c => Complex.exp (psi.val c) with hψ
  obtain ⟨A, hA⟩ := c93_configurations_partial W propose hW X hne hX hsym hirr decode psi.val (1 / 2) mu hap sweepSteps hsw
    s D nc m hs hD hnc hm fun c => (localValue O ψ c).re
  have hsum : ∀ G : C → ℝ, ∑ x ∈ X, Real.exp ((psi.val (decode x)).re / (1 / 2)) * G (decode x)
      = ∑ c ∈ Finset.univ.filter P, Complex.normSq (ψ c) * G c := by
    intro G
    apply Finset.sum_nbij decode (fun x hx => by simpa using hdec.mapsTo hx) hdec.injOn (by simpa using hdec.surjOn)
    intro x _
    congr 1
    rw [hψ, Complex.normSq_eq_norm_sq, Complex.norm_exp, ← Real.exp_nat_mul]
    congr 1
    push_cast
    ring
  have hE : (∑ x ∈ X, Real.exp ((psi.val (decode x)).re / (1 / 2)) * (localValue O ψ (decode x)).re)
      / ∑ x ∈ X, Real.exp ((psi.val (decode x)).re / (1 / 2)) = (mixedExpect P O ψ).re := by
    have h1 := hsum fun _ => 1
    simp only [mul_one] at h1
    rw [hsum fun c => (localValue O ψ c).re, h1, sector_mean P ψ fun _ => Complex.exp_ne_zero _]
  refine ⟨A, fun therm N states hN hst hin => ?_⟩
  obtain ⟨L, M, h1, h2, h3, h4⟩ := hA therm N states hN hst hin
  rw [hE] at h4
  refine ⟨L, M, h1, h2, ?_, h4, ?_⟩
  · intro e he
    obtain ⟨h5, w, h6, h7, h8, h9, _, _, h10⟩ := h3 e he
    refine ⟨w, h6, h8, fun k => ?_⟩
    obtain ⟨res, h11, h12, h13⟩ := mean_of_weighted hk psi hlog zeroCfg b k w h9
    exact ⟨res, h11, by rw [h12, h7], fun r hr => by rw [h13 r hr, h10]⟩
  · intro ε hε
    refine (chebyshev h2.nonneg (fun w => M w - (mixedExpect P O ψ).re) ε hε).trans ?_
    exact div_le_div_of_nonneg_right h4 (by positivity)

/-- C121: an operator that has a sharp value on the sampled configurations is reported with this value, without variance
and error, on any number of ranks and devices, whatever the weights. -/
theorem c121_sharp (hk : OperatorOf kernel O) (psi : Net C) (hlog : psi.logarithmic = true) (zeroCfg : C) (b : ℤ)
    (k : Option ℕ) (w : World (C × ℂ × ℝ)) (hw : SamplesOf psi.val w) (P : C → Prop) (hP : ∀ x ∈ allSamples w, P x.1)
    (h1 : ((allSamples w).map fun x => x.2.2).sum = 1) (v : ℂ)
    (hv : ∀ c, P c → (O *ᵥ fun c => Complex.exp (psi.val c)) c = v * Complex.exp (psi.val c)) :
    ∃ res, measureOp kernel psi zeroCfg b k w = .ok res ∧ res.length = List.length w ∧
      ∀ r ∈ res, r.mean = v.re ∧ r.variance = 0 ∧ r.mcError = 0 := by
  set ψ : C → ℂ := fun c => Complex.exp (psi.val c) with hψ
  have hloc : ∀ x ∈ allSamples w, localValue O ψ x.1 = v := by
    intro x hx
    unfold localValue
    rw [hv _ (hP x hx), mul_div_cancel_right₀ _ (Complex.exp_ne_zero _)]
  unfold measureOp
  rw [oLocWorld_eq hk psi hlog zeroCfg b w hw]
  change ∃ res, measureOne k _ = _ ∧ _
  set w' : World (ℝ × (Fin 1 → ℂ)) := World.map (fun x => (x.2.2, fun _ => localValue O ψ x.1)) w with hw'
  have hne : ∀ r ∈ w', r ≠ [] := World.map_ne _ _ hw.devices
  have hval : ∀ x ∈ allSamples w', x.2 0 = v := by
    intro x hx
    rw [hw', allSamples_wmap] at hx
    obtain ⟨y, hy, rfl⟩ := List.mem_map.mp hx
    exact hloc y hy
  have hmean : wMean (allSamples w') 0 = v := by
    rw [wMean_apply, hw', allSamples_wmap, List.map_map]
    have : (allSamples w).map ((fun x : ℝ × (Fin 1 → ℂ) => (x.1 : ℂ) * x.2 0) ∘
        fun x : C × ℂ × ℝ => (x.2.2, fun _ => localValue O ψ x.1))
        = (allSamples w).map fun x => (x.2.2 : ℂ) * v := by
      apply List.map_congr_left
      intro x hx
      simp [hloc x hx]
    rw [this, List.sum_map_mul_right]
    have h2 : ((allSamples w).map fun x => ((x.2.2 : ℝ) : ℂ)).sum = 1 := by
      have := congrArg (fun t : ℝ => (t : ℂ)) h1
      simp only [Complex.ofReal_one] at this
      rw [← this, ofReal_list_sum, List.map_map]
      rfl
    rw [h2, one_mul]
  have hvar : globalVariance w' = .ok (List.map (fun _ => (0 : Fin 1 → ℂ)) w') := by
    unfold globalVariance
    rw [globalMean_eq w' hne]
    change Except.bind (List.mapM _ _) _ = _
    rw [mapM_ok _ (fun _ => (0 : Fin 1 → ℂ))]
    · change Except.ok _ = Except.ok _
      congr 1
      simp only [allreduceSum, List.map_map]
      have hz : ∀ l : List (List (List (ℝ × (Fin 1 → ℂ))) × (Fin 1 → ℂ)),
          (l.map fun _ => (0 : Fin 1 → ℂ)).sum = 0 := by
        intro l
        induction l with
        | nil => rfl
        | cons _ _ ih => simp
      rw [hz]
      apply List.ext_getElem
      · simp
      · intros
        simp
    · intro dm hdm
      obtain ⟨hd1, hd2⟩ := List.of_mem_zip (show (dm.1, dm.2) ∈ _ from hdm)
      obtain ⟨_, _, hd3⟩ := List.mem_map.mp hd2
      obtain ⟨a, l, hal⟩ := List.exists_cons_of_ne_nil (hne _ hd1)
      rw [hal]
      change Except.ok _ = Except.ok _
      congr 1
      have : ∀ x ∈ a, (fun j : Fin 1 => (starRingEnd ℂ) (x.2 j - dm.2 j) * (x.2 j - dm.2 j) * (x.1 : ℂ)) = 0 := by
        intro x hx
        funext j
        rw [Fin.fin_one_eq_zero j, ← hd3, hmean, hval x ?_]
        · simp
        · unfold allSamples
          exact List.mem_flatten.mpr ⟨a, List.mem_flatten.mpr ⟨_, hd1, by rw [hal]; simp⟩, hx⟩
      dsimp only
      rw [List.map_congr_left this]
      clear this
      induction a with
      | nil => rfl
      | cons _ _ ih => simp
  refine ⟨_, by unfold measureOne; rw [globalMean_eq w' hne, hvar]; rfl, by simp [hw', World.map], ?_⟩
  intro r hr
  obtain ⟨i, hi, rfl⟩ := List.mem_iff_getElem.mp hr
  rw [List.getElem_zipWith, List.getElem_map, List.getElem_map]
  refine ⟨by rw [hmean], rfl, ?_⟩
  cases k <;> simp [divSqrtN]

end

/-! ## The sector with as many spins up as down -/

theorem count_ofFn {n : ℕ} (f : Fin n → ℤ) (a : ℤ) :
    (List.ofFn f).count a = (Finset.univ.filter fun i => f i = a).card := by
  induction n with
  | zero => simp
  | succ n ih =>
    rw [List.ofFn_succ, List.count_cons, ih, Fin.card_filter_univ_succ]
    simp only [beq_iff_eq]
    split_ifs <;> omega

theorem balanced_decode (n : ℕ) {l : List ℤ} (hl : l ∈ spinConfigs n) :
    l.count 0 = l.count 1 ↔ UpAsDown (decodeChain n 2 l) := by
  have h := (decodeChain_eq_iff (spinConfigs_lists n l hl) _).mp rfl
  generalize decodeChain n 2 l = c at h ⊢
  subst h
  unfold UpAsDown listConfig
  rw [count_ofFn, count_ofFn]
  have h0 : ∀ i, ((c i : ℕ) : ℤ) = 0 ↔ c i = 0 := by
    intro i
    rw [Fin.ext_iff]
    simp
  have h1 : ∀ i, ((c i : ℕ) : ℤ) = 1 ↔ c i = 1 := by
    intro i
    rw [Fin.ext_iff]
    simp
  simp only [h0, h1]

theorem zeroMag_bijOn (n : ℕ) : Set.BijOn (decodeChain n 2)
    ((spinConfigs n).filter fun s => s.count 0 = s.count 1 : Finset (List ℤ)) {c | UpAsDown c} := by
  have hb := decodeChain_bijOn n
  refine ⟨?_, ?_, ?_⟩
  · intro l hl
    obtain ⟨h1, h2⟩ := Finset.mem_filter.mp (Finset.mem_coe.mp hl)
    exact (balanced_decode n h1).mp h2
  · exact hb.injOn.mono fun l hl => (Finset.mem_filter.mp (Finset.mem_coe.mp hl)).1
  · intro c hc
    obtain ⟨l, hl, rfl⟩ := hb.surjOn (Set.mem_univ c)
    exact ⟨l, Finset.mem_coe.mpr (Finset.mem_filter.mpr ⟨hl, (balanced_decode n hl).mpr hc⟩), rfl⟩

/-- C121: with `propose_spin_flip_zeroMag`, chains that start with as many spins up as down, and an operator that keeps
the magnetisation, the mean that `measure` reports approaches the expectation value in the component of the wave function
with zero magnetisation, for every wave function, on any number of ranks and devices. -/
theorem c121_measure_partial (n : ℕ) (hn : 2 ≤ n) (hne : Even n) {kernel : (Fin n → Fin 2) → List ((Fin n → Fin 2) × ℂ)}
    {O : Matrix (Fin n → Fin 2) (Fin n → Fin 2) ℂ} (hk : OperatorOf kernel O) (hO : KeepsSector UpAsDown O)
    (psi : Net (Fin n → Fin 2)) (hlog : psi.logarithmic = true) (zeroCfg : Fin n → Fin 2) (b : ℤ) (mu : ℝ)
    (sweepSteps : ℕ) (hsw : 0 < sweepSteps) (s D nc m : ℕ) (hs : 0 < s) (hD : 0 < D) (hnc : 0 < nc) (hm : 0 < m) :
    ∃ A : ℝ, ∀ (therm N : ℕ) (states : ℕ → List (Fin nc → List ℤ)), s ≤ N → (∀ r < s, (states r).length = D) →
      (∀ r < s, ∀ st ∈ states r, ∀ i, st i ∈ (spinConfigs n).filter fun s => s.count 0 = s.count 1) →
      ∃ (L : WDist (World (List ℤ))) (M : World (List ℤ) → ℝ),
        mcmcConfigWorld s nc (zeroMagDraws n) (metropolisStep (fun d => proposeSpinFlipZeroMag d.1 d.2.1 d.2.2) fun x =>
          mu * (psi.val (decodeChain n 2 x)).re) ((spinConfigs n).filter fun s => s.count 0 = s.count 1) therm sweepSteps
          N m states = .ok L ∧ IsLaw L ∧
        (∀ e ∈ L, ∃ w, mcmcSampleOf (1 / 2) mu psi.val (World.map (decodeChain n 2) e.1) = .ok w ∧
          N * nc ≤ (allSamples w).length * Nat.lcm nc m ∧
          ∀ k, ∃ res, measureOp kernel psi zeroCfg b k w = .ok res ∧ res.length = s ∧ ∀ r ∈ res, r.mean = M e.1) ∧
        average L (fun w => (M w - (Spec.expect O (partIn UpAsDown fun c => Complex.exp (psi.val c))).re) ^ 2) ≤ A / N ∧
        ∀ ε > 0, chance L (fun w => ε ≤ |M w - (Spec.expect O (partIn UpAsDown fun c => Complex.exp (psi.val c))).re|)
          ≤ A / N / ε ^ 2 := by
  obtain ⟨h1, h2, h3, h4, h5⟩ := zeroMag_moves n hn hne
  obtain ⟨x, hx, _⟩ := id h5
  have h := c121_sector hk psi hlog zeroCfg b (zeroMagDraws n) (fun d => proposeSpinFlipZeroMag d.1 d.2.1 d.2.2) h1
    ((spinConfigs n).filter fun s => s.count 0 = s.count 1) ⟨x, hx⟩ h2 h3 h4 UpAsDown (decodeChain n 2) (zeroMag_bijOn n)
    mu (Or.inr h5) sweepSteps hsw s D nc m hs hD hnc hm
  rw [mixedExpect_keeps UpAsDown hO] at h
  exact h

/-- C121: the magnetisation itself is reported as zero, without variance and error, on any samples of the sector. -/
theorem c121_magnetisation (n : ℕ) {kernel : (Fin n → Fin 2) → List ((Fin n → Fin 2) × ℂ)}
    (hk : OperatorOf kernel (∑ i, siteOperator i sigmaZ)) (psi : Net (Fin n → Fin 2)) (hlog : psi.logarithmic = true)
    (zeroCfg : Fin n → Fin 2) (b : ℤ) (k : Option ℕ) (w : World ((Fin n → Fin 2) × ℂ × ℝ)) (hw : SamplesOf psi.val w)
    (hP : ∀ x ∈ allSamples w, UpAsDown x.1) (h1 : ((allSamples w).map fun x => x.2.2).sum = 1) :
    ∃ res, measureOp kernel psi zeroCfg b k w = .ok res ∧ res.length = List.length w ∧
      ∀ r ∈ res, r.mean = 0 ∧ r.variance = 0 ∧ r.mcError = 0 := by
  refine c121_sharp hk psi hlog zeroCfg b k w hw UpAsDown hP h1 0 fun c hc => ?_
  rw [Matrix.sum_mulVec, Finset.sum_apply]
  have h : ∀ i, (siteOperator i sigmaZ *ᵥ fun c => Complex.exp (psi.val c)) c
      = ((if c i = 1 then 1 else 0) - if c i = 0 then 1 else 0) * Complex.exp (psi.val c) := by
    intro i
    rw [siteOperator_mulVec, Fin.sum_univ_two]
    obtain h | h : c i = 0 ∨ c i = 1 := by omega
    · have e : Function.update c i 0 = c := by rw [← h]; exact Function.update_eq_self i c
      simp [h, sigmaZ, e]
    · have e : Function.update c i 1 = c := by rw [← h]; exact Function.update_eq_self i c
      simp [h, sigmaZ, e]
  rw [Finset.sum_congr rfl fun i _ => h i, ← Finset.sum_mul, Finset.sum_sub_distrib, Finset.sum_boole, Finset.sum_boole,
    hc, sub_self]

/-- **C121 is violated** for operators that change the magnetisation: for the uniform wave function every measurement of
`σ^x` on samples of the sector gives 1, although its expectation value in the component of the wave function with zero
magnetisation is 0. -/
theorem c121_leaving_violated (n : ℕ) (i : Fin n) {kernel : (Fin n → Fin 2) → List ((Fin n → Fin 2) × ℂ)}
    (hk : OperatorOf kernel (siteOperator i sigmaX)) (zeroCfg : Fin n → Fin 2) (b : ℤ) (k : Option ℕ)
    (w : World ((Fin n → Fin 2) × ℂ × ℝ)) (hw : SamplesOf (fun _ => 0) w) (hP : ∀ x ∈ allSamples w, UpAsDown x.1)
    (h1 : ((allSamples w).map fun x => x.2.2).sum = 1) :
    (∃ res, measureOp kernel ⟨fun _ => 0, true⟩ zeroCfg b k w = .ok res ∧ res.length = List.length w ∧
      ∀ r ∈ res, r.mean = 1 ∧ r.variance = 0 ∧ r.mcError = 0) ∧
    Spec.expect (siteOperator i sigmaX) (partIn UpAsDown fun _ => 1) = 0 := by
  constructor
  · have := c121_sharp hk ⟨fun _ => 0, true⟩ rfl zeroCfg b k w hw UpAsDown hP h1 1 fun c _ => by
      rw [siteOperator_mulVec, Fin.sum_univ_two]
      obtain h | h : c i = 0 ∨ c i = 1 := by omega
      · simp [h, sigmaX]
      · simp [h, sigmaX]
    simpa using this
  · classical
    unfold Spec.expect
    rw [div_eq_zero_iff]
    left
    apply Finset.sum_eq_zero
    intro c _
    by_cases hc : UpAsDown c
    · have hflip : ∀ a, a ≠ c i → ¬ UpAsDown (Function.update c i a) := by
        intro a ha hu
        have key : ∀ v : Fin 2, (Finset.univ.filter fun j => Function.update c i a j = v).card
            + (if c i = v then 1 else 0) = (Finset.univ.filter fun j => c j = v).card + if a = v then 1 else 0 := by
          intro v
          have e : ∀ f : Fin n → Fin 2, (Finset.univ.filter fun j => f j = v).card
              = (if f i = v then 1 else 0) + ((Finset.univ.erase i).filter fun j => f j = v).card := by
            intro f
            rw [Finset.card_filter, Finset.card_filter]
            exact (Finset.add_sum_erase _ (fun j => if f j = v then 1 else 0) (Finset.mem_univ i)).symm
          rw [e, e c, Function.update_self]
          have : ((Finset.univ.erase i).filter fun j => Function.update c i a j = v)
              = (Finset.univ.erase i).filter fun j => c j = v := by
            apply Finset.filter_congr
            intro j hj
            rw [Function.update_of_ne (Finset.ne_of_mem_erase hj)]
          rw [this]
          omega
        have k0 := key 0
        have k1 := key 1
        unfold UpAsDown at hc hu
        obtain h | h : c i = 0 ∨ c i = 1 := by omega
        · obtain rfl : a = 1 := by omega
          simp [h] at k0 k1
          omega
        · obtain rfl : a = 0 := by omega
          simp [h] at k0 k1
          omega
      rw [siteOperator_mulVec, Fin.sum_univ_two]
      obtain h | h : c i = 0 ∨ c i = 1 := by omega
      · simp [h, sigmaX, partIn, hflip 1 (by rw [h]; decide)]
      · simp [h, sigmaX, partIn, hflip 0 (by rw [h]; decide)]
    · simp [partIn, hc]

/-! ## The default initial state -/

theorem abs_le_abs_add_of_near {a b : ℤ} (h : |a - b| ≤ 2) : |a| ≤ |b| + 2 := by
  have := abs_sub_abs_le_abs_sub a b
  linarith

theorem zeroMag_excess (s : List ℤ) (hs : Bin s) (hn : s ≠ []) (d : ℤ × ℤ × ℕ) :
    |2 * s.sum - s.length| ≤ |2 * (proposeSpinFlipZeroMag d.1 d.2.1 d.2.2 s).sum - s.length| + 2 := by
  have hlen : 0 < s.length := List.length_pos_of_ne_nil hn
  have hset : ∀ (t : List ℤ), Bin t → ∀ i < t.length, ∀ v : ℤ, ∃ x : ℤ, (x = 0 ∨ x = 1) ∧
      (t.set i v).sum = t.sum - x + v := by
    intro t ht i hi v
    refine ⟨t[i], ht _ (List.getElem_mem hi), ?_⟩
    rw [List.sum_set', dif_pos hi]
    ring
  unfold proposeSpinFlipZeroMag
  dsimp only
  set iu := min (searchsorted (cumsumFrom 0 s) d.1) (s.length - 1)
  set id := min (searchsorted (cumsumFrom 0 (s.map fun x => 1 - x)) d.2.1) (s.length - 1)
  have hb1 : Bin (s.set iu 0) := hs.set _ (Or.inl rfl)
  obtain ⟨x, hx, e1⟩ := hset s hs iu (by omega) 0
  obtain ⟨y, hy, e2⟩ := hset _ hb1 id (by rw [List.length_set]; omega) 1
  rw [e1] at e2
  have hflip : |2 * (globalFlip d.2.2 ((s.set iu 0).set id 1)).sum - s.length|
      = |2 * ((s.set iu 0).set id 1).sum - s.length| := by
    unfold globalFlip
    split_ifs
    · rw [sum_compl, ← abs_neg]
      congr 1
      simp only [List.length_set]
      ring
    · rfl
  rw [hflip, e2]
  refine le_trans (abs_le_abs_add_of_near (a := 2 * s.sum - s.length) (b := 2 * (s.sum - x + 0 - y + 1) - s.length) ?_) le_rfl
  rw [abs_le]
  constructor <;> rcases hx with rfl | rfl <;> rcases hy with rfl | rfl <;> omega

/-- The number of updates bounds how far a chain gets from its initial magnetisation. -/
theorem zeroMag_run {P K : Type} (c : McConfig (List ℤ) P K) (params : P) (L : ℕ) (hL : 0 < L)
    (hprop : ∀ k s, s.length = L → ∃ d : ℤ × ℤ × ℕ, c.proposer k s = proposeSpinFlipZeroMag d.1 d.2.1 d.2.2 s)
    (n : ℕ) (d : ChainState (List ℤ) K) (hd : Coherent c params d) (a : ℤ)
    (hb : ∀ s ∈ d.states, Bin s ∧ s.length = L ∧ a ≤ |2 * s.sum - L|) :
    ∀ s ∈ ((performMcUpdate c params)^[n] d).states, Bin s ∧ s.length = L ∧ a ≤ |2 * s.sum - L| + 2 * n := by
  induction n with
  | zero => simpa using hb
  | succ n ih =>
    rw [Function.iterate_succ_apply']
    have hc := coherent_iterate c params n d hd
    rw [c16_update_is_metropolis c params _ hc]
    intro s hs
    obtain ⟨i, hi, rfl⟩ := List.mem_mapIdx.mp hs
    obtain ⟨h1, h2, h3⟩ := ih _ (List.getElem_mem hi)
    unfold metropolisStep
    split_ifs
    · obtain ⟨d', hd'⟩ := hprop (c.rng.split ((performMcUpdate c params)^[n] d).key
        (((performMcUpdate c params)^[n] d).states.length + 1) i) _ h2
      rw [hd']
      obtain ⟨p1, p2⟩ := c13_spin_flip_zeroMag _ ((bin_iff _).mp h1) d'.1 d'.2.1 d'.2.2
      have p3 := zeroMag_excess _ h1 (List.ne_nil_of_length_pos (by omega)) d'
      rw [h2] at p2 p3
      refine ⟨(bin_iff _).mpr p1, p2, ?_⟩
      push_cast
      linarith
    · refine ⟨h1, h2, ?_⟩
      push_cast
      linarith

theorem getElem_flatMap_range {A : Type} (f : ℕ → List A) (k n : ℕ) (hf : ∀ j < n, (f j).length = k) (p : ℕ)
    (hp : p < ((List.range n).flatMap f).length) : ((List.range n).flatMap f)[p] ∈ f (p / k) := by
  induction n with
  | zero => simp at hp
  | succ n ih =>
    have hlen : ((List.range n).flatMap f).length = n * k := by
      rw [List.length_flatMap, List.map_congr_left (g := fun _ => k)]
      · simp
      · intro j hj
        exact hf j (by have := List.mem_range.mp hj; omega)
    simp only [List.range_succ, List.flatMap_append, List.flatMap_singleton] at hp ⊢
    by_cases h : p < ((List.range n).flatMap f).length
    · rw [List.getElem_append_left h]
      exact ih (fun j hj => hf j (by omega)) h
    · rw [List.getElem_append_right (by omega)]
      rw [List.length_append, hlen, hf n (by omega)] at hp
      rw [hlen] at h
      have : p / k = n := by
        apply Nat.div_eq_of_lt_le
        · omega
        · rw [Nat.succ_mul]
          omega
      rw [this]
      exact List.getElem_mem _

/-- **C121 is violated** with the default initial state, all spins down: no returned configuration has zero magnetisation
before the chain has made half as many updates as there are sites, whatever the wave function and the random numbers.
(Sample number `p` of a device is taken after `thermSweeps + p / numChains + 1` sweeps.) -/
theorem c121_default_start_violated {P K : Type} (c : McConfig (List ℤ) P K) (params : P) (L N D : ℕ) (hL : 0 < L)
    (keys : List K)
    (hprop : ∀ k s, s.length = L → ∃ d ∈ zeroMagDraws L, c.proposer k s = proposeSpinFlipZeroMag d.1 d.2.1 d.2.2 s)
    (s r m : ℕ) (devs' : List (ChainState (List ℤ) K)) (samples : List (List (List ℤ)))
    (h : getSamplesMcmc c s r params N m (keys.map (chainInit c (List.replicate L 0))) = .ok (devs', samples, D)) :
    ∀ dev ∈ samples, ∀ (p : ℕ) (hp : p < dev.length),
      2 * ((c.thermSweeps + p / c.numChains + 1) * c.sweepSteps) < L → ¬ Balanced dev[p] := by
  have hrun : ∃ n, samples = (keys.map (chainInit c (List.replicate L 0))).map fun d =>
      (getSamples c params n (mcInit c params d)).2 := by
    unfold getSamplesMcmc at h
    dsimp only at h
    cases hds : distributeSampling s r N (some (keys.map
      (chainInit c (List.replicate L 0))).length) (Nat.lcm c.numChains m) with
    | error e => rw [hds] at h; exact absurd h (by change ¬ (Except.error _ = Except.ok _); simp)
    | ok v =>
      rw [hds] at h
      change Except.ok _ = Except.ok _ at h
      simp only [Except.ok.injEq, Prod.mk.injEq] at h
      refine ⟨v.1, ?_⟩
      rw [← h.2.1]
      simp [List.map_map, Function.comp_def]
  obtain ⟨n, rfl⟩ := hrun
  intro dev hdev p hp hlt hbal
  obtain ⟨d, hd, rfl⟩ := List.mem_map.mp hdev
  obtain ⟨k, hk, rfl⟩ := List.mem_map.mp hd
  simp only [getSamples_snd] at hp hbal
  have hmem := getElem_flatMap_range (fun j => ((performMcUpdate c params)^[(c.thermSweeps + j + 1) * c.sweepSteps]
    (mcInit c params (chainInit c (List.replicate L 0) k))).states) c.numChains n (fun j _ => by
      have hl := mcInit_length c params (chainInit c (List.replicate L 0) k)
      have := (iterate_length c params ((c.thermSweeps + j + 1) * c.sweepSteps) _ hl).1
      rw [this]
      simp [mcInit, chainInit]) p hp
  obtain ⟨h1, h2, h3⟩ := zeroMag_run c params L hL (fun k s hs => by
    obtain ⟨d, _, hd⟩ := hprop k s hs
    exact ⟨d, hd⟩) _ (mcInit c params (chainInit c (List.replicate L 0) k)) (coherent_mcInit _ _ _) L
    (fun s hs => by
      have : s = List.replicate L 0 := List.eq_of_mem_replicate hs
      subst this
      refine ⟨fun x hx => Or.inl (List.eq_of_mem_replicate hx), by simp, by simp⟩) _ hmem
  have h4 := ((balanced_iff _).mp hbal).2
  rw [h2] at h4
  rw [h4, sub_self, abs_zero, zero_add] at h3
  have : L ≤ 2 * ((c.thermSweeps + p / c.numChains + 1) * c.sweepSteps) := by exact_mod_cast h3
  omega

/-- **C121 is violated** for good with the default initial state, if the wave function is large enough there: as long as
all random numbers are at least `u₀` and the weights of the proposed configurations are below `u₀` times that of the
initial one, every returned configuration is the initial one, however many sweeps are made. -/
theorem c121_stuck_violated {P K : Type} (c : McConfig (List ℤ) P K) (params : P) (L N D : ℕ) (hL : 0 < L)
    (keys : List K)
    (hprop : ∀ k s, s.length = L → ∃ d ∈ zeroMagDraws L, c.proposer k s = proposeSpinFlipZeroMag d.1 d.2.1 d.2.2 s)
    (u₀ : ℝ) (hu : ∀ k i, u₀ ≤ c.rng.uniform k i)
    (hpeak : ∀ d ∈ zeroMagDraws L,
      Real.exp (c.mu * c.netRe params (proposeSpinFlipZeroMag d.1 d.2.1 d.2.2 (List.replicate L 0)))
        ≤ u₀ * Real.exp (c.mu * c.netRe params (List.replicate L 0)))
    (s r m : ℕ) (devs' : List (ChainState (List ℤ) K)) (samples : List (List (List ℤ)))
    (h : getSamplesMcmc c s r params N m (keys.map (chainInit c (List.replicate L 0))) = .ok (devs', samples, D)) :
    ∀ dev ∈ samples, ∀ x ∈ dev, x = List.replicate L 0 ∧ ¬ Balanced x := by
  have hrun : ∃ n, samples = (keys.map (chainInit c (List.replicate L 0))).map fun d =>
      (getSamples c params n (mcInit c params d)).2 := by
    unfold getSamplesMcmc at h
    dsimp only at h
    cases hds : distributeSampling s r N (some (keys.map
      (chainInit c (List.replicate L 0))).length) (Nat.lcm c.numChains m) with
    | error e => rw [hds] at h; exact absurd h (by change ¬ (Except.error _ = Except.ok _); simp)
    | ok v =>
      rw [hds] at h
      change Except.ok _ = Except.ok _ at h
      simp only [Except.ok.injEq, Prod.mk.injEq] at h
      refine ⟨v.1, ?_⟩
      rw [← h.2.1]
      simp [List.map_map, Function.comp_def]
  obtain ⟨n, rfl⟩ := hrun
  have hstay : ∀ (q : ℕ) (d : ChainState (List ℤ) K), Coherent c params d →
      (∀ x ∈ d.states, x = List.replicate L 0) →
      ∀ x ∈ ((performMcUpdate c params)^[q] d).states, x = List.replicate L 0 := by
    intro q d hd h0
    induction q with
    | zero => simpa using h0
    | succ q ih =>
      rw [Function.iterate_succ_apply']
      rw [c16_update_is_metropolis c params _ (coherent_iterate c params q d hd)]
      intro x hx
      obtain ⟨i, hi, rfl⟩ := List.mem_mapIdx.mp hx
      have h1 := ih _ (List.getElem_mem hi)
      rw [h1]
      unfold metropolisStep
      rw [if_neg]
      obtain ⟨d', hd', he⟩ := hprop (c.rng.split ((performMcUpdate c params)^[q] d).key
        (((performMcUpdate c params)^[q] d).states.length + 1) i) (List.replicate L 0) (by simp)
      rw [he, not_lt]
      refine le_trans ?_ (hu _ _)
      rw [div_le_iff₀ (Real.exp_pos _)]
      exact hpeak d' hd'
  intro dev hdev x hx
  obtain ⟨d, hd, rfl⟩ := List.mem_map.mp hdev
  obtain ⟨k, hk, rfl⟩ := List.mem_map.mp hd
  rw [getSamples_snd] at hx
  obtain ⟨j, hj, hx⟩ := List.mem_flatMap.mp hx
  have hx0 := hstay _ (mcInit c params (chainInit c (List.replicate L 0) k)) (coherent_mcInit _ _ _)
    (fun x hx => List.eq_of_mem_replicate hx) x hx
  refine ⟨hx0, fun hb => ?_⟩
  have := ((balanced_iff _).mp hb).2
  rw [hx0] at this
  simp at this
  omega

/-! ## Non-vacuity -/

theorem upAsDown_perm {n : ℕ} (e : Equiv.Perm (Fin n)) (c : Fin n → Fin 2) : UpAsDown (c ∘ e) ↔ UpAsDown c := by
  have h : ∀ v : Fin 2, (Finset.univ.filter fun i => (c ∘ e) i = v).card = (Finset.univ.filter fun i => c i = v).card := by
    intro v
    apply Finset.card_bij (fun i _ => e i)
    · intro i hi
      simpa using hi
    · intro i _ j _ h
      exact e.injective h
    · intro j hj
      exact ⟨e.symm j, by simpa using hj, by simp⟩
  unfold UpAsDown
  rw [h, h]

/-- The operator that exchanges two spins, on four sites. -/
example (psi : Net (Fin 4 → Fin 2)) (hlog : psi.logarithmic = true) :=
  c121_measure_partial 4 (by norm_num) ⟨2, rfl⟩ (kernel := fun c => [(c ∘ Equiv.swap 0 1, 1)])
    (O := Matrix.of fun c c' => if c ∘ Equiv.swap 0 1 = c' then 1 else 0)
    ⟨fun s s' => by
      by_cases h : s ∘ Equiv.swap 0 1 = s' <;> simp [elementOf, h], ⟨1, fun _ => rfl⟩, fun s e he => by
      rw [List.mem_singleton.mp he]; norm_num⟩
    (fun c c' h => by
      have : c ∘ Equiv.swap 0 1 = c' := by
        by_contra h'
        exact h (by simp [h'])
      rw [← this, upAsDown_perm])
    psi hlog 0 7 2 10 (by norm_num) 3 2 5 1 (by norm_num) (by norm_num) (by norm_num) (by norm_num)

/-- A sample of two configurations of zero magnetisation on two ranks. -/
example : SamplesOf (fun _ => 0) ([[[(![0, 1], 0, 1 / 4)]], [[(![1, 0], 0, 3 / 4)]]] : World ((Fin 2 → Fin 2) × ℂ × ℝ)) ∧
    (∀ x ∈ allSamples ([[[(![0, 1], 0, 1 / 4)]], [[(![1, 0], 0, 3 / 4)]]] : World ((Fin 2 → Fin 2) × ℂ × ℝ)),
      UpAsDown x.1) ∧
    ((allSamples ([[[(![0, 1], 0, 1 / 4)]], [[(![1, 0], 0, 3 / 4)]]] : World ((Fin 2 → Fin 2) × ℂ × ℝ))).map
      fun x => x.2.2).sum = 1 := by
  refine ⟨⟨by simp, by simp, by simp [allSamples]⟩, ?_, by norm_num [allSamples]⟩
  intro x hx
  simp only [allSamples, List.flatten_cons, List.flatten_nil, List.append_nil, List.cons_append, List.nil_append,
    List.mem_cons, List.not_mem_nil, or_false] at hx
  rcases hx with rfl | rfl <;> (unfold UpAsDown; decide)

/-- `Sx(0)` and `Sz(0) + Sz(1)` on two sites. -/
example : OperatorOf (branchFreeKernel [[opSx (0 : Fin 2)]] [1]) (siteOperator (0 : Fin 2) sigmaX) ∧
    OperatorOf (branchFreeKernel [[opSz (0 : Fin 2)], [opSz 1]] [1, 1]) (∑ i : Fin 2, siteOperator i sigmaZ) := by
  have hid : arr2 (0 : Fin 2) 1 = id := by funext x; fin_cases x <;> rfl
  have hz : ∀ x : Fin 2, (arr2 (-1 : ℂ) 1) x = -1 ∨ (arr2 (-1 : ℂ) 1) x = 1 := by
    intro x; fin_cases x <;> simp [arr2]
  have h1 : ∀ x : Fin 2, (arr2 (1 : ℂ) 1) x = 1 := by
    intro x; fin_cases x <;> simp [arr2]
  constructor
  · have h := operatorOf_branchFree (N := 2) [[opSx 0]] [1] rfl (by simp [opSx]) (by simp [opSx]) (by
      intro s e he
      right
      have hm : diagIndices ([[opSx 0]] : List (List (LocalOp 2 2))) = [] := by
        simp [diagIndices, List.range_succ, opSx]
      have hl : maxOpStrLength ([[opSx 0]] : List (List (LocalOp 2 2))) = 1 := rfl
      have hc : compileStr 1 ([opSx 0] : List (LocalOp 2 2)) = [opSx 0] := rfl
      simp only [branchFreeKernel, kernelMasked, hm, mergeDiag, rawSPrimes, hl,
        List.zipWith_cons_cons, List.zipWith_nil_right, hc] at he
      simp [applyFun, opSx, fermiFactor_bosonic, h1] at he
      rw [he]
      norm_num)
    simpa [sumOfProducts, (c65_pauli_matrices_partial (0 : Fin 2)).1] using h
  · have h := operatorOf_branchFree (N := 2) [[opSz 0], [opSz 1]] [1, 1] rfl (by simp [opSz]) (by simp [opSz, hid]) (by
      intro s e he
      have hm : diagIndices ([[opSz 0], [opSz 1]] : List (List (LocalOp 2 2))) = [0, 1] := by
        simp [diagIndices, List.range_succ, opSz]
      have hl : maxOpStrLength ([[opSz 0], [opSz 1]] : List (List (LocalOp 2 2))) = 1 := rfl
      have hc : ∀ i, compileStr 1 ([opSz i] : List (LocalOp 2 2)) = [opSz i] := fun _ => rfl
      simp only [branchFreeKernel, kernelMasked, hm, mergeDiag, rawSPrimes, hl,
        List.zipWith_cons_cons, List.zipWith_nil_right, hc] at he
      simp [applyFun, opSz, fermiFactor_bosonic] at he
      rcases he with rfl | rfl <;> rcases hz (s 0) with h | h <;> rcases hz (s 1) with h' | h' <;> norm_num [h, h'])
    simpa [sumOfProducts, (c65_pauli_matrices_partial (0 : Fin 2)).2.2.1,
      (c65_pauli_matrices_partial (1 : Fin 2)).2.2.1] using h

/-- A sampler on 8 sites with two chains that makes one update per sweep: the first four samples have non-zero
magnetisation; and a wave function at which it is stuck. -/
example : ∃ (c : McConfig (List ℤ) Unit Key), c.numChains = 2 ∧
    (∀ k s, s.length = 8 → ∃ d ∈ zeroMagDraws 8, c.proposer k s = proposeSpinFlipZeroMag d.1 d.2.1 d.2.2 s) ∧
    2 * ((c.thermSweeps + 3 / c.numChains + 1) * c.sweepSteps) < 8 ∧ (∀ k i, 1 / 2 ≤ c.rng.uniform k i) ∧
    ∀ d ∈ zeroMagDraws 8, Real.exp (c.mu * c.netRe () (proposeSpinFlipZeroMag d.1 d.2.1 d.2.2 (List.replicate 8 0)))
        ≤ 1 / 2 * Real.exp (c.mu * c.netRe () (List.replicate 8 0)) := by
  refine ⟨⟨⟨keySplit, fun _ _ => 1 / 2⟩, fun _ => proposeSpinFlipZeroMag 1 2 3, fun _ s => - s.sum, 2, 1, 1, 2⟩, rfl,
    fun _ s _ => ⟨(1, 2, 3), by decide, rfl⟩, by norm_num, fun _ _ => le_rfl, ?_⟩
  intro d hd
  have h1 : (1 : ℝ) ≤ ((proposeSpinFlipZeroMag d.1 d.2.1 d.2.2 (List.replicate 8 0)).sum : ℤ) := by
    have : ∀ d ∈ zeroMagDraws 8, 1 ≤ (proposeSpinFlipZeroMag d.1 d.2.1 d.2.2 (List.replicate 8 0)).sum := by decide
    exact_mod_cast this d hd
  have h2 := Real.add_one_le_exp (1 : ℝ)
  dsimp only
  rw [← Real.log_le_log_iff (by positivity) (by positivity), Real.log_mul (by norm_num) (Real.exp_pos _).ne', Real.log_exp,
    Real.log_exp]
  have h3 : Real.log (1 / 2) ≥ -1 := by
    rw [one_div, Real.log_inv]
    have := Real.log_le_sub_one_of_pos (show (0 : ℝ) < 2 by norm_num)
    linarith
  have h4 : ((List.replicate 8 (0 : ℤ)).sum : ℝ) = 0 := by norm_num
  rw [h4]
  linarith

end JVMC
