import Verif.Lemmas.SpmdMore
import Verif.Props.OutputManager
import Verif.Props.Mpi

/-!
# C102: ranks neither hang nor race

In the other modules all ranks take part in a collective operation at once. Here every rank runs its own
program (`Model/SpmdCode`), in an arbitrary order of turns. `AlwaysReturns p v` (`Spec/Spmd`): whatever
the timing, the ranks get to their ends, and rank `r` returns `v r`. The values are those of the other
modules, so that everything proved there holds under every timing.
-/

namespace JVMC

open Spec

variable {N n : ℕ}

/-- What ranks always return is unique. -/
theorem c102_determined {α : Type} {p : Fin N → Prog α} {v w : Fin N → α} (hv : AlwaysReturns p v)
    (hw : AlwaysReturns p w) : v = w := by
  obtain ⟨-, -, b, hb⟩ := hv
  funext r
  have := hb (List.replicate b (List.finRange N)) (by simp) (by
    intro round hround
    rw [List.eq_of_mem_replicate hround]
    exact List.mem_finRange) r
  exact Except.ok.inj (hw.1 _ r _ this)

/-- A rank does not always return and hang at once. -/
theorem c102_hang_excludes {α : Type} {p : Fin N → Prog α} {v : Fin N → α} (hv : AlwaysReturns p v)
    (r : Fin N) : ¬ HangsForever p r := by
  obtain ⟨-, -, b, hb⟩ := hv
  intro hh
  have := hb (List.replicate b (List.finRange N)) (by simp) (by
    intro round hround
    rw [List.eq_of_mem_replicate hround]
    exact List.mem_finRange) r
  rw [hh _] at this
  cases this

/-! ## The reductions -/

/-- `global_sum`: with any number of ranks (with at least one device each) and any timing, every rank
returns the sum over all data of all ranks. -/
theorem c102_global_sum {A : Type} [AddCommMonoid A] [MpiBuf A] [LawfulBuf A]
    (d : Fin N → List (List A)) (h : ∀ r, d r ≠ []) :
    AlwaysReturns (fun r => globalSumR (d r)) fun _ => ∑ r, (d r).flatten.sum :=
  lockstep_always (globalSumR_ranks d h)

/-- Case: three ranks with different amounts of complex vectors. -/
example : AlwaysReturns (fun r : Fin 3 => globalSumR (![[[![1, Complex.I]]],
    [[![2, 2], ![0, 1]], [![3, 3]]], [[]]] r)) fun _ => ![1 + (2 + 0 + 3), Complex.I + (2 + 1 + 3)] := by
  convert c102_global_sum (A := Fin 2 → ℂ) (N := 3) ![[[![1, Complex.I]]], [[![2, 2], ![0, 1]], [![3, 3]]], [[]]]
    (by intro r; fin_cases r <;> simp) using 2
  funext i
  fin_cases i <;> simp [Fin.sum_univ_succ]

theorem globalVariance_returns {ι : Type} (world : List (List (List (ℝ × (ι → ℂ)))))
    (h : ∀ r ∈ world, r ≠ []) : ∃ l, globalVariance world = .ok l := by
  unfold globalVariance
  rw [globalMean_eq world h]
  have hm : ∃ l, (world.zip (world.map fun _ => wMean (allSamples world))).mapM
      (fun dm => pyHead (sumSqPmapd dm.2 dm.1)) = .ok l := by
    refine ⟨_, mapM_ok _ (fun dm => (sumSqPmapd dm.2 dm.1).headD 0) _ fun dm hdm => ?_⟩
    have hne := h dm.1 (List.of_mem_zip hdm).1
    cases hd : dm.1 with
    | nil => exact absurd hd hne
    | cons a l => rfl
  obtain ⟨l, hl⟩ := hm
  refine ⟨allreduceSum l, ?_⟩
  change Except.bind ((world.zip (world.map fun _ => wMean (allSamples world))).mapM
      (fun dm => pyHead (sumSqPmapd dm.2 dm.1))) _ = _
  rw [hl]
  rfl

/-- `global_mean`, `global_variance` and `global_covariance` return on every rank, under every timing,
what they return for the data of all ranks. -/
theorem c102_global_statistics {ι : Type} [MpiBuf (ι → ℂ)] [LawfulBuf (ι → ℂ)] [MpiBuf (ι → ι → ℂ)]
    [LawfulBuf (ι → ι → ℂ)] (d : Fin N → List (List (ℝ × (ι → ℂ)))) (h : ∀ r, d r ≠ []) :
    (∃ m : ι → ℂ, globalMean (List.ofFn d) = .ok (List.ofFn fun _ : Fin N => m) ∧
      AlwaysReturns (fun r => globalMeanR (d r)) fun _ => m) ∧
    (∃ v : ι → ℂ, globalVariance (List.ofFn d) = .ok (List.ofFn fun _ : Fin N => v) ∧
      AlwaysReturns (fun r => globalVarianceR (d r)) fun _ => v) ∧
    (∃ c : ι → ι → ℂ, globalCovariance (List.ofFn d) = .ok (List.ofFn fun _ : Fin N => c) ∧
      AlwaysReturns (fun r => globalCovarianceR (d r)) fun _ => c) := by
  have hne : ∀ x ∈ List.ofFn d, x ≠ [] := by
    intro x hx
    obtain ⟨r, rfl⟩ := List.mem_ofFn.mp hx
    exact h r
  refine ⟨?_, ?_, ?_⟩
  · have h1 := globalMean_eq (List.ofFn d) hne
    obtain ⟨m, hm, l⟩ := globalMean_ranks h1
    exact ⟨m, by rw [h1, hm], lockstep_always l⟩
  · obtain ⟨x, h1⟩ := globalVariance_returns (List.ofFn d) hne
    obtain ⟨m, hm, l⟩ := globalVariance_ranks h1
    exact ⟨m, by rw [h1, hm], lockstep_always l⟩
  · have h1 := c05_second_moment (List.ofFn d) hne
    obtain ⟨m, hm, l⟩ := globalCovariance_ranks h1
    exact ⟨m, by rw [h1, hm], lockstep_always l⟩

/-- Case: two ranks. -/
example : ∃ m, AlwaysReturns (fun r : Fin 2 => globalMeanR (A := Fin 1 → ℂ)
    (![[[(1 / 2, ![3])]], [[(1 / 4, ![5])], [(1 / 4, ![7])]]] r)) fun _ => m :=
  ⟨_, (c102_global_statistics (N := 2) ![[[(1 / 2, ![3])]], [[(1 / 4, ![5])], [(1 / 4, ![7])]]]
    (by intro r; fin_cases r <;> simp)).1.choose_spec.2⟩

/-- `gather`: every rank returns all rows, in the order of the ranks. -/
theorem c102_gather {A : Type} [AddCommMonoid A] [MpiBuf A] [LawfulBuf A] (d : Fin N → List (List A)) :
    AlwaysReturns (fun r => gatherR (d r)) fun _ => (List.ofFn fun r => (d r).flatten).flatten := by
  refine lockstep_always (lockstep_seq (lockstep_allgather _) ?_)
  exact lockstep_pure _

/-- `bcast_unknown_size` of an array of `float64`: every rank returns the array of the root. -/
theorem c102_bcast (root : Fin N) (d : Fin N → RootData) (hf : (d root).isFloat64 = true) :
    AlwaysReturns (fun r : Fin N => bcastUnknownSizeR r.val root.val (d r)) fun _ => (d root).data :=
  lockstep_always (bcastUnknownSize_ranks root d hf)

/-- Case: rank 1 of three broadcasts. -/
example : AlwaysReturns (fun r : Fin 3 => bcastUnknownSizeR r.val 1
    (![⟨true, []⟩, ⟨true, [1, 2]⟩, ⟨true, [3]⟩] r)) fun _ => [1, 2] :=
  c102_bcast (N := 3) 1 ![⟨true, []⟩, ⟨true, [1, 2]⟩, ⟨true, [3]⟩] rfl

/-- C102 is violated by `bcast_unknown_size`: if the array of the root is not of type `float64`, the root
raises a `TypeError`, and all other ranks wait for it forever. -/
theorem c102_violated_bcast (root : Fin N) (d : Fin N → RootData) (hf : (d root).isFloat64 = false) :
    bcastUnknownSizeR root.val root.val (d root) = .raise .typeError ∧
    ∀ r, r ≠ root → HangsForever (fun r : Fin N => bcastUnknownSizeR r.val root.val (d r)) r := by
  have h1 : bcastUnknownSizeR root.val root.val (d root) = .raise .typeError := by
    unfold bcastUnknownSizeR
    rw [if_pos rfl, if_pos hf]
  refine ⟨h1, fun r hr => ?_⟩
  obtain ⟨k, hk⟩ : ∃ k, bcastUnknownSizeR r.val root.val (d r) = .coll (.bcast root.val) [] k := by
    unfold bcastUnknownSizeR
    rw [if_neg fun hc => hr (Fin.ext hc)]
    exact ⟨_, rfl⟩
  refine hangs_of_ended _ root r (.error .typeError) (.bcast root.val) [] k ?_ hk (by rintro _ ⟨⟩; rfl)
  · show Prog.outcome (bcastUnknownSizeR root.val root.val (d root)) = _
    rw [h1]
    rfl

/-- Case: integers. -/
example : HangsForever (fun r : Fin 2 => bcastUnknownSizeR r.val 0 ⟨false, [1]⟩) 1 :=
  (c102_violated_bcast (N := 2) 0 (fun _ => ⟨false, [1]⟩) rfl).2 1 (by decide)

/-! ## Samplers -/

/-- The reductions of the samplers: the probabilities of the exact sampler, the weights of Monte-Carlo
samples and the acceptance ratio (whose second reduction depends on the result of the first). -/
theorem c102_samplers [NeZero N] :
    (∀ (lpf ln ln' : ℝ) (d : Fin N → List (List ExactEntry)) (p : List (List (List ℝ))),
      exactSample lpf ln (List.ofFn d) = .ok (ln', p) → ∃ q : Fin N → List (List ℝ), p = List.ofFn q ∧
        AlwaysReturns (fun r => exactSampleR lpf ln (d r)) fun r => (ln', q r)) ∧
    (∀ (lpf mu : ℝ) (d : Fin N → List (List ℂ)) (p : List (List (List ℝ))),
      mcmcWeights lpf mu (List.ofFn d) = .ok p → ∃ q : Fin N → List (List ℝ), p = List.ofFn q ∧
        AlwaysReturns (fun r => mcmcWeightsR lpf mu (d r)) q) ∧
    (∀ p a : Fin N → List ℕ, (∀ r, p r ≠ []) → (∀ r, a r ≠ []) →
      AlwaysReturns (fun r => acceptanceRatioR (p r) (a r))
        fun _ => acceptanceRatio (List.ofFn p) (List.ofFn a)) := by
  refine ⟨fun lpf ln ln' d p h => ?_, fun lpf mu d p h => ?_, fun p a hp ha => ?_⟩
  · obtain ⟨q, hq, l⟩ := exactSample_ranks h
    exact ⟨q, hq, lockstep_always l⟩
  · obtain ⟨q, hq, l⟩ := mcmcWeights_ranks h
    exact ⟨q, hq, lockstep_always l⟩
  · exact lockstep_always (acceptanceRatio_ranks p a hp ha)

/-- Cases: two ranks with one device each. -/
example : (∃ x, exactSample 2 0 (List.ofFn ![[[(true, (1 : ℂ))]], [[(true, 2), (false, 0)]]]) = .ok x) ∧
    (∃ x, mcmcWeights 2 1 (List.ofFn ![[[(1 : ℂ)]], [[2, Complex.I]]]) = .ok x) :=
  ⟨⟨_, rfl⟩, ⟨_, rfl⟩⟩

/-! ## Statistics of observables -/

/-- The methods of `SampledObs` return on every rank, under every timing, what they return for the data
of all ranks. -/
theorem c102_sampled_obs [NeZero N] [NeZero n] {k : ℕ} [NeZero k] (a : Fin N → RObs (Fin n)) (b : Fin N → RObs (Fin k)) :
    (∀ l, (joinObs a).covar (joinObs b) = .ok l → ∃ c, (l = List.ofFn fun _ : Fin N => c) ∧
      AlwaysReturns (fun r => (a r).covar (b r)) fun _ => c) ∧
    (∀ l, (joinObs a).var = .ok l → ∃ c, (l = List.ofFn fun _ : Fin N => c) ∧
      AlwaysReturns (fun r => (a r).var) fun _ => c) ∧
    (∀ O, (joinObs a).covarData (joinObs b) = .ok O →
      ∃ o : Option (Fin N → RObs (Fin n × Fin k)), O = o.map joinObs ∧
        AlwaysReturns (fun r => (a r).covarData (b r)) fun r => o.map fun x => x r) ∧
    (∀ (f : List (Option (Fin n → ℂ)) → List (Option (Fin k → ℂ))) (O : Option (SObs (Fin k))),
      (joinObs a).transform f = .ok O → ∃ o : Option (Fin N → RObs (Fin k)), O = o.map joinObs ∧
        AlwaysReturns (fun r => (a r).transform f) fun r => o.map fun x => x r) ∧
    (∀ (start stop step : Option ℤ) (O : Option (SObs (Fin n))),
      (joinObs a).subset start stop step = .ok O →
      ∃ o : Option (Fin N → RObs (Fin n)), O = o.map joinObs ∧
        AlwaysReturns (fun r => (a r).subset start stop step) fun r => o.map fun x => x r) ∧
    (∃ T, ((joinObs a).tangentKernel = List.ofFn fun _ : Fin N => T) ∧
      AlwaysReturns (fun r => (a r).tangentKernel) fun _ => T) := by
  refine ⟨fun l h => ?_, fun l h => ?_, fun O h => ?_, fun f O h => ?_, fun x y z O h => ?_, ?_⟩
  · obtain ⟨c, hc, l⟩ := covar_ranks h
    exact ⟨c, hc, lockstep_always l⟩
  · obtain ⟨c, hc, l⟩ := var_ranks h
    exact ⟨c, hc, lockstep_always l⟩
  · obtain ⟨c, hc, l⟩ := covarData_ranks h
    exact ⟨c, hc, lockstep_always l⟩
  · obtain ⟨c, hc, l⟩ := transform_ranks h
    exact ⟨c, hc, lockstep_always l⟩
  · obtain ⟨c, hc, l⟩ := subset_ranks h
    exact ⟨c, hc, lockstep_always l⟩
  · obtain ⟨T, hT, l⟩ := tangentKernel_ranks a
    exact ⟨T, hT, lockstep_always l⟩

/-- Case: the data of two ranks, with one and two devices. -/
example : ∃ c : Fin 1 → Fin 1 → ℂ, AlwaysReturns (fun r : Fin 2 =>
    (RObs.mk (![[[(1 / 2, ![3])]], [[(1 / 4, ![5])], [(1 / 4, ![7])]]] r) ![4]).covar
      ⟨![[[(1 / 2, ![3])]], [[(1 / 4, ![5])], [(1 / 4, ![7])]]] r, ![4]⟩) fun _ => c := by
  set a : Fin 2 → RObs (Fin 1) := fun r =>
    ⟨![[[(1 / 2, ![3])]], [[(1 / 4, ![5])], [(1 / 4, ![7])]]] r, ![4]⟩
  obtain ⟨l, hl⟩ : ∃ l, (joinObs a).covar (joinObs a) = .ok l := ⟨_, rfl⟩
  obtain ⟨c, -, hc⟩ := (c102_sampled_obs a a).1 l hl
  exact ⟨c, hc⟩

/-! ## Measurements -/

/-- `measure` of any number of operators returns on every rank the means, variances and errors of the
values on all ranks. -/
theorem c102_measure (numSamples : Option ℕ) (ds : List (Fin N → List (List (ℝ × (Fin 1 → ℂ)))))
    (ls : List (List MeasResult)) (h : (ds.map List.ofFn).mapM (measureOne numSamples) = .ok ls) :
    ∃ ms : List MeasResult, (ls = ms.map fun m => List.ofFn fun _ : Fin N => m) ∧
      AlwaysReturns (fun r => measureManyR numSamples (ds.map fun d => d r)) fun _ => ms := by
  obtain ⟨ms, hms, l⟩ := measureMany_ranks ds ls h
  exact ⟨ms, hms, lockstep_always l⟩

/-- Case: two operators on two ranks. -/
example : ∃ ls, ([![[[(1 / 2, ![1])]], [[(1 / 2, ![2])]]], ![[[(1 / 2, ![3])]], [[(1 / 2, ![0])]]]].map
    List.ofFn).mapM (measureOne (some 2)) = .ok ls := ⟨_, rfl⟩

/-- `measure_povm` likewise. -/
theorem c102_measure_povm (numSamples : Option ℕ) (d : Fin N → List (List (ℝ × (Fin 1 → ℂ))))
    (corrs : List (Fin N → List (List (ℝ × (Fin 1 → ℂ))))) (l : List MeasResult)
    (cs : List (List MeasResult))
    (h : measurePovm numSamples (List.ofFn d) (corrs.map List.ofFn) = .ok (l, cs)) :
    ∃ (m : MeasResult) (ms : List MeasResult), (l = List.ofFn fun _ : Fin N => m) ∧
      (cs = ms.map fun m => List.ofFn fun _ : Fin N => m) ∧
      AlwaysReturns (fun r => measurePovmR numSamples (d r) (corrs.map fun c => c r))
        fun _ => (m, ms) := by
  obtain ⟨m, ms, h1, h2, l⟩ := measurePovm_ranks h
  exact ⟨m, ms, h1, h2, lockstep_always l⟩

/-- Case: one local observable and one correlator on two ranks. -/
example : ∃ l cs, measurePovm (some 2) (List.ofFn ![[[(1 / 2, ![1])]], [[(1 / 2, ![2])]]])
    ([![[[(1 / 2, ![3])]], [[(1 / 2, ![0])]]]].map List.ofFn) = .ok (l, cs) := ⟨_, _, rfl⟩

/-! ## Prefactors of operators -/

/-- Prefactors that can be evaluated in parallel are, under every timing, the same on every rank. -/
theorem c102_prefactors {A : Type} [AddCommMonoid A] [MpiBuf A] [LawfulBuf A] (pre : List (ℕ × A))
    (init v : List A) (h : argFun pre init N = .ok v) :
    AlwaysReturns (fun r : Fin N => argFunR pre init N r.val) fun _ => v :=
  lockstep_always (argFun_ranks pre init v h)

/-- Case: two prefactors on three ranks. -/
example : ∃ v, argFun [(0, Complex.I), (1, 2)] [1, 1] 3 = .ok v := ⟨_, rfl⟩

/-- C102 is violated by operators with at least 50 strings, all of which have a prefactor: on two ranks,
rank 0 raises an `IndexError`, and rank 1 waits for it forever. -/
theorem c102_violated_prefactors {A : Type} [AddCommMonoid A] [MpiBuf A] (vals init : List A)
    (hn : 50 ≤ vals.length) (hi : init.length = vals.length) :
    argFunR ((List.range vals.length).zip vals) init 2 0 = .raise .indexError ∧
    HangsForever (fun r : Fin 2 => argFunR ((List.range vals.length).zip vals) init 2 r.val) 1 := by
  set pre := (List.range vals.length).zip vals with hpre
  have hlen : pre.length = vals.length := by simp [hpre]
  have hidx : ∀ k, k < pre.length → pidx pre k = k := by
    intro k hk
    rw [pidx_eq _ _ hk]
    simp [hpre]
  have h0 := argFunRank_zero_error pre init 2 (le_refl _) (by omega) hidx
  have hE : (pre.length + 2 - 1) / 2 < pre.length := by omega
  have hE0 : 0 < (pre.length + 2 - 1) / 2 := by omega
  have h1 : ∃ x, argFunRank pre init 2 1 = .ok x := by
    have hf : firstIdxs pre 2 ((pre.length + 2 - 1) / 2) =
        .ok [0, (((pre.length + 2 - 1) / 2 - 1 : ℕ) : ℤ)] := by
      unfold firstIdxs
      simp only [List.range', List.mapM_cons, List.mapM_nil, mul_one]
      rw [preIdx_ok pre _ hE, hidx _ hE]
      show Except.ok [(0 : ℤ), _] = Except.ok _
      rw [Nat.cast_sub hE0, Nat.cast_one]
    have hl : lastIdxs pre 2 ((pre.length + 2 - 1) / 2) init.length =
        .ok [(((pre.length + 2 - 1) / 2 - 1 : ℕ) : ℤ), (init.length : ℤ)] := by
      unfold lastIdxs
      simp only [List.range_succ, List.range_zero, List.nil_append, List.mapM_cons, List.mapM_nil,
        zero_add, mul_one]
      rw [min_eq_left (by omega), preIdx_ok pre _ hE, hidx _ hE]
      show Except.ok [_, (init.length : ℤ)] = Except.ok _
      rw [Nat.cast_sub hE0, Nat.cast_one]
    unfold argFunRank
    simp only [hf, hl]
    refine ⟨_, writeAll_ok ((pre.length + 2 - 1) / 2 - 1) _ _ ?_⟩
    intro p hp
    obtain ⟨k, hk, rfl⟩ := List.getElem_of_mem hp
    have hk' := hk
    simp only [List.length_take, List.length_drop] at hk'
    have hval : (((pre.drop ((pre.length + 2 - 1) / 2 * 1)).take
        (min ((pre.length + 2 - 1) / 2 * 1 + (pre.length + 2 - 1) / 2) pre.length -
          (pre.length + 2 - 1) / 2 * 1))[k]).1 = (pre.length + 2 - 1) / 2 * 1 + k := by
      rw [List.getElem_take, List.getElem_drop]
      simp [hpre]
    rw [hval]
    simp only [List.length_take, List.length_drop, List.getD_cons_succ, List.getD_cons_zero,
      Int.toNat_natCast]
    omega
  have hraise : argFunR pre init 2 0 = .raise .indexError := by
    unfold argFunR
    rw [if_neg (by omega), h0]
    rfl
  obtain ⟨x, hx⟩ := h1
  obtain ⟨k, hk⟩ : ∃ k, argFunR pre init 2 1 = .coll .allgather (x.map fun a => some (MpiBuf.enc a)) k := by
    unfold argFunR
    rw [if_neg (by omega), hx]
    exact ⟨_, rfl⟩
  refine ⟨hraise, hangs_of_ended _ 0 1 (.error .indexError) .allgather
    (x.map fun a => some (MpiBuf.enc a)) k ?_ hk (by intro _ h; cases h)⟩
  · show Prog.outcome (argFunR pre init 2 0) = _
    rw [hraise]
    rfl

/-- Case: 50 strings with complex prefactors. -/
example : HangsForever (fun r : Fin 2 => argFunR ((List.range 50).zip (List.replicate 50 Complex.I))
    (List.replicate 50 1) 2 r.val) 1 := by
  simpa using (c102_violated_prefactors (List.replicate 50 Complex.I) (List.replicate 50 1)
    (by simp) (by simp)).2

/-! ## TDVP and MinSR -/

/-- A TDVP call: `psi` is in the same state on all ranks (after any history of calls), the sampler and the
evaluation of local energies and gradients are in step. With settings `0 < pinvCutoff < 0.01`,
`pinvTol < 1`, with or without cross validation, and whatever the samples are, all ranks return under
every timing, all of them return the same update, and `psi` is restored. -/
theorem c102_tdvp [NeZero N] {smp : Type} {inv : (Fin N → smp) → Prop} {env : TdvpEnv n (Fin N → smp)}
    {envR : TdvpEnvR n smp} (henv : MeasuresInStep inv env envR) (cfg : TdvpCfg n)
    (hc : 0 < cfg.pinvCutoff) (hc' : cfg.pinvCutoff < 1e-2) (ht : cfg.pinvTol < 1)
    (netP : List ℝ) (t : ℝ) (k : Option ℕ) (sm sm' : Fin N → smp) (hsm : inv sm)
    (at₀ : Fin N → TdvpAttrs n) (p₀ : Params) (ops : List NqsOp) (hops : ∀ op ∈ ops, op.Fits p₀)
    (hinit : nqsRun p₀ ops ≠ none) (p : Params) (hp : paramUnflatten p₀.isReal p₀.sizes netP = .ok p)
    (joint : World (ℝ × (Fin 1 → ℂ) × (Fin (n + 1) → ℂ)))
    (hm : env.measure p sm t = .ok (joint, sm')) (h1 : ∀ rk ∈ joint, rk ≠ [])
    (h2 : ∀ s ∈ allSamples joint, 0 ≤ s.1) :
    ∃ (u : Flt (Fin (n + 1) → ℝ)) (at₁ : Fin N → TdvpAttrs n), inv sm' ∧
      (∀ r : Fin N, (tdvpCall env cfg r.val netP t k sm (at₀ r)).call (nqsRun p₀ ops)
        = (.ok (u, at₁ r, sm'), nqsRun p₀ ops)) ∧
      AlwaysReturns (fun r => tdvpCallR envR cfg netP t k (sm r) (at₀ r) (nqsRun p₀ ops))
        fun r => ((u, at₁ r, sm' r), nqsRun p₀ ops) := by
  have hlen : List.length joint = N := by
    obtain ⟨-, w, rfl, -⟩ := henv p sm t joint sm' hsm hm
    simp
  choose u at₁ hcall using fun r : Fin N => c44_returns env cfg hc hc' ht r.val netP t k sm sm' (at₀ r) p₀
    ops hops hinit p hp joint hm h1 h2 (by rw [hlen]; exact r.isLt)
  cases hst : nqsRun p₀ ops with
  | none => exact absurd hst hinit
  | some st =>
    rw [hst] at hcall
    obtain ⟨l, hinv, x, hx⟩ := tdvpCall_ranks henv cfg netP t k sm sm' hsm at₀ at₁ st (fun _ => some st) u hcall
    simp only [hx] at l hcall
    exact ⟨x, at₁, hinv, hcall, lockstep_always l⟩

theorem mem_zipWith_elim {A B C : Type} (f : A → B → C) (a : List A) (b : List B) (c : C)
    (h : c ∈ List.zipWith f a b) : ∃ x ∈ a, ∃ y ∈ b, c = f x y := by
  induction a generalizing b with
  | nil => simp at h
  | cons x a ih =>
    cases b with
    | nil => simp at h
    | cons y b =>
      rw [List.zipWith_cons_cons, List.mem_cons] at h
      rcases h with rfl | h
      · exact ⟨x, by simp, y, by simp, rfl⟩
      · obtain ⟨x', hx', y', hy', rfl⟩ := ih b h
        exact ⟨x', by simp [hx'], y', by simp [hy'], rfl⟩

/-- Weights that are not negative, on every rank with at least one device. -/
theorem withWeights_valid {X : Type} (q : Fin N → List (List ℝ))
    (d : Fin N → List (List (X × (Fin 1 → ℂ) × (Fin (n + 1) → ℂ))))
    (hq : ∀ r, q r ≠ []) (hd : ∀ r, d r ≠ []) (h : ∀ r, ∀ dev ∈ q r, ∀ x ∈ dev, 0 ≤ x) :
    (∀ rk ∈ List.zipWith withWeights (List.ofFn q) (List.ofFn d), rk ≠ []) ∧
    ∀ s ∈ allSamples (List.zipWith withWeights (List.ofFn q) (List.ofFn d)), 0 ≤ s.1 := by
  rw [ofFn_zipWith]
  constructor
  · intro rk hrk
    obtain ⟨r, rfl⟩ := List.mem_ofFn.mp hrk
    obtain ⟨a, l, hl⟩ := List.exists_cons_of_ne_nil (hq r)
    obtain ⟨b, m, hm⟩ := List.exists_cons_of_ne_nil (hd r)
    simp [withWeights, hl, hm]
  · intro s hs
    obtain ⟨dev, hdev, hs⟩ := List.mem_flatten.mp hs
    obtain ⟨rk, hrk, hdev⟩ := List.mem_flatten.mp hdev
    obtain ⟨r, rfl⟩ := List.mem_ofFn.mp hrk
    obtain ⟨x, hx, y, -, rfl⟩ := mem_zipWith_elim _ _ _ _ hdev
    obtain ⟨z, hz, w, -, rfl⟩ := mem_zipWith_elim _ _ _ _ hs
    exact h r x hx z hz

theorem exactEnv_measure [NeZero N] {β : Type} (lpf : ℝ)
    (loc : β → Params → ℝ → List (List (ExactEntry × (Fin 1 → ℂ) × (Fin (n + 1) → ℂ))))
    (p : Params) (sm : Fin N → β × ℝ) (t : ℝ) (h : ∀ r, loc (sm r).1 p t ≠ []) :
    ∃ joint sm', (exactEnv lpf loc).measure p sm t = .ok (joint, sm') ∧ (∀ rk ∈ joint, rk ≠ []) ∧
      (∀ s ∈ allSamples joint, 0 ≤ s.1) := by
  set d := fun r => loc (sm r).1 p t with hd
  set q : Fin N → List (List ℝ) := fun r => ((d r).map fun dev => dev.map Prod.fst).map fun dev =>
    dev.map (exactUnnormalised lpf (sm 0).2) with hq
  have hw : (List.ofFn fun r => (d r).map fun dev => dev.map Prod.fst).map (fun rk => rk.map fun dev =>
      dev.map (exactUnnormalised lpf (sm 0).2)) = List.ofFn q := by
    rw [List.map_ofFn]
    rfl
  have hpos : ∀ e, 0 ≤ exactUnnormalised lpf (sm 0).2 e := by
    intro e
    unfold exactUnnormalised
    split_ifs
    · exact (Real.exp_pos _).le
    · exact le_refl _
  have hqpos : ∀ r, ∀ dev ∈ q r, ∀ x ∈ dev, 0 ≤ x := by
    intro r dev hdev x hx
    obtain ⟨dev', -, rfl⟩ := List.mem_map.mp hdev
    obtain ⟨e, -, rfl⟩ := List.mem_map.mp hx
    exact hpos e
  have hqne : ∀ r, q r ≠ [] := by
    intro r hc
    exact h r (by simpa [hq, hd] using hc)
  have hs := globalSum_eq (List.ofFn q) (by
    intro x hx
    obtain ⟨r, rfl⟩ := List.mem_ofFn.mp hx
    exact hqne r)
  set tot := (allSamples (List.ofFn q)).sum with htot
  have htot0 : 0 ≤ tot := by
    apply List.sum_nonneg
    intro x hx
    obtain ⟨dev, hdev, hx⟩ := List.mem_flatten.mp hx
    obtain ⟨rk, hrk, hdev⟩ := List.mem_flatten.mp hdev
    obtain ⟨r, rfl⟩ := List.mem_ofFn.mp hrk
    exact hqpos r dev hdev x hx
  have hex : exactSample lpf (sm 0).2 (List.ofFn fun r => (d r).map fun dev => dev.map Prod.fst) =
      .ok ((sm 0).2 + lpf * Real.log tot, List.ofFn fun r => (q r).map fun dev => dev.map fun x => x / tot) := by
    unfold exactSample
    rw [hw]
    change Except.bind (globalSum (List.ofFn q)) _ = _
    rw [hs, List.map_ofFn]
    obtain ⟨k, rfl⟩ := Nat.exists_eq_succ_of_ne_zero (NeZero.ne N)
    rw [List.ofFn_succ (f := (fun _ => tot) ∘ q)]
    show Except.ok (_, List.map _ (List.ofFn q)) = _
    rw [List.map_ofFn]
    rfl
  refine ⟨List.zipWith withWeights (List.ofFn fun r => (q r).map fun dev => dev.map fun x => x / tot)
    (List.ofFn d), fun r => ((sm r).1, (sm 0).2 + lpf * Real.log tot), ?_, ?_⟩
  · change Except.bind (exactSample lpf (sm 0).2 (List.ofFn fun r => (d r).map fun dev =>
      dev.map Prod.fst)) _ = _
    rw [hex]
    rfl
  · refine withWeights_valid _ d ?_ h ?_
    · intro r hc
      exact hqne r (by simpa using hc)
    · intro r dev hdev x hx
      obtain ⟨dev', hdev', rfl⟩ := List.mem_map.mp hdev
      obtain ⟨y, hy, rfl⟩ := List.mem_map.mp hx
      exact div_nonneg (hqpos r dev' hdev' y hy) htot0

theorem mcmcEnv_measure {σ : Type} (lpf mu : ℝ)
    (draw : σ → Params → ℝ → List (List (ℂ × (Fin 1 → ℂ) × (Fin (n + 1) → ℂ))) × σ)
    (p : Params) (sm : Fin N → σ) (t : ℝ) (h : ∀ r, (draw (sm r) p t).1 ≠ []) :
    ∃ joint sm', (mcmcEnv lpf mu draw).measure p sm t = .ok (joint, sm') ∧ (∀ rk ∈ joint, rk ≠ []) ∧
      (∀ s ∈ allSamples joint, 0 ≤ s.1) := by
  set d := fun r => (draw (sm r) p t).1 with hd
  set q : Fin N → List (List ℝ) := fun r => ((d r).map fun dev => dev.map Prod.fst).map fun dev =>
    dev.map fun z => Real.exp ((1 / lpf - mu) * z.re) with hq
  have hw : (List.ofFn fun r => (d r).map fun dev => dev.map Prod.fst).map (fun rk => rk.map fun dev =>
      dev.map fun z => Real.exp ((1 / lpf - mu) * z.re)) = List.ofFn q := by
    rw [List.map_ofFn]
    rfl
  have hqpos : ∀ r, ∀ dev ∈ q r, ∀ x ∈ dev, 0 ≤ x := by
    intro r dev hdev x hx
    obtain ⟨dev', -, rfl⟩ := List.mem_map.mp hdev
    obtain ⟨e, -, rfl⟩ := List.mem_map.mp hx
    exact (Real.exp_pos _).le
  have hqne : ∀ r, q r ≠ [] := by
    intro r hc
    exact h r (by simpa [hq, hd] using hc)
  have hs := globalSum_eq (List.ofFn q) (by
    intro x hx
    obtain ⟨r, rfl⟩ := List.mem_ofFn.mp hx
    exact hqne r)
  set tot := (allSamples (List.ofFn q)).sum with htot
  have htot0 : 0 ≤ tot := by
    apply List.sum_nonneg
    intro x hx
    obtain ⟨dev, hdev, hx⟩ := List.mem_flatten.mp hx
    obtain ⟨rk, hrk, hdev⟩ := List.mem_flatten.mp hdev
    obtain ⟨r, rfl⟩ := List.mem_ofFn.mp hrk
    exact hqpos r dev hdev x hx
  have hex : mcmcWeights lpf mu (List.ofFn fun r => (d r).map fun dev => dev.map Prod.fst) =
      .ok (List.ofFn fun r => (q r).map fun dev => dev.map fun x => x / tot) := by
    unfold mcmcWeights
    rw [hw]
    change Except.bind (globalSum (List.ofFn q)) _ = _
    rw [hs, List.map_ofFn]
    show Except.ok _ = Except.ok _
    rw [ofFn_zip, List.map_ofFn]
    rfl
  refine ⟨List.zipWith withWeights (List.ofFn fun r => (q r).map fun dev => dev.map fun x => x / tot)
    (List.ofFn d), fun r => (draw (sm r) p t).2, ?_, ?_⟩
  · change Except.bind (mcmcWeights lpf mu (List.ofFn fun r => (d r).map fun dev =>
      dev.map Prod.fst)) _ = _
    rw [hex]
    rfl
  · refine withWeights_valid _ d ?_ h ?_
    · intro r hc
      exact hqne r (by simpa using hc)
    · intro r dev hdev x hx
      obtain ⟨dev', hdev', rfl⟩ := List.mem_map.mp hdev
      obtain ⟨y, hy, rfl⟩ := List.mem_map.mp hx
      exact div_nonneg (hqpos r dev' hdev' y hy) htot0

/-- TDVP with the exact sampler: every rank has its part of the basis on at least one device. -/
theorem c102_tdvp_exact [NeZero N] {β : Type} (lpf : ℝ)
    (loc : β → Params → ℝ → List (List (ExactEntry × (Fin 1 → ℂ) × (Fin (n + 1) → ℂ)))) (cfg : TdvpCfg n)
    (hc : 0 < cfg.pinvCutoff) (hc' : cfg.pinvCutoff < 1e-2) (ht : cfg.pinvTol < 1)
    (netP : List ℝ) (t : ℝ) (k : Option ℕ) (part : Fin N → β) (lastNorm : ℝ)
    (at₀ : Fin N → TdvpAttrs n) (p₀ : Params) (ops : List NqsOp) (hops : ∀ op ∈ ops, op.Fits p₀)
    (hinit : nqsRun p₀ ops ≠ none) (p : Params) (hp : paramUnflatten p₀.isReal p₀.sizes netP = .ok p)
    (hdev : ∀ r, loc (part r) p t ≠ []) :
    ∃ (u : Flt (Fin (n + 1) → ℝ)) (at₁ : Fin N → TdvpAttrs n) (sm' : Fin N → β × ℝ),
      AlwaysReturns (fun r => tdvpCallR (exactEnvR lpf loc) cfg netP t k (part r, lastNorm) (at₀ r)
        (nqsRun p₀ ops)) fun r => ((u, at₁ r, sm' r), nqsRun p₀ ops) := by
  obtain ⟨joint, sm', hm, h1, h2⟩ := exactEnv_measure lpf loc p (fun r => (part r, lastNorm)) t hdev
  obtain ⟨u, at₁, -, -, h⟩ := c102_tdvp (exactEnv_inStep lpf loc) cfg hc hc' ht netP t k
    (fun r => (part r, lastNorm)) sm' (fun _ => rfl) at₀ p₀ ops hops hinit p hp joint hm h1 h2
  exact ⟨u, at₁, sm', h⟩

/-- TDVP with MCMC: every rank draws its own samples, with its own random numbers, on at least one
device. -/
theorem c102_tdvp_mcmc [NeZero N] {σ : Type} (lpf mu : ℝ)
    (draw : σ → Params → ℝ → List (List (ℂ × (Fin 1 → ℂ) × (Fin (n + 1) → ℂ))) × σ) (cfg : TdvpCfg n)
    (hc : 0 < cfg.pinvCutoff) (hc' : cfg.pinvCutoff < 1e-2) (ht : cfg.pinvTol < 1)
    (netP : List ℝ) (t : ℝ) (k : Option ℕ) (sm : Fin N → σ)
    (at₀ : Fin N → TdvpAttrs n) (p₀ : Params) (ops : List NqsOp) (hops : ∀ op ∈ ops, op.Fits p₀)
    (hinit : nqsRun p₀ ops ≠ none) (p : Params) (hp : paramUnflatten p₀.isReal p₀.sizes netP = .ok p)
    (hdev : ∀ r, (draw (sm r) p t).1 ≠ []) :
    ∃ (u : Flt (Fin (n + 1) → ℝ)) (at₁ : Fin N → TdvpAttrs n) (sm' : Fin N → σ),
      AlwaysReturns (fun r => tdvpCallR (mcmcEnvR lpf mu draw) cfg netP t k (sm r) (at₀ r)
        (nqsRun p₀ ops)) fun r => ((u, at₁ r, sm' r), nqsRun p₀ ops) := by
  obtain ⟨joint, sm', hm, h1, h2⟩ := mcmcEnv_measure lpf mu draw p sm t hdev
  obtain ⟨u, at₁, -, -, h⟩ := c102_tdvp (mcmcEnv_inStep lpf mu draw) cfg hc hc' ht netP t k
    sm sm' trivial at₀ p₀ ops hops hinit p hp joint hm h1 h2
  exact ⟨u, at₁, sm', h⟩

/-- Draws whose "random numbers" are a counter. -/
noncomputable def demoDraw (s : ℕ) (_ : Params) (_ : ℝ) :
    List (List (ℂ × (Fin 1 → ℂ) × (Fin 2 → ℂ))) × ℕ :=
  ([[((s : ℂ), ![(s : ℂ)], ![1, Complex.I * s]), (2, ![1], ![(s : ℂ), 3])]], s + 1)

/-- Case: two ranks with different random numbers, with cross validation. -/
example : ∃ (u : Flt (Fin 2 → ℝ)) (at₁ : Fin 2 → TdvpAttrs 1) (sm' : Fin 2 → ℕ),
    AlwaysReturns (fun r : Fin 2 => tdvpCallR (mcmcEnvR 2 2 demoDraw)
      { demoCfg with crossValidation := true } [3, 4] 0 (some 0) (![5, 7] r) {}
      (nqsRun (.real [[1, 2]]) [.eval])) fun r => ((u, at₁ r, sm' r), nqsRun (.real [[1, 2]]) [.eval]) :=
  c102_tdvp_mcmc 2 2 demoDraw { demoCfg with crossValidation := true } (by norm_num [demoCfg])
    (by norm_num [demoCfg]) (by norm_num [demoCfg])
    [3, 4] 0 (some 0) ![5, 7] (fun _ => {}) (.real [[1, 2]]) [.eval]
    (by intro op hop; simp at hop; subst hop; trivial) (by intro h; cases h) (.real [[3, 4]]) rfl
    (fun r => by simp [demoDraw])

/-- The part of the basis of a rank: one state. -/
noncomputable def demoPart (z : ℂ) (_ : Params) (_ : ℝ) :
    List (List (ExactEntry × (Fin 1 → ℂ) × (Fin 2 → ℂ))) :=
  [[((true, z), ![z], ![1, Complex.I * z])]]

/-- Case: the exact sampler on two ranks. -/
example : ∃ (u : Flt (Fin 2 → ℝ)) (at₁ : Fin 2 → TdvpAttrs 1) (sm' : Fin 2 → ℂ × ℝ),
    AlwaysReturns (fun r : Fin 2 => tdvpCallR (exactEnvR 2 demoPart)
      demoCfg [3, 4] 0 (some 0) (![1, Complex.I] r, 0) {}
      (nqsRun (.real [[1, 2]]) [.eval])) fun r => ((u, at₁ r, sm' r), nqsRun (.real [[1, 2]]) [.eval]) :=
  c102_tdvp_exact 2 demoPart demoCfg (by norm_num [demoCfg])
    (by norm_num [demoCfg]) (by norm_num [demoCfg])
    [3, 4] 0 (some 0) ![1, Complex.I] 0 (fun _ => {}) (.real [[1, 2]]) [.eval]
    (by intro op hop; simp at hop; subst hop; trivial) (by intro h; cases h) (.real [[3, 4]]) rfl
    (fun r => by simp [demoPart])

/-- MinSR likewise. -/
theorem c102_minsr [NeZero N] {smp : Type} {inv : (Fin N → smp) → Prop} {env : TdvpEnv n (Fin N → smp)}
    {envR : TdvpEnvR n smp} (henv : MeasuresInStep inv env envR) (cfg : MinSRCfg)
    (netP : List ℝ) (t : ℝ) (k : Option ℕ) (sm sm' : Fin N → smp) (hsm : inv sm)
    (at₀ : Fin N → MinSRAttrs) (p₀ : Params) (ops : List NqsOp) (hops : ∀ op ∈ ops, op.Fits p₀)
    (hinit : nqsRun p₀ ops ≠ none) (p : Params) (hp : paramUnflatten p₀.isReal p₀.sizes netP = .ok p)
    (joint : World (ℝ × (Fin 1 → ℂ) × (Fin (n + 1) → ℂ)))
    (hm : env.measure p sm t = .ok (joint, sm')) (h1 : ∀ rk ∈ joint, rk ≠ [])
    (h2 : ∀ s ∈ allSamples joint, 0 ≤ s.1) :
    ∃ (u : Fin (n + 1) → ℂ) (at₁ : Fin N → MinSRAttrs), inv sm' ∧
      (∀ r : Fin N, (minsrCall env cfg r.val netP t k sm (at₀ r)).call (nqsRun p₀ ops)
        = (.ok (u, at₁ r, sm'), nqsRun p₀ ops)) ∧
      AlwaysReturns (fun r => minsrCallR envR cfg netP t k (sm r) (at₀ r) (nqsRun p₀ ops))
        fun r => ((u, at₁ r, sm' r), nqsRun p₀ ops) := by
  have hlen : List.length joint = N := by
    obtain ⟨-, w, rfl, -⟩ := henv p sm t joint sm' hsm hm
    simp
  cases hst : nqsRun p₀ ops with
  | none => exact absurd hst hinit
  | some st =>
    have hw := wf_run p₀ ops hops st hst
    have hcall : ∀ r : Fin N, ∃ u at₁, (minsrCall env cfg r.val netP t k sm (at₀ r)).call (nqsRun p₀ ops)
        = (.ok (u, at₁, sm'), nqsRun p₀ ops) := by
      intro r
      obtain ⟨E, G, hi⟩ := tdvpInput_exists joint r.val h1 h2 (by rw [hlen]; exact r.isLt)
      obtain ⟨u, -, hu⟩ := c72_call env cfg r.val netP t k sm sm' (at₀ r) p₀ ops hops st hst p
        (by rw [hw.1, hw.2.1]; exact hp) joint hm E G hi
      exact ⟨u, _, Prod.ext hu (c72_restores env cfg r.val netP t k sm (at₀ r) p₀ ops hops _ hu)⟩
    rw [hst] at hcall
    choose u at₁ hcall using hcall
    obtain ⟨l, hinv, x, hx⟩ := minsrCall_ranks henv cfg netP t k sm sm' hsm at₀ at₁ st (fun _ => some st) u hcall
    simp only [hx] at l hcall
    exact ⟨x, at₁, hinv, hcall, lockstep_always l⟩

/-- Case: two ranks with the exact sampler. -/
example : ∃ (u : Fin 2 → ℂ) (at₁ : Fin 2 → MinSRAttrs) (sm' : Fin 2 → ℂ × ℝ),
    AlwaysReturns (fun r : Fin 2 => minsrCallR (exactEnvR 2 demoPart)
      ⟨1e-14, "real", fun _ => someEigh⟩ [3, 4] 0 (some 0) (![1, Complex.I] r, 0) none
      (nqsRun (.real [[1, 2]]) [.eval])) fun r => ((u, at₁ r, sm' r), nqsRun (.real [[1, 2]]) [.eval]) := by
  obtain ⟨joint, sm', hm, h1, h2⟩ := exactEnv_measure (N := 2) 2 demoPart (.real [[3, 4]])
    (fun r => (![1, Complex.I] r, 0)) 0 (fun r => by simp [demoPart])
  obtain ⟨u, at₁, -, -, h⟩ := c102_minsr (exactEnv_inStep 2 demoPart)
    ⟨1e-14, "real", fun _ => someEigh⟩ [3, 4] 0 (some 0) _ sm' (fun _ => rfl) (fun _ => none)
    (.real [[1, 2]]) [.eval] (by intro op hop; simp at hop; subst hop; trivial) (by intro h; cases h)
    (.real [[3, 4]]) rfl joint hm h1 h2
  exact ⟨u, at₁, sm', h⟩

/-! ## Time steps -/

/-- `Euler.step`, `Heun.step` and the loop of `AdaptiveHeun.step`: if the right-hand side is in step and
has the same value on all ranks, then all ranks take the same time step with the same result. In
particular the ranks agree on when the loop ends: within `passes` passes it ends on all ranks or on none. -/
theorem c102_steppers {M σ : Type} [AddCommGroup M] [Module ℝ M] {inv : (Fin N → σ) → Prop}
    {f : RhsR M σ} (hf : RhsInStep inv f) (t : ℝ) (y : M) (s : Fin N → σ) (hs : inv s) :
    (∀ dt, ∃ (y' : M) (s' : Fin N → σ), inv s' ∧
      AlwaysReturns (fun r => eulerStepR dt t f y (s r)) fun r => ((y', dt), s' r)) ∧
    (∀ dt, ∃ (y' : M) (s' : Fin N → σ), inv s' ∧
      AlwaysReturns (fun r => heunStepR dt t f y (s r)) fun r => ((y', dt), s' r)) ∧
    (∀ (obj : AHeun) (norm : M → ℝ) (passes : ℕ),
      ∃ (out : Option (M × ℝ × Flt ℝ)) (s' : Fin N → σ), inv s' ∧
        AlwaysReturns (fun r => ahLoopR obj norm t f y passes obj.dt (s r)) fun r => (out, s' r)) := by
  refine ⟨fun dt => ?_, fun dt => ?_, fun obj norm passes => ?_⟩
  · obtain ⟨y', s', h, l⟩ := euler_ranks hf dt t y s hs
    exact ⟨y', s', h, lockstep_always l⟩
  · obtain ⟨y', s', h, l⟩ := heun_ranks hf dt t y s hs
    exact ⟨y', s', h, lockstep_always l⟩
  · obtain ⟨out, s', h, l⟩ := ahLoop_ranks hf obj norm t y passes obj.dt s hs
    exact ⟨out, s', h, lockstep_always l⟩

/-- Case: the right-hand side is the sum of what the ranks compute from their own states. -/
example : RhsInStep (N := 3) (fun _ => True) (fun (y : ℝ) t k (s : ℝ) => do
    let dy ← globalSumR [[y * s + t]]
    return (dy, s + k)) := by
  intro y t k s _
  refine ⟨_, fun r => s r + k, trivial, lockstep_seq (globalSumR_ranks (fun r => [[y * s r + t]])
    (by simp)) (lockstep_pure _)⟩

/-! ## Output -/

/-- `get_network_checkpoint`: if rank 0 can read the checkpoint, all ranks return it. -/
theorem c102_checkpoint_partial [NeZero N] (f : H5File) (cur : HName) (time : ℝ) (idx : ℤ) (t : ℝ)
    (w : NdArr) (h : omGetCheckpoint f cur time idx = .ok (t, w)) :
    AlwaysReturns (fun r : Fin N => omGetCheckpointR f cur time idx r.val)
      fun _ => (t, (List.range (w.shape.headD 0)).map fun i => w.val [i]) :=
  lockstep_always (omGetCheckpoint_ranks f cur time idx t w h)

/-- Case: the last of two checkpoints, on two ranks. -/
example : AlwaysReturns (fun r : Fin 2 =>
    omGetCheckpointR (omRun (omInit none ["", ""] false).2 demoOps).log.now
      (omRun (omInit none ["", ""] false).2 demoOps).obj.currentGroup (-1) (-1) r.val)
    fun _ => (4, [0, 3, 6]) := by
  have h := c102_checkpoint_partial (N := 2) _ _ (-1) (-1) 4 _
    (c53_last_partial none ["", ""] (by simp [GroupPath, HName.path]) demoOps demo_natural demo_shapes
      [(2, ⟨[3], fun i => 2 * i.sum⟩)] 4 ⟨[3], fun i => 3 * i.sum⟩
      (by simp [demoOps, checkpoints, selected, HName.path]))
  norm_num [NdArr.row, List.range_succ, clip] at h
  exact h

/-- C102 is violated by `get_network_checkpoint`: if rank 0 cannot read the checkpoint, it raises, and all
other ranks wait for it forever. -/
theorem c102_violated_checkpoint [NeZero N] (f : H5File) (cur : HName) (time : ℝ) (idx : ℤ) (e : PyErr)
    (h : omGetCheckpoint f cur time idx = .error e) :
    omGetCheckpointR f cur time idx 0 = .raise e ∧
    ∀ r : Fin N, r ≠ 0 → HangsForever (fun r : Fin N => omGetCheckpointR f cur time idx r.val) r := by
  have h1 : omGetCheckpointR f cur time idx 0 = .raise e := by
    unfold omGetCheckpointR
    rw [if_pos rfl, h]
    rfl
  have h0 : ((0 : Fin N) : ℕ) = 0 := by simp
  refine ⟨h1, fun r hr => ?_⟩
  obtain ⟨k, hk⟩ : ∃ k, omGetCheckpointR f cur time idx r.val = .coll (.bcast 0) [] k := by
    unfold omGetCheckpointR
    rw [if_neg fun hc => hr (Fin.ext (hc.trans h0.symm))]
    exact ⟨_, rfl⟩
  refine hangs_of_ended _ 0 r (.error e) (.bcast 0) [] k ?_ hk (by rintro _ ⟨⟩; exact h0.symm)
  show Prog.outcome (omGetCheckpointR f cur time idx ((0 : Fin N) : ℕ)) = _
  rw [h0, h1]
  rfl

/-- Case: resuming on two ranks when there is no checkpoint yet. -/
example : HangsForever (fun r : Fin 2 => omGetCheckpointR H5File.empty ["", ""] (-1) (-1) r.val) 1 :=
  (c102_violated_checkpoint (N := 2) H5File.empty ["", ""] (-1) (-1) .keyError rfl).2 1 (by decide)

/-- C102 is violated when a method that only rank 0 executes (all writes of the output manager) raises:
the other ranks go on to the next reduction and wait there forever. -/
theorem c102_violated_output [NeZero N] {A B : Type} [AddCommMonoid A] [MpiBuf A] (e : PyErr)
    (d : Fin N → List (List A)) (hd : ∀ r, d r ≠ []) (rest : A → Prog B) (r : Fin N) (hr : r ≠ 0) :
    HangsForever (fun r : Fin N => onRankZero r.val (.error e) (globalSumR (d r) >>= rest)) r := by
  have h0 : ((0 : Fin N) : ℕ) = 0 := by simp
  obtain ⟨k, hk⟩ : ∃ k, onRankZero r.val (.error e) (globalSumR (d r) >>= rest) =
      .coll (.allreduce (MpiBuf.len A)) [some (MpiBuf.enc ((d r).flatten.sum))] k := by
    unfold onRankZero globalSumR
    rw [if_neg fun hc => hr (Fin.ext (hc.trans h0.symm)), pyHead_sumUp _ (hd r)]
    exact ⟨_, rfl⟩
  refine hangs_of_ended _ 0 r (.error e) _ _ k ?_ hk (by intro _ h; cases h)
  show Prog.outcome (onRankZero ((0 : Fin N) : ℕ) _ _) = _
  unfold onRankZero
  rw [if_pos h0]
  rfl

/-- Case: a full disk on rank 0, then a measurement. -/
example : HangsForever (fun r : Fin 2 => onRankZero r.val (.error .keyError)
    (globalSumR [[(r.val : ℝ)]] >>= fun x => Prog.ret x)) 1 :=
  c102_violated_output (N := 2) .keyError (fun r => [[(r.val : ℝ)]]) (by simp) _ 1 (by decide)

end JVMC
