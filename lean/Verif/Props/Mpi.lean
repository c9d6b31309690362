import Mathlib.Tactic.NormNum
import Mathlib.Tactic.FinCases
import Verif.Model.Mpi
import Verif.Spec.Samples
import Verif.Lemmas.Mpi
import Verif.Lemmas.MpiProto

/-! # Properties C01–C08: MPI reductions, sample distribution, device bookkeeping -/

namespace JVMC

/-! ## C01 -/

/-- **C01**, with devices: on all ranks `distribute_sampling` succeeds and announces one and the
same total `glob`; the total is exactly what the ranks produce (samples per chain times chains
per process), is at least the request and exceeds it by less than one sample per chain. -/
theorem c01_distribute_sampling_devices (commSize N d c : ℕ) (hs : 0 < commSize) (hd : 0 < d)
    (hc : 0 < c) :
    ∃ (perChain : ℕ → ℕ) (glob : ℕ),
      (∀ r < commSize, distributeSampling commSize r N (some d) c = .ok (perChain r, glob)) ∧
      ∑ r ∈ Finset.range commSize, perChain r * (d * c) = glob ∧
      N ≤ glob ∧ glob < N + commSize * (d * c) := by
  have hdc : 0 < d * c := Nat.mul_pos hd hc
  have hsum : (N % commSize * samplesPerChain (d * c) (1 + N / commSize)
      + (commSize - N % commSize) * samplesPerChain (d * c) (N / commSize)) * (d * c)
      = ∑ r ∈ Finset.range commSize,
          samplesPerChain (d * c) (samplesPerProcess commSize r N) * (d * c) := by
    rw [← Finset.sum_mul]
    congr 1
    exact (sum_if_lt (samplesPerChain (d * c)) (N / commSize) (N % commSize) commSize
      (Nat.mod_lt N hs).le).symm
  refine ⟨fun r => samplesPerChain (d * c) (samplesPerProcess commSize r N),
    _, fun r _ => ?_, rfl, ?_, ?_⟩
  · simp only [distributeSampling]
    rw [if_neg hs.ne', if_neg hdc.ne', hsum]
  · calc N = ∑ k ∈ Finset.range commSize, samplesPerProcess commSize k N :=
        (sum_spp commSize N hs).symm
      _ ≤ _ := Finset.sum_le_sum fun r _ => (spc_bounds (d * c) _ hdc).1
  · calc ∑ r ∈ Finset.range commSize,
          samplesPerChain (d * c) (samplesPerProcess commSize r N) * (d * c)
        < ∑ k ∈ Finset.range commSize, (samplesPerProcess commSize k N + d * c) := by
          apply Finset.sum_lt_sum_of_nonempty
          · exact Finset.nonempty_range_iff.mpr hs.ne'
          · exact fun r _ => (spc_bounds (d * c) _ hdc).2
      _ = N + commSize * (d * c) := by
          rw [Finset.sum_add_distrib, sum_spp commSize N hs]; simp

example := c01_distribute_sampling_devices 3 100 2 4 (by norm_num) (by norm_num) (by norm_num)

/-- **C01**, without devices: the per-rank counts add up to exactly the request and are balanced. -/
theorem c01_distribute_sampling_ranks (commSize N c : ℕ) (hs : 0 < commSize) :
    ∃ (mine : ℕ → ℕ),
      (∀ r < commSize, distributeSampling commSize r N none c = .ok (mine r, N)) ∧
      ∑ r ∈ Finset.range commSize, mine r = N ∧
      ∀ r < commSize, ∀ r' < commSize, mine r ≤ mine r' + 1 := by
  refine ⟨fun r => samplesPerProcess commSize r N, fun r _ => ?_, sum_spp commSize N hs, ?_⟩
  · simp [distributeSampling, hs.ne']
  · intro r _ r' _
    simp only [samplesPerProcess]
    split_ifs <;> omega

example := c01_distribute_sampling_ranks 4 10 1 (by norm_num)

/-- **C01**, error branch: no chains at all raises `ZeroDivisionError` on every rank. -/
theorem c01_zero_chains (commSize r N d c : ℕ) (h : d * c = 0) :
    distributeSampling commSize r N (some d) c = .error .zeroDivisionError := by
  simp only [distributeSampling, h]
  split_ifs <;> rfl

/-- Non-vacuity: 100 samples on 3 ranks with 2 devices of 4 chains each. -/
example : distributeSampling 3 0 100 (some 2) 4 = .ok (5, 120) ∧
    distributeSampling 3 2 100 (some 2) 4 = .ok (5, 120) := by decide

/-! ## C02 -/

/-- **C02**: concatenating, in rank order, the id intervals
`[first_sample_id, first_sample_id + count)` gives exactly `0, 1, …, N-1`. Here `count` is the
value returned and `glob` the module global left behind by `distribute_sampling(N)`. -/
theorem c02_first_sample_id_tiles (commSize N : ℕ) (hs : 0 < commSize)
    (count glob : ℕ → ℕ)
    (h : ∀ r < commSize, distributeSampling commSize r N none 1 = .ok (count r, glob r)) :
    (List.range commSize).flatMap
      (fun r => List.range' (firstSampleId commSize r (glob r)) (count r)) = List.range N := by
  have hr : ∀ r < commSize, samplesPerProcess commSize r N = count r ∧ N = glob r := by
    intro r hr
    have := h r hr
    simpa [distributeSampling, hs.ne'] using this
  have : (List.range commSize).flatMap
      (fun r => List.range' (firstSampleId commSize r (glob r)) (count r))
      = (List.range commSize).flatMap (fun r => List.range'
        (∑ k ∈ Finset.range r, samplesPerProcess commSize k N) (samplesPerProcess commSize r N)) := by
    apply List.flatMap_congr
    intro r hmem
    have hlt := List.mem_range.mp hmem
    obtain ⟨h1, h2⟩ := hr r hlt
    rw [sum_spp_prefix commSize N r hlt.le hs, ← h1, ← h2]
  rw [this, flatMap_range', sum_spp commSize N hs]

/-- Non-vacuity: 10 samples on 4 ranks. -/
example : (List.range 4).map (fun r => (distributeSampling 4 r 10 none 1, firstSampleId 4 r 10))
    = [(.ok (3, 10), 0), (.ok (3, 10), 3), (.ok (2, 10), 6), (.ok (2, 10), 8)] := by decide

/-! ## C03 -/

/-- **C03**, sum: every rank receives the sum over all samples of all ranks and devices. -/
theorem c03_global_sum {A : Type*} [AddCommMonoid A] (world : List (List (List A)))
    (h : ∀ r ∈ world, r ≠ []) :
    globalSum world = .ok (world.map fun _ => (Spec.allSamples world).sum) :=
  globalSum_eq world h

example := c03_global_sum [[[(1 : ℤ), 2], [3]], [[4, 5, 6]]] (by simp)

/-- **C03**, mean: every rank receives the weighted mean of all samples. -/
theorem c03_global_mean {A : Type*} [AddCommMonoid A] [SMul ℝ A]
    (world : List (List (List (ℝ × A)))) (h : ∀ r ∈ world, r ≠ []) :
    globalMean world = .ok (world.map fun _ => Spec.wMean (Spec.allSamples world)) :=
  globalMean_eq world h

example := c03_global_mean [[[((1 / 2 : ℝ), (3 : ℝ))]], [[(1 / 4, 5)], [(1 / 4, 6)]]] (by simp)

/-- **C03**, independence of the layout: two worlds holding the same samples, in any order and
over any numbers of ranks and devices, yield the same mean on all their ranks. -/
theorem c03_layout_independent {A : Type*} [AddCommMonoid A] [SMul ℝ A]
    (w₁ w₂ : List (List (List (ℝ × A)))) (h₁ : ∀ r ∈ w₁, r ≠ []) (h₂ : ∀ r ∈ w₂, r ≠ [])
    (hp : (Spec.allSamples w₁).Perm (Spec.allSamples w₂)) :
    ∃ m : A, globalMean w₁ = .ok (w₁.map fun _ => m) ∧ globalMean w₂ = .ok (w₂.map fun _ => m) := by
  refine ⟨Spec.wMean (Spec.allSamples w₁), globalMean_eq w₁ h₁, ?_⟩
  rw [globalMean_eq w₂ h₂]
  have : Spec.wMean (Spec.allSamples w₂) = Spec.wMean (Spec.allSamples w₁) := by
    unfold Spec.wMean
    exact (hp.symm.map _).sum_eq
  rw [this]

/-- Two ranks with one device, or one rank with three devices. -/
example := c03_layout_independent [[[((1 / 2 : ℝ), (3 : ℝ))]], [[(1 / 4, 5), (1 / 4, 6)]]]
  [[[(1 / 4, 5)], [(1 / 4, 6)], [(1 / 2, 3)]]] (by simp) (by simp) (List.perm_append_comm (l₁ := [(1 / 2, 3)]))

/-- **C03**, gather: every rank receives all samples in rank, device, batch order. -/
theorem c03_gather {A : Type*} (world : List (List (List A))) :
    gather world = world.map fun _ => Spec.allSamples world := by
  unfold gather Spec.allSamples
  rw [List.flatten_flatten]

/-- Error branch: a rank without devices makes the reduction raise `IndexError`. -/
theorem c03_no_devices {A : Type*} [AddCommMonoid A] (world : List (List (List A)))
    (h : [] ∈ world) : globalSum world = .error .indexError := by
  unfold globalSum
  rw [mapM_error (fun data => pyHead (sumUpPmapd data)) .indexError world [] h rfl]
  · rfl
  · intro b _
    cases b with
    | nil => left; rfl
    | cons x xs => right; exact ⟨_, rfl⟩

/-- Non-vacuity: two ranks with unequal layouts, six samples. -/
example : globalSum [[[(1 : ℤ), 2], [3]], [[4, 5, 6]]] = .ok [21, 21] := by decide

/-! ## C04 -/

/-- **C04**, the part that holds: with exactly one device per rank `global_variance` is the
weighted variance over all samples (the full claim is for any number of devices, and fails, see
`c04_violated`). -/
theorem c04_global_variance_partial {ι : Type*} (world : List (List (List (ℝ × (ι → ℂ)))))
    (h : ∀ r ∈ world, r.length = 1) :
    globalVariance world =
      .ok (world.map fun _ => fun k => ((Spec.wVar (Spec.allSamples world) k : ℝ) : ℂ)) := by
  have hne : ∀ r ∈ world, r ≠ [] := by
    intro r hr he
    have := h r hr
    rw [he] at this
    simp at this
  set m := Spec.wMean (Spec.allSamples world) with hm
  let sq : ℝ × (ι → ℂ) → ι → ℂ := fun s j =>
    (starRingEnd ℂ) (s.2 j - m j) * (s.2 j - m j) * (s.1 : ℂ)
  unfold globalVariance
  rw [globalMean_eq world hne]
  have hz : world.zip (world.map fun _ => m) = world.map fun w => (w, m) := by
    clear hm hne h
    clear_value m
    induction world with
    | nil => rfl
    | cons a l ih => rw [List.map_cons, List.zip_cons_cons, ih]; rfl
  have hloc : (world.map fun w => (w, m)).mapM (fun dm => pyHead (sumSqPmapd dm.2 dm.1))
      = .ok ((world.map fun w => (w, m)).map fun dm => (dm.1.flatten.map sq).sum) := by
    apply mapM_ok
    intro dm hdm
    obtain ⟨w, hw, rfl⟩ := List.mem_map.mp hdm
    obtain ⟨dev, rfl⟩ := List.length_eq_one_iff.mp (h w hw)
    simp [sumSqPmapd, pyHead, sq]
  show (do
    let locals ← (world.zip (world.map fun _ => m)).mapM
      fun (dm : List (List (ℝ × (ι → ℂ))) × (ι → ℂ)) => pyHead (sumSqPmapd dm.2 dm.1)
    return allreduceSum locals) = _
  rw [hz, hloc]
  show Except.ok _ = Except.ok _
  congr 1
  simp only [allreduceSum, List.map_map]
  apply List.map_congr_left
  intro _ _
  funext k
  simp only [Function.comp]
  have : ((world.map fun w => (w.flatten.map sq).sum)).sum = ((Spec.allSamples world).map sq).sum := by
    unfold Spec.allSamples
    rw [List.flatten_flatten, List.map_flatten, List.sum_flatten, List.map_map, List.map_map]
    rfl
  have h2 := congrArg (fun f => f k) this
  rw [show (List.map ((fun dm : List (List (ℝ × (ι → ℂ))) × (ι → ℂ) => (dm.1.flatten.map sq).sum)
      ∘ fun w => (w, m)) world) = world.map fun w => (w.flatten.map sq).sum from rfl, h2]
  rw [list_sum_apply, List.map_map]
  unfold Spec.wVar
  rw [ofReal_list_sum, List.map_map]
  congr 1
  apply List.map_congr_left
  intro s _
  simp only [Function.comp, sq]
  rw [← hm, Complex.ofReal_mul, ← Complex.mul_conj]
  ring

/-- Non-vacuity of `c04_global_variance_partial`: two ranks, one device each. -/
example : ∀ r ∈ [[[((1 / 2 : ℝ), fun _ : Fin 1 => (3 : ℂ))]], [[((1 / 2 : ℝ), fun _ => (5 : ℂ))]]],
    r.length = 1 := by simp

/-- **C04 is violated**: on one rank with two devices holding the values 0 (weight ½) and
2 (weight ½), variance 1, the code returns ½: only device 0 is counted. -/
theorem c04_violated :
    let world : List (List (List (ℝ × (Fin 1 → ℂ)))) :=
      [[[((1 / 2 : ℝ), fun _ => 0)], [((1 / 2 : ℝ), fun _ => 2)]]]
    globalVariance world = .ok [fun _ => 1 / 2] ∧ Spec.wVar (Spec.allSamples world) 0 = 1 := by
  intro world
  have hmean : globalMean world = .ok [fun _ => 1] := by
    rw [globalMean_eq world (by simp [world])]
    simp only [world, List.map_cons, List.map_nil, Except.ok.injEq, List.cons.injEq, and_true]
    funext k
    simp [Spec.wMean, Spec.allSamples]
  constructor
  · unfold globalVariance
    rw [hmean]
    simp only [world]
    show Except.ok (allreduceSum [_]) = Except.ok _
    simp only [Except.ok.injEq, allreduceSum, List.map_cons, List.map_nil, List.cons.injEq, and_true]
    funext k
    simp
  · simp only [Spec.wVar, Spec.wMean, Spec.allSamples, world]
    norm_num [Complex.normSq]

/-! ## C05 -/

/-- **C05**, what the code computes: the second-moment matrix `∑ p conj(X_i) X_k` (complex
conjugate of the documented `∑ p X X^†`, without subtraction of the means). -/
theorem c05_second_moment {ι : Type*} (world : List (List (List (ℝ × (ι → ℂ)))))
    (h : ∀ r ∈ world, r ≠ []) :
    globalCovariance world = .ok (world.map fun _ => fun i k =>
      ((Spec.allSamples world).map fun s => (starRingEnd ℂ) (s.2 i) * ((s.1 : ℂ) * s.2 k)).sum) := by
  unfold globalCovariance
  rw [globalSum_eq _ (by
    intro r hr
    obtain ⟨d, hd, rfl⟩ := List.mem_map.mp hr
    have := h d hd
    simpa [covHelper] using this)]
  rw [List.map_map]
  congr 1
  apply List.map_congr_left
  intro _ _
  funext i k
  simp only [Function.comp]
  let f : ℝ × (ι → ℂ) → ι → ι → ℂ := fun s i k => (starRingEnd ℂ) (s.2 i) * ((s.1 : ℂ) * s.2 k)
  have : (Spec.allSamples (world.map covHelper)).sum = ((Spec.allSamples world).map f).sum := by
    unfold Spec.allSamples covHelper
    rw [List.flatten_flatten, List.flatten_flatten, List.map_map, List.sum_flatten, List.map_map,
      List.map_flatten, List.sum_flatten, List.map_map, List.map_map]
    congr 1
    apply List.map_congr_left
    intro dev _
    simp only [Function.comp]
    rw [List.sum_flatten, List.map_map, List.map_flatten, List.sum_flatten, List.map_map]
    congr 1
    apply List.map_congr_left
    intro b _
    simp [f]
  rw [this, list_sum_apply₂, List.map_map]
  rfl

example := c05_second_moment [[[((1 / 2 : ℝ), ![(1 : ℂ), Complex.I])]], [[(1 / 4, ![5, 2])], [(1 / 4, ![6, 0])]]] (by simp)

/-- **C05**, the part that holds: for data with vanishing mean `global_covariance` returns the
transpose of the documented covariance matrix. -/
theorem c05_global_covariance_partial {ι : Type*} (world : List (List (List (ℝ × (ι → ℂ)))))
    (h : ∀ r ∈ world, r ≠ []) (h0 : Spec.wMean (Spec.allSamples world) = 0) :
    globalCovariance world = .ok (world.map fun _ => fun i k =>
      Spec.wCov (Spec.allSamples world) k i) := by
  rw [c05_second_moment world h]
  congr 1
  apply List.map_congr_left
  intro _ _
  funext i k
  unfold Spec.wCov
  rw [h0]
  simp only [Pi.zero_apply, zero_mul, sub_zero]
  congr 1
  apply List.map_congr_left
  intro s _
  ring

/-- Non-vacuity: the samples ±1 with weights ½ have vanishing mean and unit covariance. -/
example :
    let world : List (List (List (ℝ × (Fin 1 → ℂ)))) :=
      [[[((1 / 2 : ℝ), fun _ => 1)], [((1 / 2 : ℝ), fun _ => -1)]]]
    Spec.wMean (Spec.allSamples world) = 0 ∧ Spec.wCov (Spec.allSamples world) 0 0 = 1 := by
  constructor
  · funext k
    simp [Spec.wMean, Spec.allSamples]
  · simp [Spec.wCov, Spec.wMean, Spec.allSamples]
    norm_num

/-- **C05 is violated**: for a single sample with value 1 and weight 1 the covariance is 0 but
the code returns 1. -/
theorem c05_violated :
    let world : List (List (List (ℝ × (Fin 1 → ℂ)))) := [[[((1 : ℝ), fun _ => 1)]]]
    globalCovariance world = .ok [fun _ _ => 1] ∧ Spec.wCov (Spec.allSamples world) 0 0 = 0 := by
  intro world
  constructor
  · rw [c05_second_moment world (by simp [world])]
    simp [world, Spec.allSamples]
  · simp [Spec.wCov, Spec.wMean, Spec.allSamples, world]

/-! ## C06 -/

/-- Total duration of the reductions in a history. -/
def CommOp.total (ops : List CommOp) : ℝ :=
  (ops.map fun | .reduce dt => dt | .query => 0).sum

/-- **C06**: reported values plus the unreported rest are all the time spent in reductions. -/
theorem c06_communication_time (ops : List CommOp) :
    ((commRun 0 ops).2).sum + (commRun 0 ops).1 = CommOp.total ops := by
  have key : ∀ (t : ℝ), ((commRun t ops).2).sum + (commRun t ops).1 = t + CommOp.total ops := by
    induction ops with
    | nil => intro t; simp [commRun, CommOp.total]
    | cons op ops ih =>
      intro t
      cases op with
      | reduce dt =>
        have := ih (t + dt)
        simp only [commRun, commStep, Option.toList_none, List.nil_append, CommOp.total,
          List.map_cons, List.sum_cons] at this ⊢
        rw [this]; ring
      | query =>
        have := ih 0
        simp only [commRun, commStep, Option.toList_some, List.singleton_append, CommOp.total,
          List.map_cons, List.sum_cons] at this ⊢
        rw [add_assoc, this]
  simpa using key 0

/-- **C06**, reset: a query right after a query reports zero. -/
theorem c06_query_resets (ops : List CommOp) :
    (commRun 0 (ops ++ [.query])).1 = 0 := by
  have key : ∀ t, (commRun t (ops ++ [.query])).1 = 0 := by
    induction ops with
    | nil => intro t; rfl
    | cons op ops ih => intro t; exact ih _
  exact key 0

/-- Non-vacuity: reductions of 1s and 2s, a query, 4s, a query. -/
example : (commRun 0 [.reduce 1, .reduce 2, .query, .reduce 4, .query]).2 = [3, 4] := by
  simp [commRun, commStep]; norm_num

/-! ## C07 -/

/-- **C07**, the part that holds (float64 root array): under every schedule of the ranks
(i) no rank returns anything but the root's array and none raises;
(ii) as long as a rank has not returned, some rank can move (no deadlock). -/
theorem c07_bcast_unknown_size_partial (commSize root : ℕ) (h : root < commSize) (d : RootData)
    (hf : d.isFloat64 = true) (sched : List ℕ) :
    let s := bcastRun root d (bcastInit commSize) sched
    (∀ (r : ℕ) (pc : BcastPc), s.pcs[r]? = some pc → pc ≠ .failed ∧ ∀ buf, pc = .done buf → buf = d.data) ∧
    ((∃ (r : ℕ) (pc : BcastPc), s.pcs[r]? = some pc ∧ ∀ buf, pc ≠ .done buf) →
      ∃ r, (bcastStep root d r s).isSome) := by
  intro s
  have inv : BcastInv commSize root d s :=
    bcastInv_run commSize root d hf sched _ (bcastInv_init commSize root d h)
  constructor
  · intro r pc hpc
    by_cases hr : r = root
    · subst hr
      rcases inv.rootPc with ⟨h', _⟩ | ⟨h', _⟩ | ⟨h', _⟩ | ⟨h', _⟩ <;> rw [h'] at hpc <;>
        obtain rfl := Option.some.inj hpc <;> simp
    · rcases inv.others r hr pc hpc with rfl | rfl | rfl | rfl <;> simp
  · rintro ⟨r, pc, hpc, hnd⟩
    rcases inv.rootPc with ⟨h', hd, hb⟩ | ⟨h', hd, hb⟩ | ⟨h', hd, hb⟩ | ⟨h', hd, hb⟩
    · exact ⟨root, by simp [bcastStep, h', hf]⟩
    · exact ⟨root, by simp [bcastStep, h']⟩
    · exact ⟨root, by simp [bcastStep, h']⟩
    · refine ⟨r, ?_⟩
      have hr : r ≠ root := by
        rintro rfl
        rw [h'] at hpc
        exact hnd _ (Option.some.inj hpc).symm
      rcases inv.others r hr pc hpc with rfl | rfl | rfl | rfl
      · simp [bcastStep, hpc, hr]
      · simp [bcastStep, hpc, hr, hd]
      · simp [bcastStep, hpc, hr, hb]
      · exact absurd rfl (hnd d.data)

example := c07_bcast_unknown_size_partial 3 1 (by norm_num) ⟨true, [5, 7]⟩ rfl [0, 1, 0, 2, 1]

/-- **C07**, termination: every effective step strictly decreases the number of remaining steps,
which is `3 * commSize` at the start. -/
theorem c07_bcast_terminates (commSize root : ℕ) (d : RootData) :
    ((bcastInit commSize).pcs.map BcastPc.rem).sum = 3 * commSize ∧
    ∀ r s s', bcastStep root d r s = some s' →
      (s'.pcs.map BcastPc.rem).sum < (s.pcs.map BcastPc.rem).sum := by
  constructor
  · simp [bcastInit, BcastPc.rem, Nat.mul_comm]
  · exact fun r s s' hs => bcastStep_rem root d r s s' hs

/-- Non-vacuity: three ranks, root 1, one particular schedule ends with all ranks holding the data. -/
example : (bcastRun 1 ⟨true, [5, 7]⟩ (bcastInit 3) [0, 1, 0, 2, 1, 0, 2, 1, 2, 0, 2]).pcs
    = [.done [5, 7], .done [5, 7], .done [5, 7]] := by
  simp [bcastRun, bcastInit, bcastStep, List.replicate]

/-- **C07 is violated** for arrays of another dtype: the root raises `TypeError` before taking part
in the broadcast, and under no schedule does any other rank ever return. -/
theorem c07_violated_deadlock (commSize root : ℕ) (d : RootData) (hf : d.isFloat64 = false)
    (sched : List ℕ) :
    ∀ r, r ≠ root → ∀ buf,
      (bcastRun root d (bcastInit commSize) sched).pcs[r]? ≠ some (.done buf) := by
  intro r hr buf hcon
  have inv : BcastBad root (bcastRun root d (bcastInit commSize) sched) := by
    apply bcastBad_run root d hf
    refine ⟨rfl, ?_, ?_⟩ <;>
    · intros
      rename_i pc hpc
      simp only [bcastInit, List.getElem?_replicate] at hpc
      split_ifs at hpc
      left; exact (Option.some.inj hpc).symm
  rcases inv.others r hr _ hcon with h | h <;> cases h

/-- The deadlocked state exists: with two ranks, both blocked or dead, rank 1 waiting. -/
example :
    let s := bcastRun 0 ⟨false, []⟩ (bcastInit 2) [0, 1, 1, 0]
    s.pcs = [.failed, .atDim] ∧ ∀ r, bcastStep 0 ⟨false, []⟩ r s = none := by
  intro s
  have hs : s = { wire := {}, pcs := [.failed, .atDim] } := by
    simp [s, bcastRun, bcastInit, bcastStep, List.replicate]
  refine ⟨by rw [hs], ?_⟩
  intro r
  rw [hs]
  match r with
  | 0 => rfl
  | 1 => rfl
  | (n + 2) => simp [bcastStep]

/-! ## C08 -/

/-- **C08**, the part that holds: after any history of `set_pmap_devices` and reductions, every
reduction runs on kernels compiled for the current devices *up to their order*. -/
theorem c08_kernels_follow_devices_partial (all : List ℕ) (mine : ℕ) (ops : List DevOp) :
    ∀ o ∈ (devRun (devInit all mine) ops).2, o.current ≠ [] →
      ∃ k, o.kernel = some k ∧ k.Perm o.current :=
  devRun_obs _ ops rfl

/-- Non-vacuity: switch from devices 0,1 to 2 in between two reductions. -/
example : ((devRun (devInit [0, 1] 0) [.reduction, .setDevices [2], .reduction]).2.map
    fun o => (o.kernel, o.current)) = [(some [0, 1], [0, 1]), (some [2], [2])] := by decide

/-- **C08 is violated** (order): reordering the devices is not noticed. -/
theorem c08_violated_reorder :
    ∃ (ops : List DevOp), ∃ o ∈ (devRun (devInit [0, 1] 0) ops).2, o.kernel ≠ some o.current := by
  refine ⟨[.reduction, .setDevices [1, 0], .reduction],
    { kernel := some [0, 1], placedOn := 0, current := [1, 0] }, ?_, by decide⟩
  have h : pmapDevicesUpdated ⟨[1, 0], 0, some [0, 1], some [0, 1]⟩ (some [0, 1]) = false := by decide
  have h2 : pmapDevicesUpdated ⟨[0, 1], 0, none, none⟩ none = true := by decide
  simp [devRun, devStep, devInit, setPmapDevices, jitMyStuff, h, h2]

/-- **C08 is violated** (placement): after `set_pmap_devices([1])` results are still put on
device 0, which is not among the selected devices. -/
theorem c08_violated_placement :
    ∃ (ops : List DevOp), ∃ o ∈ (devRun (devInit [0, 1] 0) ops).2, o.placedOn ∉ o.current := by
  refine ⟨[.setDevices [1], .reduction],
    { kernel := some [1], placedOn := 0, current := [1] }, ?_, by decide⟩
  have h2 : pmapDevicesUpdated ⟨[1], 0, none, none⟩ none = true := by decide
  simp [devRun, devStep, devInit, setPmapDevices, jitMyStuff, h2]

end JVMC
