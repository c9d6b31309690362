import Mathlib.Data.Fintype.Card
import Mathlib.Data.Fintype.Vector
import Mathlib.Data.List.Perm.Subperm
import Mathlib.Data.Finset.Dedup
import Mathlib.Tactic.NormNum
import Verif.Model.ExactSampler
import Verif.Spec.Samples
import Verif.Spec.Basis
import Verif.Lemmas.ExactSampler

/-! # Properties C09, C10: `ExactSampler` -/

namespace JVMC

/-! ## C09 -/

/-- **C09**, coverage: whatever the numbers of ranks and devices, every basis configuration gets
non-zero weight somewhere, and nothing but basis configurations does. -/
theorem c09_every_config_covered (lDim N D s : ℕ) (hl : 2 ≤ lDim) (hD : 0 < D) (hs : 0 < s) :
    ∃ basis, exactBasis lDim N D s = .ok basis ∧
      ∀ c, c ∈ basis ↔ Spec.IsConfig lDim N c := by
  refine ⟨_, exactBasis_eq lDim N D s hD hs, fun c => ⟨fun h => ?_, fun h => ?_⟩⟩
  · obtain ⟨r, _, h⟩ := List.mem_flatMap.mp h
    obtain ⟨x, _, rfl⟩ := List.mem_map.mp h
    exact ⟨makeState_length _ _ _, makeState_lt _ _ _ (by omega)⟩
  · obtain ⟨x, hx, rfl⟩ := makeState_surj lDim N (by omega) c h.1 h.2
    have hmem : x ∈ List.range (lDim ^ N) := List.mem_range.mpr hx
    rw [← range_flatMap_tiles s (lDim ^ N) hs] at hmem
    obtain ⟨r, hr, hx'⟩ := List.mem_flatMap.mp hmem
    refine List.mem_flatMap.mpr ⟨r, hr, List.mem_map.mpr ⟨x, ?_, rfl⟩⟩
    rw [List.mem_range'_1] at hx' ⊢
    have : samplesPerProcess s r (lDim ^ N) ≤ keptCount (samplesPerProcess s r (lDim ^ N)) D :=
      le_max_left _ _
    omega

example := c09_every_config_covered 3 5 2 4 (by norm_num) (by norm_num) (by norm_num)

private theorem nodup_of_fits (lDim N D s : ℕ) (hl : 2 ≤ lDim) (hs : 0 < s)
    (hfit : ∀ r < s, SplitFits (samplesPerProcess s r (lDim ^ N)) D) :
    ((List.range s).flatMap fun r => (List.range' (firstSampleId s r (lDim ^ N))
      (keptCount (samplesPerProcess s r (lDim ^ N)) D)).map (makeState lDim N)).Nodup := by
  have h1 : ((List.range s).flatMap fun r => (List.range' (firstSampleId s r (lDim ^ N))
      (keptCount (samplesPerProcess s r (lDim ^ N)) D)).map (makeState lDim N))
      = (List.range (lDim ^ N)).map (makeState lDim N) := by
    rw [← range_flatMap_tiles s (lDim ^ N) hs, List.map_flatMap]
    apply List.flatMap_congr
    intro r hr
    rw [keptCount_fits (hfit r (List.mem_range.mp hr))]
  rw [h1]
  apply List.Nodup.map_on _ List.nodup_range
  intro x hx y hy hxy
  have := makeState_inj lDim N x y (by omega) hxy
  rwa [Nat.mod_eq_of_lt (List.mem_range.mp hx), Nat.mod_eq_of_lt (List.mem_range.mp hy)] at this

private theorem not_nodup_of_not_fits (lDim N D s : ℕ) (hl : 2 ≤ lDim) (hs : 0 < s)
    (r₀ : ℕ) (hr₀ : r₀ < s) (hfit : ¬ SplitFits (samplesPerProcess s r₀ (lDim ^ N)) D) :
    ¬ ((List.range s).flatMap fun r => (List.range' (firstSampleId s r (lDim ^ N))
      (keptCount (samplesPerProcess s r (lDim ^ N)) D)).map (makeState lDim N)).Nodup := by
  intro hnd
  have hsub : ∀ c ∈ ((List.range s).flatMap fun r => (List.range' (firstSampleId s r (lDim ^ N))
      (keptCount (samplesPerProcess s r (lDim ^ N)) D)).map (makeState lDim N)),
      c ∈ (List.range (lDim ^ N)).map (makeState lDim N) := by
    intro c hc
    obtain ⟨r, _, h⟩ := List.mem_flatMap.mp hc
    obtain ⟨x, _, rfl⟩ := List.mem_map.mp h
    obtain ⟨y, hy, hxy⟩ := makeState_surj lDim N (by omega) (makeState lDim N x)
      (makeState_length _ _ _) (makeState_lt _ _ _ (by omega))
    exact List.mem_map.mpr ⟨y, List.mem_range.mpr hy, hxy⟩
  have hle := (List.subperm_of_subset hnd hsub).length_le
  rw [List.length_map, List.length_range, List.length_flatMap] at hle
  simp only [List.length_map, List.length_range'] at hle
  have hsum : ((List.range s).map fun r => samplesPerProcess s r (lDim ^ N)).sum = lDim ^ N := by
    have := congrArg List.length (range_flatMap_tiles s (lDim ^ N) hs)
    rw [List.length_flatMap, List.length_range] at this
    simpa using this
  have hlt : ((List.range s).map fun r => samplesPerProcess s r (lDim ^ N)).sum
      < ((List.range s).map fun r => keptCount (samplesPerProcess s r (lDim ^ N)) D).sum := by
    apply List.sum_lt_sum
    · intro r _; exact le_max_left _ _
    · refine ⟨r₀, List.mem_range.mpr hr₀, ?_⟩
      unfold SplitFits at hfit
      unfold keptCount
      omega
  omega

/-- **C09**, uniqueness, exact criterion: no configuration is counted twice if and only if on every
rank all devices but the last can be filled, i.e. `(D-1) * ceil(n_r / D) ≤ n_r` where `n_r` is the
number of states `distribute_sampling` gives to rank `r`. (The claim asks for uniqueness for all
`D` and `s`; see `c09_violated`.) -/
theorem c09_exactly_once_partial (lDim N D s : ℕ) (hl : 2 ≤ lDim) (hD : 0 < D) (hs : 0 < s)
    (n : ℕ → ℕ) (hn : ∀ r < s, distributeSampling s r (lDim ^ N) none 1 = .ok (n r, lDim ^ N)) :
    ∃ basis, exactBasis lDim N D s = .ok basis ∧
      ((∀ r < s, (D - 1) * ((n r + D - 1) / D) ≤ n r) ↔ basis.Nodup) := by
  have hnr : ∀ r < s, n r = samplesPerProcess s r (lDim ^ N) := by
    intro r hr
    have := hn r hr
    simp only [distributeSampling, hs.ne', if_false] at this
    simpa using this.symm
  refine ⟨_, exactBasis_eq lDim N D s hD hs, fun h => ?_, fun h r hr => ?_⟩
  · exact nodup_of_fits lDim N D s hl hs fun r hr => by rw [← hnr r hr]; exact h r hr
  · by_contra hc
    rw [hnr r hr] at hc
    exact not_nodup_of_not_fits lDim N D s hl hs r hr hc h

/-- 16 configurations on two ranks with three devices each: two of them are generated twice. -/
example := c09_exactly_once_partial 2 4 3 2 (by norm_num) (by norm_num) (by norm_num) (fun _ => 8) (by decide)

/-- **C09** in the usual situations: if the number of devices divides the number of states of every
rank (for instance one device per rank), the enumeration is a permutation of the basis: every
configuration exactly once and nothing else. -/
theorem c09_exactly_once_divisible (lDim N D s : ℕ) (hl : 2 ≤ lDim) (hD : 0 < D) (hs : 0 < s)
    (hdiv : ∀ r < s, ∀ n g, distributeSampling s r (lDim ^ N) none 1 = .ok (n, g) → D ∣ n) :
    ∃ basis, exactBasis lDim N D s = .ok basis ∧ basis.Nodup ∧
      basis.length = lDim ^ N ∧ ∀ c, c ∈ basis ↔ Spec.IsConfig lDim N c := by
  obtain ⟨b, hb, hcov⟩ := c09_every_config_covered lDim N D s hl hD hs
  have hfit : ∀ r < s, SplitFits (samplesPerProcess s r (lDim ^ N)) D := by
    intro r hr
    obtain ⟨k, hk⟩ := hdiv r hr (samplesPerProcess s r (lDim ^ N)) (lDim ^ N)
      (by simp [distributeSampling, hs.ne'])
    unfold SplitFits
    rw [hk, Nat.add_sub_assoc hD, Nat.mul_add_div hD, Nat.div_eq_of_lt (by omega), Nat.add_zero]
    exact Nat.mul_le_mul_right k (Nat.sub_le D 1)
  have hbeq := exactBasis_eq lDim N D s hD hs
  have hnd := nodup_of_fits lDim N D s hl hs hfit
  rw [hb] at hbeq
  injection hbeq with hbeq
  refine ⟨b, hb, hbeq ▸ hnd, ?_, hcov⟩
  rw [hbeq, List.length_flatMap]
  simp only [List.length_map, List.length_range']
  have : ∀ r ∈ List.range s, keptCount (samplesPerProcess s r (lDim ^ N)) D
      = samplesPerProcess s r (lDim ^ N) :=
    fun r hr => keptCount_fits (hfit r (List.mem_range.mp hr))
  rw [List.map_congr_left this]
  have := congrArg List.length (range_flatMap_tiles s (lDim ^ N) hs)
  rw [List.length_flatMap, List.length_range] at this
  simpa using this

/-- **C09 is violated**: three spins on one process with seven devices. The padding configurations
of the sixth device are not masked and get counted a second time. -/
theorem c09_violated :
    ∃ basis, exactBasis 2 3 7 1 = .ok basis ∧ basis.count [0, 0, 0] = 2 ∧
      basis.length = 12 := by
  refine ⟨_, exactBasis_eq 2 3 7 1 (by omega) (by omega), ?_, ?_⟩ <;> decide

/-- Non-vacuity: nine three-level configurations on 2 ranks with 2 devices each. -/
example : exactBasis 3 2 2 2 = .ok [[0, 0], [0, 1], [0, 2], [1, 0], [1, 1], [1, 2], [2, 0],
    [2, 1], [2, 2]] := by decide

/-- Non-vacuity of the divisibility hypothesis: 4 spins, 2 ranks, 4 devices. -/
example : ∀ r < 2, ∀ n g, distributeSampling 2 r (2 ^ 4) none 1 = .ok (n, g) → 4 ∣ n := by
  intro r hr n g h
  rcases (by omega : r = 0 ∨ r = 1) with rfl | rfl <;>
  · simp [distributeSampling, samplesPerProcess] at h
    omega

/-! ## C10 -/

/-- The wave-function values on the entries that are kept, over all ranks and devices. -/
def keptLogPsi (world : List (List (List ExactEntry))) : List ℂ :=
  ((Spec.allSamples world).filter (·.1)).map (·.2)

/-- What the probabilities should be. -/
noncomputable def bornWorld (f : ℝ) (world : List (List (List ExactEntry))) :
    List (List (List ℝ)) :=
  world.map fun rk => rk.map fun dev => dev.map fun e =>
    if e.1 then Spec.bornProb f (keptLogPsi world) e.2 else 0

private theorem unnormalised_eq (f ln : ℝ) (e : ExactEntry) :
    exactUnnormalised f ln e = Real.exp (-ln / f) * (if e.1 then Real.exp (e.2.re / f) else 0) := by
  unfold exactUnnormalised
  split_ifs
  · rw [← Real.exp_add]
    congr 1
    simp only [Complex.sub_re, Complex.ofReal_re]
    ring
  · simp

private theorem sum_unnormalised (f ln : ℝ) (l : List ExactEntry) :
    (l.map (exactUnnormalised f ln)).sum
      = Real.exp (-ln / f) * Spec.partitionSum f ((l.filter (·.1)).map (·.2)) := by
  induction l with
  | nil => simp [Spec.partitionSum]
  | cons e l ih =>
    rw [List.map_cons, List.sum_cons, ih, unnormalised_eq]
    rcases e with ⟨b, z⟩
    cases b
    · simp
    · simp [Spec.partitionSum, mul_add]

theorem partitionSum_pos (f : ℝ) (l : List ℂ) (h : l ≠ []) : 0 < Spec.partitionSum f l := by
  unfold Spec.partitionSum
  apply List.sum_pos
  · intro x hx
    obtain ⟨z, _, rfl⟩ := List.mem_map.mp hx
    exact Real.exp_pos _
  · simpa using h

theorem exactSample_eq (f ln : ℝ) (hf : f ≠ 0) (world : List (List (List ExactEntry)))
    (hw : ∀ r ∈ world, r ≠ []) (hk : keptLogPsi world ≠ []) :
    exactSample f ln world
      = .ok (f * Real.log (Spec.partitionSum f (keptLogPsi world)), bornWorld f world) := by
  have hZ := partitionSum_pos f _ hk
  have hne : world ≠ [] := by
    rintro rfl
    simp [keptLogPsi, Spec.allSamples] at hk
  unfold exactSample
  dsimp only
  rw [globalSum_eq]
  swap
  · intro r hr
    obtain ⟨rk, hrk, rfl⟩ := List.mem_map.mp hr
    simpa using hw rk hrk
  have hall : Spec.allSamples (world.map fun rk => rk.map fun dev =>
      dev.map (exactUnnormalised f ln)) = (Spec.allSamples world).map (exactUnnormalised f ln) := allSamples_map _ world
  rw [hall, sum_unnormalised]
  obtain ⟨rk, rks, rfl⟩ := List.exists_cons_of_ne_nil hne
  set w := rk :: rks with hwdef
  change Except.ok (ln + f * Real.log (Real.exp (-ln / f) * Spec.partitionSum f (keptLogPsi w)),
    (w.map fun rk => rk.map fun dev => dev.map (exactUnnormalised f ln)).map fun rk => rk.map
      fun dev => dev.map fun x => x / (Real.exp (-ln / f) * Spec.partitionSum f (keptLogPsi w)))
    = _
  congr 2
  · rw [Real.log_mul (Real.exp_pos _).ne' hZ.ne', Real.log_exp]
    field_simp
    ring
  · unfold bornWorld
    simp only [List.map_map]
    apply List.map_congr_left; intro rk _
    simp only [Function.comp, List.map_map]
    apply List.map_congr_left; intro dev _
    simp only [Function.comp, List.map_map]
    apply List.map_congr_left; intro e _
    simp only [Function.comp]
    rw [unnormalised_eq]
    unfold Spec.bornProb
    split_ifs
    · rw [mul_div_mul_left _ _ (Real.exp_pos _).ne']
    · simp

/-- **C10**: in every history of `sample` calls (each with its own wave function, starting from
any stored normalisation) every call returns, for every entry of the basis that is not padding,
`exp(Re log ψ / f)` divided by the sum over the basis at *that* call's wave function, and zero for
padding. -/
theorem c10_probabilities (f : ℝ) (hf : f ≠ 0) (ln : ℝ)
    (history : List (List (List (List ExactEntry))))
    (hdev : ∀ w ∈ history, ∀ r ∈ w, r ≠ []) (hne : ∀ w ∈ history, keptLogPsi w ≠ []) :
    ∃ ln', exactRun f ln history = .ok (ln', history.map (bornWorld f)) := by
  induction history generalizing ln with
  | nil => exact ⟨ln, rfl⟩
  | cons w ws ih =>
    obtain ⟨ln', h⟩ := ih (f * Real.log (Spec.partitionSum f (keptLogPsi w)))
      (fun w' hw' => hdev w' (by simp [hw'])) (fun w' hw' => hne w' (by simp [hw']))
    refine ⟨ln', ?_⟩
    unfold exactRun
    rw [exactSample_eq f ln hf w (hdev w (by simp)) (hne w (by simp))]
    show (exactRun f _ ws >>= _) = _
    rw [h]
    rfl

example := c10_probabilities 2 (by norm_num) 0
  [[[[(true, (1 : ℂ)), (true, Complex.I)]], [[(true, 0)], [(false, 0)]]], [[[(true, 5)]], [[(false, 3)]]]]
  (by simp) (by simp [keptLogPsi, Spec.allSamples])

/-- **C10**: the probabilities returned by a call are non-negative and sum to one over all ranks
and devices. -/
theorem c10_normalised (f : ℝ) (hf : f ≠ 0) (ln : ℝ) (world : List (List (List ExactEntry)))
    (hdev : ∀ r ∈ world, r ≠ []) (hne : keptLogPsi world ≠ []) :
    ∃ ln' p, exactSample f ln world = .ok (ln', p) ∧ (Spec.allSamples p).sum = 1 ∧
      ∀ x ∈ Spec.allSamples p, 0 ≤ x := by
  refine ⟨_, _, exactSample_eq f ln hf world hdev hne, ?_, ?_⟩
  all_goals
    have hZ := partitionSum_pos f _ hne
    have hall : Spec.allSamples (bornWorld f world) = (Spec.allSamples world).map fun e =>
        if e.1 then Spec.bornProb f (keptLogPsi world) e.2 else 0 := by
      unfold bornWorld
      exact allSamples_map _ world
    rw [hall]
  · have : ∀ l : List ExactEntry, (l.map fun e : ExactEntry =>
        if e.1 then Spec.bornProb f (keptLogPsi world) e.2 else 0).sum
        = Spec.partitionSum f ((l.filter (·.1)).map (·.2))
          / Spec.partitionSum f (keptLogPsi world) := by
      intro l
      induction l with
      | nil => simp [Spec.partitionSum]
      | cons e l ih =>
        rw [List.map_cons, List.sum_cons, ih]
        rcases e with ⟨b, z⟩
        cases b
        · simp
        · simp [Spec.partitionSum, Spec.bornProb, add_div]
    rw [this]
    exact div_self hZ.ne'
  · intro x hx
    obtain ⟨e, _, rfl⟩ := List.mem_map.mp hx
    split_ifs
    · exact div_nonneg (Real.exp_pos _).le hZ.le
    · exact le_rfl

/-- Non-vacuity: two ranks, the second with two devices and one padding entry. -/
example : (∀ r ∈ [[[(true, (1 : ℂ)), (true, Complex.I)]], [[(true, 0)], [(false, 0)]]], r ≠ []) ∧
    keptLogPsi [[[(true, (1 : ℂ)), (true, Complex.I)]], [[(true, 0)], [(false, 0)]]]
      = [1, Complex.I, 0] := by
  refine ⟨by simp, by simp [keptLogPsi, Spec.allSamples]⟩

end JVMC
