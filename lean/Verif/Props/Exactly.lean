import Verif.Props.Measure
import Verif.Props.Operator

/-!
# What the code returns outside the guards

C04, C05, C28, C32 and C62 hold only under guards. Here: what is returned in general, exactly when it is what it should be,
and how far it is off.
-/

namespace JVMC

open Spec

/-- The samples on the first device of every rank. -/
def firstDevices {A : Type*} (world : List (List (List A))) : List A := (world.map fun r => r.headD []).flatten

/-- The samples on the other devices. -/
def otherDevices {A : Type*} (world : List (List (List A))) : List A := (world.map fun r => r.tail.flatten).flatten

/-- Contribution to the variance of the samples in `l`, for a mean `m`. -/
noncomputable def spread {ι : Type*} (m : ι → ℂ) (l : List (ℝ × (ι → ℂ))) (k : ι) : ℝ :=
  (l.map fun s => s.1 * Complex.normSq (s.2 k - m k)).sum

theorem sum_devices {A : Type*} (world : List (List (List A))) (f : A → ℝ) :
    ((allSamples world).map f).sum = ((firstDevices world).map f).sum + ((otherDevices world).map f).sum := by
  unfold allSamples firstDevices otherDevices
  induction world with
  | nil => simp
  | cons r rs ih =>
    cases r with
    | nil => simpa using ih
    | cons d ds =>
      simp only [List.flatten_cons, List.flatten_append, List.cons_append, List.map_cons, List.map_append, List.sum_append,
        List.headD_cons, List.tail_cons] at ih ⊢
      rw [ih]
      ring

/-- **C04** in general: for every layout, `global_variance` returns the contribution of the samples on the first device
of every rank. -/
theorem c04_general {ι : Type*} (world : List (List (List (ℝ × (ι → ℂ))))) (h : ∀ r ∈ world, r ≠ []) :
    globalVariance world = .ok (world.map fun _ => fun k =>
      ((spread (wMean (allSamples world)) (firstDevices world) k : ℝ) : ℂ)) := by
  set m := wMean (allSamples world) with hm
  let sq : ℝ × (ι → ℂ) → ι → ℂ := fun s j =>
    (starRingEnd ℂ) (s.2 j - m j) * (s.2 j - m j) * (s.1 : ℂ)
  unfold globalVariance
  rw [globalMean_eq world h]
  have hz : world.zip (world.map fun _ => m) = world.map fun w => (w, m) := by
    clear hm h
    clear_value m
    induction world with
    | nil => rfl
    | cons a l ih => rw [List.map_cons, List.zip_cons_cons, ih]; rfl
  have hloc : (world.map fun w => (w, m)).mapM (fun dm => pyHead (sumSqPmapd dm.2 dm.1))
      = .ok ((world.map fun w => (w, m)).map fun dm => ((dm.1.headD []).map sq).sum) := by
    apply mapM_ok
    intro dm hdm
    obtain ⟨w, hw, rfl⟩ := List.mem_map.mp hdm
    obtain ⟨d, ds, rfl⟩ := List.exists_cons_of_ne_nil (h w hw)
    simp [sumSqPmapd, pyHead, sq]
  show (do
    let locals ← (world.zip (world.map fun _ => m)).mapM
      fun (dm : List (List (ℝ × (ι → ℂ))) × (ι → ℂ)) => pyHead (sumSqPmapd dm.2 dm.1)
    return allreduceSum locals) = _
  rw [hz, hloc]
  show Except.ok _ = Except.ok _
  congr 1
  simp only [allreduceSum, List.map_map]
  apply List.map_congr_left
  intro _ _
  funext k
  simp only [Function.comp]
  have : ((world.map fun w => ((w.headD []).map sq).sum)).sum = ((firstDevices world).map sq).sum := by
    unfold firstDevices
    rw [List.map_flatten, List.sum_flatten, List.map_map, List.map_map]
    rfl
  have h2 := congrArg (fun f => f k) this
  rw [show (List.map ((fun dm : List (List (ℝ × (ι → ℂ))) × (ι → ℂ) => ((dm.1.headD []).map sq).sum)
      ∘ fun w => (w, m)) world) = world.map fun w => ((w.headD []).map sq).sum from rfl, h2]
  rw [list_sum_apply, List.map_map]
  unfold spread
  rw [ofReal_list_sum, List.map_map]
  congr 1
  apply List.map_congr_left
  intro s _
  simp only [Function.comp, sq]
  rw [Complex.ofReal_mul, ← Complex.mul_conj]
  ring

/-- What is missing from the variance. -/
theorem wVar_devices {ι : Type*} (world : List (List (List (ℝ × (ι → ℂ))))) (k : ι) :
    wVar (allSamples world) k = spread (wMean (allSamples world)) (firstDevices world) k
      + spread (wMean (allSamples world)) (otherDevices world) k :=
  sum_devices world _

theorem spread_nonneg {ι : Type*} (m : ι → ℂ) (l : List (ℝ × (ι → ℂ))) (hw : ∀ s ∈ l, 0 ≤ s.1) (k : ι) :
    0 ≤ spread m l k := by
  apply List.sum_nonneg
  intro x hx
  obtain ⟨s, hs, rfl⟩ := List.mem_map.mp hx
  exact mul_nonneg (hw s hs) (Complex.normSq_nonneg _)

theorem mem_otherDevices {A : Type*} {world : List (List (List A))} {a : A} (h : a ∈ otherDevices world) :
    a ∈ allSamples world := by
  obtain ⟨l, hl, ha⟩ := List.mem_flatten.mp h
  obtain ⟨r, hr, rfl⟩ := List.mem_map.mp hl
  obtain ⟨d, hd, ha⟩ := List.mem_flatten.mp ha
  exact List.mem_flatten.mpr ⟨d, List.mem_flatten.mpr ⟨r, hr, List.mem_of_mem_tail hd⟩, ha⟩

/-- **C04**, exactly when it holds: the returned value never exceeds the variance, and it is the variance if and only
if all samples of non-zero weight that are not on the first device of their rank have the mean value. -/
theorem c04_iff {ι : Type*} (world : List (List (List (ℝ × (ι → ℂ))))) (h : ∀ r ∈ world, r ≠ [])
    (hw : ∀ s ∈ allSamples world, 0 ≤ s.1) (k : ι) :
    ∃ v : ι → ℝ, globalVariance world = .ok (world.map fun _ => fun k => ((v k : ℝ) : ℂ)) ∧
      v k ≤ wVar (allSamples world) k ∧
      (v k = wVar (allSamples world) k ↔
        ∀ s ∈ otherDevices world, s.1 = 0 ∨ s.2 k = wMean (allSamples world) k) := by
  have hnn := spread_nonneg (wMean (allSamples world)) (otherDevices world)
    (fun s hs => hw s (mem_otherDevices hs)) k
  refine ⟨_, c04_general world h, by rw [wVar_devices]; linarith, ?_⟩
  rw [wVar_devices]
  constructor
  · intro he s hs
    have h0 : spread (wMean (allSamples world)) (otherDevices world) k = 0 := by linarith
    have hle : s.1 * Complex.normSq (s.2 k - wMean (allSamples world) k) ≤ 0 := by
      refine (List.single_le_sum ?_ _ (List.mem_map_of_mem hs)).trans h0.le
      intro x hx
      obtain ⟨s, hs, rfl⟩ := List.mem_map.mp hx
      exact mul_nonneg (hw s (mem_otherDevices hs)) (Complex.normSq_nonneg _)
    have hge := mul_nonneg (hw s (mem_otherDevices hs)) (Complex.normSq_nonneg (s.2 k - wMean (allSamples world) k))
    rcases mul_eq_zero.mp (le_antisymm hle hge) with h1 | h1
    · exact Or.inl h1
    · exact Or.inr (sub_eq_zero.mp (Complex.normSq_eq_zero.mp h1))
  · intro hall
    have h0 : spread (wMean (allSamples world)) (otherDevices world) k = 0 := by
      apply List.sum_eq_zero
      intro x hx
      obtain ⟨s, hs, rfl⟩ := List.mem_map.mp hx
      rcases hall s hs with h1 | h1
      · simp [h1]
      · simp [h1]
    linarith

/-- Case: three devices on one rank, the last two with the mean value 2 only: the right variance 2. -/
example : ∃ v : Fin 1 → ℝ,
    globalVariance [[[((1 / 4 : ℝ), fun _ : Fin 1 => (0 : ℂ)), (1 / 4, fun _ => 4)], [(1 / 4, fun _ => 2)],
      [(1 / 4, fun _ => 2)]]] = .ok [fun k => ((v k : ℝ) : ℂ)] ∧ v 0 = 2 := by
  obtain ⟨v, h1, -, h3⟩ := c04_iff [[[((1 / 4 : ℝ), fun _ : Fin 1 => (0 : ℂ)), (1 / 4, fun _ => 4)],
    [(1 / 4, fun _ => 2)], [(1 / 4, fun _ => 2)]]] (by simp) (by simp [allSamples]) 0
  refine ⟨v, h1, (h3.mpr ?_).trans ?_⟩
  · norm_num [otherDevices, allSamples, wMean]
  · norm_num [allSamples, wMean, wVar, Complex.normSq_apply]

/-- **C62** in general: for every layout, `measure` reports the right mean; the reported variance is the contribution
of the first devices, and the error is the one of this variance. Both are never too large. -/
theorem c62_measure_general (world : World (ℝ × (Fin 1 → ℂ))) (h : ∀ r ∈ world, r ≠ [])
    (hw : ∀ s ∈ allSamples world, 0 ≤ s.1) (n : ℕ) :
    ∃ res, measureOne (some n) world = .ok res ∧ res.length = List.length world ∧
      ∀ r ∈ res, r.mean = (wMean (allSamples world) 0).re ∧
        r.variance = spread (wMean (allSamples world)) (firstDevices world) 0 ∧
        r.mcError = Real.sqrt (r.variance / n) ∧
        r.variance ≤ wVar (allSamples world) 0 ∧
        r.mcError ≤ Real.sqrt (wVar (allSamples world) 0 / n) := by
  refine ⟨List.map (fun _ => ⟨(wMean (allSamples world) 0).re,
    spread (wMean (allSamples world)) (firstDevices world) 0,
    Real.sqrt (spread (wMean (allSamples world)) (firstDevices world) 0) / Real.sqrt n⟩) world, ?_, by simp, ?_⟩
  · unfold measureOne
    rw [globalMean_eq world h, c04_general world h]
    change Except.ok _ = Except.ok _
    rw [List.zipWith_map_left, List.zipWith_map_right, List.zipWith_self]
    rfl
  · intro r hr
    obtain ⟨_, _, rfl⟩ := List.mem_map.mp hr
    have hle : spread (wMean (allSamples world)) (firstDevices world) 0 ≤ wVar (allSamples world) 0 := by
      have := spread_nonneg (wMean (allSamples world)) (otherDevices world)
        (fun s hs => hw s (mem_otherDevices hs)) 0
      rw [wVar_devices]
      linarith
    refine ⟨rfl, rfl, (Real.sqrt_div' _ (Nat.cast_nonneg n)).symm, hle, ?_⟩
    dsimp only
    rw [← Real.sqrt_div' _ (Nat.cast_nonneg n)]
    exact Real.sqrt_le_sqrt (div_le_div_of_nonneg_right hle (Nat.cast_nonneg n))

/-- Case: the two devices of `c62_measure_violated`. -/
example : (∀ r ∈ ([[[((1 / 2 : ℝ), fun _ => 0)], [((1 / 2 : ℝ), fun _ => 2)]]] : World (ℝ × (Fin 1 → ℂ))), r ≠ []) ∧
    ∀ s ∈ allSamples ([[[((1 / 2 : ℝ), fun _ => 0)], [((1 / 2 : ℝ), fun _ => 2)]]] : World (ℝ × (Fin 1 → ℂ))), 0 ≤ s.1 := by
  constructor <;> simp [allSamples]

/-- **C05** in general: for every layout, entry `(i, k)` is the covariance of components `k` and `i` plus the product of
the means, so it is that covariance if and only if one of the two means vanishes. -/
theorem c05_general {ι : Type*} (world : List (List (List (ℝ × (ι → ℂ))))) (h : ∀ r ∈ world, r ≠ []) :
    ∃ c : ι → ι → ℂ, globalCovariance world = .ok (world.map fun _ => c) ∧
      ∀ i k, c i k = wCov (allSamples world) k i
          + wMean (allSamples world) k * (starRingEnd ℂ) (wMean (allSamples world) i) ∧
        (c i k = wCov (allSamples world) k i ↔ wMean (allSamples world) i = 0 ∨ wMean (allSamples world) k = 0) := by
  refine ⟨_, c05_second_moment world h, fun i k => ?_⟩
  have e : ((allSamples world).map fun s => (starRingEnd ℂ) (s.2 i) * ((s.1 : ℂ) * s.2 k)).sum
      = wCov (allSamples world) k i
          + wMean (allSamples world) k * (starRingEnd ℂ) (wMean (allSamples world) i) := by
    unfold wCov
    rw [sub_add_cancel]
    congr 1
    apply List.map_congr_left
    intro s _
    ring
  refine ⟨e, ?_⟩
  rw [e, add_eq_left, mul_eq_zero, map_eq_zero]
  exact or_comm

/-- Case: two ranks; the one with two devices. -/
example : ∀ r ∈ ([[[((1 / 2 : ℝ), fun _ => 0)], [((1 / 4 : ℝ), fun _ => 2)]], [[(1 / 4, fun _ => Complex.I)]]] :
    World (ℝ × (Fin 1 → ℂ))), r ≠ [] := by simp

/-- **C28** in general: dropping the small elements changes the local estimator of a sample by at most `1e-6` times
the sum of `|ψ(s')/ψ(s)|` over the dropped elements. -/
theorem c28_error_bound {S : Type} (kernel : S → List (S × ℂ)) (samples : List S)
    (logPsiS : List ℂ) (hl : logPsiS.length = samples.length) (f : S → ℂ) (numOps : ℕ)
    (hops : ∀ s ∈ samples, (kernel s).length = numOps) :
    (oLocOn kernel f samples logPsiS).length = samples.length ∧
    ∀ (k : ℕ) (s : S) (l x : ℂ), samples[k]? = some s → logPsiS[k]? = some l →
      (oLocOn kernel f samples logPsiS)[k]? = some x →
      ‖x - ((kernel s).map fun e => e.2 * Complex.exp (f e.1 - l)).sum‖
        ≤ 1e-6 * (((kernel s).filter fun e => decide (‖e.2‖ ≤ 1e-6)).map fun e =>
          ‖Complex.exp (f e.1) / Complex.exp l‖).sum := by
  rw [oLocOn_eq _ _ _ _ numOps hops]
  refine ⟨by simp [hl], fun k s l x hs hl' hx => ?_⟩
  obtain rfl : oLocSample kernel f s l = x := by
    rw [List.getElem?_zipWith, hs, hl'] at hx
    exact Option.some.inj hx
  unfold oLocSample oLocRow
  generalize kernel s = row
  induction row with
  | nil => simp
  | cons e row ih =>
    rw [List.filter_cons, List.filter_cons]
    by_cases he : (1e-6 : ℝ) < ‖e.2‖
    · rw [if_pos ((isNonzero_iff _).2 he), if_neg (by simpa using he)]
      simpa only [List.map_cons, List.sum_cons, add_sub_add_left_eq_sub] using ih
    · rw [if_neg (fun h => he ((isNonzero_iff _).1 h)), if_pos (by simpa using not_lt.mp he)]
      simp only [List.map_cons, List.sum_cons]
      have hb : ‖e.2 * Complex.exp (f e.1 - l)‖ ≤ 1e-6 * ‖Complex.exp (f e.1) / Complex.exp l‖ := by
        rw [norm_mul, Complex.exp_sub]
        exact mul_le_mul_of_nonneg_right (not_lt.mp he) (norm_nonneg _)
      have key : ∀ a b c : ℂ, a - (c + b) = (a - b) - c := fun a b c => by ring
      rw [key, mul_add]
      refine (norm_sub_le _ _).trans ?_
      rw [add_comm]
      exact add_le_add hb ih

/-- Case: the operator of `c28_violated` plus a large element, for two samples. -/
example : ∀ s ∈ [true, false], ((fun s : Bool => [(s, (5e-7 : ℂ)), (!s, 3)]) s).length = 2 := by simp

/-! ## C32 -/

theorem preIdx_cases {A : Type} (prefactor : List (ℕ × A)) (k : ℕ) :
    preIdx prefactor k = .error .indexError ∨ ∃ c, preIdx prefactor k = .ok c := by
  unfold preIdx
  cases prefactor[k]? with
  | none => exact .inl rfl
  | some p => exact .inr ⟨_, rfl⟩

theorem writeAll_cases {A : Type} (off : ℤ) (l : List (ℕ × A)) (res : List A) :
    writeAll off l res = .error .indexError ∨ ∃ c, writeAll off l res = .ok c := by
  induction l generalizing res with
  | nil => exact .inr ⟨res, rfl⟩
  | cons p l ih =>
    obtain ⟨i, v⟩ := p
    unfold writeAll setChecked
    split
    · exact ih _
    · exact .inl rfl

theorem firstIdxs_cases {A : Type} (prefactor : List (ℕ × A)) (commSize nEls : ℕ) :
    firstIdxs prefactor commSize nEls = .error .indexError ∨
      ∃ fl : List ℤ, firstIdxs prefactor commSize nEls = .ok (0 :: fl) ∧
        ∀ q, q + 1 < commSize → nEls * (q + 1) < prefactor.length ∧
          fl[q]? = some ((pidx prefactor (nEls * (q + 1)) : ℤ) - 1) := by
  unfold firstIdxs
  rcases mapM_cases (fun r => preIdx prefactor (nEls * r)) .indexError
    (List.range' 1 (commSize - 1)) (fun b _ => preIdx_cases _ _) with h | ⟨cs, h, hlen, hall⟩
  · left; rw [h]; rfl
  · right
    rw [h]
    refine ⟨cs, rfl, fun q hq => ?_⟩
    have hq1 : q < (List.range' 1 (commSize - 1)).length := by simp; omega
    have h0 := hall q hq1 (by rw [hlen]; exact hq1)
    have hidx : (List.range' 1 (commSize - 1))[q] = q + 1 := by
      rw [List.getElem_range']
      omega
    rw [hidx] at h0
    have hlt : nEls * (q + 1) < prefactor.length := by
      by_contra hge
      unfold preIdx at h0
      rw [List.getElem?_eq_none (by omega)] at h0
      cases h0
    refine ⟨hlt, ?_⟩
    rw [preIdx_ok _ _ hlt] at h0
    rw [List.getElem?_eq_getElem (by rw [hlen]; exact hq1)]
    injection h0 with h0
    rw [h0]

theorem lastIdxs_cases {A : Type} (prefactor : List (ℕ × A)) (commSize nEls lenInit : ℕ) :
    lastIdxs prefactor commSize nEls lenInit = .error .indexError ∨
      ∃ ll : List ℤ, lastIdxs prefactor commSize nEls lenInit = .ok ll ∧
        ∀ q, q + 1 < commSize → nEls * (q + 1) < prefactor.length →
          ll[q]? = some ((pidx prefactor (nEls * (q + 1)) : ℤ) - 1) := by
  unfold lastIdxs
  rcases mapM_cases (fun r => preIdx prefactor (min (nEls * (r + 1)) (prefactor.length - 1))) .indexError
    (List.range (commSize - 1)) (fun b _ => preIdx_cases _ _) with h | ⟨cs, h, hlen, hall⟩
  · left; rw [h]; rfl
  · right
    rw [h]
    refine ⟨_, rfl, fun q hq hlt => ?_⟩
    have hq1 : q < (List.range (commSize - 1)).length := by simp; omega
    have h0 := hall q hq1 (by rw [hlen]; exact hq1)
    rw [List.getElem_range, Nat.min_eq_left (by omega), preIdx_ok _ _ hlt] at h0
    rw [List.getElem?_append_left (by rw [hlen]; exact hq1), List.getElem?_eq_getElem (by rw [hlen]; exact hq1)]
    injection h0 with h0
    rw [h0]

theorem argFunRank_cases {A : Type} (prefactor : List (ℕ × A)) (init : List A) (commSize rank : ℕ) :
    argFunRank prefactor init commSize rank = .error .indexError ∨
      ∃ c, argFunRank prefactor init commSize rank = .ok c := by
  unfold argFunRank
  dsimp only
  rcases firstIdxs_cases prefactor commSize ((prefactor.length + commSize - 1) / commSize) with h | ⟨fl, h, -⟩
  · rw [h]; exact .inl rfl
  rw [h]
  rcases lastIdxs_cases prefactor commSize ((prefactor.length + commSize - 1) / commSize) init.length with h | ⟨ll, h, -⟩
  · rw [h]; exact .inl rfl
  rw [h]
  exact writeAll_cases _ _ _

/-- If the prefactors on both sides of the boundary between the chunks of ranks `q` and `q + 1` belong to adjacent
strings, or if there is no prefactor left for rank `q + 1`, rank `q` raises. -/
theorem argFunRank_error {A : Type} (prefactor : List (ℕ × A)) (init : List A) (commSize q : ℕ)
    (hn : 0 < prefactor.length) (hs : prefactor.Pairwise fun a b => a.1 < b.1) (hq : q + 1 < commSize)
    (h : let k := (prefactor.length + commSize - 1) / commSize * (q + 1)
      ¬ (k < prefactor.length ∧ pidx prefactor (k - 1) + 1 < pidx prefactor k)) :
    argFunRank prefactor init commSize q = .error .indexError := by
  generalize hE : (prefactor.length + commSize - 1) / commSize = nEls at h
  have hEpos : 0 < nEls := by rw [← hE]; exact Nat.div_pos (by omega) (by omega)
  dsimp only at h
  unfold argFunRank
  dsimp only
  rw [hE]
  rcases firstIdxs_cases prefactor commSize nEls with h1 | ⟨fl, h1, hf⟩
  · rw [h1]; rfl
  rw [h1]
  obtain ⟨hk, hfq⟩ := hf q hq
  have hadj : pidx prefactor (nEls * (q + 1)) ≤ pidx prefactor (nEls * (q + 1) - 1) + 1 := by
    by_contra hc
    exact h ⟨hk, by omega⟩
  rcases lastIdxs_cases prefactor commSize nEls init.length with h2 | ⟨ll, h2, hl⟩
  · rw [h2]; rfl
  rw [h2]
  change writeAll _ _ _ = _
  have hmul : nEls * (q + 1) = nEls * q + nEls := by ring
  have hlast : ll.getD q 0 = (pidx prefactor (nEls * (q + 1)) : ℤ) - 1 := by
    rw [List.getD_eq_getElem?_getD, hl q hq hk]
    rfl
  have hfirst : 0 ≤ (0 :: fl).getD q 0 ∧ (0 :: fl).getD q 0 ≤ (pidx prefactor (nEls * (q + 1) - 1) : ℤ) := by
    cases q with
    | zero => simp
    | succ q =>
      have := (hf q (by omega)).2
      rw [List.getD_cons_succ, List.getD_eq_getElem?_getD, this]
      have h3 := pidx_le prefactor hs (nEls * (q + 1)) (nEls * (q + 1 + 1) - 1) (by rw [hmul]; omega) (by omega)
      have h4 := pidx_lt prefactor hs 0 (nEls * (q + 1)) (by positivity) (by rw [hmul] at hk; omega)
      simp only [Option.getD_some]
      omega
  apply writeAll_error
  refine ⟨prefactor[nEls * (q + 1) - 1]'(by omega), ?_, Or.inr ?_⟩
  · rw [List.mem_iff_getElem]
    refine ⟨nEls - 1, ?_, ?_⟩
    · rw [List.length_take, List.length_drop]
      omega
    · rw [List.getElem_take, List.getElem_drop]
      congr 1
      omega
  · rw [List.length_take, List.length_drop, hlast]
    have hp : (prefactor[nEls * (q + 1) - 1]'(by omega)).1 = pidx prefactor (nEls * (q + 1) - 1) :=
      (pidx_eq _ _ _).symm
    rw [hp]
    generalize (0 :: fl).getD q 0 = f at hfirst ⊢
    omega

/-- **C32**, exactly when it holds, for operators with at least 50 prefactors: on `commSize` ranks the prefactors are the
sequential ones if and only if every rank has prefactors and no two prefactors on both sides of a boundary between
chunks belong to adjacent strings. Otherwise an `IndexError` is raised. -/
theorem c32_iff {A : Type} (prefactor : List (ℕ × A)) (init : List A) (commSize : ℕ)
    (hc : 0 < commSize) (hn : 50 ≤ prefactor.length) (hs : prefactor.Pairwise fun a b => a.1 < b.1)
    (hlt : ∀ p ∈ prefactor, p.1 < init.length) :
    ((∀ r, 0 < r → r < commSize →
        let k := (prefactor.length + commSize - 1) / commSize * r
        ∃ p q, prefactor[k - 1]? = some p ∧ prefactor[k]? = some q ∧ p.1 + 1 < q.1) ↔
      argFun prefactor init commSize = argFunSequential prefactor init) ∧
    (argFun prefactor init commSize ≠ argFunSequential prefactor init →
      argFun prefactor init commSize = .error .indexError) := by
  have hbad : ∀ r, 0 < r → r < commSize →
      ¬ (let k := (prefactor.length + commSize - 1) / commSize * r
        ∃ p q, prefactor[k - 1]? = some p ∧ prefactor[k]? = some q ∧ p.1 + 1 < q.1) →
      argFun prefactor init commSize = .error .indexError := by
    intro r h1 h2 h
    obtain ⟨q, rfl⟩ : ∃ q, r = q + 1 := ⟨r - 1, by omega⟩
    have he := argFunRank_error prefactor init commSize q (by omega) hs h2 (by
      intro k hk
      refine h ⟨prefactor[k - 1]'(by omega), prefactor[k]'hk.1, List.getElem?_eq_getElem _,
        List.getElem?_eq_getElem _, ?_⟩
      have := hk.2
      rwa [pidx_eq _ _ (by omega), pidx_eq _ _ hk.1] at this)
    unfold argFun
    rw [if_neg (by omega)]
    rcases mapM_cases (fun r => argFunRank prefactor init commSize r) .indexError
      (List.range commSize) (fun b _ => argFunRank_cases _ _ _ _) with h | ⟨cs, -, hlen, hall⟩
    · rw [h]; rfl
    · exfalso
      have := hall q (by simp; omega) (by rw [hlen]; simp; omega)
      rw [List.getElem_range, he] at this
      cases this
  have hseq : ∃ l, argFunSequential prefactor init = .ok l := by
    have hw := writeAll_ok 0 prefactor init (by intro p hp; exact ⟨by omega, by simpa using hlt p hp⟩)
    exact ⟨_, by unfold argFunSequential; simpa using hw⟩
  obtain ⟨l, hl⟩ := hseq
  refine ⟨⟨fun h => c32_parallel_partial prefactor init commSize hc hs hlt h, fun h r h1 h2 => ?_⟩, fun h => ?_⟩
  · by_contra hcon
    rw [hbad r h1 h2 hcon, hl] at h
    cases h
  · by_contra hne
    exact h (c32_parallel_partial prefactor init commSize hc hs hlt fun r h1 h2 => by
      by_contra hcon
      exact hne (hbad r h1 h2 hcon))

/-- Case: 60 prefactors of every second string, on three ranks. -/
example : argFun ((List.range 60).map fun i => (2 * i, i)) (List.replicate 120 1) 3
    = argFunSequential ((List.range 60).map fun i => (2 * i, i)) (List.replicate 120 1) := by
  refine ((c32_iff _ _ 3 (by norm_num) (by simp) ?_ ?_).1).mp ?_
  · rw [List.pairwise_map]
    exact List.Pairwise.imp (by intro a b h; simpa using h) List.pairwise_lt_range
  · simp
    omega
  · intro r h1 h2
    interval_cases r
    · exact ⟨(38, 19), (40, 20), by simp, by simp, by norm_num⟩
    · exact ⟨(78, 39), (80, 40), by simp, by simp, by norm_num⟩

end JVMC
