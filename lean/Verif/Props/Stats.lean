import Mathlib.LinearAlgebra.Matrix.PosDef
import Mathlib.Analysis.Complex.Order
import Mathlib.Analysis.Matrix.Order
import Verif.Lemmas.Stats

/-!
# Properties of `SampledObs` (C41, C42, C43, C67)

`world` holds the weighted observations of all ranks, devices and samples; `allSamples` flattens it
into one list; `wMean`, `wVar`, `wCross` are the weighted moments of a flat list. Every rank is assumed
to have a device (otherwise the reductions raise, see `c03_no_devices`).
-/

namespace JVMC

open Spec
open scoped ComplexOrder

variable {ι κ μ : Type}

/-! ## C41 -/

/-- C41: `mean()` is the weighted mean of all samples, on every rank. -/
theorem c41_mean (world : World (ℝ × (ι → ℂ))) (h : ∀ r ∈ world, r ≠ []) :
    ∃ o, SObs.create world = .ok o ∧ o.mean = List.map (fun _ => wMean (allSamples world)) world :=
  ⟨_, create_eq world h, rfl⟩

/-- C41: `a.covar(b)` is the weighted covariance of the two observables, on every rank. -/
theorem c41_covar (joint : World (ℝ × (ι → ℂ) × (κ → ℂ))) (h : ∀ r ∈ joint, r ≠ [])
    (hw : ∀ s ∈ allSamples joint, 0 ≤ s.1) :
    ∃ a b, SObs.create (joint.map fun s => (s.1, s.2.1)) = .ok a ∧
      SObs.create (joint.map fun s => (s.1, s.2.2)) = .ok b ∧
      a.covar b = .ok (List.map (fun _ => wCross (allSamples joint)) joint) := by
  refine ⟨_, _, create_eq _ (World.map_ne _ _ h), create_eq _ (World.map_ne _ _ h), ?_⟩
  unfold SObs.covar
  dsimp only
  rw [World.map_map, World.map_map, zipWorld_map]
  change globalSum _ = _
  rw [globalSum_dev _ _ (World.map_ne _ _ h), World.const_map, allSamples_wmap, List.map_map]
  congr 1
  apply List.map_congr_left
  intro _ _
  funext i k
  rw [list_sum_apply₂, List.map_map]
  unfold wCross
  congr 1
  apply List.map_congr_left
  intro s hs
  simp only [Function.comp, allSamples_wmap, map_mul, Complex.conj_ofReal]
  linear_combination ((starRingEnd ℂ) (s.2.1 i - wMean ((allSamples joint).map fun s => (s.1, s.2.1)) i)
      * (s.2.2 k - wMean ((allSamples joint).map fun s => (s.1, s.2.2)) k))
    * sqrt_mul_self_cast s.1 (hw s hs)

/-- C41: `var()` is the weighted variance of every component, on every rank. -/
theorem c41_var (world : World (ℝ × (ι → ℂ))) (h : ∀ r ∈ world, r ≠ [])
    (hw : ∀ s ∈ allSamples world, 0 ≤ s.1) :
    ∃ o, SObs.create world = .ok o ∧
      o.var = .ok (List.map (fun _ => wVar (allSamples world)) world) := by
  refine ⟨_, create_eq world h, ?_⟩
  unfold SObs.var
  dsimp only
  rw [World.map_map, globalSum_wmap _ _ h]
  congr 1
  apply List.map_congr_left
  intro _ _
  funext k
  rw [list_sum_apply, List.map_map]
  unfold wVar
  congr 1
  apply List.map_congr_left
  intro s hs
  simp only [Function.comp, Complex.normSq_mul, Complex.normSq_ofReal, Real.mul_self_sqrt (hw s hs)]

theorem sum_moments (l : List (ℝ × (ι → ℂ) × (κ → ℂ))) (i : ι) (k : κ) (x y : ℂ) :
    (l.map fun s => (s.1 : ℂ) * ((starRingEnd ℂ) (s.2.1 i - x) * (s.2.2 k - y))).sum
      = (l.map fun s => (s.1 : ℂ) * ((starRingEnd ℂ) (s.2.1 i) * s.2.2 k)).sum
        - (starRingEnd ℂ) (l.map fun s => (s.1 : ℂ) * s.2.1 i).sum * y
        - (starRingEnd ℂ) x * (l.map fun s => (s.1 : ℂ) * s.2.2 k).sum
        + ((l.map fun s => s.1).sum : ℝ) * ((starRingEnd ℂ) x * y) := by
  induction l with
  | nil => simp
  | cons a l ih =>
    simp only [List.map_cons, List.sum_cons]
    rw [ih]
    simp only [map_add, map_mul, map_sub, Complex.conj_ofReal, Complex.ofReal_add]
    ring

/-- The textbook identity `⟨conj(A - Ā)(B - B̄)⟩ = ⟨conj(A) B⟩ - conj(Ā) B̄` for normalised weights. -/
theorem wCross_eq (l : List (ℝ × (ι → ℂ) × (κ → ℂ))) (h1 : (l.map fun s => s.1).sum = 1) (i : ι) (k : κ) :
    wCross l i k = (l.map fun s => (s.1 : ℂ) * ((starRingEnd ℂ) (s.2.1 i) * s.2.2 k)).sum
      - (starRingEnd ℂ) (wMean (l.map fun s => (s.1, s.2.1)) i)
        * wMean (l.map fun s => (s.1, s.2.2)) k := by
  unfold wCross
  rw [sum_moments, h1, wMean_apply, wMean_apply, List.map_map, List.map_map]
  simp only [Function.comp_def]
  push_cast
  ring

/-- C41: for normalised weights, `covar` is `E[conj(A) B] - conj(E[A]) E[B]`. -/
theorem c41_covar_moments (joint : World (ℝ × (ι → ℂ) × (κ → ℂ))) (h : ∀ r ∈ joint, r ≠ [])
    (hw : ∀ s ∈ allSamples joint, 0 ≤ s.1) (h1 : ((allSamples joint).map fun s => s.1).sum = 1) :
    ∃ a b c, SObs.create (joint.map fun s => (s.1, s.2.1)) = .ok a ∧
      SObs.create (joint.map fun s => (s.1, s.2.2)) = .ok b ∧
      a.covar b = .ok (List.map (fun _ => c) joint) ∧ ∀ i k,
      c i k = ((allSamples joint).map fun s => (s.1 : ℂ) * ((starRingEnd ℂ) (s.2.1 i) * s.2.2 k)).sum
        - (starRingEnd ℂ) ((allSamples joint).map fun s => (s.1 : ℂ) * s.2.1 i).sum
          * ((allSamples joint).map fun s => (s.1 : ℂ) * s.2.2 k).sum := by
  obtain ⟨a, b, ha, hb, hc⟩ := c41_covar joint h hw
  refine ⟨a, b, wCross (allSamples joint), ha, hb, hc, fun i k => ?_⟩
  rw [wCross_eq _ h1, wMean_apply, wMean_apply, List.map_map, List.map_map]
  rfl

/-- C41: `a.covar()` is a Hermitian, positive semi-definite matrix, for every data set. -/
theorem c41_covar_posSemidef [Fintype ι] (world : World (ℝ × (ι → ℂ))) (h : ∀ r ∈ world, r ≠ [])
    (hw : ∀ s ∈ allSamples world, 0 ≤ s.1) :
    ∃ a c, SObs.create world = .ok a ∧ a.covar a = .ok (List.map (fun _ => c) world) ∧
      (Matrix.of c).PosSemidef := by
  have hne : ∀ r ∈ World.map (fun s : ℝ × (ι → ℂ) => (s.1, s.2, s.2)) world, r ≠ [] :=
    World.map_ne _ _ h
  obtain ⟨a, b, ha, hb, hc⟩ := c41_covar (World.map (fun s => (s.1, s.2, s.2)) world) hne (by
    intro s hs
    rw [allSamples_wmap] at hs
    obtain ⟨t, ht, rfl⟩ := List.mem_map.mp hs
    exact hw t ht)
  rw [World.map_map, World.map_id' _ _ (by intro _ _; rfl)] at ha hb
  rw [hb] at ha
  obtain rfl := Except.ok.inj ha
  refine ⟨b, _, hb, by rw [hc, World.const_map], ?_⟩
  unfold wCross
  rw [allSamples_wmap]
  simp only [List.map_map, Function.comp_def]
  generalize wMean (List.map (fun s => (s.1, s.2)) (allSamples world)) = m
  have hnn : ∀ s ∈ allSamples world, 0 ≤ s.1 := hw
  generalize allSamples world = l at hnn
  induction l with
  | nil =>
    have : (Matrix.of fun (i k : ι) => (List.map (fun s : ℝ × (ι → ℂ) => (s.1 : ℂ) *
        ((starRingEnd ℂ) (s.2 i - m i) * (s.2 k - m k))) []).sum) = 0 := by
      ext i k; simp
    rw [this]
    exact Matrix.PosSemidef.zero
  | cons s l ih =>
    have ih := ih fun t ht => hnn t (List.mem_cons_of_mem _ ht)
    have hs := hnn s List.mem_cons_self
    have : (Matrix.of fun (i k : ι) => (List.map (fun s : ℝ × (ι → ℂ) => (s.1 : ℂ) *
        ((starRingEnd ℂ) (s.2 i - m i) * (s.2 k - m k))) (s :: l)).sum)
        = (s.1 : ℂ) • Matrix.vecMulVec (star (s.2 - m)) (star (star (s.2 - m)))
          + Matrix.of fun (i k : ι) => (List.map (fun s : ℝ × (ι → ℂ) => (s.1 : ℂ) *
        ((starRingEnd ℂ) (s.2 i - m i) * (s.2 k - m k))) l).sum := by
      ext i k
      simp [Matrix.vecMulVec_apply]
    rw [this]
    exact ((Matrix.posSemidef_vecMulVec_self_star _).smul (by exact_mod_cast hs)).add ih

/-- C41: mean, covariance and variance do not depend on how the samples are spread over ranks and
devices, nor on their order. -/
theorem c41_layout (w₁ w₂ : World (ℝ × (ι → ℂ) × (κ → ℂ))) (h₁ : ∀ r ∈ w₁, r ≠ [])
    (h₂ : ∀ r ∈ w₂, r ≠ []) (hw : ∀ s ∈ allSamples w₁, 0 ≤ s.1)
    (hp : (allSamples w₁).Perm (allSamples w₂)) :
    ∃ a₁ b₁ a₂ b₂ m c v,
      SObs.create (w₁.map fun s => (s.1, s.2.1)) = .ok a₁ ∧
      SObs.create (w₁.map fun s => (s.1, s.2.2)) = .ok b₁ ∧
      SObs.create (w₂.map fun s => (s.1, s.2.1)) = .ok a₂ ∧
      SObs.create (w₂.map fun s => (s.1, s.2.2)) = .ok b₂ ∧
      a₁.mean = List.map (fun _ => m) w₁ ∧ a₂.mean = List.map (fun _ => m) w₂ ∧
      a₁.covar b₁ = .ok (List.map (fun _ => c) w₁) ∧ a₂.covar b₂ = .ok (List.map (fun _ => c) w₂) ∧
      a₁.var = .ok (List.map (fun _ => v) w₁) ∧ a₂.var = .ok (List.map (fun _ => v) w₂) := by
  have hw2 : ∀ s ∈ allSamples w₂, 0 ≤ s.1 := fun s hs => hw s (hp.mem_iff.mpr hs)
  have hm : ∀ (f : ℝ × (ι → ℂ) × (κ → ℂ) → ℝ × (ι → ℂ)),
      wMean ((allSamples w₂).map f) = wMean ((allSamples w₁).map f) := by
    intro f
    unfold wMean
    exact ((hp.symm.map _).map _).sum_eq
  have hm' : ∀ (f : ℝ × (ι → ℂ) × (κ → ℂ) → ℝ × (κ → ℂ)),
      wMean ((allSamples w₂).map f) = wMean ((allSamples w₁).map f) := by
    intro f
    unfold wMean
    exact ((hp.symm.map _).map _).sum_eq
  have hcross : wCross (allSamples w₂) = wCross (allSamples w₁) := by
    funext i k
    unfold wCross
    rw [hm, hm']
    exact (hp.symm.map _).sum_eq
  have hvar : wVar ((allSamples w₂).map fun s => (s.1, s.2.1))
      = wVar ((allSamples w₁).map fun s => (s.1, s.2.1)) := by
    funext k
    unfold wVar
    rw [hm]
    exact ((hp.symm.map _).map _).sum_eq
  obtain ⟨a₁, b₁, ha₁, hb₁, hc₁⟩ := c41_covar w₁ h₁ hw
  obtain ⟨a₂, b₂, ha₂, hb₂, hc₂⟩ := c41_covar w₂ h₂ hw2
  have hA : ∀ (w : World (ℝ × (ι → ℂ) × (κ → ℂ))), (∀ s ∈ allSamples w, 0 ≤ s.1) →
      ∀ s ∈ allSamples (World.map (fun s => (s.1, s.2.1)) w), 0 ≤ s.1 := by
    intro w hw s hs
    rw [allSamples_wmap] at hs
    obtain ⟨t, ht, rfl⟩ := List.mem_map.mp hs
    exact hw t ht
  obtain ⟨x₁, hx₁, hv₁⟩ := c41_var (World.map (fun s => (s.1, s.2.1)) w₁) (World.map_ne _ _ h₁) (hA w₁ hw)
  obtain ⟨x₂, hx₂, hv₂⟩ := c41_var (World.map (fun s => (s.1, s.2.1)) w₂) (World.map_ne _ _ h₂) (hA w₂ hw2)
  obtain ⟨y₁, hy₁, hm₁⟩ := c41_mean (World.map (fun s => (s.1, s.2.1)) w₁) (World.map_ne _ _ h₁)
  obtain ⟨y₂, hy₂, hm₂⟩ := c41_mean (World.map (fun s => (s.1, s.2.1)) w₂) (World.map_ne _ _ h₂)
  obtain rfl : a₁ = x₁ := Except.ok.inj (ha₁.symm.trans hx₁)
  obtain rfl : a₁ = y₁ := Except.ok.inj (ha₁.symm.trans hy₁)
  obtain rfl : a₂ = x₂ := Except.ok.inj (ha₂.symm.trans hx₂)
  obtain rfl : a₂ = y₂ := Except.ok.inj (ha₂.symm.trans hy₂)
  rw [allSamples_wmap, World.const_map] at hm₁ hm₂ hv₁ hv₂
  refine ⟨a₁, b₁, a₂, b₂, _, _, _, ha₁, hb₁, ha₂, hb₂, hm₁, ?_, hc₁, ?_, hv₁, ?_⟩
  · rw [hm₂, hm]
  · rw [hc₂, hcross]
  · rw [hv₂, hvar]

/-- Two ranks with one and two devices, three samples of different weight. -/
noncomputable def exampleWorld : World (ℝ × (Fin 1 → ℂ)) :=
  [[[(1/4, fun _ => 1)]], [[(1/4, fun _ => 3)], [(1/2, fun _ => Complex.I)]]]

example : (∀ r ∈ exampleWorld, r ≠ []) ∧ (∀ s ∈ allSamples exampleWorld, 0 ≤ s.1) ∧
    ((allSamples exampleWorld).map fun s => s.1).sum = 1 ∧
    wMean (allSamples exampleWorld) 0 = 1 + Complex.I / 2 := by
  refine ⟨by simp [exampleWorld], ?_, ?_, ?_⟩
  · simp only [allSamples, exampleWorld]
    norm_num
  · simp only [allSamples, exampleWorld]
    norm_num
  · rw [wMean_apply]
    simp only [allSamples, exampleWorld]
    norm_num
    ring

/-! ## C42 -/

theorem mem_of_sliceList {A : Type} (start stop step : Option ℤ) (l l' : List A)
    (h : sliceList start stop step l = .ok l') : ∀ a ∈ l', a ∈ l := by
  unfold sliceList at h
  split at h
  · cases h
  · obtain rfl := Except.ok.inj h
    intro a ha
    obtain ⟨i, _, hi⟩ := List.mem_filterMap.mp ha
    exact List.mem_of_getElem? hi

theorem sliceList_map {A B : Type} (f : A → B) (start stop step : Option ℤ) (hs : step ≠ some 0)
    (l : List A) :
    sliceList start stop step (l.map f)
      = .ok (((sliceIndices start stop (step.getD 1) l.length).filterMap fun i => l[i]?).map f) := by
  unfold sliceList
  rw [if_neg hs, List.length_map, List.map_filterMap]
  congr 2
  funext i
  simp

/-- The samples that `x[slice(start, stop, step)]` selects on every device. -/
def World.slice {A : Type} (start stop step : Option ℤ) (w : World A) : World A :=
  List.map (fun rk => List.map (fun dev =>
    (sliceIndices start stop (step.getD 1) dev.length).filterMap fun i => dev[i]?) rk) w

theorem sel_eq {A B : Type} (f : A → B) (start stop step : Option ℤ) (hs : step ≠ some 0)
    (w : World A) :
    (List.mapM (fun rk => List.mapM (fun dev => sliceList start stop step dev) rk) (World.map f w))
      = .ok (World.map f (w.slice start stop step)) := by
  unfold World.map
  rw [List.mapM_map]
  rw [mapM_ok _ (fun rk => rk.map fun dev => ((sliceIndices start stop (step.getD 1)
    dev.length).filterMap fun i => dev[i]?).map f)]
  · unfold World.slice
    simp [List.map_map, Function.comp_def]
  · intro rk _
    dsimp only [Function.comp]
    rw [List.mapM_map, mapM_ok _ (fun dev => ((sliceIndices start stop (step.getD 1)
      dev.length).filterMap fun i => dev[i]?).map f)]
    intro dev _
    exact sliceList_map f start stop step hs dev

theorem slice_ne {A : Type} (start stop step : Option ℤ) (w : World A) (h : ∀ r ∈ w, r ≠ []) :
    ∀ r ∈ w.slice start stop step, r ≠ [] := by
  intro r hr
  obtain ⟨d, hd, rfl⟩ := List.mem_map.mp hr
  have := h d hd
  simpa using this

theorem slice_mem {A : Type} (start stop step : Option ℤ) (w : World A) :
    ∀ a ∈ allSamples (w.slice start stop step), a ∈ allSamples w := by
  intro a ha
  obtain ⟨dev, hdev, ha⟩ := List.mem_flatten.mp ha
  obtain ⟨rk, hrk, hdev⟩ := List.mem_flatten.mp hdev
  obtain ⟨rk', hrk', rfl⟩ := List.mem_map.mp hrk
  obtain ⟨dev', hdev', rfl⟩ := List.mem_map.mp hdev
  obtain ⟨i, _, hi⟩ := List.mem_filterMap.mp ha
  exact List.mem_flatten.mpr ⟨dev', List.mem_flatten.mpr ⟨rk', hrk', hdev'⟩, List.mem_of_getElem? hi⟩

/-- C42: `subset(start, end, step)` is the object that would have been built from the selected samples
with their weights divided by the selected total: same mean, same centred data, same weights (hence the
same covariances, variances, ...), for every slice whose total weight is positive. -/
theorem c42_subset (world : World (ℝ × (ι → ℂ))) (h : ∀ r ∈ world, r ≠ [])
    (hw : ∀ s ∈ allSamples world, 0 ≤ s.1) (start stop step : Option ℤ) (hs : step ≠ some 0)
    (hn : 0 < ((allSamples (world.slice start stop step)).map fun s => s.1).sum) :
    ∃ o o', SObs.create world = .ok o ∧ o.subset start stop step = .ok (some o') ∧
      SObs.create ((world.slice start stop step).map fun s =>
        (s.1 / ((allSamples (world.slice start stop step)).map fun s => s.1).sum, s.2)) = .ok o' := by
  have hsl := slice_ne start stop step world h
  have hws : ∀ s ∈ allSamples (world.slice start stop step), 0 ≤ s.1 := fun s hs' =>
    hw s (slice_mem start stop step world s hs')
  have hlen : List.length (world.slice start stop step) = List.length world := by
    unfold World.slice; simp
  have hconst : ∀ {C : Type} (c : C), List.map (fun _ => c) world
      = List.map (fun _ => c) (world.slice start stop step) := by
    intro C c
    rw [List.map_const', List.map_const', hlen]
  refine ⟨_, _, create_eq world h, ?_, create_eq _ (World.map_ne _ _ hsl)⟩
  set sel := world.slice start stop step with hsel
  set n := ((allSamples sel).map fun s => s.1).sum with hndef
  set m := wMean (allSamples world) with hm
  -- the mean of the renormalised selection
  have hmean : ∀ i, wMean (allSamples (World.map (fun s => (s.1 / n, s.2)) sel)) i
      = ((allSamples sel).map fun s => ((s.1 / n : ℝ) : ℂ) * s.2 i).sum := by
    intro i
    rw [wMean_apply, allSamples_wmap, List.map_map]
    rfl
  unfold SObs.subset
  dsimp only
  rw [sel_eq _ _ _ _ hs, ← hsel]
  change Except.bind (globalSum _) _ = _
  rw [World.map_map, globalSum_wmap _ _ hsl, ← hndef]
  change Except.bind (globalSum _) _ = _
  have hc1 : List.map (fun _ => n) sel = List.map (fun _ => n)
      (World.map (fun s => (s.1, fun i => (Real.sqrt s.1 : ℂ) * (s.2 i - m i))) sel) := by
    rw [World.const_map]
  rw [hc1, zipWith_map_self]
  have hrows : (List.map (fun rk => List.map (fun dev => List.map (fun s : ℝ × (ι → ℂ) =>
      (s.1 / n, fun i => s.2 i / (Real.sqrt n : ℂ))) dev) rk)
      (World.map (fun s => (s.1, fun i => (Real.sqrt s.1 : ℂ) * (s.2 i - m i))) sel))
      = World.map (fun s => (s.1 / n, fun i =>
        (Real.sqrt s.1 : ℂ) * (s.2 i - m i) / (Real.sqrt n : ℂ))) sel := by
    exact World.map_map _ _ _
  rw [hrows, globalSum_dev _ _ (World.map_ne _ _ hsl)]
  change (if _ then _ else _) = _
  rw [if_pos (by
    rw [List.all_eq_true]
    intro x hx
    obtain ⟨_, _, rfl⟩ := List.mem_map.mp hx
    simpa using hn.ne')]
  show Except.ok _ = Except.ok _
  congr 2
  have hn0 : (Real.sqrt n : ℂ) ≠ 0 := by
    exact_mod_cast (Real.sqrt_pos.mpr hn).ne'
  have hnn : (Real.sqrt n : ℂ) * (Real.sqrt n : ℂ) = (n : ℂ) := sqrt_mul_self_cast n hn.le
  -- the new mean
  have hnew : ∀ i, (List.map (fun s : ℝ × (ι → ℂ) => fun i => (Real.sqrt s.1 : ℂ) * s.2 i)
        (allSamples (World.map (fun s => (s.1 / n, fun i =>
        (Real.sqrt s.1 : ℂ) * (s.2 i - m i) / (Real.sqrt n : ℂ))) sel))).sum i + m i
      = wMean (allSamples (World.map (fun s => (s.1 / n, s.2)) sel)) i := by
    intro i
    rw [hmean, list_sum_apply, List.map_map, allSamples_wmap, List.map_map]
    have hterm : ∀ s ∈ allSamples sel, (Real.sqrt (s.1 / n) : ℂ) *
        ((Real.sqrt s.1 : ℂ) * (s.2 i - m i) / (Real.sqrt n : ℂ))
        = ((s.1 / n : ℝ) : ℂ) * s.2 i - ((s.1 / n : ℝ) : ℂ) * m i := by
      intro s hs'
      rw [Real.sqrt_div (hws s hs')]
      push_cast
      rw [← sqrt_mul_self_cast s.1 (hws s hs'), ← hnn]
      field_simp
    have e1 : (List.map (((fun f : ι → ℂ => f i) ∘ fun s : ℝ × (ι → ℂ) => fun i =>
        (Real.sqrt s.1 : ℂ) * s.2 i) ∘ fun s => (s.1 / n, fun i =>
        (Real.sqrt s.1 : ℂ) * (s.2 i - m i) / (Real.sqrt n : ℂ))) (allSamples sel))
        = (allSamples sel).map fun s => ((s.1 / n : ℝ) : ℂ) * s.2 i - ((s.1 / n : ℝ) : ℂ) * m i :=
      List.map_congr_left hterm
    rw [e1]
    have e2 : ∀ l : List (ℝ × (ι → ℂ)), (l.map fun s => ((s.1 / n : ℝ) : ℂ) * s.2 i
        - ((s.1 / n : ℝ) : ℂ) * m i).sum = (l.map fun s => ((s.1 / n : ℝ) : ℂ) * s.2 i).sum
        - (((l.map fun s => s.1).sum / n : ℝ) : ℂ) * m i := by
      intro l
      induction l with
      | nil => simp
      | cons a l ih =>
        simp only [List.map_cons, List.sum_cons]
        rw [ih]
        push_cast
        ring
    rw [e2, ← hndef, div_self hn.ne']
    push_cast
    ring
  have hmeans : List.zipWith (fun (x m : ι → ℂ) => fun i => x i + m i)
      (List.map (fun _ => (List.map (fun s : ℝ × (ι → ℂ) => fun i => (Real.sqrt s.1 : ℂ) * s.2 i)
        (allSamples (World.map (fun s => (s.1 / n, fun i =>
        (Real.sqrt s.1 : ℂ) * (s.2 i - m i) / (Real.sqrt n : ℂ))) sel))).sum)
        (World.map (fun s => (s.1 / n, fun i =>
        (Real.sqrt s.1 : ℂ) * (s.2 i - m i) / (Real.sqrt n : ℂ))) sel))
      (List.map (fun _ => m) world)
      = List.map (fun _ => wMean (allSamples (World.map (fun s => (s.1 / n, s.2)) sel)))
        (World.map (fun s => (s.1 / n, s.2)) sel) := by
    rw [World.const_map, World.const_map, hconst, List.zipWith_map_left, zipWith_map_self]
    apply List.map_congr_left
    intro _ _
    funext i
    exact hnew i
  rw [hmeans]
  congr 1
  clear hmeans hnew hmean
  generalize wMean (allSamples (World.map (fun s => (s.1 / n, s.2)) sel)) = m'
  rw [World.const_map, hconst, List.zip_map', World.map, List.zipWith_map_left,
    zipWith_map_self]
  unfold World.map
  rw [List.map_map]
  apply List.map_congr_left
  intro rk hrk
  dsimp only [Function.comp]
  rw [List.map_map, List.map_map]
  apply List.map_congr_left
  intro dev hdev
  dsimp only [Function.comp]
  rw [List.map_map, List.map_map]
  apply List.map_congr_left
  intro s hs'
  have hmem : s ∈ allSamples sel :=
    List.mem_flatten.mpr ⟨dev, List.mem_flatten.mpr ⟨rk, hrk, hdev⟩, hs'⟩
  dsimp only [Function.comp]
  congr 1
  funext i
  rw [Real.sqrt_div (hws s hmem)]
  push_cast
  field_simp
  ring

/-- Case: every second sample of a device, starting with the first. -/
example : sliceList (some 0) none (some 2) [10, 11, 12, 13, 14] = .ok [10, 12, 14] := by decide

example : sliceList (some (-1)) (some 0) (some (-2)) [10, 11, 12, 13, 14] = .ok [14, 12] := by decide

/-- The slice used for cross validation, on the example: the first samples of all devices. -/
example : (∀ r ∈ exampleWorld, r ≠ []) ∧ (∀ s ∈ allSamples exampleWorld, 0 ≤ s.1) ∧
    0 < ((allSamples (exampleWorld.slice (some 0) none (some 2))).map fun s => s.1).sum := by
  refine ⟨by simp [exampleWorld], ?_, ?_⟩
  · simp only [allSamples, exampleWorld]
    norm_num
  · simp only [allSamples, exampleWorld, World.slice, List.map_cons, List.map_nil, List.length_cons,
      List.length_nil, show sliceIndices (some 0) none ((some 2 : Option ℤ).getD 1) (0 + 1) = [0] by decide]
    simp [List.filterMap]
    norm_num

/-- A slice step of zero is refused. -/
theorem c42_step_zero (start stop : Option ℤ) {A : Type} (l : List A) :
    sliceList start stop (some 0) l = .error .valueError := rfl

/-- Where a slice boundary points to in an array of length `n`: negative numbers count from the end,
and the result is moved into `[lower, upper]`. (The definition of slices in the Python manual.) -/
def sliceBound (lower upper : ℤ) (n : ℕ) (x : Option ℤ) (default : ℤ) : ℤ :=
  match x with
  | none => default
  | some v => min upper (max lower (if v < 0 then v + n else v))

/-- C42: the samples that `subset(start, end, step)` selects with a positive step: in increasing order
the positions `i = start + k step < end` of every device, where boundaries outside of the array are
moved to its ends. -/
theorem c42_slice_forward (start stop : Option ℤ) (step : ℤ) (hs : 0 < step) (n : ℕ) :
    (sliceIndices start stop step n).Pairwise (· < ·) ∧
    ∀ i : ℕ, i ∈ sliceIndices start stop step n ↔
      (i : ℤ) < sliceBound 0 n n stop n ∧ ∃ k : ℕ, (i : ℤ) = sliceBound 0 n n start 0 + k * step := by
  have key : sliceIndices start stop step n = (List.range ((sliceBound 0 n n stop n
      - sliceBound 0 n n start 0 + step - 1) / step).toNat).map
        fun k : ℕ => (sliceBound 0 n n start 0 + k * step).toNat := by
    have hc : ∀ v : ℤ, (if v < 0 then max (v + n) 0 else min v n)
        = min (n : ℤ) (max 0 (if v < 0 then v + n else v)) := by
      intro v
      split <;> omega
    cases start <;> cases stop <;>
      simp only [sliceIndices, sliceBound, if_neg (not_lt.mpr hs.le), hc]
  have h0 : ∀ x d, 0 ≤ d → 0 ≤ sliceBound 0 n n x d := by
    intro x d hd
    unfold sliceBound
    cases x with
    | none => exact hd
    | some v => dsimp only; split <;> omega
  rw [key]
  set b := sliceBound 0 n n start 0 with hbd
  set e := sliceBound 0 n n stop n with hed
  have hb0 : 0 ≤ b := h0 _ _ le_rfl
  have hcount : ∀ k : ℕ, k < ((e - b + step - 1) / step).toNat ↔ b + k * step < e := by
    intro k
    rw [Int.lt_toNat, Int.lt_iff_add_one_le, Int.le_ediv_iff_mul_le hs]
    constructor <;> intro h <;> nlinarith
  constructor
  · rw [List.pairwise_map]
    refine List.pairwise_lt_range.imp ?_
    intro k l hkl
    have : (k : ℤ) * step < l * step := by
      have : (k : ℤ) < l := by exact_mod_cast hkl
      nlinarith
    have : 0 ≤ (k : ℤ) * step := by positivity
    omega
  · intro i
    simp only [List.mem_map, List.mem_range, hcount]
    constructor
    · rintro ⟨k, hk, rfl⟩
      have : 0 ≤ (k : ℤ) * step := by positivity
      rw [Int.toNat_of_nonneg (by omega)]
      exact ⟨hk, k, rfl⟩
    · rintro ⟨hi, k, hk⟩
      exact ⟨k, by omega, by omega⟩

example := c42_slice_forward (some 1) (some (-1)) 2 (by norm_num) 6

/-- C42: with a negative step the selected positions are `i = start - k |step| > end`, in decreasing
order. -/
theorem c42_slice_backward (start stop : Option ℤ) (step : ℤ) (hs : step < 0) (n : ℕ) :
    (sliceIndices start stop step n).Pairwise (· > ·) ∧
    ∀ i : ℕ, i ∈ sliceIndices start stop step n ↔
      sliceBound (-1) (n - 1) n stop (-1) < (i : ℤ) ∧
        ∃ k : ℕ, (i : ℤ) = sliceBound (-1) (n - 1) n start (n - 1) + k * step := by
  have key : sliceIndices start stop step n = (List.range ((sliceBound (-1) (n - 1) n start (n - 1)
      - sliceBound (-1) (n - 1) n stop (-1) + -step - 1) / -step).toNat).map
        fun k : ℕ => (sliceBound (-1) (n - 1) n start (n - 1) + k * step).toNat := by
    have hc : ∀ v : ℤ, (if v < 0 then max (v + n) (-1) else min v (n - 1))
        = min ((n : ℤ) - 1) (max (-1) (if v < 0 then v + n else v)) := by
      intro v
      split <;> omega
    cases start <;> cases stop <;>
      simp only [sliceIndices, sliceBound, if_pos hs, hc]
  have h0 : ∀ x d, -1 ≤ d → -1 ≤ sliceBound (-1) (n - 1) n x d := by
    intro x d hd
    unfold sliceBound
    cases x with
    | none => exact hd
    | some v => dsimp only; split <;> omega
  rw [key]
  set b := sliceBound (-1) (n - 1) n start (n - 1) with hbd
  set e := sliceBound (-1) (n - 1) n stop (-1) with hed
  have he0 : -1 ≤ e := h0 _ _ le_rfl
  have hcount : ∀ k : ℕ, k < ((b - e + -step - 1) / -step).toNat ↔ e < b + k * step := by
    intro k
    rw [Int.lt_toNat, Int.lt_iff_add_one_le, Int.le_ediv_iff_mul_le (by omega)]
    constructor <;> intro h <;> nlinarith
  constructor
  · rw [List.pairwise_map]
    refine List.Pairwise.imp_of_mem ?_ List.pairwise_lt_range
    intro k l hk hl hkl
    rw [List.mem_range, hcount] at hk hl
    have : (l : ℤ) * step < k * step := by
      have : (k : ℤ) < l := by exact_mod_cast hkl
      nlinarith
    change (b + l * step).toNat < (b + k * step).toNat
    omega
  · intro i
    simp only [List.mem_map, List.mem_range, hcount]
    constructor
    · rintro ⟨k, hk, rfl⟩
      rw [Int.toNat_of_nonneg (by omega)]
      exact ⟨hk, k, rfl⟩
    · rintro ⟨hi, k, hk⟩
      exact ⟨k, by omega, by omega⟩

example := c42_slice_backward (some (-1)) none (-2) (by norm_num) 6

/-- No selected position is outside of the array. -/
theorem c42_slice_inside (start stop : Option ℤ) (step : ℤ) (hs : step ≠ 0) (n : ℕ) :
    ∀ i ∈ sliceIndices start stop step n, i < n := by
  intro i hi
  rcases lt_or_gt_of_ne hs with h | h
  · obtain ⟨_, k, hk⟩ := ((c42_slice_backward start stop step h n).2 i).mp hi
    have hb : sliceBound (-1) (n - 1) n start (n - 1) ≤ n - 1 := by
      unfold sliceBound
      cases start with
      | none => exact le_rfl
      | some v => exact min_le_left _ _
    have : (k : ℤ) * step ≤ 0 := mul_nonpos_of_nonneg_of_nonpos (by positivity) h.le
    omega
  · obtain ⟨h1, _⟩ := ((c42_slice_forward start stop step h n).2 i).mp hi
    have hb : sliceBound 0 n n stop n ≤ n := by
      unfold sliceBound
      cases stop with
      | none => exact le_rfl
      | some v => exact min_le_left _ _
    omega

/-- Case: every second sample from the second to the last but one of an array of six, and a reversed
array. -/
example : sliceIndices (some 1) (some (-1)) 2 6 = [1, 3] ∧ sliceIndices none none (-1) 4 = [3, 2, 1, 0] := by
  decide

/-! ## C43 -/

theorem createNan_some (world : World (ℝ × Option (ι → ℂ))) (o : SObs ι)
    (hall : ∀ s ∈ allSamples world, s.2.isSome = true)
    (h : SObs.create (world.map fun s => (s.1, s.2.getD fun _ => 0)) = .ok o) :
    SObs.createNan world = .ok (some o) := by
  unfold SObs.createNan
  rw [h]
  change (if _ then _ else _) = _
  rw [if_pos (by exact List.all_eq_true.mpr hall)]
  rfl

theorem createNan_none (world : World (ℝ × Option (ι → ℂ))) (h : ∀ r ∈ world, r ≠ [])
    (hex : ∃ s ∈ allSamples world, s.2 = none) : SObs.createNan world = .ok none := by
  unfold SObs.createNan
  rw [create_eq _ (World.map_ne _ _ h)]
  change (if _ then _ else _) = _
  rw [if_neg]
  · rfl
  · intro hall
    obtain ⟨s, hs, hn⟩ := hex
    have := List.all_eq_true.mp hall s hs
    rw [hn] at this
    cases this

/-- C43: with positive weights, `a.covar_data(b)` is the object made of the samples
`conj(A_n - mean A)_i (B_n - mean B)_k`. -/
theorem covarData_eq (joint : World (ℝ × (ι → ℂ) × (κ → ℂ))) (h : ∀ r ∈ joint, r ≠ [])
    (hw : ∀ s ∈ allSamples joint, 0 < s.1) :
    ∃ a b o, SObs.create (joint.map fun s => (s.1, s.2.1)) = .ok a ∧
      SObs.create (joint.map fun s => (s.1, s.2.2)) = .ok b ∧
      a.covarData b = .ok (some o) ∧
      SObs.create (joint.map fun s => (s.1, fun ik : ι × κ =>
        (starRingEnd ℂ) (s.2.1 ik.1 - wMean ((allSamples joint).map fun s => (s.1, s.2.1)) ik.1)
          * (s.2.2 ik.2 - wMean ((allSamples joint).map fun s => (s.1, s.2.2)) ik.2))) = .ok o := by
  refine ⟨_, _, _, create_eq _ (World.map_ne _ _ h), create_eq _ (World.map_ne _ _ h), ?_,
    create_eq _ (World.map_ne _ _ h)⟩
  unfold SObs.covarData
  dsimp only
  rw [World.map_map, World.map_map, zipWorld_map]
  change SObs.createNan _ = _
  rw [World.map_map]
  apply createNan_some
  · intro s hs
    rw [allSamples_wmap] at hs
    obtain ⟨t, ht, rfl⟩ := List.mem_map.mp hs
    dsimp only
    rw [if_neg (hw t ht).ne']
    rfl
  · rw [World.map_map, ← create_eq _ (World.map_ne _ _ h)]
    congr 1
    apply World.map_congr
    intro s hs
    dsimp only
    rw [if_neg (hw s hs).ne']
    congr 1
    funext ik
    have h0 : (s.1 : ℂ) ≠ 0 := by exact_mod_cast (hw s hs).ne'
    simp only [Option.getD_some, allSamples_wmap, map_mul, Complex.conj_ofReal]
    rw [div_eq_iff h0, ← sqrt_mul_self_cast s.1 (hw s hs).le]
    ring

/-- C43: `a.covar_data(b).mean()` is `a.covar(b)`, for positive weights. -/
theorem c43_covar_data_mean_partial (joint : World (ℝ × (ι → ℂ) × (κ → ℂ))) (h : ∀ r ∈ joint, r ≠ [])
    (hw : ∀ s ∈ allSamples joint, 0 < s.1) :
    ∃ a b o c, SObs.create (joint.map fun s => (s.1, s.2.1)) = .ok a ∧
      SObs.create (joint.map fun s => (s.1, s.2.2)) = .ok b ∧
      a.covarData b = .ok (some o) ∧ a.covar b = .ok c ∧
      c = o.mean.map fun m => fun i k => m (i, k) := by
  obtain ⟨a, b, o, ha, hb, ho, hcr⟩ := covarData_eq joint h hw
  obtain ⟨a', b', ha', hb', hc⟩ := c41_covar joint h fun s hs => (hw s hs).le
  obtain rfl := Except.ok.inj (ha.symm.trans ha')
  obtain rfl := Except.ok.inj (hb.symm.trans hb')
  refine ⟨a, b, o, _, ha, hb, ho, hc, ?_⟩
  rw [create_eq _ (World.map_ne _ _ h)] at hcr
  obtain rfl := Except.ok.inj hcr
  dsimp only
  rw [World.const_map, List.map_map]
  apply List.map_congr_left
  intro _ _
  funext i k
  dsimp only [Function.comp]
  rw [wMean_apply, allSamples_wmap, List.map_map]
  rfl

theorem wVar_eq (l : List (ℝ × (ι → ℂ))) (h1 : (l.map fun s => s.1).sum = 1) (i : ι) :
    wVar l i = (l.map fun s => s.1 * Complex.normSq (s.2 i)).sum - Complex.normSq (wMean l i) := by
  have key : ∀ (l : List (ℝ × (ι → ℂ))) (x : ℂ),
      (l.map fun s => s.1 * Complex.normSq (s.2 i - x)).sum
      = (l.map fun s => s.1 * Complex.normSq (s.2 i)).sum
        - 2 * ((l.map fun s => (s.1 : ℂ) * s.2 i).sum * (starRingEnd ℂ) x).re
        + (l.map fun s => s.1).sum * Complex.normSq x := by
    intro l x
    induction l with
    | nil => simp
    | cons a l ih =>
      simp only [List.map_cons, List.sum_cons]
      rw [ih, Complex.normSq_sub]
      simp only [add_mul, Complex.add_re]
      rw [mul_assoc ((a.1 : ℂ)), Complex.re_ofReal_mul]
      ring
  unfold wVar
  rw [key, h1, ← wMean_apply, Complex.mul_conj, Complex.ofReal_re]
  ring

/-- C43: for positive, normalised weights, `a.covar_var(b)` is `a.covar_data(b).var()`. -/
theorem c43_covar_var_partial (joint : World (ℝ × (ι → ℂ) × (κ → ℂ))) (h : ∀ r ∈ joint, r ≠ [])
    (hw : ∀ s ∈ allSamples joint, 0 < s.1) (h1 : ((allSamples joint).map fun s => s.1).sum = 1) :
    ∃ a b o v, SObs.create (joint.map fun s => (s.1, s.2.1)) = .ok a ∧
      SObs.create (joint.map fun s => (s.1, s.2.2)) = .ok b ∧
      a.covarData b = .ok (some o) ∧ o.var = .ok v ∧
      a.covarVar b = .ok (some (v.map fun m => fun i k => m (i, k))) := by
  obtain ⟨a, b, o, ha, hb, ho, hcr⟩ := covarData_eq joint h hw
  obtain ⟨o', hcr', hv⟩ := c41_var (joint.map fun s => (s.1, fun ik : ι × κ =>
        (starRingEnd ℂ) (s.2.1 ik.1 - wMean ((allSamples joint).map fun s => (s.1, s.2.1)) ik.1)
          * (s.2.2 ik.2 - wMean ((allSamples joint).map fun s => (s.1, s.2.2)) ik.2)))
    (World.map_ne _ _ h) (by
    intro s hs
    rw [allSamples_wmap] at hs
    obtain ⟨t, ht, rfl⟩ := List.mem_map.mp hs
    exact (hw t ht).le)
  obtain rfl := Except.ok.inj (hcr.symm.trans hcr')
  obtain ⟨a', b', ha', hb', hc⟩ := c41_covar joint h fun s hs => (hw s hs).le
  obtain rfl := Except.ok.inj (ha.symm.trans ha')
  obtain rfl := Except.ok.inj (hb.symm.trans hb')
  refine ⟨a, b, o, _, ha, hb, ho, hv, ?_⟩
  have hrow := ha
  have hrowb := hb
  rw [create_eq _ (World.map_ne _ _ h)] at hrow hrowb
  have hra := congrArg SObs.rows (Except.ok.inj hrow)
  have hrb := congrArg SObs.rows (Except.ok.inj hrowb)
  dsimp only at hra hrb
  unfold SObs.covarVar
  rw [hc, ← hra, ← hrb, World.map_map, World.map_map, zipWorld_map]
  change Except.bind (globalSum _) _ = _
  rw [globalSum_dev _ _ (World.map_ne _ _ h), World.const_map]
  change (if _ then _ else _) = _
  rw [if_pos (by
    rw [List.all_eq_true]
    intro s hs
    change s ∈ allSamples _ at hs
    rw [allSamples_wmap] at hs
    obtain ⟨t, ht, rfl⟩ := List.mem_map.mp hs
    simpa using (hw t ht).ne')]
  show Except.ok _ = Except.ok _
  congr 2
  rw [List.zipWith_map_left, zipWith_map_self, World.const_map, List.map_map]
  apply List.map_congr_left
  intro _ _
  funext i k
  dsimp only [Function.comp]
  rw [wVar_eq _ (by rw [allSamples_wmap, List.map_map]; exact h1), wMean_apply, list_sum_apply₂]
  simp only [allSamples_wmap, List.map_map]
  congr 1
  · congr 1
    apply List.map_congr_left
    intro s hs
    simp only [Function.comp, Complex.normSq_mul, Complex.normSq_conj,
      Complex.normSq_ofReal, Real.mul_self_sqrt (hw s hs).le]
    have := (hw s hs).ne'
    field_simp

theorem recover_eq' (world : World (ℝ × (ι → ℂ))) (h : ∀ r ∈ world, r ≠ []) (o : SObs ι)
    (ho : SObs.create world = .ok o) :
    o.recover = World.map (fun s => (s.1, if s.1 = 0 then none else some fun i =>
      (Real.sqrt s.1 : ℂ) * (s.2 i - wMean (allSamples world) i) / (Real.sqrt s.1 : ℂ)
        + wMean (allSamples world) i)) world := by
  rw [create_eq world h] at ho
  obtain rfl := Except.ok.inj ho
  unfold SObs.recover World.map
  dsimp only
  rw [List.zipWith_map_left, zipWith_map_self]
  apply List.map_congr_left
  intro rk hrk
  rw [List.map_map]
  apply List.map_congr_left
  intro dev hdev
  dsimp only [Function.comp]
  rw [List.map_map]
  rfl

theorem recover_eq (world : World (ℝ × (ι → ℂ))) (h : ∀ r ∈ world, r ≠ [])
    (hw : ∀ s ∈ allSamples world, 0 < s.1) (o : SObs ι) (ho : SObs.create world = .ok o) :
    o.recover = World.map (fun s => (s.1, some s.2)) world := by
  rw [recover_eq' world h o ho]
  apply World.map_congr
  intro s hs
  have hp := hw s hs
  have h0 : (Real.sqrt s.1 : ℂ) ≠ 0 := by exact_mod_cast (Real.sqrt_pos.mpr hp).ne'
  rw [if_neg hp.ne']
  congr 2
  funext i
  field_simp
  ring

theorem mapM_zipE (f : Option (ι → ℂ) → Option (κ → ℂ)) (world : World (ℝ × Option (ι → ℂ))) :
    List.mapM (fun rk => List.mapM (fun dev : List (ℝ × Option (ι → ℂ)) =>
      zipE (dev.map Prod.fst) ((dev.map Prod.snd).map f)) rk) world
      = .ok (World.map (fun s => (s.1, f s.2)) world) := by
  unfold World.map
  rw [mapM_ok _ (fun rk => rk.map fun dev => dev.map fun s => (s.1, f s.2))]
  intro rk _
  rw [mapM_ok _ (fun dev => dev.map fun s => (s.1, f s.2))]
  intro dev _
  rw [List.map_map]
  exact zipE_map _ _ dev

/-- C43: with positive weights, `transform(f)` is the object made of the samples `f(O_n)`, for every
function `f` of one observation. -/
theorem c43_transform_partial (world : World (ℝ × (ι → ℂ))) (h : ∀ r ∈ world, r ≠ [])
    (hw : ∀ s ∈ allSamples world, 0 < s.1) (f : (ι → ℂ) → (κ → ℂ)) :
    ∃ o o', SObs.create world = .ok o ∧
      o.transform (fun dev => dev.map fun x => x.map f) = .ok (some o') ∧
      SObs.create (world.map fun s => (s.1, f s.2)) = .ok o' := by
  refine ⟨_, _, create_eq world h, ?_, create_eq _ (World.map_ne _ _ h)⟩
  unfold SObs.transform
  rw [recover_eq world h hw _ (create_eq world h)]
  rw [mapM_zipE, World.map_map]
  change SObs.createNan _ = _
  apply createNan_some
  · intro s hs
    rw [allSamples_wmap] at hs
    obtain ⟨t, _, rfl⟩ := List.mem_map.mp hs
    rfl
  · rw [World.map_map, ← create_eq _ (World.map_ne _ _ h)]
    rfl

/-- The examples' joint data: one rank, one device, two samples, the second of which has weight `w`. -/
noncomputable def exampleJoint (w : ℝ) : World (ℝ × (Fin 1 → ℂ) × (Fin 1 → ℂ)) :=
  [[[(1 - w, fun _ => 1, fun _ => 2), (w, fun _ => 5, fun _ => Complex.I)]]]

example : (∀ r ∈ exampleJoint (1/4), r ≠ []) ∧ (∀ s ∈ allSamples (exampleJoint (1/4)), 0 < s.1) ∧
    ((allSamples (exampleJoint (1/4))).map fun s => s.1).sum = 1 := by
  refine ⟨by simp [exampleJoint], ?_, ?_⟩
  · simp only [allSamples, exampleJoint]
    norm_num
  · simp only [allSamples, exampleJoint]
    norm_num

/-- "Samples of zero weight do not matter" is false: one sample of zero weight turns `covar_data`,
`covar_var` and `transform` into NaN, for every data set and every other weight, although `mean`,
`covar` and `var` are unaffected by such a sample. -/
theorem c43_zero_weight_violated (joint : World (ℝ × (ι → ℂ) × (κ → ℂ))) (h : ∀ r ∈ joint, r ≠ [])
    (h0 : ∃ s ∈ allSamples joint, s.1 = 0) :
    ∃ a b, SObs.create (joint.map fun s => (s.1, s.2.1)) = .ok a ∧
      SObs.create (joint.map fun s => (s.1, s.2.2)) = .ok b ∧
      a.covarData b = .ok none ∧ a.covarVar b = .ok none ∧
      a.transform (fun dev => dev.map fun x => x.map fun y => y) = .ok none := by
  refine ⟨_, _, create_eq _ (World.map_ne _ _ h), create_eq _ (World.map_ne _ _ h), ?_, ?_, ?_⟩
  · unfold SObs.covarData
    dsimp only
    rw [World.map_map, World.map_map, zipWorld_map]
    change SObs.createNan _ = _
    rw [World.map_map]
    apply createNan_none _ (World.map_ne _ _ h)
    obtain ⟨s, hs, hs0⟩ := h0
    refine ⟨_, by rw [allSamples_wmap]; exact List.mem_map.mpr ⟨s, hs, rfl⟩, ?_⟩
    dsimp only
    rw [if_pos hs0]
  · unfold SObs.covarVar SObs.covar
    dsimp only
    rw [World.map_map, World.map_map, zipWorld_map]
    change Except.bind (globalSum _) _ = _
    rw [globalSum_dev _ _ (World.map_ne _ _ h)]
    change Except.bind (Except.bind (Except.ok _) _) _ = _
    change Except.bind (globalSum _) _ = _
    rw [globalSum_dev _ _ (World.map_ne _ _ h)]
    change (if _ then _ else _) = _
    rw [if_neg]
    · rfl
    · intro hall
      obtain ⟨s, hs, hs0⟩ := h0
      have hmem : ∀ (f : ℝ × (ι → ℂ) × (κ → ℂ) → (ℝ × (ι → ℂ)) × (ℝ × (κ → ℂ))),
          f s ∈ (World.map f joint).flatten.flatten := by
        intro f
        change f s ∈ allSamples (World.map f joint)
        rw [allSamples_wmap]
        exact List.mem_map.mpr ⟨s, hs, rfl⟩
      have := List.all_eq_true.mp hall _ (hmem _)
      simp [hs0] at this
  · unfold SObs.transform
    rw [recover_eq' _ (World.map_ne _ _ h) _ (create_eq _ (World.map_ne _ _ h)), mapM_zipE,
      World.map_map, World.map_map]
    change SObs.createNan _ = _
    apply createNan_none _ (World.map_ne _ _ h)
    obtain ⟨s, hs, hs0⟩ := h0
    refine ⟨_, by rw [allSamples_wmap]; exact List.mem_map.mpr ⟨s, hs, rfl⟩, ?_⟩
    dsimp only
    rw [if_pos hs0]
    rfl

example : ∃ s ∈ allSamples (exampleJoint 0), s.1 = 0 :=
  ⟨(0, fun _ => 5, fun _ => Complex.I), by simp [allSamples, exampleJoint], rfl⟩

/-! ## C67 -/

/-- C67: `select(ixs)` is the object made of the selected components of all observations, in the order
of the indices, with the same weights. -/
theorem c67_select (world : World (ℝ × (ι → ℂ))) (h : ∀ r ∈ world, r ≠ []) (ixs : κ → ι) :
    ∃ o, SObs.create world = .ok o ∧
      SObs.create (world.map fun s => (s.1, fun k => s.2 (ixs k))) = .ok (o.select ixs) := by
  refine ⟨_, create_eq world h, ?_⟩
  rw [create_eq _ (World.map_ne _ _ h)]
  have hm : wMean (allSamples (World.map (fun s : ℝ × (ι → ℂ) => (s.1, fun k => s.2 (ixs k))) world))
      = fun k => wMean (allSamples world) (ixs k) := by
    funext k
    rw [wMean_apply, wMean_apply, allSamples_wmap, List.map_map]
    rfl
  rw [hm]
  unfold SObs.select
  dsimp only
  rw [World.map_map, World.map_map, World.const_map, List.map_map]
  rfl

example := c67_select exampleWorld (by simp [exampleWorld]) ![(0 : Fin 1), 0]

/-- C67: `tangent_kernel()` is on every rank the Gram matrix of the weighted, centred observations of
all samples of all ranks, in rank, device, sample order. -/
theorem c67_tangent_kernel [Fintype ι] (world : World (ℝ × (ι → ℂ))) (h : ∀ r ∈ world, r ≠ []) :
    ∃ o, SObs.create world = .ok o ∧
      o.tangentKernel = List.map (fun _ => (allSamples world).map fun s => (allSamples world).map fun t =>
        ∑ i, (Real.sqrt s.1 : ℂ) * (s.2 i - wMean (allSamples world) i) *
          (starRingEnd ℂ) ((Real.sqrt t.1 : ℂ) * (t.2 i - wMean (allSamples world) i))) world := by
  refine ⟨_, create_eq world h, ?_⟩
  unfold SObs.tangentKernel gather
  dsimp only
  rw [World.map_map, World.const_map, List.map_map]
  apply List.map_congr_left
  intro _ _
  dsimp only [Function.comp]
  have hall : (List.map List.flatten (World.map (fun a : ℝ × (ι → ℂ) => fun i =>
      (Real.sqrt a.1 : ℂ) * (a.2 i - wMean (allSamples world) i)) world)).flatten
      = (allSamples world).map fun a i => (Real.sqrt a.1 : ℂ) * (a.2 i - wMean (allSamples world) i) := by
    rw [← allSamples_wmap]
    generalize World.map _ world = w
    unfold allSamples
    rw [List.flatten_flatten]
  rw [hall, List.map_map]
  apply List.map_congr_left
  intro s _
  dsimp only [Function.comp]
  rw [List.map_map]
  rfl

example := c67_tangent_kernel exampleWorld (by simp [exampleWorld])

/-- C67: `transform(nonLinearFun=f, linearFun=v)` on matrix-valued observations (as in
`covar_data(...)`) has the samples `v f(O_n)`. -/
theorem c67_linear_matrix_partial [Fintype ι] (world : World (ℝ × (ι × κ → ℂ))) (h : ∀ r ∈ world, r ≠ [])
    (hw : ∀ s ∈ allSamples world, 0 < s.1) (v : μ → ι → ℂ) (f : ℂ → ℂ) :
    ∃ o o', SObs.create world = .ok o ∧ o.transformLinear v f = .ok (some o') ∧
      SObs.create (world.map fun s => (s.1, fun mk : μ × κ => ∑ i, v mk.1 i * f (s.2 (i, mk.2))))
        = .ok o' :=
  c43_transform_partial world h hw _

/-- The transposed of a 2 x 2 observable, multiplied with a vector and its conjugate. -/
example := c67_linear_matrix_partial (ι := Fin 2) (κ := Fin 2) (μ := Fin 1)
  [[[((1 / 2 : ℝ), fun ik => if ik.1 = ik.2 then (1 : ℂ) else Complex.I)]], [[(1 / 4, fun _ => 2)], [(1 / 4, fun _ => 3)]]]
  (by simp) (by simp [allSamples]) (fun _ i => if i = 0 then 1 else Complex.I) (starRingEnd ℂ)

/-- For vector-valued observations `transform(linearFun=v)` contracts `v` with the sample axis instead:
with a `d × d` matrix it raises whenever some device holds a number of samples other than `d`. -/
theorem c67_linear_vector_violated (world : World (ℝ × (ι → ℂ))) (h : ∀ r ∈ world, r ≠ [])
    (v : List (List ℂ)) (hv : v ≠ []) (d : ℕ) (hd : ∀ row ∈ v, row.length = d)
    (hn : ∀ rk ∈ world, ∀ dev ∈ rk, List.length dev ≠ d) (h0 : world ≠ []) :
    ∃ o, SObs.create world = .ok o ∧ o.transformLinearVec v = .error .typeError := by
  refine ⟨_, create_eq world h, ?_⟩
  unfold SObs.transformLinearVec
  rw [recover_eq' world h _ (create_eq world h)]
  obtain ⟨rk, world', rfl⟩ := List.exists_cons_of_ne_nil h0
  obtain ⟨dev, rk', rfl⟩ := List.exists_cons_of_ne_nil (h rk List.mem_cons_self)
  have hne := hn (dev :: rk') List.mem_cons_self dev List.mem_cons_self
  unfold World.map
  rw [List.map_cons, List.map_cons, List.mapM_cons, List.mapM_cons, if_neg]
  · rfl
  · intro hall
    obtain ⟨row, v', rfl⟩ := List.exists_cons_of_ne_nil hv
    have h1 := hall row List.mem_cons_self
    rw [List.length_map, hd row List.mem_cons_self] at h1
    exact hne h1.symm

/-- Two samples with two components on one device. -/
noncomputable def exampleVec : World (ℝ × (Fin 2 → ℂ)) :=
  [[[(1/2, ![1, 0]), (1/2, ![0, 0])]]]

/-- If the numbers agree, no error is raised and the samples are mixed: exchanging the two components
should turn the mean `(1/2, 0)` into `(0, 1/2)`, but the samples are exchanged and the mean stays. -/
theorem c67_linear_vector_mixes_samples : ∃ o o', SObs.create exampleVec = .ok o ∧
    o.transformLinearVec [[0, 1], [1, 0]] = .ok (some o') ∧
    o.mean = [![1/2, 0]] ∧ o'.mean = [![1/2, 0]] := by
  have hne : ∀ r ∈ exampleVec, r ≠ [] := by simp [exampleVec]
  have hpos : ∀ s ∈ allSamples exampleVec, 0 < s.1 := by simp [allSamples, exampleVec]
  obtain ⟨o', ho', hm'⟩ := c41_mean ([[[((1/2 : ℝ), (![0, 0] : Fin 2 → ℂ)), ((1/2 : ℝ), ![1, 0])]]])
    (by simp)
  refine ⟨_, o', create_eq exampleVec hne, ?_, ?_, ?_⟩
  rotate_left
  · simp only [exampleVec, List.map_cons, List.map_nil, List.cons.injEq, and_true]
    funext i
    rw [wMean_apply]
    fin_cases i <;> simp [allSamples]
  rotate_left
  · unfold SObs.transformLinearVec
    rw [recover_eq exampleVec hne hpos _ (create_eq exampleVec hne)]
    have hM : (List.mapM (fun rk => List.mapM (fun dev : List (ℝ × Option (Fin 2 → ℂ)) => do
        if ∀ row ∈ ([[0, 1], [1, 0]] : List (List ℂ)), row.length = dev.length then
          zipE (dev.map Prod.fst) (([[0, 1], [1, 0]] : List (List ℂ)).map fun row =>
            if dev.all fun s => s.2.isSome then
              some fun i => (List.zipWith (fun c (s : ℝ × Option (Fin 2 → ℂ)) =>
                c * (s.2.getD fun _ => 0) i) row dev).sum
            else none)
        else .error .typeError) rk) (World.map (fun s => (s.1, some s.2)) exampleVec))
        = .ok [[[((1/2 : ℝ), some (![0, 0] : Fin 2 → ℂ)), ((1/2 : ℝ), some ![1, 0])]]] := by
      simp only [World.map, exampleVec, List.map_cons, List.map_nil, List.mapM_cons, List.mapM_nil]
      rw [if_pos (by simp)]
      have hf : (fun i => (List.zipWith (fun c (s : ℝ × Option (Fin 2 → ℂ)) =>
          c * (s.2.getD fun _ => 0) i) [(0 : ℂ), 1] [((1/2 : ℝ), some (![1, 0] : Fin 2 → ℂ)),
            ((1/2 : ℝ), some ![0, 0])]).sum) = ![0, 0] := by
        funext i; fin_cases i <;> simp
      have hg : (fun i => (List.zipWith (fun c (s : ℝ × Option (Fin 2 → ℂ)) =>
          c * (s.2.getD fun _ => 0) i) [(1 : ℂ), 0] [((1/2 : ℝ), some (![1, 0] : Fin 2 → ℂ)),
            ((1/2 : ℝ), some ![0, 0])]).sum) = ![1, 0] := by
        funext i; fin_cases i <;> simp
      rw [if_pos (by simp), if_pos (by simp), hf, hg]
      rfl
    rw [hM]
    exact createNan_some [[[((1/2 : ℝ), some (![0, 0] : Fin 2 → ℂ)), ((1/2 : ℝ), some ![1, 0])]]] o'
      (by simp [allSamples]) (by simpa [World.map] using ho')
  · rw [hm']
    simp only [List.map_cons, List.map_nil, List.cons.injEq, and_true]
    funext i
    rw [wMean_apply]
    fin_cases i <;> simp [allSamples]

end JVMC
