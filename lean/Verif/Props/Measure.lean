import Mathlib.Tactic.LinearCombination
import Mathlib.Tactic.Linarith
import Verif.Model.Measure
import Verif.Props.Mpi
import Verif.Props.Povm
import Verif.Props.Stats
import Verif.Spec.Povm
import Verif.Spec.Samples

/-!
# C62: `measure` and `measure_povm`; C69: POVM observables and correlators
-/

namespace JVMC

open Spec Matrix

/-! ## C62 -/

theorem single_ne {A : Type} (world : World A) (h : ∀ r ∈ world, r.length = 1) :
    ∀ r ∈ world, r ≠ [] := by
  intro r hr he
  have := h r hr
  rw [he] at this
  simp at this

theorem wVar_nonneg' (l : List (ℝ × (Fin 1 → ℂ))) (hw : ∀ s ∈ l, 0 ≤ s.1) (k : Fin 1) :
    0 ≤ wVar l k := by
  unfold wVar
  apply List.sum_nonneg
  intro x hx
  obtain ⟨s, hs, rfl⟩ := List.mem_map.mp hx
  exact mul_nonneg (hw s hs) (Complex.normSq_nonneg _)

/-- C62: with one device per rank, `measure` reports on every rank the weighted mean and variance of
the local estimator over all samples, and the error `√(variance / number of samples)`.
Missing: several devices per rank, where the variance is wrong (`c62_measure_violated`). -/
theorem c62_measure_partial (world : World (ℝ × (Fin 1 → ℂ))) (h : ∀ r ∈ world, r.length = 1)
    (hw : ∀ s ∈ allSamples world, 0 ≤ s.1) (n : ℕ) :
    ∃ res, measureOne (some n) world = .ok res ∧ res.length = List.length world ∧
      ∀ r ∈ res, r.mean = (wMean (allSamples world) 0).re ∧
        r.variance = wVar (allSamples world) 0 ∧
        r.mcError = Real.sqrt (wVar (allSamples world) 0 / n) := by
  refine ⟨List.map (fun _ => ⟨(wMean (allSamples world) 0).re, wVar (allSamples world) 0,
    Real.sqrt (wVar (allSamples world) 0) / Real.sqrt n⟩) world, ?_, by simp, ?_⟩
  · unfold measureOne
    rw [globalMean_eq world (single_ne world h), c04_global_variance_partial world h]
    change Except.ok _ = Except.ok _
    rw [List.zipWith_map_left, List.zipWith_map_right, List.zipWith_self]
    rfl
  · intro r hr
    obtain ⟨_, _, rfl⟩ := List.mem_map.mp hr
    refine ⟨rfl, rfl, ?_⟩
    rw [Real.sqrt_div (wVar_nonneg' _ hw _)]

/-- C62: exact sampling reports no statistical error. -/
theorem c62_measure_exact (world : World (ℝ × (Fin 1 → ℂ))) (h : ∀ r ∈ world, r.length = 1) :
    ∃ res, measureOne none world = .ok res ∧
      ∀ r ∈ res, r.mean = (wMean (allSamples world) 0).re ∧
        r.variance = wVar (allSamples world) 0 ∧ r.mcError = 0 := by
  refine ⟨List.map (fun _ => ⟨(wMean (allSamples world) 0).re, wVar (allSamples world) 0, 0⟩) world,
    ?_, ?_⟩
  · unfold measureOne
    rw [globalMean_eq world (single_ne world h), c04_global_variance_partial world h]
    change Except.ok _ = Except.ok _
    rw [List.zipWith_map_left, List.zipWith_map_right, List.zipWith_self]
    rfl
  · intro r hr
    obtain ⟨_, _, rfl⟩ := List.mem_map.mp hr
    exact ⟨rfl, rfl, rfl⟩

/-- Two ranks with one device each; values 3 and 5 (two samples). -/
noncomputable def measWorld : World (ℝ × (Fin 1 → ℂ)) :=
  [[[((1 / 2 : ℝ), fun _ => (1 : ℂ))]], [[((1 / 2 : ℝ), fun _ => (5 : ℂ))]]]

theorem measWorld_var : wVar (allSamples measWorld) 0 = 4 := by
  simp [wVar, measWorld, allSamples, wMean, Complex.normSq_apply]; norm_num

example : (∀ r ∈ measWorld, r.length = 1) ∧ (∀ s ∈ allSamples measWorld, 0 ≤ s.1) :=
  ⟨by simp [measWorld], by simp [measWorld, allSamples]⟩

/-- C62 is violated by `measure` on one rank with two devices: variance and error are those of half
the data. -/
theorem c62_measure_violated :
    let world : World (ℝ × (Fin 1 → ℂ)) :=
      [[[((1 / 2 : ℝ), fun _ => 0)], [((1 / 2 : ℝ), fun _ => 2)]]]
    (∃ r, measureOne (some 2) world = .ok [r] ∧ r.variance = 1 / 2 ∧ r.mcError = 1 / 2) ∧
      wVar (allSamples world) 0 = 1 ∧
      Real.sqrt (wVar (allSamples world) 0 / (2 : ℕ)) ≠ 1 / 2 := by
  intro world
  obtain ⟨hv, hv1⟩ := c04_violated
  refine ⟨?_, hv1, ?_⟩
  · refine ⟨⟨(wMean (allSamples world) 0).re, ((1 / 2 : ℂ)).re,
      Real.sqrt ((1 / 2 : ℂ)).re / Real.sqrt (2 : ℕ)⟩, ?_, ?_, ?_⟩
    · unfold measureOne
      rw [globalMean_eq world (by simp [world])]
      have hv' : globalVariance world = .ok [fun _ => 1 / 2] := hv
      rw [hv']
      rfl
    · norm_num
    · have : ((1 / 2 : ℂ)).re = 1 / 2 := by norm_num
      simp only [this]
      rw [← Real.sqrt_div (by norm_num)]
      rw [show ((1:ℝ) / 2 / ((2 : ℕ) : ℝ)) = (1 / 2) ^ 2 by norm_num, Real.sqrt_sq (by norm_num)]
  · rw [hv1]
    intro h
    have := Real.sq_sqrt (show (0 : ℝ) ≤ 1 / (2 : ℕ) by positivity)
    rw [h] at this
    norm_num at this

theorem povm_zip (world w : World (ℝ × (Fin 1 → ℂ))) (hc : List.length w = List.length world) :
    List.zip (List.map (fun _ => wMean (allSamples w)) w)
      (List.map (fun _ => fun k => ((wVar (allSamples w) k : ℝ) : ℂ)) w)
      = List.map (fun _ => (wMean (allSamples w), fun k => ((wVar (allSamples w) k : ℝ) : ℂ)))
        world := by
  rw [List.zip_map', List.map_const', List.map_const', hc]

/-- C62: with one device per rank, `measure_povm` reports the weighted mean and variance of every
observable and of its correlators (connected, i.e. minus the squared mean of the observable).
Missing: the Monte-Carlo error, which is not `√(variance / n)` (`c62_povm_error_violated`), and
several devices per rank. -/
theorem c62_povm_moments_partial (n : Option ℕ) (world : World (ℝ × (Fin 1 → ℂ)))
    (corrs : List (World (ℝ × (Fin 1 → ℂ)))) (h : ∀ r ∈ world, r.length = 1)
    (hc : ∀ w ∈ corrs, List.length w = List.length world ∧ ∀ r ∈ w, r.length = 1) :
    ∃ res cs, measurePovm n world corrs = .ok (res, cs) ∧ res.length = List.length world ∧
      (∀ r ∈ res, r.mean = (wMean (allSamples world) 0).re ∧
        r.variance = wVar (allSamples world) 0) ∧
      List.Forall₂ (fun w c => c.length = List.length world ∧
        ∀ r ∈ c, r.mean = (wMean (allSamples w) 0).re - (wMean (allSamples world) 0).re ^ 2 ∧
          r.variance = wVar (allSamples w) 0) corrs cs := by
  have hm : corrs.mapM (m := Except PyErr) (fun w => do
      let cm ← globalMean w
      let cv ← globalVariance w
      return List.zipWith (fun (r : MeasResult) (x : (Fin 1 → ℂ) × (Fin 1 → ℂ)) =>
        (⟨(x.1 0).re - r.mean ^ 2, (x.2 0).re, divSqrtN r.variance n⟩ : MeasResult))
        (List.map (fun _ => ⟨(wMean (allSamples world) 0).re, wVar (allSamples world) 0,
          divSqrtN (wVar (allSamples world) 0) n⟩) world) (cm.zip cv)) = .ok (corrs.map fun w =>
      List.map (fun _ => ⟨(wMean (allSamples w) 0).re - (wMean (allSamples world) 0).re ^ 2,
        wVar (allSamples w) 0, divSqrtN (wVar (allSamples world) 0) n⟩) world) := by
    apply mapM_ok
    intro w hw
    rw [globalMean_eq w (single_ne w (hc w hw).2), c04_global_variance_partial w (hc w hw).2]
    change Except.ok _ = Except.ok _
    rw [povm_zip world w (hc w hw).1, List.zipWith_map_left, List.zipWith_map_right, List.zipWith_self]
    rfl
  refine ⟨List.map (fun _ => ⟨(wMean (allSamples world) 0).re, wVar (allSamples world) 0,
    divSqrtN (wVar (allSamples world) 0) n⟩) world, corrs.map fun w =>
      List.map (fun _ => ⟨(wMean (allSamples w) 0).re - (wMean (allSamples world) 0).re ^ 2,
        wVar (allSamples w) 0, divSqrtN (wVar (allSamples world) 0) n⟩) world, ?_, by simp, ?_, ?_⟩
  · unfold measurePovm
    rw [globalMean_eq world (single_ne world h), c04_global_variance_partial world h]
    have e : List.zipWith (fun (m v : Fin 1 → ℂ) =>
        (⟨(m 0).re, (v 0).re, divSqrtN (v 0).re n⟩ : MeasResult))
        (List.map (fun _ => wMean (allSamples world)) world)
        (List.map (fun _ => fun k => ((wVar (allSamples world) k : ℝ) : ℂ)) world)
        = List.map (fun _ => ⟨(wMean (allSamples world) 0).re, wVar (allSamples world) 0,
          divSqrtN (wVar (allSamples world) 0) n⟩) world := by
      rw [List.zipWith_map_left, List.zipWith_map_right, List.zipWith_self]
      rfl
    change Except.bind (List.mapM _ corrs) _ = _
    simp only [e]
    rw [hm]
    rfl
  · intro r hr
    obtain ⟨_, _, rfl⟩ := List.mem_map.mp hr
    exact ⟨rfl, rfl⟩
  · rw [List.forall₂_map_right_iff, List.forall₂_same]
    intro w _
    refine ⟨by simp, ?_⟩
    intro r hr
    obtain ⟨_, _, rfl⟩ := List.mem_map.mp hr
    exact ⟨rfl, rfl⟩

example : (∀ r ∈ measWorld, r.length = 1) ∧ ∀ w ∈ [measWorld],
    List.length w = List.length measWorld ∧ ∀ r ∈ w, r.length = 1 := by
  simp [measWorld]

/-- C62 is violated by `measure_povm`: for every data set on one device per rank, the reported error
is `variance / √n`, which is `√(variance / n)` only if the variance is 0 or 1; and the error reported
for a correlator is that of the observable, whatever the fluctuations of the correlator. -/
theorem c62_povm_error_violated (n : ℕ) (hn : 0 < n) (world : World (ℝ × (Fin 1 → ℂ)))
    (corrs : List (World (ℝ × (Fin 1 → ℂ)))) (h : ∀ r ∈ world, r.length = 1)
    (hw : ∀ s ∈ allSamples world, 0 ≤ s.1)
    (hc : ∀ w ∈ corrs, List.length w = List.length world ∧ ∀ r ∈ w, r.length = 1)
    (res : List MeasResult) (cs : List (List MeasResult))
    (hres : measurePovm (some n) world corrs = .ok (res, cs)) :
    (∀ r ∈ res, r.mcError = wVar (allSamples world) 0 / Real.sqrt n ∧
      (r.mcError = Real.sqrt (wVar (allSamples world) 0 / n) ↔
        wVar (allSamples world) 0 = 0 ∨ wVar (allSamples world) 0 = 1)) ∧
    ∀ c ∈ cs, ∀ r ∈ c, r.mcError = wVar (allSamples world) 0 / Real.sqrt n := by
  unfold measurePovm at hres
  rw [globalMean_eq world (single_ne world h), c04_global_variance_partial world h] at hres
  have e : List.zipWith (fun (m v : Fin 1 → ℂ) =>
      (⟨(m 0).re, (v 0).re, divSqrtN (v 0).re (some n)⟩ : MeasResult))
      (List.map (fun _ => wMean (allSamples world)) world)
      (List.map (fun _ => fun k => ((wVar (allSamples world) k : ℝ) : ℂ)) world)
      = List.map (fun _ => ⟨(wMean (allSamples world) 0).re, wVar (allSamples world) 0,
        divSqrtN (wVar (allSamples world) 0) (some n)⟩) world := by
    rw [List.zipWith_map_left, List.zipWith_map_right, List.zipWith_self]
    rfl
  change Except.bind (List.mapM _ corrs) _ = _ at hres
  simp only [e] at hres
  have hm : corrs.mapM (m := Except PyErr) (fun w => do
      let cm ← globalMean w
      let cv ← globalVariance w
      return List.zipWith (fun (r : MeasResult) (x : (Fin 1 → ℂ) × (Fin 1 → ℂ)) =>
        (⟨(x.1 0).re - r.mean ^ 2, (x.2 0).re, divSqrtN r.variance (some n)⟩ : MeasResult))
        (List.map (fun _ => ⟨(wMean (allSamples world) 0).re, wVar (allSamples world) 0,
          divSqrtN (wVar (allSamples world) 0) (some n)⟩) world) (cm.zip cv)) = .ok (corrs.map fun w =>
      List.map (fun _ => ⟨(wMean (allSamples w) 0).re - (wMean (allSamples world) 0).re ^ 2,
        wVar (allSamples w) 0, divSqrtN (wVar (allSamples world) 0) (some n)⟩) world) := by
    apply mapM_ok
    intro w hw
    rw [globalMean_eq w (single_ne w (hc w hw).2), c04_global_variance_partial w (hc w hw).2]
    change Except.ok _ = Except.ok _
    rw [povm_zip world w (hc w hw).1, List.zipWith_map_left, List.zipWith_map_right, List.zipWith_self]
    rfl
  rw [hm] at hres
  change Except.ok _ = Except.ok _ at hres
  simp only [Except.ok.injEq, Prod.mk.injEq] at hres
  obtain ⟨rfl, rfl⟩ := hres
  have hn0 : (0 : ℝ) < Real.sqrt n := Real.sqrt_pos.mpr (by exact_mod_cast hn)
  constructor
  · intro r hr
    obtain ⟨_, _, rfl⟩ := List.mem_map.mp hr
    refine ⟨rfl, ?_⟩
    change wVar (allSamples world) 0 / Real.sqrt n = _ ↔ _
    have hv := wVar_nonneg' (allSamples world) hw 0
    rw [Real.sqrt_div hv, div_left_inj' hn0.ne']
    generalize wVar (allSamples world) 0 = v at hv
    constructor
    · intro h1
      have h2 := Real.mul_self_sqrt hv
      rw [← h1] at h2
      have h3 : v * (v - 1) = 0 := by linear_combination h2
      rcases mul_eq_zero.mp h3 with h4 | h4
      · exact Or.inl h4
      · exact Or.inr (by linarith)
    · rintro (rfl | rfl) <;> simp
  · intro c hcs r hr
    obtain ⟨w, _, rfl⟩ := List.mem_map.mp hcs
    obtain ⟨_, _, rfl⟩ := List.mem_map.mp hr
    rfl

/-- The data set of the examples has variance 4: the reported error is twice the right one. -/
example : wVar (allSamples measWorld) 0 ≠ 0 ∧ wVar (allSamples measWorld) 0 ≠ 1 ∧
    ∃ res, measurePovm (some 2) measWorld [measWorld] = .ok res := by
  rw [measWorld_var]
  obtain ⟨res, cs, h, _⟩ := c62_povm_moments_partial (some 2) measWorld [measWorld]
    (by simp [measWorld]) (by simp [measWorld])
  exact ⟨by norm_num, by norm_num, _, h⟩

end JVMC
