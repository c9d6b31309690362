import Verif.Model.MinsrRounding
import Verif.Spec.MinsrRounding
import Verif.Props.CovarRounding
import Verif.Props.MinSR

/-! # Lemmas for C139 -/

namespace JVMC

open Spec

variable {r : Rounding} {n : ℕ}

/-- `d` differs from `x` by at most `D - s`, where `s` bounds the size of `x` and hence `D` that of `d`. -/
structure Enclosed (x : ℂ) (s D : ℝ) (d : ℂ) : Prop where
  err : ‖d - x‖ ≤ D - s
  size : ‖x‖ ≤ s

theorem Enclosed.upper {x d : ℂ} {s D : ℝ} (h : Enclosed x s D d) : ‖d‖ ≤ D := by
  have h1 : ‖d‖ ≤ ‖d - x‖ + ‖x‖ := by simpa using norm_add_le (d - x) x
  linarith [h.err, h.size]

theorem Enclosed.conj {x d : ℂ} {s D : ℝ} (h : Enclosed x s D d) :
    Enclosed ((starRingEnd ℂ) x) s D ((starRingEnd ℂ) d) := by
  refine ⟨?_, ?_⟩
  · rw [← map_sub, RCLike.norm_conj]
    exact h.err
  · rw [RCLike.norm_conj]
    exact h.size

theorem Enclosed.neg {x d : ℂ} {s D : ℝ} (h : Enclosed x s D d) : Enclosed (-x) s D (-d) := by
  refine ⟨?_, ?_⟩
  · rw [neg_sub_neg, norm_sub_rev]
    exact h.err
  · rw [norm_neg]
    exact h.size

theorem Enclosed.exact (x : ℂ) : Enclosed x ‖x‖ ‖x‖ x := ⟨by simp, le_rfl⟩

theorem Enclosed.mul {x d y e : ℂ} {s D t F : ℝ} (h : Enclosed x s D d) (h' : Enclosed y t F e) :
    Enclosed (x * y) (s * t) (D * F) (d * e) := by
  have hs : 0 ≤ s := (norm_nonneg _).trans h.size
  refine ⟨?_, ?_⟩
  · have e1 : d * e - x * y = (d - x) * e + x * (e - y) := by ring
    rw [e1]
    refine (norm_add_le _ _).trans ?_
    rw [norm_mul, norm_mul]
    have h1 : ‖d - x‖ * ‖e‖ ≤ (D - s) * F := mul_le_mul h.err h'.upper (norm_nonneg _) ((norm_nonneg _).trans h.err)
    have h2 : ‖x‖ * ‖e - y‖ ≤ s * (F - t) := mul_le_mul h.size h'.err (norm_nonneg _) hs
    nlinarith
  · rw [norm_mul]
    exact mul_le_mul h.size h'.size (norm_nonneg _) hs

theorem dotR_global {dev : List (ℝ × ℝ)} {v : ℝ} (h : DotR r dev v) : GlobalMeanR r [[dev]] v :=
  ⟨[[[v]]], .cons (.cons ⟨v, h, rfl⟩ .nil) .nil, [v],
    .cons ⟨[v], by simp, .cons (.one v) .nil, .one v⟩ .nil, .one v⟩

theorem cdot_err {l : List (ℂ × ℂ)} {v : ℂ} (h : CDotR r l v) {N : ℕ} (hl : l.length ≤ N) (hN : 1 ≤ N) :
    ‖v - (l.map fun s => s.1 * s.2).sum‖ ≤ 2 * ((1 + r.u) ^ (2 * N) - 1) * (l.map fun s => ‖s.1‖ * ‖s.2‖).sum := by
  have hp := products_err (r := r) (fun s : ℂ × ℂ => (starRingEnd ℂ) s.1) (fun s => s.2) (z := [[l]]) (v := v)
    (by
      have := dotR_global h.1
      simpa [reProducts] using this)
    (by
      have := dotR_global h.2
      simpa [imProducts] using this) (n := N) (d := 1) (k := 1)
    ⟨by simpa using hl, by simp, by simp, hN, le_rfl, le_rfl⟩
  simpa [everything] using hp

theorem enclosed_dot {N : ℕ} (hN : 1 ≤ N) {x y d e : Fin N → ℂ} {s D t F : Fin N → ℝ}
    (h : ∀ i, Enclosed (x i) (s i) (D i) (d i)) (h' : ∀ i, Enclosed (y i) (t i) (F i) (e i)) {v : ℂ}
    (hv : CDotR r (List.ofFn fun i => (d i, e i)) v) :
    Enclosed (∑ i, x i * y i) (∑ i, s i * t i) (dotFactor r.u N * ∑ i, D i * F i) v := by
  have h1 := cdot_err hv (N := N) (by simp) hN
  rw [List.map_ofFn, List.map_ofFn, List.sum_ofFn, List.sum_ofFn] at h1
  simp only [Function.comp_def] at h1
  have hm := fun i => (h i).mul (h' i)
  have h2 : ‖∑ i, d i * e i - ∑ i, x i * y i‖ ≤ ∑ i, D i * F i - ∑ i, s i * t i := by
    rw [← Finset.sum_sub_distrib, ← Finset.sum_sub_distrib]
    exact (norm_sum_le _ _).trans (Finset.sum_le_sum fun i _ => (hm i).err)
  have h3 : ∑ i, ‖d i‖ * ‖e i‖ ≤ ∑ i, D i * F i := by
    refine Finset.sum_le_sum fun i _ => ?_
    rw [← norm_mul]
    exact (hm i).upper
  have hg : 0 ≤ 2 * ((1 + r.u) ^ (2 * N) - 1) := by linarith [one_le_pow₀ (one_le_hi r) (n := 2 * N)]
  refine ⟨?_, (norm_sum_le _ _).trans (Finset.sum_le_sum fun i _ => (hm i).size)⟩
  have h4 : v - ∑ i, x i * y i = (v - ∑ i, d i * e i) + (∑ i, d i * e i - ∑ i, x i * y i) := by ring
  rw [h4]
  refine (norm_add_le _ _).trans ((add_le_add (h1.trans (mul_le_mul_of_nonneg_left h3 hg)) h2).trans (le_of_eq ?_))
  unfold dotFactor
  ring

theorem cdot_exists (r : Rounding) (l : List (ℂ × ℂ)) : ∃ v, CDotR r l v := by
  obtain ⟨a, ha⟩ := dotR_exists r (l.flatMap fun s => [(s.1.re, s.2.re), (-s.1.im, s.2.im)])
  obtain ⟨b, hb⟩ := dotR_exists r (l.flatMap fun s => [(s.1.re, s.2.im), (s.1.im, s.2.re)])
  exact ⟨⟨a, b⟩, ha, hb⟩

/-- The prepared numbers of an object, sample by sample. -/
theorem gathered_near {ι A : Type} {joint : World A} {f : A → ℝ × (ι → ℂ)} {o : SObs ι} (h : SampledObsR r (joint.map f) o)
    {m d k : ℕ} (hw : AtMost m d k joint) (hp : ∀ s ∈ allSamples joint, 0 ≤ (f s).1) :
    (gatheredRows o).length = (allSamples joint).length ∧ ∀ (a : Fin (allSamples joint).length) (i : ι),
      ∃ μ, ‖μ - wMean ((allSamples joint).map f) i‖ ≤
          ((1 + r.u) ^ (m + d + k - 2) - 1) * size ((allSamples joint).map f) i ∧
        DataPrepR r (f (allSamples joint)[a]).1 ((f (allSamples joint)[a]).2 i) μ (gatheredAt o a i) := by
  have hall : allSamples (joint.map f) = (allSamples joint).map f := allSamples_wmap _ _
  have h1 := sampledObs_near h (n := m) (d := d) (k := k) (atMost_map _ hw) (by
    rw [hall]
    intro s hs
    obtain ⟨t, ht, rfl⟩ := List.mem_map.1 hs
    exact hp t ht)
  rw [hall] at h1
  have h2 := rel3_flat h1
  have h3 : everything (joint.map f) = (allSamples joint).map f := hall
  rw [h3] at h2
  have hlen := h2.length_eq
  rw [List.length_map] at hlen
  refine ⟨?_, fun a i => ?_⟩
  · unfold gatheredRows
    rw [List.length_map]
    exact hlen.symm
  · have h4 := List.forall₂_iff_get.1 h2
    have ha : a.val < (everything o.rows).length := hlen ▸ a.isLt
    have h5 := (h4.2 a.val (by simp) ha).2 i
    have h6 : gatheredAt o a i = ((everything o.rows).get ⟨a.val, ha⟩).2 i := by
      unfold gatheredAt gatheredRows
      rw [List.getD_eq_getElem?_getD, List.getElem?_map]
      have e : (List.flatten (List.flatten o.rows))[a.val]? = some ((everything o.rows).get ⟨a.val, ha⟩) :=
        List.getElem?_eq_getElem ha
      rw [e]
      rfl
    rw [h6]
    simpa using h5

theorem gathered_length {ι A : Type} (w : World A) (f : A → ℝ × (ι → ℂ)) (ms : List (ι → ℂ)) :
    (gatheredRows ⟨w.map f, ms⟩).length = (allSamples w).length := by
  have h : List.flatten (List.flatten (w.map f)) = (allSamples w).map f := allSamples_wmap _ _
  unfold gatheredRows
  rw [h, List.length_map, List.length_map]

theorem grad_enclosed {joint : World (ℝ × (Fin 1 → ℂ) × (Fin (n + 1) → ℂ))} {gradients : SObs (Fin (n + 1))}
    (h : SampledObsR r (joint.map fun s => (s.1, s.2.2)) gradients) {m d k : ℕ} (hw : AtMost m d k joint)
    (hp : ∀ s ∈ allSamples joint, 0 ≤ s.1) (a : Fin (allSamples joint).length) (i : Fin (n + 1)) :
    Enclosed (sampleX (allSamples joint) a i) (gradSize (allSamples joint) a i)
      (gradUpper r.u (m + d + k - 2) (allSamples joint) a i) (gatheredAt gradients a i) := by
  have h1 := prep_bounds ((gathered_near h hw hp).2 a i)
  refine ⟨h1.1.trans (le_of_eq ?_), le_of_eq ?_⟩
  · unfold gradUpper gradSize dGrad
    ring
  · unfold sampleX gradSize
    rw [Matrix.of_apply, norm_mul, Complex.norm_real, Real.norm_of_nonneg (Real.sqrt_nonneg _)]

theorem eloc_enclosed {joint : World (ℝ × (Fin 1 → ℂ) × (Fin (n + 1) → ℂ))} {eloc : SObs (Fin 1)}
    (h : SampledObsR r (joint.map fun s => (s.1, s.2.1)) eloc) {m d k : ℕ} (hw : AtMost m d k joint)
    (hp : ∀ s ∈ allSamples joint, 0 ≤ s.1) (a : Fin (allSamples joint).length) :
    Enclosed (sampleE (allSamples joint) a) (elocSize (allSamples joint) a)
      (elocUpper r.u (m + d + k - 2) (allSamples joint) a) (gatheredAt eloc a 0) := by
  have h1 := prep_bounds ((gathered_near h hw hp).2 a 0)
  refine ⟨h1.1.trans (le_of_eq ?_), le_of_eq ?_⟩
  · unfold elocUpper elocSize dEloc
    ring
  · unfold sampleE elocSize
    rw [norm_mul, Complex.norm_real, Real.norm_of_nonneg (Real.sqrt_nonneg _)]

end JVMC
