import Mathlib.Algebra.BigOperators.Intervals
import Mathlib.Tactic.Ring
import Mathlib.Tactic.Linarith
import Verif.Model.Mpi
import Verif.Spec.Samples

/-! Helper lemmas for `Props/Mpi.lean`. -/

namespace JVMC

theorem sum_spp_prefix (commSize N r : ℕ) (hr : r ≤ commSize) (h : 0 < commSize) :
    ∑ k ∈ Finset.range r, samplesPerProcess commSize k N = firstSampleId commSize r N := by
  induction r with
  | zero => simp only [firstSampleId, Finset.range_zero, Finset.sum_empty]; split_ifs <;> omega
  | succ r ih =>
    rw [Finset.sum_range_succ, ih (by omega)]
    have hm := Nat.mod_lt N h
    simp only [firstSampleId, samplesPerProcess]
    have : (r + 1) * (N / commSize) = r * (N / commSize) + N / commSize := by ring
    split_ifs <;> omega

theorem firstSampleId_top (commSize N : ℕ) (h : 0 < commSize) :
    firstSampleId commSize commSize N = N := by
  have hm := Nat.mod_lt N h
  have hd := Nat.div_add_mod N commSize
  simp only [firstSampleId]
  split_ifs <;> omega

theorem sum_spp (commSize N : ℕ) (h : 0 < commSize) :
    ∑ k ∈ Finset.range commSize, samplesPerProcess commSize k N = N := by
  rw [sum_spp_prefix commSize N commSize le_rfl h, firstSampleId_top commSize N h]

theorem spc_bounds (c s : ℕ) (hc : 0 < c) :
    s ≤ samplesPerChain c s * c ∧ samplesPerChain c s * c < s + c := by
  unfold samplesPerChain
  have h1 := Nat.div_add_mod (s + c - 1) c
  have h2 := Nat.mod_lt (s + c - 1) hc
  have h3 : c * ((s + c - 1) / c) = (s + c - 1) / c * c := Nat.mul_comm _ _
  omega

theorem sum_if_lt (f : ℕ → ℕ) (q a n : ℕ) (ha : a ≤ n) :
    ∑ r ∈ Finset.range n, f (q + if r < a then 1 else 0) = a * f (1 + q) + (n - a) * f q := by
  obtain ⟨b, rfl⟩ := Nat.exists_eq_add_of_le ha
  rw [Finset.sum_range_add]
  have h1 : ∀ r ∈ Finset.range a, f (q + if r < a then 1 else 0) = f (1 + q) := by
    intro r hr
    rw [if_pos (Finset.mem_range.mp hr), Nat.add_comm]
  have h2 : ∀ r ∈ Finset.range b, f (q + if a + r < a then 1 else 0) = f q := by
    intro r _
    simp
  rw [Finset.sum_congr rfl h1, Finset.sum_congr rfl h2]
  simp

theorem flatMap_range' (f : ℕ → ℕ) (n : ℕ) :
    (List.range n).flatMap (fun r => List.range' (∑ k ∈ Finset.range r, f k) (f r))
      = List.range (∑ k ∈ Finset.range n, f k) := by
  induction n with
  | zero => simp
  | succ n ih =>
    rw [List.range_succ, List.flatMap_append, ih, Finset.sum_range_succ]
    have h := @List.range'_append_1 0 (∑ k ∈ Finset.range n, f k) (f n)
    simp only [List.range_eq_range', List.flatMap_cons, List.flatMap_nil, List.append_nil]
    simpa using h

theorem mapM_ok {A B : Type*} (f : A → Except PyErr B) (g : A → B) (l : List A)
    (h : ∀ a ∈ l, f a = .ok (g a)) : l.mapM f = .ok (l.map g) := by
  induction l with
  | nil => rfl
  | cons a l ih =>
    rw [List.mapM_cons, h a (by simp), ih (fun b hb => h b (by simp [hb]))]
    rfl

theorem mapM_error {A B : Type*} (f : A → Except PyErr B) (e : PyErr) (l : List A) (a : A)
    (ha : a ∈ l) (hf : f a = .error e) (hall : ∀ b ∈ l, f b = .error e ∨ ∃ y, f b = .ok y) :
    l.mapM f = .error e := by
  induction l with
  | nil => simp at ha
  | cons b l ih =>
    rw [List.mapM_cons]
    rcases hall b (by simp) with hb | ⟨y, hb⟩
    · rw [hb]; rfl
    · rw [hb]
      have : a ∈ l := by
        rcases List.mem_cons.mp ha with rfl | h
        · rw [hf] at hb; cases hb
        · exact h
      rw [ih this (fun c hc => hall c (by simp [hc]))]
      rfl

theorem pyHead_sumUp {A : Type*} [AddCommMonoid A] (data : List (List A)) (h : data ≠ []) :
    pyHead (sumUpPmapd data) = .ok data.flatten.sum := by
  obtain ⟨d, ds, rfl⟩ := List.exists_cons_of_ne_nil h
  simp [sumUpPmapd, pyHead, List.sum_flatten]

theorem globalSum_eq {A : Type*} [AddCommMonoid A] (world : List (List (List A)))
    (h : ∀ r ∈ world, r ≠ []) :
    globalSum world = .ok (world.map fun _ => (Spec.allSamples world).sum) := by
  unfold globalSum
  rw [mapM_ok _ (fun data => data.flatten.sum) world (fun d hd => pyHead_sumUp d (h d hd))]
  simp only [allreduceSum, Spec.allSamples]
  show Except.ok _ = Except.ok _
  congr 1
  rw [List.map_map]
  apply List.map_congr_left
  intro _ _
  rw [List.flatten_flatten, List.sum_flatten, List.map_map]
  rfl

theorem sum_flatten_map_meanHelper {A : Type*} [AddCommMonoid A] [SMul ℝ A]
    (world : List (List (List (ℝ × A)))) :
    (Spec.allSamples (world.map meanHelper)).sum = Spec.wMean (Spec.allSamples world) := by
  unfold Spec.allSamples Spec.wMean meanHelper
  rw [List.flatten_flatten, List.flatten_flatten, List.map_map, List.sum_flatten, List.map_map,
    List.map_flatten, List.sum_flatten, List.map_map, List.map_map]
  congr 1
  apply List.map_congr_left
  intro dev _
  simp only [Function.comp]
  rw [List.sum_flatten, List.map_map, List.map_flatten, List.sum_flatten, List.map_map]
  congr 1
  apply List.map_congr_left
  intro b _
  simp

theorem globalMean_eq {A : Type*} [AddCommMonoid A] [SMul ℝ A]
    (world : List (List (List (ℝ × A)))) (h : ∀ r ∈ world, r ≠ []) :
    globalMean world = .ok (world.map fun _ => Spec.wMean (Spec.allSamples world)) := by
  unfold globalMean
  rw [globalSum_eq _ (by
    intro r hr
    obtain ⟨d, hd, rfl⟩ := List.mem_map.mp hr
    have := h d hd
    simpa [meanHelper] using this)]
  rw [sum_flatten_map_meanHelper, List.map_map]
  rfl

/-- `sum` of a list of functions, pointwise. -/
theorem allSamples_map {A B : Type*} (f : A → B) (world : List (List (List A))) :
    Spec.allSamples (world.map fun rk => rk.map fun dev => dev.map f)
      = (Spec.allSamples world).map f := by
  unfold Spec.allSamples
  rw [List.map_flatten, List.map_flatten]

theorem list_sum_apply {ι : Type*} {M : Type*} [AddCommMonoid M] (l : List (ι → M)) (j : ι) :
    l.sum j = (l.map fun f => f j).sum := by
  induction l with
  | nil => rfl
  | cons a l ih => simp [ih]

theorem list_sum_apply₂ {ι κ : Type*} {M : Type*} [AddCommMonoid M] (l : List (ι → κ → M))
    (i : ι) (j : κ) : l.sum i j = (l.map fun f => f i j).sum := by
  rw [list_sum_apply, list_sum_apply, List.map_map]
  rfl

theorem ofReal_list_sum (l : List ℝ) : ((l.sum : ℝ) : ℂ) = (l.map fun x : ℝ => (x : ℂ)).sum := by
  induction l with
  | nil => simp
  | cons a l ih => simp [ih]

end JVMC
