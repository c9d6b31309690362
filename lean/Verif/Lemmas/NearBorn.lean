import Verif.Props.TdvpOptimal
import Verif.Spec.NearBorn

/-!
# Variances under nearby distributions
-/

namespace JVMC

open Spec Matrix

variable {n : ℕ} {C : Type} [Fintype C]

/-- The variance of `h` under the weights `q`. -/
noncomputable def qvar (q : C → ℝ) (h : C → ℂ) : ℝ :=
  ∑ s, q s * Complex.normSq (h s - ∑ s', (q s' : ℂ) * h s')

/-- The mean minimises the mean square deviation. -/
theorem qvar_shift (q : C → ℝ) (hq : ∑ s, q s = 1) (h : C → ℂ) (m : ℂ) :
    ∑ s, q s * Complex.normSq (h s - m) = qvar q h + Complex.normSq (∑ s, (q s : ℂ) * h s - m) := by
  unfold qvar
  set a := ∑ s, (q s : ℂ) * h s with ha
  have hexp : ∀ s, q s * Complex.normSq (h s - m) = q s * Complex.normSq (h s - a)
      + q s * Complex.normSq (a - m) + 2 * (((q s : ℂ) * (h s - a)) * (starRingEnd ℂ) (a - m)).re := by
    intro s
    have : h s - m = (h s - a) + (a - m) := by ring
    rw [this, Complex.normSq_add, mul_assoc, Complex.re_ofReal_mul]
    ring
  have h0 : ∑ s, (q s : ℂ) * (h s - a) = 0 := by
    simp only [mul_sub, Finset.sum_sub_distrib, ← Finset.sum_mul]
    rw [← Complex.ofReal_sum, hq, ← ha]
    simp
  simp only [hexp, Finset.sum_add_distrib, ← Finset.sum_mul, ← Finset.mul_sum, ← Complex.re_sum]
  rw [h0, hq]
  simp

theorem qvar_nonneg (q : C → ℝ) (hq : ∀ s, 0 ≤ q s) (h : C → ℂ) : 0 ≤ qvar q h :=
  Finset.sum_nonneg fun s _ => mul_nonneg (hq s) (Complex.normSq_nonneg _)

theorem qvar_le (q : C → ℝ) (hq : ∑ s, q s = 1) (h : C → ℂ) (m : ℂ) :
    qvar q h ≤ ∑ s, q s * Complex.normSq (h s - m) := by
  rw [qvar_shift q hq]
  linarith [Complex.normSq_nonneg (∑ s, (q s : ℂ) * h s - m)]

/-- Weights with relative error `ε` give all variances with relative error `ε`. -/
theorem qvar_near (p q : C → ℝ) (hp : ∑ s, p s = 1) (hq : ∑ s, q s = 1) (ε : ℝ) (hε : ε ≤ 1)
    (hn : ∀ s, |q s - p s| ≤ ε * p s) (h : C → ℂ) :
    (1 - ε) * qvar p h ≤ qvar q h ∧ qvar q h ≤ (1 + ε) * qvar p h := by
  constructor
  · calc (1 - ε) * qvar p h ≤ (1 - ε) * ∑ s, p s * Complex.normSq (h s - ∑ s', (q s' : ℂ) * h s') :=
          mul_le_mul_of_nonneg_left (qvar_le p hp h _) (by linarith)
      _ = ∑ s, ((1 - ε) * p s) * Complex.normSq (h s - ∑ s', (q s' : ℂ) * h s') := by
          rw [Finset.mul_sum]
          exact Finset.sum_congr rfl fun s _ => by ring
      _ ≤ qvar q h := by
          refine Finset.sum_le_sum fun s _ => mul_le_mul_of_nonneg_right ?_ (Complex.normSq_nonneg _)
          have := (abs_le.mp (hn s)).1
          linarith
  · calc qvar q h ≤ ∑ s, q s * Complex.normSq (h s - ∑ s', (p s' : ℂ) * h s') := qvar_le q hq h _
      _ ≤ ∑ s, ((1 + ε) * p s) * Complex.normSq (h s - ∑ s', (p s' : ℂ) * h s') := by
          refine Finset.sum_le_sum fun s _ => mul_le_mul_of_nonneg_right ?_ (Complex.normSq_nonneg _)
          have := (abs_le.mp (hn s)).2
          linarith
      _ = (1 + ε) * qvar p h := by
          unfold qvar
          rw [Finset.mul_sum]
          exact Finset.sum_congr rfl fun s _ => by ring

variable [DecidableEq C]

/-- The local quantity whose variance is the distance. -/
noncomputable def velocityOf (O : Matrix C C ℂ) (ψ : C → ℂ) (grads : C → Fin (n + 1) → ℂ) (x : ℂ)
    (v : Fin (n + 1) → ℝ) (s : C) : ℂ := ∑ k, (v k : ℂ) * grads s k + x * localValue O ψ s

theorem wMean_weights (w : World (C × ℂ × ℝ)) {ι : Type} (f : C → ι → ℂ) (i : ι) :
    wMean (allSamples (World.map (fun x => (x.2.2, f x.1)) w)) i
      = ∑ s, (weightOf (weighted w) s : ℂ) * f s i := by
  have h := sum_weighted (weighted w) fun s => f s i
  rw [← h]
  unfold wMean weighted
  rw [allSamples_wmap, List.map_map, List.map_map]
  induction allSamples w with
  | nil => simp
  | cons a l ih =>
    rw [List.map_cons, List.sum_cons, List.map_cons, List.sum_cons, ← ih, Pi.add_apply]
    simp

/-- The distance computed from samples depends on the total weight of every configuration only. -/
theorem distance_weights (O : Matrix C C ℂ) (ψ : C → ℂ) (grads : C → Fin (n + 1) → ℂ)
    (w : World (C × ℂ × ℝ)) (x : ℂ) (v : Fin (n + 1) → ℝ) :
    tdvpDistance (allSamples (tdvpJoint O ψ grads w)) x v
      = qvar (weightOf (weighted w)) (velocityOf O ψ grads x v) := by
  have m1 := fun k => wMean_weights w grads k
  have m2 := wMean_weights w (fun s (_ : Fin 1) => localValue O ψ s) 0
  unfold tdvpDistance tdvpJoint
  rw [allSamples_wmap]
  simp only [allSamples_wmap] at m1 m2
  simp only [List.map_map, Function.comp_def] at m1 m2 ⊢
  simp only [m1, m2]
  set P : C → ℂ := fun s => (weightOf (weighted w) s : ℂ) with hP
  set h := velocityOf O ψ grads x v with hh
  have hcen : ∀ s, ∑ k, (v k : ℂ) * (grads s k - ∑ s', P s' * grads s' k)
      + x * (localValue O ψ s - ∑ s', P s' * localValue O ψ s') = h s - ∑ s', P s' * h s' := by
    intro s
    have e1 : ∑ s', P s' * h s' = ∑ k, (v k : ℂ) * ∑ s', P s' * grads s' k
        + x * ∑ s', P s' * localValue O ψ s' := by
      simp only [hh, velocityOf, mul_add, Finset.sum_add_distrib, Finset.mul_sum]
      rw [Finset.sum_comm]
      congr 1
      · exact Finset.sum_congr rfl fun k _ => Finset.sum_congr rfl fun s' _ => by ring
      · exact Finset.sum_congr rfl fun s' _ => by ring
    rw [e1, hh]
    unfold velocityOf
    simp only [mul_sub, Finset.sum_sub_distrib]
    ring
  have hsum := sum_weighted_real (weighted w) fun s => Complex.normSq (h s - ∑ s', P s' * h s')
  unfold qvar
  refine Eq.trans ?_ hsum
  have hl : weighted w = (allSamples w).map fun x => (x.2.2, x.1) := rfl
  conv_rhs => rw [hl, List.map_map]
  congr 1
  apply List.map_congr_left
  intro y _
  exact congrArg (fun z => y.2.2 * Complex.normSq z) (hcen y.1)

theorem sum_weightOf (l : List (ℝ × C)) : ∑ s, weightOf l s = (l.map Prod.fst).sum := by
  have := sum_weighted_real l fun _ => 1
  simpa using this.symm

/-- Exactly weighted samples exist. -/
theorem born_world [Nonempty C] (logPsi : C → ℂ) : ∃ w : World (C × ℂ × ℝ), SamplesOf logPsi w ∧
    BornWeights (fun c => Complex.exp (logPsi c)) (weighted w) := by
  set ψ : C → ℂ := fun c => Complex.exp (logPsi c) with hψ
  refine ⟨[[(Finset.univ : Finset C).toList.map fun c => (c, logPsi c, Complex.normSq (ψ c) / norm2 ψ)]],
    ⟨by simp, ?_, ?_⟩, ⟨?_, ?_⟩⟩
  · simp [Finset.univ_eq_empty_iff]
  · simp [allSamples]
  · intro x hx
    simp only [weighted, allSamples, List.flatten_cons, List.flatten_nil, List.append_nil, List.map_map,
      List.mem_map] at hx
    obtain ⟨c, -, rfl⟩ := hx
    exact div_nonneg (Complex.normSq_nonneg _) (Finset.sum_nonneg fun s _ => Complex.normSq_nonneg _)
  · intro s
    have h := sum_weighted_real (weighted [[(Finset.univ : Finset C).toList.map fun c =>
      (c, logPsi c, Complex.normSq (ψ c) / norm2 ψ)]]) fun c => if c = s then 1 else 0
    simp only [mul_ite, mul_one, mul_zero, Finset.sum_ite_eq', Finset.mem_univ, if_true] at h
    rw [← h]
    simp only [weighted, allSamples, List.flatten_cons, List.flatten_nil, List.append_nil, List.map_map,
      Function.comp_def]
    rw [Finset.sum_map_toList]
    simp

omit [DecidableEq C] in
theorem sum_born [Nonempty C] (logPsi : C → ℂ) : ∑ s, Complex.normSq (Complex.exp (logPsi s))
    / norm2 (fun c => Complex.exp (logPsi c)) = 1 := by
  obtain ⟨s₀⟩ := ‹Nonempty C›
  rw [← Finset.sum_div]
  exact div_self (norm2_pos (fun c => Complex.exp (logPsi c)) s₀ (Complex.exp_ne_zero _)).ne'

/-- The distance from samples with relative errors `ε`, against exactly weighted samples. -/
theorem distance_near [Nonempty C] (O : Matrix C C ℂ) (logPsi : C → ℂ) (grads : C → Fin (n + 1) → ℂ)
    (w w₀ : World (C × ℂ × ℝ)) (ε : ℝ) (hε : ε ≤ 1)
    (hw : NearBorn ε (fun c => Complex.exp (logPsi c)) (weighted w))
    (hw₀ : BornWeights (fun c => Complex.exp (logPsi c)) (weighted w₀)) (x : ℂ) (v : Fin (n + 1) → ℝ) :
    (1 - ε) * tdvpDistance (allSamples (tdvpJoint O (fun c => Complex.exp (logPsi c)) grads w₀)) x v
      ≤ tdvpDistance (allSamples (tdvpJoint O (fun c => Complex.exp (logPsi c)) grads w)) x v ∧
    tdvpDistance (allSamples (tdvpJoint O (fun c => Complex.exp (logPsi c)) grads w)) x v
      ≤ (1 + ε) * tdvpDistance (allSamples (tdvpJoint O (fun c => Complex.exp (logPsi c)) grads w₀)) x v := by
  rw [distance_weights, distance_weights]
  refine qvar_near _ _ ?_ ?_ ε hε ?_ _
  · simp only [hw₀.born]
    exact sum_born logPsi
  · rw [sum_weightOf]
    exact hw.total
  · intro s
    rw [hw₀.born]
    exact hw.near s

end JVMC
