import Verif.Model.ChainRounding
import Verif.Spec.ChainRounding
import Verif.Lemmas.Converge

/-! # Helper lemmas: perturbed Markov chains -/

namespace JVMC

open MeasureTheory

section Abstract

variable {T : Type*} (Y : Finset T) (K K' : T → T → ℝ)

theorem push_isDist (hK : ∀ s ∈ Y, ∀ t ∈ Y, 0 ≤ K s t) (hrow : ∀ s ∈ Y, ∑ t ∈ Y, K s t = 1) (μ : T → ℝ)
    (hμ : Spec.IsDist Y μ) : Spec.IsDist Y (pushDist Y K μ) := by
  refine ⟨fun t ht => Finset.sum_nonneg fun s hs => mul_nonneg (hμ.1 s hs) (hK s hs t ht), ?_⟩
  unfold pushDist
  rw [Finset.sum_comm, ← hμ.2]
  exact Finset.sum_congr rfl fun s hs => by rw [← Finset.mul_sum, hrow s hs, mul_one]

theorem push_iter_isDist (hK : ∀ s ∈ Y, ∀ t ∈ Y, 0 ≤ K s t) (hrow : ∀ s ∈ Y, ∑ t ∈ Y, K s t = 1) (μ : T → ℝ)
    (hμ : Spec.IsDist Y μ) (n : ℕ) : Spec.IsDist Y ((pushDist Y K)^[n] μ) := by
  induction n with
  | zero => exact hμ
  | succ n ih =>
    rw [Function.iterate_succ_apply']
    exact push_isDist Y K hK hrow _ ih

theorem push_perturb (hK : ∀ s ∈ Y, ∀ t ∈ Y, 0 ≤ K s t) (hrow : ∀ s ∈ Y, ∑ t ∈ Y, K s t = 1) (κ : ℝ)
    (hκ : ∀ s ∈ Y, ∑ t ∈ Y, |K' s t - K s t| ≤ κ) (μ' μ : T → ℝ) (hμ : Spec.IsDist Y μ') :
    ∑ t ∈ Y, |pushDist Y K' μ' t - pushDist Y K μ t| ≤ κ + ∑ s ∈ Y, |μ' s - μ s| := by
  calc ∑ t ∈ Y, |pushDist Y K' μ' t - pushDist Y K μ t|
      ≤ ∑ t ∈ Y, (∑ s ∈ Y, μ' s * |K' s t - K s t| + ∑ s ∈ Y, |μ' s - μ s| * K s t) := by
        refine Finset.sum_le_sum fun t ht => ?_
        have : pushDist Y K' μ' t - pushDist Y K μ t
            = ∑ s ∈ Y, μ' s * (K' s t - K s t) + ∑ s ∈ Y, (μ' s - μ s) * K s t := by
          unfold pushDist
          rw [← Finset.sum_add_distrib, ← Finset.sum_sub_distrib]
          exact Finset.sum_congr rfl fun s _ => by ring
        rw [this]
        refine (abs_add_le _ _).trans (add_le_add ?_ ?_)
        · refine (Finset.abs_sum_le_sum_abs _ _).trans (Finset.sum_le_sum fun s hs => ?_)
          rw [abs_mul, abs_of_nonneg (hμ.1 s hs)]
        · refine (Finset.abs_sum_le_sum_abs _ _).trans (Finset.sum_le_sum fun s hs => ?_)
          rw [abs_mul, abs_of_nonneg (hK s hs t ht)]
    _ = ∑ s ∈ Y, μ' s * ∑ t ∈ Y, |K' s t - K s t| + ∑ s ∈ Y, |μ' s - μ s| := by
        rw [Finset.sum_add_distrib, Finset.sum_comm, Finset.sum_comm (f := fun t s => |μ' s - μ s| * K s t)]
        congr 1
        · exact Finset.sum_congr rfl fun s _ => by rw [Finset.mul_sum]
        · exact Finset.sum_congr rfl fun s hs => by rw [← Finset.mul_sum, hrow s hs, mul_one]
    _ ≤ κ + ∑ s ∈ Y, |μ' s - μ s| := by
        have : ∑ s ∈ Y, μ' s * ∑ t ∈ Y, |K' s t - K s t| ≤ ∑ s ∈ Y, μ' s * κ :=
          Finset.sum_le_sum fun s hs => mul_le_mul_of_nonneg_left (hκ s hs) (hμ.1 s hs)
        rw [← Finset.sum_mul, hμ.2, one_mul] at this
        linarith

theorem push_drift (hK : ∀ s ∈ Y, ∀ t ∈ Y, 0 ≤ K s t) (hrow : ∀ s ∈ Y, ∑ t ∈ Y, K s t = 1)
    (hK' : ∀ s ∈ Y, ∀ t ∈ Y, 0 ≤ K' s t) (hrow' : ∀ s ∈ Y, ∑ t ∈ Y, K' s t = 1) (κ : ℝ)
    (hκ : ∀ s ∈ Y, ∑ t ∈ Y, |K' s t - K s t| ≤ κ) (μ : T → ℝ) (hμ : Spec.IsDist Y μ) (n : ℕ) :
    ∑ t ∈ Y, |(pushDist Y K')^[n] μ t - (pushDist Y K)^[n] μ t| ≤ n * κ := by
  induction n with
  | zero => simp
  | succ n ih =>
    rw [Function.iterate_succ_apply', Function.iterate_succ_apply']
    refine (push_perturb Y K K' hK hrow κ hκ _ _ (push_iter_isDist Y K' hK' hrow' μ hμ n)).trans ?_
    push_cast
    linarith

theorem push_uniform (hK : ∀ s ∈ Y, ∀ t ∈ Y, 0 ≤ K s t) (hrow : ∀ s ∈ Y, ∑ t ∈ Y, K s t = 1)
    (hK' : ∀ s ∈ Y, ∀ t ∈ Y, 0 ≤ K' s t) (hrow' : ∀ s ∈ Y, ∑ t ∈ Y, K' s t = 1) (κ : ℝ) (hκ0 : 0 ≤ κ)
    (hκ : ∀ s ∈ Y, ∑ t ∈ Y, |K' s t - K s t| ≤ κ) (π : T → ℝ) (ρ : ℝ) (N : ℕ) (hρ0 : 0 ≤ ρ) (hρ1 : ρ < 1) (hN : 0 < N)
    (hgeo : ∀ μ : T → ℝ, ∑ s ∈ Y, μ s = 1 → ∀ n : ℕ,
      ∑ s ∈ Y, |(pushDist Y K)^[n] μ s - π s| ≤ ρ ^ (n / N) * ∑ s ∈ Y, |μ s - π s|)
    (μ : T → ℝ) (hμ : Spec.IsDist Y μ) (n : ℕ) :
    ∑ s ∈ Y, |(pushDist Y K')^[n] μ s - π s| ≤ ρ ^ (n / N) * ∑ s ∈ Y, |μ s - π s| + 2 * N * κ / (1 - ρ) := by
  have h1ρ : 0 < 1 - ρ := by linarith
  have step : ∀ (ν : T → ℝ), Spec.IsDist Y ν → ∀ m : ℕ,
      ∑ s ∈ Y, |(pushDist Y K')^[m] ν s - π s| ≤ m * κ + ρ ^ (m / N) * ∑ s ∈ Y, |ν s - π s| := by
    intro ν hν m
    calc ∑ s ∈ Y, |(pushDist Y K')^[m] ν s - π s|
        ≤ ∑ s ∈ Y, (|(pushDist Y K')^[m] ν s - (pushDist Y K)^[m] ν s| + |(pushDist Y K)^[m] ν s - π s|) :=
          Finset.sum_le_sum fun s _ => abs_sub_le _ _ _
      _ ≤ _ := by
          rw [Finset.sum_add_distrib]
          exact add_le_add (push_drift Y K K' hK hrow hK' hrow' κ hκ ν hν m) (hgeo ν hν.2 m)
  have blocks : ∀ k : ℕ, ∑ s ∈ Y, |(pushDist Y K')^[N * k] μ s - π s|
      ≤ ρ ^ k * ∑ s ∈ Y, |μ s - π s| + N * κ / (1 - ρ) := by
    intro k
    induction k with
    | zero =>
      simp only [Nat.mul_zero, Function.iterate_zero, id_eq, pow_zero, one_mul]
      have : 0 ≤ N * κ / (1 - ρ) := by positivity
      linarith
    | succ k ih =>
      rw [show N * (k + 1) = N + N * k by ring, Function.iterate_add_apply]
      refine (step _ (push_iter_isDist Y K' hK' hrow' μ hμ _) N).trans ?_
      rw [Nat.div_self hN, pow_one]
      have h2 := mul_le_mul_of_nonneg_left ih hρ0
      have h3 : N * κ + ρ * (N * κ / (1 - ρ)) = N * κ / (1 - ρ) := by
        field_simp
        ring
      calc _ ≤ N * κ + ρ * (ρ ^ k * ∑ s ∈ Y, |μ s - π s| + N * κ / (1 - ρ)) := by linarith
        _ = ρ ^ (k + 1) * ∑ s ∈ Y, |μ s - π s| + (N * κ + ρ * (N * κ / (1 - ρ))) := by ring
        _ = _ := by rw [h3]
  have hn : (pushDist Y K')^[n] μ = (pushDist Y K')^[n % N] ((pushDist Y K')^[N * (n / N)] μ) := by
    rw [← Function.iterate_add_apply, Nat.mod_add_div]
  rw [hn]
  refine (step _ (push_iter_isDist Y K' hK' hrow' μ hμ _) (n % N)).trans ?_
  rw [Nat.div_eq_of_lt (Nat.mod_lt n hN), pow_zero, one_mul]
  have hb := blocks (n / N)
  have hr : ((n % N : ℕ) : ℝ) * κ ≤ N * κ / (1 - ρ) := by
    have h1 : ((n % N : ℕ) : ℝ) ≤ N := by exact_mod_cast (Nat.mod_lt n hN).le
    have h2 : ((n % N : ℕ) : ℝ) * κ ≤ N * κ := mul_le_mul_of_nonneg_right h1 hκ0
    rw [le_div_iff₀ h1ρ]
    have h3 : 0 ≤ ((n % N : ℕ) : ℝ) * κ := by positivity
    nlinarith
  have : 2 * N * κ / (1 - ρ) = N * κ / (1 - ρ) + N * κ / (1 - ρ) := by ring
  rw [this]
  linarith

end Abstract

section Kernels

variable {Ω S : Type*} [DecidableEq S] (W : Finset Ω) (propose : Ω → S → S)

/-- The update that accepts if the uniform number is below `a`. -/
noncomputable def thresholdStep (a : Ω → S → ℝ) (ω : Ω) (u : ℝ) (s : S) : S :=
  if u < a ω s then propose ω s else s

theorem vol_threshold (a : Ω → S → ℝ) (ω : Ω) (s s' : S) (h0 : 0 ≤ a ω s) :
    (volume {u : ℝ | 0 ≤ u ∧ u < 1 ∧ thresholdStep propose a ω u s = s'})
      = ENNReal.ofReal ((if propose ω s = s' then min 1 (a ω s) else 0)
        + (if s = s' then 1 - min 1 (a ω s) else 0)) := by
  have hmin : 0 ≤ min 1 (a ω s) := le_min zero_le_one h0
  unfold thresholdStep
  by_cases h1 : propose ω s = s' <;> by_cases h2 : s = s'
  · have : {u : ℝ | 0 ≤ u ∧ u < 1 ∧ (if u < a ω s then propose ω s else s) = s'} = Set.Ico 0 1 := by
      ext u
      have : (if u < a ω s then propose ω s else s) = s' := by rw [h1, h2, ite_self]
      simp [this]
    rw [this, Real.volume_Ico, if_pos h1, if_pos h2]
    congr 1; ring
  · have : {u : ℝ | 0 ≤ u ∧ u < 1 ∧ (if u < a ω s then propose ω s else s) = s'}
        = Set.Ico 0 (min 1 (a ω s)) := by
      ext u
      simp only [Set.mem_ofPred_eq, Set.mem_Ico, lt_min_iff]
      constructor
      · rintro ⟨h, h', h''⟩
        refine ⟨h, h', ?_⟩
        by_contra hc
        rw [if_neg hc] at h''
        exact h2 h''
      · rintro ⟨h, h', h''⟩
        exact ⟨h, h', by rw [if_pos h'']; exact h1⟩
    rw [this, Real.volume_Ico, if_pos h1, if_neg h2]
    congr 1; ring
  · have : {u : ℝ | 0 ≤ u ∧ u < 1 ∧ (if u < a ω s then propose ω s else s) = s'}
        = Set.Ico (min 1 (a ω s)) 1 := by
      ext u
      simp only [Set.mem_ofPred_eq, Set.mem_Ico]
      constructor
      · rintro ⟨h, h', h''⟩
        refine ⟨?_, h'⟩
        by_contra hc
        rw [not_le, lt_min_iff] at hc
        rw [if_pos hc.2] at h''
        exact h1 h''
      · rintro ⟨h, h'⟩
        refine ⟨hmin.trans h, h', ?_⟩
        rw [if_neg]
        · exact h2
        · intro hc
          rcases min_le_iff.mp h with h | h
          · linarith
          · linarith
    rw [this, Real.volume_Ico, if_neg h1, if_pos h2]
    congr 1; ring
  · have : {u : ℝ | 0 ≤ u ∧ u < 1 ∧ (if u < a ω s then propose ω s else s) = s'} = ∅ := by
      ext u
      simp only [Set.mem_ofPred_eq, Set.mem_empty_iff_false, iff_false]
      rintro ⟨_, _, h⟩
      split_ifs at h
      · exact h1 h
      · exact h2 h
    rw [this, if_neg h1, if_neg h2]
    simp

/-- Single-chain transition probability for acceptance probabilities `α`. -/
noncomputable def accKernel (α : Ω → S → ℝ) (s s' : S) : ℝ :=
  (∑ ω ∈ W, ((if propose ω s = s' then α ω s else 0) + (if s = s' then 1 - α ω s else 0))) / W.card

theorem accKernel_nonneg (α : Ω → S → ℝ) (h0 : ∀ ω s, 0 ≤ α ω s) (h1 : ∀ ω s, α ω s ≤ 1) (s s' : S) :
    0 ≤ accKernel W propose α s s' := by
  unfold accKernel
  refine div_nonneg (Finset.sum_nonneg fun ω _ => ?_) (by positivity)
  have := h0 ω s
  have := h1 ω s
  split_ifs <;> linarith

theorem accKernel_rowSum (α : Ω → S → ℝ) (hW : W.Nonempty) (X : Finset S)
    (hX : ∀ ω ∈ W, ∀ s ∈ X, propose ω s ∈ X) (s : S) (hs : s ∈ X) :
    ∑ s' ∈ X, accKernel W propose α s s' = 1 := by
  unfold accKernel
  rw [← Finset.sum_div, Finset.sum_comm]
  have hcard : (W.card : ℝ) ≠ 0 := by
    have := Finset.card_pos.mpr hW
    positivity
  rw [div_eq_one_iff_eq hcard]
  have : ∀ ω ∈ W, (∑ s' ∈ X, ((if propose ω s = s' then α ω s else 0) + (if s = s' then 1 - α ω s else 0)))
      = (1 : ℝ) := by
    intro ω hω
    rw [Finset.sum_add_distrib, Finset.sum_ite_eq, Finset.sum_ite_eq, if_pos (hX ω hω s hs),
      if_pos hs]
    ring
  rw [Finset.sum_congr rfl this]
  simp

theorem transProb_threshold (a : Ω → S → ℝ) (h0 : ∀ ω s, 0 ≤ a ω s) {C : ℕ} (s s' : Fin C → S) :
    Spec.transProb W (thresholdStep propose a) s s'
      = ∏ i, accKernel W propose (fun ω s => min 1 (a ω s)) (s i) (s' i) := by
  unfold Spec.transProb accKernel
  rw [Finset.prod_div_distrib, Finset.prod_const, Finset.card_univ, Fintype.card_fin]
  congr 1
  rw [Finset.prod_univ_sum]
  apply Finset.sum_congr rfl
  intro ω _
  have hset : {u : Fin C → ℝ | ∀ i, 0 ≤ u i ∧ u i < 1 ∧
      thresholdStep propose a (ω i) (u i) (s i) = s' i}
      = Set.univ.pi fun i => {u : ℝ | 0 ≤ u ∧ u < 1 ∧
        thresholdStep propose a (ω i) u (s i) = s' i} := by
    ext u; simp
  rw [hset, volume_pi_pi, ENNReal.toReal_prod]
  apply Finset.prod_congr rfl
  intro i _
  rw [vol_threshold propose a _ _ _ (h0 _ _), ENNReal.toReal_ofReal]
  have h0' : (0 : ℝ) ≤ min 1 (a (ω i) (s i)) := le_min zero_le_one (h0 _ _)
  have h1 : min 1 (a (ω i) (s i)) ≤ (1 : ℝ) := min_le_left _ _
  split_ifs <;> linarith

theorem accKernel_diff (α β : Ω → S → ℝ) (X : Finset S) (hW : W.Nonempty)
    (hX : ∀ ω ∈ W, ∀ s ∈ X, propose ω s ∈ X) (η : ℝ)
    (s : S) (hs : s ∈ X) (h : ∀ ω ∈ W, |α ω s - β ω s| ≤ η) :
    ∑ s' ∈ X, |accKernel W propose α s s' - accKernel W propose β s s'| ≤ 2 * η := by
  have hcard : (0 : ℝ) < W.card := by
    have := Finset.card_pos.mpr hW
    positivity
  calc ∑ s' ∈ X, |accKernel W propose α s s' - accKernel W propose β s s'|
      ≤ ∑ s' ∈ X, (∑ ω ∈ W, ((if propose ω s = s' then |α ω s - β ω s| else 0)
          + (if s = s' then |α ω s - β ω s| else 0))) / W.card := by
        refine Finset.sum_le_sum fun s' _ => ?_
        unfold accKernel
        rw [← sub_div, ← Finset.sum_sub_distrib, abs_div, abs_of_pos hcard]
        refine div_le_div_of_nonneg_right ((Finset.abs_sum_le_sum_abs _ _).trans (Finset.sum_le_sum fun ω _ => ?_)) hcard.le
        have h1 := abs_nonneg (α ω s - β ω s)
        split_ifs
        · rw [show α ω s + (1 - α ω s) - (β ω s + (1 - β ω s)) = 0 by ring, abs_zero]
          linarith
        · rw [add_zero, add_zero, add_zero]
        · rw [show 0 + (1 - α ω s) - (0 + (1 - β ω s)) = -(α ω s - β ω s) by ring, abs_neg, zero_add]
        · simp
    _ = (∑ ω ∈ W, 2 * |α ω s - β ω s|) / W.card := by
        rw [← Finset.sum_div, Finset.sum_comm]
        congr 1
        refine Finset.sum_congr rfl fun ω hω => ?_
        rw [Finset.sum_add_distrib, Finset.sum_ite_eq, Finset.sum_ite_eq, if_pos (hX ω hω s hs), if_pos hs]
        ring
    _ ≤ 2 * η := by
        rw [div_le_iff₀ hcard]
        calc ∑ ω ∈ W, 2 * |α ω s - β ω s| ≤ ∑ ω ∈ W, 2 * η := Finset.sum_le_sum fun ω hω => by linarith [h ω hω]
          _ = 2 * η * W.card := by rw [Finset.sum_const, nsmul_eq_mul]; ring

end Kernels

/-- Products of kernels that differ by `δ` each. -/
theorem prod_kernel_diff {S : Type*} [DecidableEq S] (X : Finset S) {C : ℕ} (p q : Fin C → S → ℝ)
    (hp0 : ∀ i, ∀ x ∈ X, 0 ≤ p i x) (hq0 : ∀ i, ∀ x ∈ X, 0 ≤ q i x)
    (hp : ∀ i, ∑ x ∈ X, p i x = 1) (hq : ∀ i, ∑ x ∈ X, q i x = 1) (δ : ℝ)
    (hδ : ∀ i, ∑ x ∈ X, |p i x - q i x| ≤ δ) :
    ∑ s ∈ Fintype.piFinset (fun _ : Fin C => X), |∏ i, p i (s i) - ∏ i, q i (s i)| ≤ C * δ := by
  -- the first `k` factors from `p`, the others from `q`
  let H : ℕ → Fin C → S → ℝ := fun k i x => if i.val < k then p i x else q i x
  have hmix : ∀ k : ℕ, k ≤ C → ∑ s ∈ Fintype.piFinset (fun _ : Fin C => X), |∏ i, H k i (s i) - ∏ i, q i (s i)| ≤ k * δ := by
    intro k
    induction k with
    | zero => intro _; simp [H]
    | succ k ih =>
      intro hk
      have hk' : k < C := hk
      let j : Fin C := ⟨k, hk'⟩
      let D : Fin C → S → ℝ := fun i x => if i = j then |p i x - q i x| else H k i x
      have hdiff : ∀ s ∈ Fintype.piFinset (fun _ : Fin C => X),
          |∏ i, H (k + 1) i (s i) - ∏ i, H k i (s i)| = ∏ i, D i (s i) := by
        intro s hs
        rw [Fintype.mem_piFinset] at hs
        rw [← Finset.mul_prod_erase Finset.univ (fun i => H (k + 1) i (s i)) (Finset.mem_univ j),
          ← Finset.mul_prod_erase Finset.univ (fun i => H k i (s i)) (Finset.mem_univ j),
          ← Finset.mul_prod_erase Finset.univ (fun i => D i (s i)) (Finset.mem_univ j)]
        have e1 : ∏ i ∈ Finset.univ.erase j, H (k + 1) i (s i) = ∏ i ∈ Finset.univ.erase j, H k i (s i) := by
          refine Finset.prod_congr rfl fun i hi => ?_
          have hne : i.val ≠ k := fun h => (Finset.mem_erase.mp hi).1 (Fin.ext h)
          have : (i.val < k + 1) ↔ (i.val < k) := by omega
          simp only [H, this]
        have e2 : ∏ i ∈ Finset.univ.erase j, D i (s i) = ∏ i ∈ Finset.univ.erase j, H k i (s i) := by
          refine Finset.prod_congr rfl fun i hi => ?_
          simp only [D, if_neg (Finset.mem_erase.mp hi).1]
        rw [e1, e2, ← sub_mul, abs_mul]
        congr 1
        · simp [H, D, j]
        · refine abs_of_nonneg (Finset.prod_nonneg fun i _ => ?_)
          simp only [H]
          split_ifs
          · exact hp0 i _ (hs i)
          · exact hq0 i _ (hs i)
      have hD : ∑ s ∈ Fintype.piFinset (fun _ : Fin C => X), ∏ i, D i (s i) ≤ δ := by
        rw [← Finset.prod_univ_sum, ← Finset.mul_prod_erase Finset.univ _ (Finset.mem_univ j)]
        have e : ∏ i ∈ Finset.univ.erase j, ∑ x ∈ X, D i x = 1 := by
          refine Finset.prod_eq_one fun i hi => ?_
          simp only [D, if_neg (Finset.mem_erase.mp hi).1, H]
          split_ifs
          · exact hp i
          · exact hq i
        rw [e, mul_one]
        simp only [D, if_true]
        exact hδ j
      calc ∑ s ∈ Fintype.piFinset (fun _ : Fin C => X), |∏ i, H (k + 1) i (s i) - ∏ i, q i (s i)|
          ≤ ∑ s ∈ Fintype.piFinset (fun _ : Fin C => X), (∏ i, D i (s i) + |∏ i, H k i (s i) - ∏ i, q i (s i)|) := by
            refine Finset.sum_le_sum fun s hs => ?_
            rw [← hdiff s hs]
            exact abs_sub_le _ _ _
        _ ≤ δ + k * δ := by
            rw [Finset.sum_add_distrib]
            exact add_le_add hD (ih hk'.le)
        _ = (k + 1 : ℕ) * δ := by push_cast; ring
  have := hmix C le_rfl
  have hH : ∀ i : Fin C, ∀ x, H C i x = p i x := fun i x => by simp [H]
  simpa only [hH] using this

/-! ### Errors of acceptance probabilities -/

theorem gridUniform_lt (u q : ℝ) : gridUniform u < q ↔ u < (⌈(2 : ℝ) ^ 52 * q⌉ : ℝ) / 2 ^ 52 := by
  unfold gridUniform
  have h : (0 : ℝ) < 2 ^ 52 := by positivity
  rw [div_lt_iff₀ h, lt_div_iff₀ h, mul_comm q, mul_comm u, ← Int.lt_ceil, ← Int.floor_lt]

theorem grid_accept (q : ℝ) (_hq : 0 ≤ q) :
    |min 1 ((⌈(2 : ℝ) ^ 52 * q⌉ : ℝ) / 2 ^ 52) - min 1 q| ≤ (2 : ℝ)⁻¹ ^ 52 := by
  have h : (0 : ℝ) < 2 ^ 52 := by positivity
  have h1 : q ≤ (⌈(2 : ℝ) ^ 52 * q⌉ : ℝ) / 2 ^ 52 := by
    rw [le_div_iff₀ h, mul_comm]
    exact Int.le_ceil _
  have h2 : (⌈(2 : ℝ) ^ 52 * q⌉ : ℝ) / 2 ^ 52 ≤ q + (2 : ℝ)⁻¹ ^ 52 := by
    rw [div_le_iff₀ h, add_mul, inv_pow, inv_mul_cancel₀ h.ne', mul_comm q]
    exact (Int.ceil_lt_add_one _).le
  refine (abs_min_sub_min_le_max _ _ _ _).trans ?_
  rw [sub_self, abs_zero, abs_of_nonneg (by linarith)]
  exact max_le (by positivity) (by linarith)

theorem min_exp_lipschitz (x y : ℝ) : |min 1 (Real.exp x) - min 1 (Real.exp y)| ≤ |x - y| := by
  have hmono : ∀ a b : ℝ, a ≤ b → |min 1 (Real.exp a) - min 1 (Real.exp b)| ≤ b - a := by
    intro a b hab
    have h1 : min 1 (Real.exp a) ≤ min 1 (Real.exp b) := min_le_min le_rfl (Real.exp_le_exp.mpr hab)
    rw [abs_sub_comm, abs_of_nonneg (by linarith)]
    have hd : 1 - (b - a) ≤ Real.exp (-(b - a)) := by linarith [Real.add_one_le_exp (-(b - a))]
    have he : Real.exp a = Real.exp (-(b - a)) * Real.exp b := by rw [← Real.exp_add]; congr 1; ring
    have hle1 : Real.exp (-(b - a)) ≤ 1 := Real.exp_le_one_iff.mpr (by linarith)
    have h2 : Real.exp (-(b - a)) * min 1 (Real.exp b) ≤ min 1 (Real.exp a) := by
      refine le_min ?_ ?_
      · exact mul_le_one₀ hle1 (le_min zero_le_one (Real.exp_pos b).le) (min_le_left _ _)
      · rw [he]
        exact mul_le_mul_of_nonneg_left (min_le_right _ _) (Real.exp_pos _).le
    have h3 : min 1 (Real.exp b) ≤ 1 := min_le_left _ _
    have h4 : 0 ≤ min 1 (Real.exp b) := le_min zero_le_one (Real.exp_pos b).le
    nlinarith
  rcases le_total x y with h | h
  · rw [abs_sub_comm x y, abs_of_nonneg (by linarith : 0 ≤ y - x)]
    exact hmono x y h
  · rw [abs_sub_comm, abs_of_nonneg (by linarith : 0 ≤ x - y)]
    exact hmono y x h

end JVMC
