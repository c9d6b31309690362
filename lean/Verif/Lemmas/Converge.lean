import Mathlib.Analysis.SpecificLimits.Basic
import Mathlib.Algebra.Order.BigOperators.Group.Finset
import Verif.Lemmas.Ergodic

/-! # Helper lemmas: geometric convergence of finite Markov chains -/

namespace JVMC

open Relation

section Abstract

variable {T : Type*} [DecidableEq T] (Y : Finset T) (K : T → T → ℝ)

/-- One step of the distribution. -/
def pushDist (μ : T → ℝ) (t : T) : ℝ := ∑ s ∈ Y, μ s * K s t

/-- `n`-step transition probabilities. -/
def kerPow : ℕ → T → T → ℝ
  | 0 => fun s t => if s = t then 1 else 0
  | n + 1 => fun s t => ∑ u ∈ Y, kerPow n s u * K u t

theorem pushDist_iterate (μ : T → ℝ) (n : ℕ) (t : T) (ht : t ∈ Y) :
    (pushDist Y K)^[n] μ t = ∑ s ∈ Y, μ s * kerPow Y K n s t := by
  induction n generalizing t with
  | zero => simp [kerPow, ht]
  | succ n ih =>
    rw [Function.iterate_succ_apply']
    have : ∀ u ∈ Y, (pushDist Y K)^[n] μ u * K u t
        = ∑ s ∈ Y, μ s * (kerPow Y K n s u * K u t) := by
      intro u hu
      rw [ih u hu, Finset.sum_mul]
      exact Finset.sum_congr rfl fun s _ => by ring
    refine (Finset.sum_congr rfl this).trans ?_
    rw [Finset.sum_comm]
    exact Finset.sum_congr rfl fun s _ => by rw [kerPow, Finset.mul_sum]

variable (hK : ∀ s ∈ Y, ∀ t ∈ Y, 0 ≤ K s t) (hrow : ∀ s ∈ Y, ∑ t ∈ Y, K s t = 1)

include hK in
theorem kerPow_nonneg (n : ℕ) (s t : T) (ht : t ∈ Y) : 0 ≤ kerPow Y K n s t := by
  induction n generalizing t with
  | zero => unfold kerPow; split_ifs <;> norm_num
  | succ n ih =>
    exact Finset.sum_nonneg fun u hu => mul_nonneg (ih u hu) (hK u hu t ht)

include hrow in
theorem kerPow_row (n : ℕ) (s : T) (hs : s ∈ Y) : ∑ t ∈ Y, kerPow Y K n s t = 1 := by
  induction n with
  | zero => simp [kerPow, hs]
  | succ n ih =>
    unfold kerPow
    rw [Finset.sum_comm]
    rw [← ih]
    refine Finset.sum_congr rfl fun u hu => ?_
    rw [← Finset.mul_sum, hrow u hu, mul_one]

include hrow in
theorem pushDist_total (μ : T → ℝ) (n : ℕ) :
    ∑ t ∈ Y, (pushDist Y K)^[n] μ t = ∑ t ∈ Y, μ t := by
  rw [Finset.sum_congr rfl fun t ht => pushDist_iterate Y K μ n t ht, Finset.sum_comm]
  exact Finset.sum_congr rfl fun s hs => by
    rw [← Finset.mul_sum, kerPow_row Y K hrow n s hs, mul_one]

include hK hrow in
/-- A column of the `N`-step kernel that is bounded below contracts signed measures of total
mass 0. -/
theorem pushDist_contract (N : ℕ) (s₀ : T) (hs₀ : s₀ ∈ Y) (c : ℝ)
    (hc : ∀ s ∈ Y, c ≤ kerPow Y K N s s₀) (ν : T → ℝ) (hν : ∑ s ∈ Y, ν s = 0) :
    ∑ t ∈ Y, |(pushDist Y K)^[N] ν t| ≤ (1 - c) * ∑ s ∈ Y, |ν s| := by
  set Q : T → T → ℝ := fun s t => kerPow Y K N s t - if t = s₀ then c else 0 with hQ
  have hQ0 : ∀ s ∈ Y, ∀ t ∈ Y, 0 ≤ Q s t := by
    intro s hs t ht
    rw [hQ]
    dsimp only
    split_ifs with h
    · rw [h]; linarith [hc s hs]
    · linarith [kerPow_nonneg Y K hK N s t ht]
  have hQrow : ∀ s ∈ Y, ∑ t ∈ Y, Q s t = 1 - c := by
    intro s hs
    rw [hQ]
    dsimp only
    rw [Finset.sum_sub_distrib, kerPow_row Y K hrow N s hs, Finset.sum_ite_eq', if_pos hs₀]
  have hpush : ∀ t ∈ Y, (pushDist Y K)^[N] ν t = ∑ s ∈ Y, ν s * Q s t := by
    intro t ht
    rw [pushDist_iterate Y K ν N t ht, hQ]
    dsimp only
    simp only [mul_sub, Finset.sum_sub_distrib]
    rw [← Finset.sum_mul, hν, zero_mul, sub_zero]
  calc ∑ t ∈ Y, |(pushDist Y K)^[N] ν t|
      = ∑ t ∈ Y, |∑ s ∈ Y, ν s * Q s t| :=
        Finset.sum_congr rfl fun t ht => by rw [hpush t ht]
    _ ≤ ∑ t ∈ Y, ∑ s ∈ Y, |ν s| * Q s t := by
        refine Finset.sum_le_sum fun t ht => (Finset.abs_sum_le_sum_abs _ _).trans ?_
        refine Finset.sum_le_sum fun s hs => ?_
        rw [abs_mul, abs_of_nonneg (hQ0 s hs t ht)]
    _ = (1 - c) * ∑ s ∈ Y, |ν s| := by
        rw [Finset.sum_comm, Finset.mul_sum]
        refine Finset.sum_congr rfl fun s hs => ?_
        rw [← Finset.mul_sum, hQrow s hs, mul_comm]

include hK hrow in
theorem pushDist_geometric (N : ℕ) (s₀ : T) (hs₀ : s₀ ∈ Y)
    (hpos : ∀ s ∈ Y, 0 < kerPow Y K N s s₀) :
    ∃ ρ : ℝ, 0 ≤ ρ ∧ ρ < 1 ∧ ∀ (ν : T → ℝ), ∑ s ∈ Y, ν s = 0 → ∀ n : ℕ,
      ∑ t ∈ Y, |(pushDist Y K)^[n] ν t| ≤ ρ ^ (n / N) * ∑ s ∈ Y, |ν s| := by
  obtain ⟨m, hm, hmin⟩ := Y.exists_min_image (fun s => kerPow Y K N s s₀) ⟨s₀, hs₀⟩
  have hle1 : kerPow Y K N m s₀ ≤ 1 := by
    rw [← kerPow_row Y K hrow N m hm]
    exact Finset.single_le_sum (f := fun t => kerPow Y K N m t)
      (fun t ht => kerPow_nonneg Y K hK N m t ht) hs₀
  refine ⟨1 - kerPow Y K N m s₀, by linarith, by linarith [hpos m hm], ?_⟩
  intro ν hν n
  have hblock : ∀ k : ℕ, ∑ t ∈ Y, |(pushDist Y K)^[N * k] ν t|
      ≤ (1 - kerPow Y K N m s₀) ^ k * ∑ s ∈ Y, |ν s| := by
    intro k
    induction k with
    | zero => simp
    | succ k ih =>
      rw [Nat.mul_succ, Nat.add_comm (N * k) N, Function.iterate_add_apply]
      refine (pushDist_contract Y K hK hrow N s₀ hs₀ _ hmin _ ?_).trans ?_
      · rw [pushDist_total Y K hrow, hν]
      · rw [pow_succ', mul_assoc]
        exact mul_le_mul_of_nonneg_left ih (by linarith)
  have hn : n = n % N + N * (n / N) := (Nat.mod_add_div n N).symm
  conv_lhs => rw [hn]
  rw [Function.iterate_add_apply]
  refine le_trans ?_ (hblock (n / N))
  have := pushDist_contract Y K hK hrow (n % N) s₀ hs₀ 0
    (fun s _ => kerPow_nonneg Y K hK _ s s₀ hs₀) ((pushDist Y K)^[N * (n / N)] ν)
    (by rw [pushDist_total Y K hrow, hν])
  simpa using this

end Abstract

section Walks

variable {S : Type*} [DecidableEq S] (X : Finset S) (R : S → S → Prop)

/-- Walks of exactly `n` steps. -/
def walk : ℕ → S → S → Prop
  | 0 => fun s t => s = t
  | n + 1 => fun s t => ∃ u, walk n s u ∧ R u t

omit [DecidableEq S] in
theorem walk_add (m n : ℕ) (s t u : S) (h1 : walk R m s t) (h2 : walk R n t u) :
    walk R (m + n) s u := by
  induction n generalizing u with
  | zero => rw [← (h2 : t = u)]; exact h1
  | succ n ih =>
    obtain ⟨v, hv, hu⟩ := h2
    exact ⟨v, ih v hv, hu⟩

omit [DecidableEq S] in
theorem walk_of_reach (s t : S) (h : ReflTransGen R s t) : ∃ n, walk R n s t := by
  induction h with
  | refl => exact ⟨0, rfl⟩
  | tail _ hab ih =>
    obtain ⟨n, hn⟩ := ih
    exact ⟨n + 1, _, hn, hab⟩

omit [DecidableEq S] in
theorem walk_reach (n : ℕ) (s t : S) (h : walk R n s t) : ReflTransGen R s t := by
  induction n generalizing t with
  | zero => rw [(h : s = t)]
  | succ n ih =>
    obtain ⟨u, hu, hut⟩ := h
    exact (ih u hu).tail hut

omit [DecidableEq S] in
/-- With a closed walk of odd length and one of length 2, there is a number of steps after which
`s₀` can be reached from everywhere. -/
theorem walk_common (s₀ : S) (hirr : ∀ s ∈ X, ReflTransGen R s s₀)
    (h2 : walk R 2 s₀ s₀) (m : ℕ) (hm : Odd m) (hodd : walk R m s₀ s₀) :
    ∃ N, ∀ s ∈ X, walk R N s s₀ := by
  have heven : ∀ k, walk R (2 * k) s₀ s₀ := by
    intro k
    induction k with
    | zero => rfl
    | succ k ih => exact walk_add R (2 * k) 2 _ _ _ ih h2
  have hall : ∀ n, m ≤ n → walk R n s₀ s₀ := by
    intro n hn
    rcases Nat.even_or_odd n with h | h
    · obtain ⟨k, rfl⟩ := h
      have := heven k
      rwa [Nat.two_mul] at this
    · obtain ⟨a, rfl⟩ := hm
      obtain ⟨b, rfl⟩ := h
      have := walk_add R _ _ _ _ _ hodd (heven (b - a))
      have e : 2 * a + 1 + 2 * (b - a) = 2 * b + 1 := by omega
      rwa [e] at this
  have hlen : ∀ s : S, ∃ n, s ∈ X → walk R n s s₀ := by
    intro s
    by_cases hs : s ∈ X
    · obtain ⟨n, hn⟩ := walk_of_reach R s s₀ (hirr s hs)
      exact ⟨n, fun _ => hn⟩
    · exact ⟨0, fun h => absurd h hs⟩
  choose len hlen using hlen
  refine ⟨X.sup len + m, fun s hs => ?_⟩
  have hle : len s ≤ X.sup len := Finset.le_sup hs
  have := walk_add R _ _ _ _ _ (hlen s hs) (hall (X.sup len + m - len s) (by omega))
  have e : len s + (X.sup len + m - len s) = X.sup len + m := by omega
  rwa [e] at this

end Walks

section Kernel

variable {Ω S : Type*} [DecidableEq S] (W : Finset Ω) (propose : Ω → S → S) (lw : S → ℝ)

/-- The `n`-step kernel of `C` chains is positive if every chain has a walk of `n` steps. -/
theorem kerPow_pos (X : Finset S) (hX : ∀ s ∈ X, ∀ t, 0 < chainKernel W propose lw s t → t ∈ X)
    {C : ℕ} (n : ℕ) (s t : Fin C → S) (hs : ∀ i, s i ∈ X)
    (h : ∀ i, walk (fun a b => 0 < chainKernel W propose lw a b) n (s i) (t i)) :
    0 < kerPow (Fintype.piFinset fun _ : Fin C => X)
      (Spec.transProb W (metropolisStep propose lw)) n s t := by
  induction n generalizing t with
  | zero =>
    have : s = t := funext h
    simp [kerPow, this]
  | succ n ih =>
    choose u hu hut using h
    have huX : ∀ i, u i ∈ X := by
      intro i
      have := walk_reach _ _ _ _ (hu i)
      have key : ∀ v, ReflTransGen (fun a b => 0 < chainKernel W propose lw a b) (s i) v → v ∈ X := by
        intro v hv
        induction hv with
        | refl => exact hs i
        | tail _ hab ih => exact hX _ ih _ hab
      exact key _ this
    have hnn : ∀ a b : Fin C → S, 0 ≤ Spec.transProb W (metropolisStep propose lw) a b := by
      intro a b
      rw [transProb_eq]
      exact Finset.prod_nonneg fun i _ => chainKernel_nonneg W propose lw _ _
    have hpow : ∀ m (a b : Fin C → S), 0 ≤ kerPow (Fintype.piFinset fun _ : Fin C => X)
        (Spec.transProb W (metropolisStep propose lw)) m a b := by
      intro m
      induction m with
      | zero => intro a b; unfold kerPow; split_ifs <;> norm_num
      | succ m ihm =>
        intro a b
        exact Finset.sum_nonneg fun v _ => mul_nonneg (ihm a v) (hnn v b)
    refine Finset.sum_pos' (fun v _ => mul_nonneg (hpow n s v) (hnn v t)) ⟨u, ?_, ?_⟩
    · exact Fintype.mem_piFinset.mpr huX
    · refine mul_pos (ih u hu) ?_
      rw [transProb_eq]
      exact Finset.prod_pos fun i _ => hut i

/-- A configuration stays with positive probability if a proposed one has a smaller weight. -/
theorem chainKernel_stay_pos (ω : Ω) (hω : ω ∈ W) (s : S) (h : lw (propose ω s) < lw s) :
    0 < chainKernel W propose lw s s := by
  unfold chainKernel
  apply div_pos
  · apply Finset.sum_pos' (fun ω _ => chainKernel_term_nonneg propose lw ω s _)
    refine ⟨ω, hω, ?_⟩
    have h0 : (0 : ℝ) ≤ min 1 (Real.exp (lw (propose ω s)) / Real.exp (lw s)) :=
      le_min zero_le_one (by positivity)
    have h1 : min 1 (Real.exp (lw (propose ω s)) / Real.exp (lw s)) < (1 : ℝ) := by
      refine min_lt_of_right_lt ?_
      rw [div_lt_one (Real.exp_pos _)]
      exact Real.exp_lt_exp.mpr h
    rw [if_pos rfl]
    split_ifs <;> linarith
  · exact_mod_cast Finset.card_pos.mpr ⟨ω, hω⟩

/-- Moves of positive probability stay in `X`. -/
theorem chainKernel_mem (X : Finset S) (hX : ∀ ω ∈ W, ∀ s ∈ X, propose ω s ∈ X)
    (s : S) (hs : s ∈ X) (t : S) (h : 0 < chainKernel W propose lw s t) : t ∈ X := by
  by_contra ht
  unfold chainKernel at h
  rw [Finset.sum_eq_zero] at h
  · simp at h
  · intro ω hω
    rw [if_neg, if_neg]
    · simp
    · rintro rfl; exact ht hs
    · rintro rfl; exact ht (hX ω hω s hs)

omit [DecidableEq S] in
/-- If no move lowers the weight anywhere, the weight is the same at connected configurations. -/
theorem exists_rejection (X : Finset S)
    (hX : ∀ ω ∈ W, ∀ s ∈ X, propose ω s ∈ X)
    (hirr : ∀ s ∈ X, ∀ t ∈ X, ReflTransGen (fun a b => ∃ ω ∈ W, propose ω a = b) s t)
    (s t : S) (hs : s ∈ X) (ht : t ∈ X) (hne : lw s ≠ lw t) :
    ∃ a ∈ X, ∃ ω ∈ W, lw (propose ω a) < lw a := by
  by_contra hc
  push Not at hc
  have key : ∀ s ∈ X, ∀ t, ReflTransGen (fun a b => ∃ ω ∈ W, propose ω a = b) s t →
      t ∈ X ∧ lw s ≤ lw t := by
    intro s hs t h
    induction h with
    | refl => exact ⟨hs, le_rfl⟩
    | tail _ hab ih =>
      obtain ⟨ω, hω, rfl⟩ := hab
      exact ⟨hX ω hω _ ih.1, ih.2.trans (hc _ ih.1 ω hω)⟩
  exact hne (le_antisymm (key s hs t (hirr s hs t ht)).2 (key t ht s (hirr t ht s hs)).2)

end Kernel

end JVMC
