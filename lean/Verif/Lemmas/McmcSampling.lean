import Verif.Lemmas.DirectSampling
import Verif.Model.McmcSampling
import Verif.Props.Converge
import Mathlib.Algebra.Order.Chebyshev

/-!
# Lemmas about Markov chain sampling
-/

namespace JVMC

open Spec Relation

/-! ## Laws -/

theorem average_nonneg {A : Type} {d : WDist A} (hd : ∀ e ∈ d, 0 ≤ e.2) {F : A → ℝ} (h : ∀ e ∈ d, 0 ≤ F e.1) :
    0 ≤ average d F := by
  have := average_mono hd (F := fun _ => 0) (G := F) h
  have h0 := average_mul d 0 fun _ => 0
  simp only [zero_mul] at h0
  linarith

theorem average_abs_le {A : Type} {d : WDist A} (hd : IsLaw d) {F : A → ℝ} {c : ℝ} (h : ∀ e ∈ d, |F e.1| ≤ c) :
    |average d F| ≤ c := by
  rw [abs_le]
  constructor
  · rw [← average_const hd (-c)]
    exact average_mono hd.nonneg fun e he => (abs_le.mp (h e he)).1
  · rw [← average_const hd c]
    exact average_mono hd.nonneg fun e he => (abs_le.mp (h e he)).2

theorem isLaw_bind' {A B : Type} {d : WDist A} (h : IsLaw d) (f : A → WDist B) (hf : ∀ e ∈ d, IsLaw (f e.1)) :
    IsLaw (WDist.bind d f) := by
  refine ⟨?_, ?_⟩
  · intro e he
    obtain ⟨e', he', he⟩ := List.mem_flatMap.mp he
    obtain ⟨e'', he'', rfl⟩ := List.mem_map.mp he
    exact mul_nonneg (h.nonneg e' he') ((hf e' he').nonneg e'' he'')
  · rw [average_bind, average_congr d (G := fun _ => 1) fun e he => (hf e he).total]
    exact h.total

theorem mem_bind {A B : Type} {d : WDist A} {f : A → WDist B} {e : B × ℝ} (he : e ∈ WDist.bind d f) :
    ∃ e' ∈ d, ∃ e'' ∈ f e'.1, e.1 = e''.1 := by
  obtain ⟨e', he', he⟩ := List.mem_flatMap.mp he
  obtain ⟨e'', he'', rfl⟩ := List.mem_map.mp he
  exact ⟨e', he', e'', he'', rfl⟩

/-- Means of sums over independent draws. -/
theorem average_each_sum {A : Type} (φ : A → ℝ) (ds : List (WDist A)) (h : ∀ d ∈ ds, IsLaw d) :
    average (WDist.each ds) (fun l => (l.map φ).sum) = (ds.map fun d => average d φ).sum := by
  induction ds with
  | nil =>
    rw [WDist.each, average_pure]
    rfl
  | cons d ds ih =>
    have hds : ∀ d' ∈ ds, IsLaw d' := fun d' hd' => h d' (by simp [hd'])
    rw [WDist.each, average_bind]
    have : ∀ a, average (WDist.map (a :: ·) (WDist.each ds)) (fun l => (l.map φ).sum)
        = φ a + (ds.map fun d => average d φ).sum := by
      intro a
      rw [average_map]
      simp only [List.map_cons, List.sum_cons]
      rw [average_add, average_const (isLaw_each ds hds), ih hds]
    simp only [this]
    rw [average_add, average_const (h d (by simp)), List.map_cons, List.sum_cons]

/-! ## Chains -/

section

variable {T : Type} (Y : T → Prop) (sw : T → WDist T) (hsw : ∀ x, Y x → IsLaw (sw x) ∧ ∀ e ∈ sw x, Y e.1)

include hsw in
theorem iterLaw_law (n : ℕ) (x : T) (hx : Y x) : IsLaw (iterLaw sw n x) ∧ ∀ e ∈ iterLaw sw n x, Y e.1 := by
  induction n generalizing x with
  | zero =>
    refine ⟨isLaw_pure _, ?_⟩
    intro e he
    obtain rfl := List.mem_singleton.mp he
    exact hx
  | succ n ih =>
    refine ⟨isLaw_bind' (hsw x hx).1 _ fun e he => (ih _ ((hsw x hx).2 e he)).1, ?_⟩
    intro e he
    obtain ⟨e', he', e'', he'', h⟩ := mem_bind he
    rw [h]
    exact (ih _ ((hsw x hx).2 e' he')).2 e'' he''

include hsw in
theorem collectLaw_law (n : ℕ) (x : T) (hx : Y x) :
    IsLaw (collectLaw sw n x) ∧ ∀ e ∈ collectLaw sw n x, e.1.length = n ∧ ∀ y ∈ e.1, Y y := by
  induction n generalizing x with
  | zero =>
    refine ⟨isLaw_pure _, ?_⟩
    intro e he
    obtain rfl := List.mem_singleton.mp he
    simp
  | succ n ih =>
    refine ⟨isLaw_bind' (hsw x hx).1 _ fun e he => isLaw_map _ (ih _ ((hsw x hx).2 e he)).1, ?_⟩
    intro e he
    obtain ⟨e', he', e'', he'', h⟩ := mem_bind he
    obtain ⟨e₃, he₃, rfl⟩ := List.mem_map.mp he''
    have h' := (ih _ ((hsw x hx).2 e' he')).2 e₃ he₃
    rw [h]
    refine ⟨by simp [h'.1], ?_⟩
    intro y hy
    rcases List.mem_cons.mp hy with rfl | hy
    · exact (hsw x hx).2 e' he'
    · exact h'.2 y hy

theorem average_collect_succ (n : ℕ) (x : T) (F : List T → ℝ) :
    average (collectLaw sw (n + 1) x) F
      = average (sw x) fun y => average (collectLaw sw n y) fun l => F (y :: l) := by
  rw [collectLaw, average_bind]
  simp only [average_map]

theorem average_iter_succ (n : ℕ) (x : T) (F : T → ℝ) :
    average (iterLaw sw (n + 1) x) F = average (sw x) fun y => average (iterLaw sw n y) F := by
  rw [iterLaw, average_bind]

theorem average_iter_add (m n : ℕ) (x : T) (F : T → ℝ) :
    average (iterLaw sw (m + n) x) F = average (iterLaw sw m x) fun y => average (iterLaw sw n y) F := by
  induction m generalizing x with
  | zero => rw [Nat.zero_add, iterLaw, average_pure]
  | succ m ih =>
    rw [Nat.add_right_comm, average_iter_succ, average_iter_succ]
    simp only [ih]

theorem average_iter_iter (k m : ℕ) (x : T) (F : T → ℝ) :
    average (iterLaw (iterLaw sw k) m x) F = average (iterLaw sw (m * k) x) F := by
  induction m generalizing x with
  | zero => rw [Nat.zero_mul, iterLaw, iterLaw]
  | succ m ih =>
    rw [average_iter_succ, Nat.succ_mul, Nat.add_comm, average_iter_add]
    simp only [ih]

include hsw in
/-- The mean of a sum along a trajectory. -/
theorem average_collect_sum (G : T → ℝ) (n : ℕ) (x : T) (hx : Y x) :
    average (collectLaw sw n x) (fun l => (l.map G).sum)
      = ∑ m ∈ Finset.range n, average (iterLaw sw (m + 1) x) G := by
  induction n generalizing x with
  | zero =>
    rw [collectLaw, average_pure]
    rfl
  | succ n ih =>
    rw [average_collect_succ, Finset.sum_range_succ']
    have h1 : average (sw x) (fun y => average (collectLaw sw n y) fun l => ((y :: l).map G).sum)
        = average (sw x) (fun y => G y + ∑ m ∈ Finset.range n, average (iterLaw sw (m + 1) y) G) := by
      apply average_congr
      intro e he
      have hy := (hsw x hx).2 e he
      simp only [List.map_cons, List.sum_cons]
      rw [average_add, average_const (collectLaw_law Y sw hsw n _ hy).1, ih _ hy]
    rw [h1, average_add, add_comm]
    congr 1
    · clear h1 ih
      induction n with
      | zero =>
        simp only [Finset.range_zero, Finset.sum_empty]
        have h0 := average_mul (sw x) 0 fun _ => 0
        simpa using h0
      | succ n ih =>
        simp only [Finset.sum_range_succ]
        rw [average_add, ih, average_iter_succ sw (n + 1)]
    · rw [average_iter_succ]
      simp only [iterLaw, average_pure]

include hsw in
/-- The second moment of a sum along a trajectory grows linearly if the first moments stay bounded. -/
theorem average_collect_sq (G : T → ℝ) (g V : ℝ) (hg : 0 ≤ g) (hG : ∀ x, Y x → |G x| ≤ g)
    (hV : ∀ n x, Y x → |average (collectLaw sw n x) fun l => (l.map G).sum| ≤ V) (n : ℕ) (x : T) (hx : Y x) :
    average (collectLaw sw n x) (fun l => (l.map G).sum ^ 2) ≤ n * (g ^ 2 + 2 * g * V) := by
  induction n generalizing x with
  | zero =>
    rw [collectLaw, average_pure]
    simp
  | succ n ih =>
    rw [average_collect_succ]
    refine le_trans (average_mono (hsw x hx).1.nonneg (G := fun _ => g ^ 2 + 2 * g * V + n * (g ^ 2 + 2 * g * V)) ?_) ?_
    · intro e he
      have hy := (hsw x hx).2 e he
      have hl := (collectLaw_law Y sw hsw n _ hy).1
      have hexp : average (collectLaw sw n e.1) (fun l => ((e.1 :: l).map G).sum ^ 2)
          = G e.1 ^ 2 + 2 * G e.1 * average (collectLaw sw n e.1) (fun l => (l.map G).sum)
            + average (collectLaw sw n e.1) fun l => (l.map G).sum ^ 2 := by
        rw [← average_mul, ← average_const hl (G e.1 ^ 2), ← average_add, ← average_add]
        congr 1
        funext l
        simp only [List.map_cons, List.sum_cons]
        ring
      rw [hexp]
      have h1 := hG _ hy
      have h2 := hV n _ hy
      have h3 : G e.1 ^ 2 ≤ g ^ 2 := by
        rw [← sq_abs]
        exact pow_le_pow_left₀ (abs_nonneg _) h1 2
      have h4 : G e.1 * average (collectLaw sw n e.1) (fun l => (l.map G).sum) ≤ g * V := by
        refine (le_abs_self _).trans ?_
        rw [abs_mul]
        exact mul_le_mul h1 h2 (abs_nonneg _) hg
      nlinarith [ih _ hy]
    · rw [average_const (hsw x hx).1]
      push_cast
      linarith

end

/-! ## Geometric sums -/

theorem sum_pow_div (ρ : ℝ) (h0 : 0 ≤ ρ) (h1 : ρ < 1) (N : ℕ) (hN : 0 < N) (n : ℕ) :
    ∑ m ∈ Finset.range n, ρ ^ (m / N) ≤ N / (1 - ρ) := by
  have h1' : (0 : ℝ) < 1 - ρ := by linarith
  induction n using Nat.strong_induction_on with
  | _ n ih =>
    by_cases h : n < N
    · rw [le_div_iff₀ h1']
      calc (∑ m ∈ Finset.range n, ρ ^ (m / N)) * (1 - ρ) ≤ (∑ m ∈ Finset.range n, (1 : ℝ)) * 1 := by
            apply mul_le_mul _ (by linarith) h1'.le (by positivity)
            exact Finset.sum_le_sum fun m _ => pow_le_one₀ h0 h1.le
        _ ≤ N := by
            simp only [Finset.sum_const, Finset.card_range, nsmul_eq_mul, mul_one]
            exact_mod_cast h.le
    · obtain ⟨k, rfl⟩ := Nat.exists_eq_add_of_le (not_lt.mp h)
      rw [Finset.sum_range_add]
      have e1 : ∑ m ∈ Finset.range N, ρ ^ (m / N) = N := by
        rw [Finset.sum_congr rfl fun m hm => by rw [Nat.div_eq_of_lt (Finset.mem_range.mp hm), pow_zero]]
        simp
      have e2 : ∀ m, ρ ^ ((N + m) / N) = ρ * ρ ^ (m / N) := by
        intro m
        rw [Nat.add_div_left _ hN, pow_succ']
      simp only [e1, e2]
      rw [← Finset.mul_sum]
      have := ih k (by omega)
      rw [le_div_iff₀ h1'] at this ⊢
      nlinarith

/-! ## Updates -/

section

variable {Ω S : Type} [DecidableEq S] {C : ℕ} (W : Finset Ω) (propose : Ω → S → S) (lw : S → ℝ) (hW : W.Nonempty)
  (X : Finset S) (hX : ∀ ω ∈ W, ∀ s ∈ X, propose ω s ∈ X)

omit [DecidableEq S] in
theorem average_update (step : Ω → ℝ → S → S) (s : Fin C → S) (F : (Fin C → S) → ℝ) :
    average (updateLaw W step X s) F
      = ∑ t ∈ Fintype.piFinset (fun _ : Fin C => X), transProb W step s t * F t := by
  unfold average updateLaw
  rw [List.map_map]
  exact Finset.sum_map_toList _ _

include hW hX in
theorem updateLaw_law (s : Fin C → S) (hs : ∀ i, s i ∈ X) :
    IsLaw (updateLaw W (metropolisStep propose lw) X s) ∧
      ∀ e ∈ updateLaw W (metropolisStep propose lw) X s, ∀ i, e.1 i ∈ X := by
  refine ⟨⟨?_, ?_⟩, ?_⟩
  · intro e he
    obtain ⟨t, _, rfl⟩ := List.mem_map.mp he
    unfold transProb
    positivity
  · rw [average_update]
    simp only [mul_one]
    exact c16_transitions_normalised W propose lw hW X hX s hs
  · intro e he
    obtain ⟨t, ht, rfl⟩ := List.mem_map.mp he
    exact Fintype.mem_piFinset.mp (Finset.mem_toList.mp ht)

omit [DecidableEq S] in
/-- Means after `n` updates, from the evolution of distributions. -/
theorem average_iter_evolve (step : Ω → ℝ → S → S) (n : ℕ) (μ : (Fin C → S) → ℝ) (F : (Fin C → S) → ℝ) :
    ∑ t ∈ Fintype.piFinset (fun _ : Fin C => X), (evolve W step X)^[n] μ t * F t
      = ∑ s ∈ Fintype.piFinset (fun _ : Fin C => X), μ s * average (iterLaw (updateLaw W step X) n s) F := by
  induction n generalizing μ with
  | zero => simp only [Function.iterate_zero, id, iterLaw, average_pure]
  | succ n ih =>
    rw [Function.iterate_succ, Function.comp_apply, ih]
    simp only [average_iter_succ, average_update, evolve, Finset.mul_sum, Finset.sum_mul]
    rw [Finset.sum_comm]
    refine Finset.sum_congr rfl fun s _ => Finset.sum_congr rfl fun t _ => ?_
    ring

omit [DecidableEq S] in
/-- The mean of a sum over independent chains. -/
theorem productDist_mean (w h : S → ℝ) (hZ : ∑ x ∈ X, w x ≠ 0) :
    ∑ s ∈ Fintype.piFinset (fun _ : Fin C => X), productDist X w s * ∑ i, h (s i)
      = C * ((∑ x ∈ X, w x * h x) / ∑ x ∈ X, w x) := by
  have key : ∀ j : Fin C, ∑ s ∈ Fintype.piFinset (fun _ : Fin C => X), productDist X w s * h (s j)
      = (∑ x ∈ X, w x * h x) / ∑ x ∈ X, w x := by
    intro j
    have e : ∀ s : Fin C → S, productDist X w s * h (s j)
        = ∏ i, (w (s i) / ∑ x ∈ X, w x) * if i = j then h (s i) else 1 := by
      intro s
      rw [Finset.prod_mul_distrib, Finset.prod_ite_eq' Finset.univ j fun i => h (s i), if_pos (Finset.mem_univ _)]
      rfl
    simp only [e]
    rw [← Finset.prod_univ_sum (fun _ : Fin C => X) fun i x => (w x / ∑ x ∈ X, w x) * if i = j then h x else 1]
    rw [Finset.prod_eq_single j]
    · simp only [if_true]
      rw [Finset.sum_div]
      exact Finset.sum_congr rfl fun x _ => by ring
    · intro i _ hij
      simp only [if_neg hij, mul_one]
      rw [← Finset.sum_div, div_self hZ]
    · intro h
      exact absurd (Finset.mem_univ _) h
  simp only [Finset.mul_sum]
  rw [Finset.sum_comm]
  simp only [key]
  simp

include hW hX in
/-- Means of functions with mean zero in the target distribution decay with the number of updates. -/
theorem average_iter_decay
    (hsym : ∀ s ∈ X, ∀ s' ∈ X, (W.filter fun ω => propose ω s = s').card
      = (W.filter fun ω => propose ω s' = s).card)
    (hirr : ∀ s ∈ X, ∀ t ∈ X, ReflTransGen (fun a b => ∃ ω ∈ W, propose ω a = b) s t)
    (hap : (∃ s ∈ X, ∃ t ∈ X, lw s ≠ lw t) ∨
      ∃ s ∈ X, ∃ ds : List Ω, (∀ d ∈ ds, d ∈ W) ∧ Odd ds.length ∧ ds.foldl (fun s d => propose d s) s = s) :
    ∃ (ρ : ℝ) (N : ℕ), 0 ≤ ρ ∧ ρ < 1 ∧ 0 < N ∧ ∀ (G : (Fin C → S) → ℝ) (g : ℝ), (∀ t, (∀ i, t i ∈ X) → |G t| ≤ g) →
      ∑ t ∈ Fintype.piFinset (fun _ : Fin C => X), productDist X (fun x => Real.exp (lw x)) t * G t = 0 →
      ∀ s : Fin C → S, (∀ i, s i ∈ X) → ∀ n,
        |average (iterLaw (updateLaw W (metropolisStep propose lw) X) n s) G| ≤ ρ ^ (n / N) * (2 * g) := by
  obtain ⟨ρ, N, h0, h1, hN, hconv⟩ := c75_converges W propose lw hW X hX hsym hirr hap C
  refine ⟨ρ, N, h0, h1, hN, ?_⟩
  intro G g hG hmean s hs n
  set Y := Fintype.piFinset (fun _ : Fin C => X)
  have hsY : s ∈ Y := Fintype.mem_piFinset.mpr hs
  set δ : (Fin C → S) → ℝ := fun t => if t = s then 1 else 0 with hδ
  set π : (Fin C → S) → ℝ := productDist X fun x => Real.exp (lw x) with hπ
  have hδ1 : ∑ t ∈ Y, δ t = 1 := by
    rw [hδ, Finset.sum_ite_eq' Y s, if_pos hsY]
  have hg : 0 ≤ g := (abs_nonneg _).trans (hG s hs)
  have hπ0 : ∀ t, 0 ≤ π t := by
    intro t
    exact Finset.prod_nonneg fun i _ => div_nonneg (Real.exp_pos _).le (Finset.sum_nonneg fun _ _ => (Real.exp_pos _).le)
  have hπ1 : ∑ t ∈ Y, π t ≤ 1 := by
    rw [hπ]
    unfold productDist
    rw [← Finset.prod_univ_sum (fun _ : Fin C => X) fun _ x => Real.exp (lw x) / ∑ x ∈ X, Real.exp (lw x)]
    refine Finset.prod_le_one (fun i _ => Finset.sum_nonneg fun _ _ => ?_) fun i _ => ?_
    · exact div_nonneg (Real.exp_pos _).le (Finset.sum_nonneg fun _ _ => (Real.exp_pos _).le)
    · rw [← Finset.sum_div]
      exact div_self_le_one _
  have hev := average_iter_evolve W X (metropolisStep propose lw) n δ G
  have hrhs : ∑ t ∈ Y, δ t * average (iterLaw (updateLaw W (metropolisStep propose lw) X) n t) G
      = average (iterLaw (updateLaw W (metropolisStep propose lw) X) n s) G := by
    rw [Finset.sum_eq_single s]
    · simp [hδ]
    · intro t _ ht
      simp [hδ, ht]
    · intro h
      exact absurd hsY h
  rw [hrhs] at hev
  rw [← hev]
  have h2 := hconv δ hδ1 n
  calc |∑ t ∈ Y, (evolve W (metropolisStep propose lw) X)^[n] δ t * G t|
      = |∑ t ∈ Y, ((evolve W (metropolisStep propose lw) X)^[n] δ t - π t) * G t| := by
        simp only [sub_mul, Finset.sum_sub_distrib, hmean, sub_zero]
    _ ≤ ∑ t ∈ Y, |(evolve W (metropolisStep propose lw) X)^[n] δ t - π t| * g := by
        refine (Finset.abs_sum_le_sum_abs _ _).trans (Finset.sum_le_sum fun t ht => ?_)
        rw [abs_mul]
        exact mul_le_mul_of_nonneg_left (hG t (Fintype.mem_piFinset.mp ht)) (abs_nonneg _)
    _ ≤ (ρ ^ (n / N) * ∑ t ∈ Y, |δ t - π t|) * g := by
        rw [← Finset.sum_mul]
        exact mul_le_mul_of_nonneg_right h2 hg
    _ ≤ ρ ^ (n / N) * (2 * g) := by
        rw [mul_assoc]
        refine mul_le_mul_of_nonneg_left (mul_le_mul_of_nonneg_right ?_ hg) (pow_nonneg h0 _)
        calc ∑ t ∈ Y, |δ t - π t| ≤ ∑ t ∈ Y, (δ t + π t) := by
              refine Finset.sum_le_sum fun t _ => ?_
              have hd : 0 ≤ δ t := by
                simp only [hδ]
                split_ifs <;> norm_num
              rw [abs_le]
              constructor <;> linarith [hπ0 t]
          _ ≤ 2 := by
              rw [Finset.sum_add_distrib, hδ1]
              linarith

include hW hX in
/-- The second moment of a sum over the samples of a device grows at most linearly. -/
theorem average_samples_sq
    (hsym : ∀ s ∈ X, ∀ s' ∈ X, (W.filter fun ω => propose ω s = s').card
      = (W.filter fun ω => propose ω s' = s).card)
    (hirr : ∀ s ∈ X, ∀ t ∈ X, ReflTransGen (fun a b => ∃ ω ∈ W, propose ω a = b) s t)
    (hap : (∃ s ∈ X, ∃ t ∈ X, lw s ≠ lw t) ∨
      ∃ s ∈ X, ∃ ds : List Ω, (∀ d ∈ ds, d ∈ W) ∧ Odd ds.length ∧ ds.foldl (fun s d => propose d s) s = s)
    (hne : X.Nonempty) (h : S → ℝ) (hmean : ∑ x ∈ X, Real.exp (lw x) * h x = 0) (sweepSteps : ℕ)
    (hsw : 0 < sweepSteps) :
    ∃ K : ℝ, 0 ≤ K ∧ ∀ (therm n : ℕ) (s : Fin C → S), (∀ i, s i ∈ X) →
      average (samplesLaw W (metropolisStep propose lw) X therm sweepSteps n s) (fun l => (l.map h).sum ^ 2) ≤ n * K := by
  obtain ⟨ρ, N, h0, h1, hN, hdecay⟩ := average_iter_decay (C := C) W propose lw hW X hX hsym hirr hap
  set G : (Fin C → S) → ℝ := fun s => ∑ i, h (s i) with hGdef
  set g : ℝ := ∑ i : Fin C, ∑ x ∈ X, |h x| with hgdef
  have hg : 0 ≤ g := Finset.sum_nonneg fun i _ => Finset.sum_nonneg fun x _ => abs_nonneg _
  have hG : ∀ t : Fin C → S, (∀ i, t i ∈ X) → |G t| ≤ g := by
    intro t ht
    refine (Finset.abs_sum_le_sum_abs _ _).trans (Finset.sum_le_sum fun i _ => ?_)
    exact Finset.single_le_sum (f := fun x => |h x|) (fun x _ => abs_nonneg _) (ht i)
  have hZ : ∑ x ∈ X, Real.exp (lw x) ≠ 0 := (Finset.sum_pos (fun x _ => Real.exp_pos _) hne).ne'
  have hG0 : ∑ t ∈ Fintype.piFinset (fun _ : Fin C => X), productDist X (fun x => Real.exp (lw x)) t * G t = 0 := by
    rw [hGdef, productDist_mean X _ _ hZ, hmean]
    simp
  set upd := updateLaw (C := C) W (metropolisStep propose lw) X
  have hupd : ∀ x, (∀ i, x i ∈ X) → IsLaw (upd x) ∧ ∀ e ∈ upd x, ∀ i, e.1 i ∈ X := fun x hx =>
    updateLaw_law W propose lw hW X hX x hx
  have hsweep : ∀ x, (∀ i, x i ∈ X) → IsLaw (iterLaw upd sweepSteps x) ∧
      ∀ e ∈ iterLaw upd sweepSteps x, ∀ i, e.1 i ∈ X := fun x hx =>
    iterLaw_law (fun x => ∀ i, x i ∈ X) upd hupd sweepSteps x hx
  set V : ℝ := N / (1 - ρ) * (2 * g)
  have hV : ∀ n x, (∀ i, x i ∈ X) →
      |average (collectLaw (iterLaw upd sweepSteps) n x) fun l => (l.map G).sum| ≤ V := by
    intro n x hx
    rw [average_collect_sum (fun x => ∀ i, x i ∈ X) _ hsweep G n x hx]
    refine (Finset.abs_sum_le_sum_abs _ _).trans ?_
    calc ∑ m ∈ Finset.range n, |average (iterLaw (iterLaw upd sweepSteps) (m + 1) x) G|
        ≤ ∑ m ∈ Finset.range n, ρ ^ (m / N) * (2 * g) := by
          refine Finset.sum_le_sum fun m _ => ?_
          rw [average_iter_iter]
          refine (hdecay G g hG hG0 x hx _).trans ?_
          refine mul_le_mul_of_nonneg_right (pow_le_pow_of_le_one h0 h1.le ?_) (by positivity)
          apply Nat.div_le_div_right
          nlinarith
      _ ≤ V := by
          rw [← Finset.sum_mul]
          exact mul_le_mul_of_nonneg_right (sum_pow_div ρ h0 h1 N hN n) (by positivity)
  have hV0 : 0 ≤ V := by
    have : (0 : ℝ) < 1 - ρ := by linarith
    positivity
  refine ⟨g ^ 2 + 2 * g * V, by positivity, ?_⟩
  intro therm n s hs
  have hth := iterLaw_law (fun x => ∀ i, x i ∈ X) upd hupd (therm * sweepSteps) s hs
  unfold samplesLaw
  rw [average_bind]
  refine le_trans (average_mono hth.1.nonneg (G := fun _ => n * (g ^ 2 + 2 * g * V)) ?_) ?_
  · intro e he
    rw [average_map]
    have := average_collect_sq (fun x => ∀ i, x i ∈ X) _ hsweep G g V hg hG hV n e.1 (hth.2 e he)
    refine le_trans (le_of_eq ?_) this
    congr 1
    funext l
    congr 1
    induction l with
    | nil => rfl
    | cons a l ih =>
      simp only [List.map_cons, List.flatten_cons, List.map_append, List.sum_append, List.sum_cons]
      rw [ih]
      congr 1
      rw [List.map_ofFn, List.sum_ofFn]
      rfl
  · rw [average_const hth.1]

end

end JVMC
