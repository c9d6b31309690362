import Mathlib.Algebra.BigOperators.Ring.Finset
import Mathlib.Tactic.LinearCombination
import Mathlib.Tactic.Positivity
import Verif.Lemmas.Rnn
import Verif.Model.DirectSampling
import Verif.Spec.Statistics
import Verif.Spec.Samples

/-! # Helper lemmas: independent samples -/

namespace JVMC

open Spec

theorem average_expect {A : Type} (d : WDist A) (F : A → ℝ) : average d F = JVMC.expect d F := rfl

theorem average_pure {A : Type} (a : A) (F : A → ℝ) : average (WDist.pure a) F = F a := expect_pure a F

theorem average_bind {A B : Type} (d : WDist A) (f : A → WDist B) (F : B → ℝ) :
    average (WDist.bind d f) F = average d fun a => average (f a) F := expect_bind d f F

theorem average_map {A B : Type} (f : A → B) (d : WDist A) (F : B → ℝ) :
    average (WDist.map f d) F = average d fun a => F (f a) := by
  unfold average WDist.map
  rw [List.map_map]
  rfl

theorem average_add {A : Type} (d : WDist A) (F G : A → ℝ) :
    average d (fun a => F a + G a) = average d F + average d G := by
  unfold average
  rw [← List.sum_map_add]
  congr 2
  funext e
  ring

theorem average_mul {A : Type} (d : WDist A) (c : ℝ) (F : A → ℝ) :
    average d (fun a => c * F a) = c * average d F := by
  unfold average
  rw [← List.sum_map_mul_left]
  congr 2
  funext e
  ring

theorem average_const {A : Type} {d : WDist A} (h : IsLaw d) (c : ℝ) : average d (fun _ => c) = c := by
  have := average_mul d c fun _ => 1
  rw [h.total, mul_one] at this
  simpa using this

theorem average_sub {A : Type} (d : WDist A) (F G : A → ℝ) :
    average d (fun a => F a - G a) = average d F - average d G := by
  have h := average_add d F fun a => (-1) * G a
  rw [average_mul] at h
  rw [show (fun a => F a - G a) = fun a => F a + (-1) * G a from funext fun a => by ring, h]
  ring

theorem average_congr {A : Type} (d : WDist A) {F G : A → ℝ} (h : ∀ e ∈ d, F e.1 = G e.1) :
    average d F = average d G := by
  unfold average
  congr 1
  apply List.map_congr_left
  intro e he
  rw [h e he]

theorem average_mono {A : Type} {d : WDist A} (hd : ∀ e ∈ d, 0 ≤ e.2) {F G : A → ℝ}
    (h : ∀ e ∈ d, F e.1 ≤ G e.1) : average d F ≤ average d G := by
  unfold average
  apply List.sum_le_sum
  intro e he
  exact mul_le_mul_of_nonneg_left (h e he) (hd e he)

theorem average_finite {C : Type} [Fintype C] (d : WDist C) (F : C → ℝ) :
    average d F = ∑ s, prob d s * F s := by
  classical
  unfold average prob
  induction d with
  | nil => simp
  | cons e d ih =>
    simp only [List.map_cons, List.sum_cons, add_mul, Finset.sum_add_distrib, ih]
    congr 1
    rw [Finset.sum_eq_single e.1]
    · simp
    · intro b _ hb
      rw [if_neg (Ne.symm hb), zero_mul]
    · simp

theorem list_sum_map_sub {A R : Type} [CommRing R] (f g : A → R) (l : List A) :
    (l.map fun a => f a - g a).sum = (l.map f).sum - (l.map g).sum := by
  induction l with
  | nil => simp
  | cons a l ih =>
    simp only [List.map_cons, List.sum_cons, ih]
    ring

theorem re_list_sum (l : List ℂ) : l.sum.re = (l.map Complex.re).sum := by
  induction l with
  | nil => rfl
  | cons a l ih => simp [ih]

theorem im_list_sum (l : List ℂ) : l.sum.im = (l.map Complex.im).sum := by
  induction l with
  | nil => rfl
  | cons a l ih => simp [ih]

/-- Chebyshev's inequality. -/
theorem chebyshev {A : Type} {d : WDist A} (hd : ∀ e ∈ d, 0 ≤ e.2) (F : A → ℝ) (ε : ℝ) (hε : 0 < ε) :
    chance d (fun a => ε ≤ |F a|) ≤ average d (fun a => F a ^ 2) / ε ^ 2 := by
  rw [le_div_iff₀ (by positivity), mul_comm]
  unfold chance
  rw [← average_mul]
  apply average_mono hd
  intro e _
  split_ifs with h
  · rw [mul_one, ← sq_abs (F e.1)]
    exact pow_le_pow_left₀ hε.le h 2
  · rw [mul_zero]
    positivity

/-! ## Laws -/

theorem isLaw_pure {A : Type} (a : A) : IsLaw (WDist.pure a) :=
  ⟨by intro e he; obtain rfl := List.mem_singleton.mp he; exact zero_le_one, average_pure a _⟩

theorem isLaw_map {A B : Type} (f : A → B) {d : WDist A} (h : IsLaw d) : IsLaw (WDist.map f d) := by
  refine ⟨?_, by rw [average_map]; exact h.total⟩
  intro e he
  obtain ⟨e', he', rfl⟩ := List.mem_map.mp he
  exact h.nonneg e' he'

theorem isLaw_bind {A B : Type} {d : WDist A} (h : IsLaw d) (f : A → WDist B) (hf : ∀ a, IsLaw (f a)) :
    IsLaw (WDist.bind d f) := by
  refine ⟨?_, ?_⟩
  · intro e he
    obtain ⟨e', he', he⟩ := List.mem_flatMap.mp he
    obtain ⟨e'', he'', rfl⟩ := List.mem_map.mp he
    exact mul_nonneg (h.nonneg e' he') ((hf _).nonneg e'' he'')
  · rw [average_bind, show (fun a => average (f a) fun _ => 1) = fun _ => 1 from
      funext fun a => (hf a).total]
    exact h.total

theorem isLaw_many {A : Type} {d : WDist A} (h : IsLaw d) (n : ℕ) : IsLaw (WDist.many d n) := by
  induction n with
  | zero => exact isLaw_pure _
  | succ n ih => exact isLaw_bind h _ fun a => isLaw_map _ ih

theorem isLaw_each {A : Type} (ds : List (WDist A)) (h : ∀ d ∈ ds, IsLaw d) : IsLaw (WDist.each ds) := by
  induction ds with
  | nil => exact isLaw_pure _
  | cons d ds ih =>
    exact isLaw_bind (h d (by simp)) _ fun a => isLaw_map _ (ih fun d' hd' => h d' (by simp [hd']))

/-! ## Many draws in one list -/

theorem average_many_succ {A : Type} (d : WDist A) (n : ℕ) (F : List A → ℝ) :
    average (WDist.many d (n + 1)) F = average d fun a => average (WDist.many d n) fun l => F (a :: l) := by
  rw [WDist.many, average_bind]
  congr 1
  funext a
  rw [average_map]

theorem average_many_add {A : Type} (d : WDist A) (n m : ℕ) (F : List A → ℝ) :
    average (WDist.many d (n + m)) F
      = average (WDist.many d n) fun l => average (WDist.many d m) fun l' => F (l ++ l') := by
  induction n generalizing F with
  | zero => rw [Nat.zero_add, WDist.many, average_pure]; rfl
  | succ n ih =>
    rw [show n + 1 + m = (n + m) + 1 by omega, average_many_succ, average_many_succ]
    congr 1
    funext a
    rw [ih]
    rfl

/-- The devices of a rank, in one list. -/
theorem average_each_many {A : Type} (d : WDist A) (ns : List ℕ) (F : List A → ℝ) :
    average (WDist.each (ns.map (WDist.many d))) (fun ls => F ls.flatten) = average (WDist.many d ns.sum) F := by
  induction ns generalizing F with
  | nil => rw [List.map_nil, WDist.each, average_pure, List.sum_nil, WDist.many, average_pure]; rfl
  | cons n ns ih =>
    rw [List.map_cons, WDist.each, average_bind, List.sum_cons, average_many_add]
    congr 1
    funext l
    rw [average_map, ← ih]
    rfl

theorem average_each_ranks {A B : Type} (d : WDist A) (g : A → B) (nss : List (List ℕ)) (F : List B → ℝ) :
    average (WDist.each (nss.map fun ns => WDist.map (List.map (List.map g)) (WDist.each (ns.map (WDist.many d)))))
      (fun w => F (allSamples w)) = average (WDist.many d nss.flatten.sum) fun l => F (l.map g) := by
  induction nss generalizing F with
  | nil => rw [List.map_nil, WDist.each, average_pure, List.flatten_nil, List.sum_nil, WDist.many, average_pure]; rfl
  | cons ns nss ih =>
    rw [List.map_cons, WDist.each, average_bind, List.flatten_cons, List.sum_append, average_many_add,
      average_map, ← average_each_many]
    congr 1
    funext ls
    rw [average_map]
    have := ih fun x => F ((ls.flatten).map g ++ x)
    simp only [List.map_append]
    rw [← this]
    congr 1
    funext w
    unfold allSamples
    rw [List.flatten_cons, List.flatten_append, List.map_flatten]

/-! ## Moments -/

theorem average_sum {A : Type} {d : WDist A} (h : IsLaw d) (g : A → ℝ) (n : ℕ) :
    average (WDist.many d n) (fun l => (l.map g).sum) = n * average d g := by
  induction n with
  | zero => rw [WDist.many, average_pure]; simp
  | succ n ih =>
    rw [average_many_succ]
    simp only [List.map_cons, List.sum_cons]
    have : ∀ a, average (WDist.many d n) (fun l => g a + (l.map g).sum) = g a + n * average d g := by
      intro a
      rw [average_add, ih, average_const (isLaw_many h n)]
    simp only [this]
    rw [average_add, average_const h]
    push_cast
    ring

theorem average_sum_sq {A : Type} {d : WDist A} (h : IsLaw d) (g : A → ℝ) (h0 : average d g = 0) (n : ℕ) :
    average (WDist.many d n) (fun l => (l.map g).sum ^ 2) = n * average d fun a => g a ^ 2 := by
  induction n with
  | zero => rw [WDist.many, average_pure]; simp
  | succ n ih =>
    rw [average_many_succ]
    simp only [List.map_cons, List.sum_cons]
    have : ∀ a, average (WDist.many d n) (fun l => (g a + (l.map g).sum) ^ 2)
        = g a ^ 2 + n * average d fun a => g a ^ 2 := by
      intro a
      rw [show (fun l : List A => (g a + (l.map g).sum) ^ 2)
        = fun l => (g a ^ 2 + 2 * g a * (l.map g).sum) + (l.map g).sum ^ 2 from funext fun l => by ring,
        average_add, average_add, average_mul, ih, average_sum h, h0, average_const (isLaw_many h n)]
      ring
    simp only [this]
    rw [average_add, average_const h]
    push_cast
    ring

theorem many_length {A : Type} (d : WDist A) (n : ℕ) : ∀ e ∈ WDist.many d n, e.1.length = n := by
  induction n with
  | zero => intro e he; obtain rfl := List.mem_singleton.mp he; rfl
  | succ n ih =>
    intro e he
    obtain ⟨e', _, he⟩ := List.mem_flatMap.mp he
    obtain ⟨e'', he'', rfl⟩ := List.mem_map.mp he
    obtain ⟨e3, he3, rfl⟩ := List.mem_map.mp he''
    simp [ih e3 he3]

theorem each_spec {A : Type} (ds : List (WDist A)) :
    ∀ e ∈ WDist.each ds, List.Forall₂ (fun a d => ∃ p, (a, p) ∈ d) e.1 ds := by
  induction ds with
  | nil => intro e he; obtain rfl := List.mem_singleton.mp he; exact List.Forall₂.nil
  | cons d ds ih =>
    intro e he
    obtain ⟨e', he', he⟩ := List.mem_flatMap.mp he
    obtain ⟨e'', he'', rfl⟩ := List.mem_map.mp he
    obtain ⟨e3, he3, rfl⟩ := List.mem_map.mp he''
    exact List.Forall₂.cons ⟨e'.2, he'⟩ (ih e3 he3)

end JVMC
