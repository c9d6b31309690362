import Verif.Lemmas.LocalRounding
import Verif.Lemmas.Stats
import Verif.Model.CovarRounding
import Verif.Spec.CovarRounding

/-! # Lemmas for C137 -/

namespace JVMC

open Spec

variable {r : Rounding} {ι κ : Type}

/-- Cauchy's inequality for weighted sums. -/
theorem wcauchy {A : Type} {p : A → ℝ} (a b : A → ℝ) {l : List A} (hp : ∀ s ∈ l, 0 ≤ p s) :
    (l.map fun s => p s * (a s * b s)).sum ≤
      Real.sqrt (l.map fun s => p s * a s ^ 2).sum * Real.sqrt (l.map fun s => p s * b s ^ 2).sum := by
  induction l with
  | nil => simp
  | cons s l ih =>
    have hl : ∀ t ∈ l, 0 ≤ p t := fun t ht => hp t (List.mem_cons_of_mem _ ht)
    have hs := hp s List.mem_cons_self
    have i := ih hl
    simp only [List.map_cons, List.sum_cons]
    have hA : 0 ≤ (l.map fun s => p s * a s ^ 2).sum := list_sum_nonneg' fun t ht => mul_nonneg (hl t ht) (sq_nonneg _)
    have hB : 0 ≤ (l.map fun s => p s * b s ^ 2).sum := list_sum_nonneg' fun t ht => mul_nonneg (hl t ht) (sq_nonneg _)
    generalize (l.map fun s => p s * a s ^ 2).sum = A at *
    generalize (l.map fun s => p s * b s ^ 2).sum = B at *
    generalize (l.map fun s => p s * (a s * b s)).sum = C at *
    have ha := Real.sq_sqrt hA
    have hb := Real.sq_sqrt hB
    set x := Real.sqrt A
    set y := Real.sqrt B
    refine (add_le_add le_rfl i).trans ?_
    rw [← Real.sqrt_mul (by positivity : 0 ≤ p s * a s ^ 2 + A)]
    apply Real.le_sqrt_of_sq_le
    rw [← ha, ← hb]
    nlinarith [mul_nonneg hs (sq_nonneg (a s * y - b s * x))]

/-! ## One prepared number -/

theorem rmul_err {c : ℝ} {x y : ℂ} (h : RMulR r c x y) : ‖y - (c : ℂ) * x‖ ≤ r.u * ‖(c : ℂ) * x‖ := by
  have : CSubR r ((c : ℂ) * x) 0 y := by
    constructor
    · simpa using h.1
    · simpa using h.2
  simpa using csub_err this

theorem cadd_err {x y z : ℂ} (h : CAddR r x y z) : ‖z - (x + y)‖ ≤ r.u * ‖x + y‖ := by
  have : CSubR r x (-y) z := by
    constructor
    · simpa using h.1
    · simpa using h.2
  simpa using csub_err this

theorem dataPrep_err {w : ℝ} {x m d : ℂ} (h : DataPrepR r w x m d) :
    ‖d - (Real.sqrt w : ℂ) * (x - m)‖ ≤ ((1 + r.u) ^ 3 - 1) * ‖(Real.sqrt w : ℂ) * (x - m)‖ := by
  obtain ⟨s, z, hs, hz, h1, h2⟩ := h
  have hu := r.u_nonneg
  have e1 : ‖(s : ℂ) * (x - m) - (Real.sqrt w : ℂ) * (x - m)‖ ≤ ((1 + r.u) - 1) * ‖(Real.sqrt w : ℂ) * (x - m)‖ := by
    rw [← sub_mul, norm_mul, norm_mul, ← Complex.ofReal_sub, Complex.norm_real, Complex.norm_real, Real.norm_eq_abs,
      Real.norm_eq_abs, ← mul_assoc]
    refine mul_le_mul_of_nonneg_right ?_ (norm_nonneg _)
    have := rd_err hs
    linarith
  have e2 : ‖(s : ℂ) * z - (s : ℂ) * (x - m)‖ ≤ ((1 + r.u) - 1) * ‖(s : ℂ) * (x - m)‖ := by
    rw [← mul_sub, norm_mul, norm_mul]
    have := mul_le_mul_of_nonneg_left (csub_err hz) (norm_nonneg (s : ℂ))
    linarith
  have e3 : ‖d - (s : ℂ) * z‖ ≤ ((1 + r.u) - 1) * ‖(s : ℂ) * z‖ := by
    have := rmul_err (r := r) (c := s) (x := z) (y := d) ⟨h1, h2⟩
    linarith
  have := rel_trans (rel_trans e1 e2 (one_le_hi r)) e3 (one_le_hi r)
  have e : (1 + r.u) * (1 + r.u) * (1 + r.u) = (1 + r.u) ^ 3 := by ring
  rwa [e] at this

/-- What is known of a prepared row: made of the row `s` with a mean close to `X`. -/
def PrepNear (r : Rounding) (X : ι → ℂ) (ε : ι → ℝ) (s t : ℝ × (ι → ℂ)) : Prop :=
  t.1 = s.1 ∧ ∀ i, ∃ m, ‖m - X i‖ ≤ ε i ∧ DataPrepR r s.1 (s.2 i) m (t.2 i)

theorem prep_bounds {w : ℝ} {x X d : ℂ} {ε : ℝ} (h : ∃ m, ‖m - X‖ ≤ ε ∧ DataPrepR r w x m d) :
    ‖d - (Real.sqrt w : ℂ) * (x - X)‖ ≤ Real.sqrt w * ((1 + r.u) ^ 3 * (‖x - X‖ + ε) - ‖x - X‖) ∧
      ‖d‖ ≤ Real.sqrt w * ((1 + r.u) ^ 3 * (‖x - X‖ + ε)) := by
  obtain ⟨m, hm, hd⟩ := h
  have h1 := dataPrep_err hd
  have hs := Real.sqrt_nonneg w
  have hF : 1 ≤ (1 + r.u) ^ 3 := one_le_pow₀ (one_le_hi r)
  have h2 : ‖x - m‖ ≤ ‖x - X‖ + ε := by
    have e : x - m = (x - X) - (m - X) := by ring
    rw [e]
    have := norm_sub_le (x - X) (m - X)
    linarith
  have h3 : ‖(Real.sqrt w : ℂ) * (x - m)‖ ≤ Real.sqrt w * (‖x - X‖ + ε) := by
    rw [norm_mul, Complex.norm_real, Real.norm_of_nonneg hs]
    exact mul_le_mul_of_nonneg_left h2 hs
  have h4 : ‖(Real.sqrt w : ℂ) * (x - m) - (Real.sqrt w : ℂ) * (x - X)‖ ≤ Real.sqrt w * ε := by
    have e : (Real.sqrt w : ℂ) * (x - m) - (Real.sqrt w : ℂ) * (x - X) = (Real.sqrt w : ℂ) * -(m - X) := by ring
    rw [e, norm_mul, Complex.norm_real, Real.norm_of_nonneg hs, norm_neg]
    exact mul_le_mul_of_nonneg_left hm hs
  have h5 := mul_le_mul_of_nonneg_left h3 (by linarith : 0 ≤ (1 + r.u) ^ 3 - 1)
  constructor
  · have := norm_sub_le_norm_sub_add_norm_sub d ((Real.sqrt w : ℂ) * (x - m)) ((Real.sqrt w : ℂ) * (x - X))
    nlinarith
  · have := norm_sub_norm_le d ((Real.sqrt w : ℂ) * (x - m))
    nlinarith

/-- One product of prepared numbers. -/
theorem pair_bounds {w : ℝ} (hw : 0 ≤ w) {x X d y Y e : ℂ} {ε δ : ℝ} (h : ∃ m, ‖m - X‖ ≤ ε ∧ DataPrepR r w x m d)
    (h' : ∃ m, ‖m - Y‖ ≤ δ ∧ DataPrepR r w y m e) :
    ‖(starRingEnd ℂ) d * e - (w : ℂ) * ((starRingEnd ℂ) (x - X) * (y - Y))‖ ≤
        (1 + r.u) ^ 6 * (w * ((‖x - X‖ + ε) * (‖y - Y‖ + δ))) - w * (‖x - X‖ * ‖y - Y‖) ∧
      ‖d‖ * ‖e‖ ≤ (1 + r.u) ^ 6 * (w * ((‖x - X‖ + ε) * (‖y - Y‖ + δ))) := by
  have hε : 0 ≤ ε := (norm_nonneg _).trans h.choose_spec.1
  have hδ : 0 ≤ δ := (norm_nonneg _).trans h'.choose_spec.1
  obtain ⟨a1, a2⟩ := prep_bounds h
  obtain ⟨b1, b2⟩ := prep_bounds h'
  have hs := Real.sqrt_nonneg w
  have hss := Real.mul_self_sqrt hw
  set q := Real.sqrt w with hq
  have hF : 1 ≤ (1 + r.u) ^ 3 := one_le_pow₀ (one_le_hi r)
  have e6 : (1 + r.u) ^ 6 = (1 + r.u) ^ 3 * (1 + r.u) ^ 3 := by ring
  rw [e6]
  set F := (1 + r.u) ^ 3
  have ha := norm_nonneg (x - X)
  have hb := norm_nonneg (y - Y)
  set a := ‖x - X‖
  set b := ‖y - Y‖
  constructor
  · have hcast : (w : ℂ) = (q : ℂ) * (q : ℂ) := by rw [← Complex.ofReal_mul, hss]
    have he : (starRingEnd ℂ) d * e - (w : ℂ) * ((starRingEnd ℂ) (x - X) * (y - Y)) =
        (starRingEnd ℂ) (d - (q : ℂ) * (x - X)) * e + (starRingEnd ℂ) ((q : ℂ) * (x - X)) * (e - (q : ℂ) * (y - Y)) := by
      rw [hcast]
      simp only [map_sub, map_mul, Complex.conj_ofReal]
      ring
    rw [he]
    refine (norm_add_le _ _).trans ?_
    rw [norm_mul, norm_mul, RCLike.norm_conj, RCLike.norm_conj, norm_mul, Complex.norm_real, Real.norm_of_nonneg hs]
    have c1 : ‖d - (q : ℂ) * (x - X)‖ * ‖e‖ ≤ (q * (F * (a + ε) - a)) * (q * (F * (b + δ))) :=
      mul_le_mul a1 b2 (norm_nonneg _) ((norm_nonneg _).trans a1)
    have c2 : q * a * ‖e - (q : ℂ) * (y - Y)‖ ≤ q * a * (q * (F * (b + δ) - b)) :=
      mul_le_mul_of_nonneg_left b1 (mul_nonneg hs ha)
    refine (add_le_add c1 c2).trans (le_of_eq ?_)
    rw [← hss]
    ring
  · refine (mul_le_mul a2 b2 (norm_nonneg _) ((norm_nonneg _).trans a2)).trans (le_of_eq ?_)
    rw [← hss]
    ring

/-! ## The rows of an object -/

theorem sampledObs_near {world : World (ℝ × (ι → ℂ))} {o : SObs ι} (h : SampledObsR r world o) {n d k : ℕ}
    (hw : AtMost n d k world) (hp : ∀ s ∈ allSamples world, 0 ≤ s.1) :
    List.Forall₂ (List.Forall₂ (List.Forall₂ (PrepNear r (wMean (allSamples world))
      fun i => ((1 + r.u) ^ (n + d + k - 2) - 1) * size (allSamples world) i))) world o.rows := by
  obtain ⟨hlen, hm, hrows⟩ := h
  have hclose : ∀ m ∈ o.mean, ∀ i, ‖m i - wMean (allSamples world) i‖ ≤
      ((1 + r.u) ^ (n + d + k - 2) - 1) * size (allSamples world) i := by
    intro m hmm i
    have := globalMeanC_err (hm m hmm i) (n := n) (d := d) (k := k) (atMost_map _ hw) (by
      intro s hs
      unfold World.map at hs
      rw [everything_map] at hs
      obtain ⟨t, ht, rfl⟩ := List.mem_map.mp hs
      exact hp t ht)
    unfold World.map at this
    rw [everything_map] at this
    unfold wmean at this
    rw [List.map_map, List.map_map] at this
    rw [wMean_apply]
    exact this
  obtain ⟨ε, hε⟩ : ∃ ε : ι → ℝ, ε = fun i => ((1 + r.u) ^ (n + d + k - 2) - 1) * size (allSamples world) i := ⟨_, rfl⟩
  rw [← hε]
  replace hclose : ∀ m ∈ o.mean, ∀ i, ‖m i - wMean (allSamples world) i‖ ≤ ε i := fun m hmm i => by
    rw [hε]
    exact hclose m hmm i
  generalize wMean (allSamples world) = X at *
  clear hw hp hm hε
  obtain ⟨rows, means⟩ := o
  simp only at hlen hrows hclose ⊢
  induction world generalizing means rows with
  | nil =>
    cases hrows
    exact .nil
  | cons w world ih =>
    cases means with
    | nil => simp at hlen
    | cons m means =>
      cases hrows with
      | cons h1 h2 =>
        refine .cons ?_ (ih _ _ (by simpa using hlen) h2 fun m' hm' => hclose m' (List.mem_cons_of_mem _ hm'))
        exact h1.imp fun _ _ g => g.imp fun s t ⟨g1, g2⟩ => ⟨g1, fun i => ⟨m i, hclose m List.mem_cons_self i, g2 i⟩⟩

/-! ## Sums over all samples -/

/-- Pointwise relation of two arrays on all ranks. -/
def Rel3 {A B : Type} (R : A → B → Prop) : World A → World B → Prop := List.Forall₂ (List.Forall₂ (List.Forall₂ R))

theorem forall₂_and {A B : Type} {R R' : A → B → Prop} {l : List A} {m : List B} (h : List.Forall₂ R l m)
    (h' : List.Forall₂ R' l m) : List.Forall₂ (fun a b => R a b ∧ R' a b) l m := by
  induction h with
  | nil => exact .nil
  | cons h1 _ ih =>
    cases h' with
    | cons g1 g2 => exact .cons ⟨h1, g1⟩ (ih g2)

theorem rel3_and {A B : Type} {R R' : A → B → Prop} {w : World A} {z : World B} (h : Rel3 R w z) (h' : Rel3 R' w z) :
    Rel3 (fun a b => R a b ∧ R' a b) w z :=
  (forall₂_and h h').imp fun _ _ g => (forall₂_and g.1 g.2).imp fun _ _ g => forall₂_and g.1 g.2

theorem rel3_map {A B C D : Type} {R : C → D → Prop} {f : A → C} {g : B → D} {w : World A} {z : World B} :
    Rel3 R (w.map f) (z.map g) ↔ Rel3 (fun a b => R (f a) (g b)) w z := by
  unfold Rel3 World.map
  simp only [List.forall₂_map_left_iff, List.forall₂_map_right_iff]

theorem forall₂_comp {A B C : Type} {R : A → B → Prop} {R' : B → C → Prop} {T : A → C → Prop} {l : List A} {m : List B}
    {k : List C} (h : List.Forall₂ R l m) (h' : List.Forall₂ R' m k) (hT : ∀ a b c, R a b → R' b c → T a c) :
    List.Forall₂ T l k := by
  induction h generalizing k with
  | nil =>
    cases h'
    exact .nil
  | cons h1 _ ih =>
    cases h' with
    | cons g1 g2 => exact .cons (hT _ _ _ h1 g1) (ih g2)

theorem rel3_comp {A B C : Type} {R : A → B → Prop} {R' : B → C → Prop} {T : A → C → Prop} {w : World A} {z : World B}
    {y : World C} (h : Rel3 R w z) (h' : Rel3 R' z y) (hT : ∀ a b c, R a b → R' b c → T a c) : Rel3 T w y :=
  forall₂_comp h h' fun _ _ _ g g' => forall₂_comp g g' fun _ _ _ e e' => forall₂_comp e e' hT

theorem rel3_flat {A B : Type} {R : A → B → Prop} {w : World A} {z : World B} (h : Rel3 R w z) :
    List.Forall₂ R (everything w) (everything z) :=
  List.rel_flatten (List.rel_flatten h)

theorem rel3_atMost {A B : Type} {R : A → B → Prop} {w : World A} {z : World B} (h : Rel3 R w z) {n d k : ℕ}
    (hw : AtMost n d k w) : AtMost n d k z := by
  refine ⟨fun rk hrk dev hdev => ?_, fun rk hrk => ?_, ?_, hw.pos⟩
  · obtain ⟨rk', m1, g1⟩ := forall₂_mem_right h rk hrk
    obtain ⟨dev', m2, g2⟩ := forall₂_mem_right g1 dev hdev
    rw [← g2.length_eq]
    exact hw.samples rk' m1 dev' m2
  · obtain ⟨rk', m1, g1⟩ := forall₂_mem_right h rk hrk
    rw [← g1.length_eq]
    exact hw.devices rk' m1
  · rw [← h.length_eq]
    exact hw.ranks

theorem everything_products {A : Type} (f : A → List (ℝ × ℝ)) (z : World A) :
    everything (List.map (List.map fun dev => dev.flatMap f) z) = (everything z).flatMap f := by
  unfold everything
  induction z with
  | nil => rfl
  | cons rk z ih =>
    rw [List.map_cons, List.flatten_cons, List.flatten_append, ih, List.flatten_cons, List.flatten_append,
      List.flatMap_append]
    congr 1
    clear ih
    induction rk with
    | nil => rfl
    | cons dev rk ih => rw [List.map_cons, List.flatten_cons, ih, List.flatten_cons, List.flatMap_append]

theorem wsum_flatMap {A : Type} (f : A → List (ℝ × ℝ)) (l : List A) :
    wsum (l.flatMap f) = (l.map fun a => wsum (f a)).sum ∧ wabs (l.flatMap f) = (l.map fun a => wabs (f a)).sum := by
  unfold wsum wabs
  induction l with
  | nil => simp
  | cons a l ih =>
    simp only [List.flatMap_cons, List.map_append, List.sum_append, List.map_cons, List.sum_cons]
    exact ⟨by rw [ih.1], by rw [ih.2]⟩

theorem atMost_products {A : Type} {f : A → List (ℝ × ℝ)} (hf : ∀ a, (f a).length = 2) {z : World A} {n d k : ℕ}
    (h : AtMost n d k z) : AtMost (2 * n) d k (List.map (List.map fun dev => dev.flatMap f) z) := by
  refine ⟨fun rk hrk dev hdev => ?_, fun rk hrk => ?_, ?_, ⟨?_, h.pos.2⟩⟩
  · obtain ⟨rk', h1, rfl⟩ := List.mem_map.mp hrk
    obtain ⟨dev', h2, rfl⟩ := List.mem_map.mp hdev
    have : (dev'.flatMap f).length = 2 * dev'.length := by
      clear h2 hdev
      induction dev' with
      | nil => rfl
      | cons a l ih =>
        rw [List.flatMap_cons, List.length_append, ih, hf, List.length_cons]
        ring
    rw [this]
    have := h.samples rk' h1 dev' h2
    omega
  · obtain ⟨rk', h1, rfl⟩ := List.mem_map.mp hrk
    rw [List.length_map]
    exact h.devices rk' h1
  · rw [List.length_map]
    exact h.ranks
  · have := h.pos.1
    omega

/-- The sum of products of two prepared arrays. -/
theorem products_err {A : Type} (x y : A → ℂ) {z : World A} {v : ℂ}
    (h1 : GlobalMeanR r (List.map (List.map fun dev => dev.flatMap fun s => reProducts (x s) (y s)) z) v.re)
    (h2 : GlobalMeanR r (List.map (List.map fun dev => dev.flatMap fun s => imProducts (x s) (y s)) z) v.im)
    {n d k : ℕ} (hw : AtMost n d k z) :
    ‖v - ((everything z).map fun s => (starRingEnd ℂ) (x s) * y s).sum‖ ≤
      2 * ((1 + r.u) ^ (2 * n + d + k - 2) - 1) * ((everything z).map fun s => ‖x s‖ * ‖y s‖).sum := by
  have e1 := globalMeanR_err h1 (atMost_products (fun _ => rfl) hw)
  have e2 := globalMeanR_err h2 (atMost_products (fun _ => rfl) hw)
  rw [everything_products, (wsum_flatMap _ _).1, (wsum_flatMap _ _).2] at e1 e2
  have hg : 0 ≤ (1 + r.u) ^ (2 * n + d + k - 2) - 1 := by linarith [one_le_pow₀ (one_le_hi r) (n := 2 * n + d + k - 2)]
  set g := (1 + r.u) ^ (2 * n + d + k - 2) - 1
  generalize everything z = l at *
  have s1 : (l.map fun s => wsum (reProducts (x s) (y s))).sum = ((l.map fun s => (starRingEnd ℂ) (x s) * y s).sum).re := by
    clear e1 e2
    induction l with
    | nil => rfl
    | cons s l ih =>
      simp only [List.map_cons, List.sum_cons, Complex.add_re, ih]
      simp [wsum, reProducts]
  have s2 : (l.map fun s => wsum (imProducts (x s) (y s))).sum = ((l.map fun s => (starRingEnd ℂ) (x s) * y s).sum).im := by
    clear e1 e2 s1
    induction l with
    | nil => rfl
    | cons s l ih =>
      simp only [List.map_cons, List.sum_cons, Complex.add_im, ih]
      simp [wsum, imProducts]
  have a1 : (l.map fun s => wabs (reProducts (x s) (y s))).sum ≤ (l.map fun s => ‖x s‖ * ‖y s‖).sum := by
    refine List.sum_le_sum fun s _ => ?_
    have := (cauchy2 (x s) (y s)).1
    simpa [wabs, reProducts] using this
  have a2 : (l.map fun s => wabs (imProducts (x s) (y s))).sum ≤ (l.map fun s => ‖x s‖ * ‖y s‖).sum := by
    refine List.sum_le_sum fun s _ => ?_
    have := (cauchy2 (x s) (y s)).2
    simpa [wabs, imProducts] using this
  rw [s1] at e1
  rw [s2] at e2
  have a3 := mul_le_mul_of_nonneg_left a1 hg
  have a4 := mul_le_mul_of_nonneg_left a2 hg
  refine (Complex.norm_le_abs_re_add_abs_im _).trans ?_
  rw [Complex.sub_re, Complex.sub_im]
  linarith

/-- The terms of a covariance, added up. -/
theorem cov_terms {A B : Type} {p : A → ℝ} {x y : A → ℂ} {d e : B → ℂ} {X Y : ℂ} {ε δ F : ℝ} {l : List A} {l' : List B}
    (h : List.Forall₂ (fun s t => ‖(starRingEnd ℂ) (d t) * e t - (p s : ℂ) * ((starRingEnd ℂ) (x s - X) * (y s - Y))‖ ≤
        F * (p s * ((‖x s - X‖ + ε) * (‖y s - Y‖ + δ))) - p s * (‖x s - X‖ * ‖y s - Y‖) ∧
      ‖d t‖ * ‖e t‖ ≤ F * (p s * ((‖x s - X‖ + ε) * (‖y s - Y‖ + δ)))) l l') :
    ‖(l'.map fun t => (starRingEnd ℂ) (d t) * e t).sum -
        (l.map fun s => (p s : ℂ) * ((starRingEnd ℂ) (x s - X) * (y s - Y))).sum‖ ≤
      F * (l.map fun s => p s * ((‖x s - X‖ + ε) * (‖y s - Y‖ + δ))).sum -
        (l.map fun s => p s * (‖x s - X‖ * ‖y s - Y‖)).sum ∧
    (l'.map fun t => ‖d t‖ * ‖e t‖).sum ≤ F * (l.map fun s => p s * ((‖x s - X‖ + ε) * (‖y s - Y‖ + δ))).sum := by
  induction h with
  | nil => simp
  | @cons s t l l' h1 _ ih =>
    simp only [List.map_cons, List.sum_cons]
    constructor
    · rw [add_sub_add_comm]
      refine (norm_add_le _ _).trans ((add_le_add h1.1 ih.1).trans (le_of_eq ?_))
      ring
    · rw [mul_add]
      exact add_le_add h1.2 ih.2

/-- The sums of `cov_terms` in terms of standard deviations. -/
theorem cov_sums {A : Type} {p : A → ℝ} (x y : A → ℂ) (X Y : ℂ) {ε δ : ℝ} (hε : 0 ≤ ε) (hδ : 0 ≤ δ) {l : List A}
    (hp : ∀ s ∈ l, 0 ≤ p s) (σ τ Q : ℝ) (hσ : σ = Real.sqrt (l.map fun s => p s * ‖x s - X‖ ^ 2).sum)
    (hτ : τ = Real.sqrt (l.map fun s => p s * ‖y s - Y‖ ^ 2).sum) (hQ : Q = Real.sqrt (l.map p).sum) :
    (l.map fun s => p s * (‖x s - X‖ * ‖y s - Y‖)).sum ≤ σ * τ ∧
    (l.map fun s => p s * ((‖x s - X‖ + ε) * (‖y s - Y‖ + δ))).sum -
      (l.map fun s => p s * (‖x s - X‖ * ‖y s - Y‖)).sum ≤ (σ + ε * Q) * (τ + δ * Q) - σ * τ := by
  have c1 := wcauchy (fun s => ‖x s - X‖) (fun s => ‖y s - Y‖) hp
  have c2 := wcauchy (fun s => ‖x s - X‖) (fun _ => (1 : ℝ)) hp
  have c3 := wcauchy (fun s => ‖y s - Y‖) (fun _ => (1 : ℝ)) hp
  simp only [one_pow, mul_one] at c2 c3
  rw [← hσ, ← hQ] at c2
  rw [← hτ, ← hQ] at c3
  rw [← hσ, ← hτ] at c1
  have hQ2 : (l.map p).sum = Q * Q := by
    rw [hQ, Real.mul_self_sqrt (list_sum_nonneg' hp)]
  refine ⟨c1, ?_⟩
  have e : (l.map fun s => p s * ((‖x s - X‖ + ε) * (‖y s - Y‖ + δ))).sum -
      (l.map fun s => p s * (‖x s - X‖ * ‖y s - Y‖)).sum =
      δ * (l.map fun s => p s * ‖x s - X‖).sum + ε * (l.map fun s => p s * ‖y s - Y‖).sum + ε * δ * (l.map p).sum := by
    clear c1 c2 c3 hσ hτ hQ hQ2 hp
    induction l with
    | nil => simp
    | cons s l ih =>
      simp only [List.map_cons, List.sum_cons]
      linear_combination ih
  rw [e, hQ2]
  have := mul_le_mul_of_nonneg_left c2 hδ
  have := mul_le_mul_of_nonneg_left c3 hε
  nlinarith

/-! ## There are such values -/

theorem dataPrepR_exact (r : Rounding) (w : ℝ) (x m : ℂ) : DataPrepR r w x m ((Real.sqrt w : ℂ) * (x - m)) :=
  ⟨Real.sqrt w, x - m, .inr rfl, ⟨.inr rfl, .inr rfl⟩, .inr (Complex.re_ofReal_mul _ _), .inr (Complex.im_ofReal_mul _ _)⟩

theorem sampledObsR_exists (r : Rounding) {A : Type} (w : World A) (f : A → ℝ × (ι → ℂ)) (h : ∀ rk ∈ w, rk ≠ []) :
    ∃ m : ι → ℂ, SampledObsR r (w.map f) ⟨w.map fun s => ((f s).1, fun i => (Real.sqrt (f s).1 : ℂ) * ((f s).2 i - m i)),
      List.map (fun _ => m) w⟩ := by
  choose m hm using fun i : ι => globalMeanC_exists r (world := (w.map f).map fun s => (s.1, s.2 i))
    (World.map_ne _ _ (World.map_ne _ _ h))
  refine ⟨m, by simp [World.map], fun m' hm' i => ?_, ?_⟩
  · obtain ⟨_, -, rfl⟩ := List.mem_map.mp hm'
    exact hm i
  · clear hm h
    induction w with
    | nil => exact .nil
    | cons rk w ih =>
      refine .cons ?_ ih
      simp only [List.forall₂_map_left_iff, List.forall₂_map_right_iff, List.forall₂_same]
      exact fun dev _ s _ => ⟨trivial, fun i => dataPrepR_exact r _ _ _⟩

theorem covarR_exists (r : Rounding) {A : Type} (w : World A) (h : ∀ rk ∈ w, rk ≠ []) (f : A → ℝ × (ι → ℂ))
    (g : A → ℝ × (κ → ℂ)) (ma : List (ι → ℂ)) (mb : List (κ → ℂ)) (i : ι) (j : κ) :
    ∃ v, CovarR r ⟨w.map f, ma⟩ ⟨w.map g, mb⟩ i j v := by
  have hne : ∀ p : (ℝ × (ι → ℂ)) × (ℝ × (κ → ℂ)) → List (ℝ × ℝ),
      ∀ rk ∈ List.map (List.map fun dev => dev.flatMap p) (w.map fun s => (f s, g s)), rk ≠ [] := by
    intro p rk hrk
    obtain ⟨rk', h1, rfl⟩ := List.mem_map.mp hrk
    have := World.map_ne (fun s => (f s, g s)) w h rk' h1
    simpa using this
  obtain ⟨x, hx⟩ := globalMeanR_exists r (hne fun s => reProducts (s.1.2 i) (s.2.2 j))
  obtain ⟨y, hy⟩ := globalMeanR_exists r (hne fun s => imProducts (s.1.2 i) (s.2.2 j))
  exact ⟨⟨x, y⟩, w.map fun s => (f s, g s), by rw [World.map_map], by rw [World.map_map], hx, hy⟩

end JVMC
