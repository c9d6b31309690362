import Mathlib.Data.List.Forall2
import Mathlib.Data.List.Perm.Basic
import Mathlib.Tactic.Linarith
import Mathlib.Tactic.Positivity
import Mathlib.Tactic.Ring
import Mathlib.Tactic.FieldSimp
import Mathlib.Algebra.Order.Ring.Pow
import Mathlib.Algebra.BigOperators.Ring.List
import Mathlib.Analysis.Complex.Norm
import Mathlib.Analysis.Real.Sqrt
import Mathlib.Analysis.SpecialFunctions.Exp
import Mathlib.Tactic.NormNum
import Verif.Model.Rounding
import Verif.Spec.Rounding

/-! # Rounding errors of reductions: helper lemmas for C125 -/

namespace JVMC

open Spec

variable {r : Rounding}

theorem lo_pos (r : Rounding) : 0 < 1 - r.u := by linarith [r.u_lt]

theorem lo_le_one (r : Rounding) : 1 - r.u ≤ 1 := by linarith [r.u_nonneg]

theorem one_le_hi (r : Rounding) : 1 ≤ 1 + r.u := by linarith [r.u_nonneg]

theorem hi_pos (r : Rounding) : 0 < 1 + r.u := by linarith [r.u_nonneg]

theorem near_zero_err (u : ℝ) (x y : ℝ) : WithinFactor u 0 x y ↔ y = x := by
  unfold WithinFactor
  constructor
  · rintro ⟨t, h1, h2, rfl⟩
    rw [pow_zero] at h1 h2
    rw [le_antisymm h2 h1, one_mul]
  · rintro rfl
    exact ⟨1, by simp, by simp, (one_mul _).symm⟩

theorem near_mono (r : Rounding) {j k : ℕ} (h : j ≤ k) {x y : ℝ} (hn : WithinFactor r.u j x y) :
    WithinFactor r.u k x y := by
  obtain ⟨t, h1, h2, rfl⟩ := hn
  exact ⟨t, (pow_le_pow_of_le_one (lo_pos r).le (lo_le_one r) h).trans h1,
    h2.trans (pow_le_pow_right₀ (one_le_hi r) h), rfl⟩

theorem near_trans (r : Rounding) {j k : ℕ} {x y z : ℝ} (h : WithinFactor r.u j x y) (h' : WithinFactor r.u k y z) :
    WithinFactor r.u (j + k) x z := by
  obtain ⟨t, h1, h2, rfl⟩ := h
  obtain ⟨s, g1, g2, rfl⟩ := h'
  have ht : 0 ≤ t := le_trans (pow_pos (lo_pos r) _).le h1
  have hs : 0 ≤ s := le_trans (pow_pos (lo_pos r) _).le g1
  refine ⟨t * s, ?_, ?_, by ring⟩
  · rw [pow_add]
    exact mul_le_mul h1 g1 (pow_pos (lo_pos r) _).le ht
  · rw [pow_add]
    exact mul_le_mul h2 g2 hs (pow_pos (hi_pos r) _).le

theorem near_rnd (r : Rounding) (x : ℝ) : WithinFactor r.u 1 x (r.rnd x) := by
  have h := r.err x
  rcases eq_or_ne x 0 with rfl | hx
  · refine ⟨1, by simpa using r.u_nonneg, by simpa using r.u_nonneg, ?_⟩
    simp only [sub_zero, abs_zero, mul_zero] at h ⊢
    exact abs_eq_zero.mp (le_antisymm h (abs_nonneg _))
  · refine ⟨r.rnd x / x, ?_, ?_, by field_simp⟩
    all_goals
      have h3 : |r.rnd x / x - 1| ≤ r.u := by
        rw [div_sub_one hx, abs_div, div_le_iff₀ (abs_pos.mpr hx)]
        exact h
      have h4 := abs_le.mp h3
      rw [pow_one]
      linarith [h4.1, h4.2]

theorem near_rd (r : Rounding) {x y : ℝ} (h : r.Rd x y) : WithinFactor r.u 1 x y := by
  rcases h with rfl | rfl
  · exact near_rnd r x
  · exact near_mono r (Nat.zero_le 1) ((near_zero_err _ _ _).mpr rfl)

/-- On numbers that are not negative, being near is being between two multiples. -/
theorem near_iff_nonneg (r : Rounding) {k : ℕ} {x y : ℝ} (hx : 0 ≤ x) :
    WithinFactor r.u k x y ↔ (1 - r.u) ^ k * x ≤ y ∧ y ≤ (1 + r.u) ^ k * x := by
  constructor
  · rintro ⟨t, h1, h2, rfl⟩
    exact ⟨mul_le_mul_of_nonneg_right h1 hx, mul_le_mul_of_nonneg_right h2 hx⟩
  · rintro ⟨h1, h2⟩
    rcases hx.eq_or_lt with rfl | hp
    · refine ⟨1, ?_, ?_, ?_⟩
      · exact pow_le_one₀ (lo_pos r).le (lo_le_one r)
      · exact one_le_pow₀ (one_le_hi r)
      · rw [mul_zero] at h1 h2 ⊢
        exact le_antisymm h2 h1
    · exact ⟨y / x, (le_div_iff₀ hp).mpr h1, (div_le_iff₀ hp).mpr h2, by field_simp⟩

theorem near_nonneg (r : Rounding) {k : ℕ} {x y : ℝ} (hx : 0 ≤ x) (h : WithinFactor r.u k x y) : 0 ≤ y :=
  le_trans (mul_nonneg (pow_pos (lo_pos r) _).le hx) ((near_iff_nonneg r hx).mp h).1

theorem near_add (r : Rounding) {k : ℕ} {x y x' y' : ℝ} (hx : 0 ≤ x) (hy : 0 ≤ y) (h : WithinFactor r.u k x x')
    (h' : WithinFactor r.u k y y') : WithinFactor r.u k (x + y) (x' + y') := by
  rw [near_iff_nonneg r hx] at h
  rw [near_iff_nonneg r hy] at h'
  rw [near_iff_nonneg r (add_nonneg hx hy), mul_add, mul_add]
  exact ⟨add_le_add h.1 h'.1, add_le_add h.2 h'.2⟩

theorem near_mul (r : Rounding) {j k : ℕ} {x y x' y' : ℝ} (h : WithinFactor r.u j x x')
    (h' : WithinFactor r.u k y y') : WithinFactor r.u (j + k) (x * y) (x' * y') := by
  obtain ⟨t, h1, h2, rfl⟩ := h
  obtain ⟨s, g1, g2, rfl⟩ := h'
  have ht : 0 ≤ t := le_trans (pow_pos (lo_pos r) _).le h1
  have hs : 0 ≤ s := le_trans (pow_pos (lo_pos r) _).le g1
  refine ⟨t * s, ?_, ?_, by ring⟩
  · rw [pow_add]
    exact mul_le_mul h1 g1 (pow_pos (lo_pos r) _).le ht
  · rw [pow_add]
    exact mul_le_mul h2 g2 hs (pow_pos (hi_pos r) _).le

/-- The factors that errors multiply a number with differ from one by at most `(1 + u)^k - 1`. -/
theorem near_abs_sub (r : Rounding) {k : ℕ} {x y : ℝ} (h : WithinFactor r.u k x y) :
    |y - x| ≤ ((1 + r.u) ^ k - 1) * |x| := by
  obtain ⟨t, h1, h2, rfl⟩ := h
  have hb : 2 ≤ (1 + r.u) ^ k + (1 - r.u) ^ k := by
    have g1 := one_add_mul_le_pow (a := r.u) (by linarith [r.u_nonneg]) k
    have g2 := one_add_mul_le_pow (a := -r.u) (by linarith [r.u_lt]) k
    rw [← sub_eq_add_neg] at g2
    linarith
  have e : t * x - x = (t - 1) * x := by ring
  rw [e, abs_mul]
  apply mul_le_mul_of_nonneg_right _ (abs_nonneg x)
  rw [abs_le]
  constructor <;> linarith

/-- A sum of numbers, in any order, is the exact sum of numbers with as many relative errors as there are additions. -/
theorem sums_near {l : List ℝ} {a : ℝ} (h : Sums r l a) :
    ∃ ys, List.Forall₂ (WithinFactor r.u (l.length - 1)) l ys ∧ ys.sum = a := by
  induction h with
  | nil => exact ⟨[], .nil, rfl⟩
  | one x => exact ⟨[x], .cons ((near_zero_err _ _ _).mpr rfl) .nil, by simp⟩
  | @add l m a b hl hm _ _ ih1 ih2 =>
    obtain ⟨ys, g1, rfl⟩ := ih1
    obtain ⟨zs, g2, rfl⟩ := ih2
    obtain ⟨t, t1, t2, ht⟩ := near_rnd r (ys.sum + zs.sum)
    have l1 : 1 ≤ l.length := List.length_pos_iff.mpr hl
    have l2 : 1 ≤ m.length := List.length_pos_iff.mpr hm
    have hn : ∀ y, WithinFactor r.u 1 y (t * y) := fun y => ⟨t, t1, t2, rfl⟩
    refine ⟨(ys ++ zs).map (t * ·), ?_, ?_⟩
    · rw [List.map_append]
      refine List.rel_append ?_ ?_
      · rw [List.forall₂_map_right_iff]
        exact g1.imp fun x y hxy => near_mono r (by rw [List.length_append]; omega) (near_trans r hxy (hn y))
      · rw [List.forall₂_map_right_iff]
        exact g2.imp fun x y hxy => near_mono r (by rw [List.length_append]; omega) (near_trans r hxy (hn y))
    · rw [ht, List.sum_map_mul_left, List.map_id', List.sum_append]
  | perm hp _ ih =>
    obtain ⟨ys, g, rfl⟩ := ih
    obtain ⟨zs, k1, k2⟩ := List.perm_comp_forall₂ hp.symm g
    refine ⟨zs, ?_, k2.sum_eq⟩
    rw [hp.length_eq] at k1
    exact k1

/-! ## Nested sums -/

/-- Objects with a total, in which one more common relative error can be absorbed. -/
def Absorbs (r : Rounding) {T T' : Type} (tot : T' → ℝ) (R : ℕ → T → T' → Prop) : Prop :=
  ∀ (k j : ℕ) (t : T) (t' : T') (y : ℝ), R k t t' → WithinFactor r.u j (tot t') y → ∃ t'', R (k + j) t t'' ∧ tot t'' = y

theorem absorbs_near {A : Type} (value : A → ℝ) :
    Absorbs r (fun y : ℝ => y) (fun k (s : A) y => WithinFactor r.u k (value s) y) :=
  fun _ _ _ _ y h h' => ⟨y, near_trans r h h', rfl⟩

theorem absorbs_list {T T' : Type} {tot : T' → ℝ} {R : ℕ → T → T' → Prop} (h : Absorbs r tot R) :
    Absorbs r (fun l : List T' => (l.map tot).sum) (fun k => List.Forall₂ (R k)) := by
  rintro k j l l' y hl ⟨s, h1, h2, rfl⟩
  induction hl with
  | nil => exact ⟨[], .nil, by simp⟩
  | @cons a b l l' hab _ ih =>
    obtain ⟨b', g1, g2⟩ := h k j a b _ hab ⟨s, h1, h2, rfl⟩
    obtain ⟨l'', k1, k2⟩ := ih
    exact ⟨b' :: l'', .cons g1 k1, by
      simp only [List.map_cons, List.sum_cons] at k2 ⊢
      rw [g2, k2]
      ring⟩

/-- If every object of a list has a total up to `k` errors, and the totals are added, in any order, the result is the exact
total of a list of objects with `k` and as many errors as there are additions. -/
theorem sums_lift {T T' : Type} {tot : T' → ℝ} {R : ℕ → T → T' → Prop} (h : Absorbs r tot R) {P : T → ℝ → Prop} {k : ℕ}
    {l : List T} {xs : List ℝ} (hP : ∀ t ∈ l, ∀ x, P t x → ∃ t', R k t t' ∧ tot t' = x) (hl : List.Forall₂ P l xs) {v : ℝ}
    (hv : Sums r xs v) {n : ℕ} (hn : l.length ≤ n) :
    ∃ l', List.Forall₂ (R (k + (n - 1))) l l' ∧ (l'.map tot).sum = v := by
  obtain ⟨ys, g, rfl⟩ := sums_near hv
  have hlen : xs.length - 1 ≤ n - 1 := by rw [← hl.length_eq]; omega
  have g' : List.Forall₂ (WithinFactor r.u (n - 1)) xs ys := g.imp fun _ _ h => near_mono r hlen h
  clear g hv hn hlen
  induction hl generalizing ys with
  | nil =>
    cases g'
    exact ⟨[], .nil, rfl⟩
  | @cons t x l xs ht _ ih =>
    cases g' with
    | @cons _ y _ ys hy hys =>
    obtain ⟨t', a1, a2⟩ := hP t (by simp) x ht
    subst a2
    obtain ⟨t'', b1, b2⟩ := h k _ t t' y a1 hy
    obtain ⟨l', c1, c2⟩ := ih (fun s hs => hP s (by simp [hs])) ys hys
    exact ⟨t'' :: l', .cons b1 c1, by simp [b2, c2]⟩

/-- Sums over the numbers of a device, over devices and over ranks. -/
theorem globalSum_near {world : List (List (List ℝ))} {v : ℝ} (hv : GlobalSumR r world v) {n d k : ℕ}
    (hw : AtMost n d k world) :
    ∃ w, SameUpTo (fun x => x) r.u ((n - 1) + (d - 1) + (k - 1)) world w ∧ (everything w).sum = v := by
  obtain ⟨locals, h1, h2⟩ := hv
  have a0 := absorbs_near (r := r) (fun x : ℝ => x)
  have a1 := absorbs_list a0
  have a2 := absorbs_list a1
  have hdev : ∀ dev : List ℝ, dev.length ≤ n → ∀ x, Sums r dev x →
      ∃ t', List.Forall₂ (fun s y => WithinFactor r.u (n - 1) s y) dev t' ∧ (t'.map fun y => y).sum = x := by
    intro dev hd x hx
    obtain ⟨ys, g, rfl⟩ := sums_near hx
    exact ⟨ys, g.imp fun _ _ h => near_mono r (by omega) h, by rw [List.map_id']⟩
  have hrk : ∀ rk ∈ world, ∀ x, LocalSumR r rk x →
      ∃ t', List.Forall₂ (List.Forall₂ (fun s y => WithinFactor r.u (n - 1 + (d - 1)) s y)) rk t' ∧
        (t'.map fun l => (l.map fun y => y).sum).sum = x := by
    rintro rk hrk x ⟨ds, -, g1, g2⟩
    exact sums_lift a1 (fun dev hd => hdev dev (hw.samples rk hrk dev hd)) g1 g2 (hw.devices rk hrk)
  obtain ⟨w, g1, g2⟩ := sums_lift a2 hrk h1 h2 hw.ranks
  refine ⟨w, g1, ?_⟩
  rw [← g2]
  unfold everything
  simp [List.sum_flatten, List.map_flatten]
  rfl

theorem dot_near {dev : List (ℝ × ℝ)} {v : ℝ} (h : DotR r dev v) {n : ℕ} (hn : dev.length ≤ n) (h1 : 1 ≤ n) :
    ∃ ys, List.Forall₂ (fun s y => WithinFactor r.u n (s.1 * s.2) y) dev ys ∧ (ys.map fun y => y).sum = v := by
  obtain ⟨zs, g, hs⟩ := h
  obtain ⟨ys, k1, k2⟩ := sums_lift (absorbs_near (r := r) (fun s : ℝ × ℝ => s.1 * s.2)) (k := 1)
    (fun s _ x hx => ⟨x, near_rd r hx, rfl⟩) g hs hn
  exact ⟨ys, k1.imp fun _ _ h => near_mono r (by omega) h, k2⟩

/-- Weighted sums over the samples of a device, over devices and over ranks. -/
theorem globalMean_near {world : List (List (List (ℝ × ℝ)))} {v : ℝ} (hv : GlobalMeanR r world v) {n d k : ℕ}
    (hw : AtMost n d k world) :
    ∃ w, SameUpTo (fun s => s.1 * s.2) r.u (n + (d - 1) + (k - 1)) world w ∧ (everything w).sum = v := by
  obtain ⟨hs, h0, locals, h1, h2⟩ := hv
  have a0 := absorbs_near (r := r) (fun s : ℝ × ℝ => s.1 * s.2)
  have a1 := absorbs_list a0
  have a2 := absorbs_list a1
  have hrk : ∀ rk ∈ world, ∀ x, (∃ h, List.Forall₂ (fun dev h => ∃ y, DotR r dev y ∧ h = [y]) rk h ∧ LocalSumR r h x) →
      ∃ t', List.Forall₂ (List.Forall₂ (fun s y => WithinFactor r.u (n + (d - 1)) (s.1 * s.2) y)) rk t' ∧
        (t'.map fun l => (l.map fun y => y).sum).sum = x := by
    rintro rk hrk x ⟨h, g0, ds, -, g1, g2⟩
    have g3 : List.Forall₂ (fun dev x => DotR r dev x) rk ds := by
      clear g2
      have : List.Forall₂ (fun dev x => DotR r dev x) rk ds := by
        clear hrk h0 h1 h2
        induction g0 generalizing ds with
        | nil => cases g1; exact .nil
        | cons hd _ ih =>
          cases g1 with
          | cons hx hxs =>
          obtain ⟨y, hy, rfl⟩ := hd
          refine .cons ?_ (ih _ hxs)
          obtain ⟨ys, q1, rfl⟩ := sums_near hx
          cases q1 with
          | cons q2 q3 =>
          cases q3
          rw [List.length_singleton, Nat.sub_self, near_zero_err] at q2
          simpa [q2] using hy
      exact this
    exact sums_lift a1 (fun dev hd x hx => dot_near hx (hw.samples rk hrk dev hd) hw.pos.1) g3 g2 (hw.devices rk hrk)
  have h3 : List.Forall₂ (fun rk x => ∃ h, List.Forall₂ (fun dev h => ∃ y, DotR r dev y ∧ h = [y]) rk h ∧ LocalSumR r h x)
      world locals := by
    clear h2 hrk hw a0 a1 a2
    induction h0 generalizing locals with
    | nil => cases h1; exact .nil
    | cons hd _ ih =>
      cases h1 with
      | cons hx hxs => exact .cons ⟨_, hd, hx⟩ (ih _ hxs)
  obtain ⟨w, g1, g2⟩ := sums_lift a2 hrk h3 h2 hw.ranks
  refine ⟨w, g1, ?_⟩
  rw [← g2]
  unfold everything
  simp [List.sum_flatten, List.map_flatten]
  rfl

theorem everything_same {A : Type} {value : A → ℝ} {u : ℝ} {k : ℕ} {world : List (List (List A))}
    {w : List (List (List ℝ))} (h : SameUpTo value u k world w) :
    List.Forall₂ (fun s y => WithinFactor u k (value s) y) (everything world) (everything w) :=
  List.rel_flatten (List.rel_flatten h)

theorem forall₂_sum_abs (r : Rounding) {A : Type} {value : A → ℝ} {k : ℕ} {l : List A} {ys : List ℝ}
    (h : List.Forall₂ (fun s y => WithinFactor r.u k (value s) y) l ys) :
    |ys.sum - (l.map value).sum| ≤ ((1 + r.u) ^ k - 1) * (l.map fun s => |value s|).sum := by
  induction h with
  | nil => simp
  | cons h _ ih =>
    simp only [List.map_cons, List.sum_cons]
    calc _ = |_| := by congr 1; exact add_sub_add_comm _ _ _ _
      _ ≤ _ := abs_add_le _ _
      _ ≤ _ := add_le_add (near_abs_sub r h) ih
      _ = _ := by ring

theorem forall₂_sum_bounds (r : Rounding) {A : Type} {value : A → ℝ} {k : ℕ} {l : List A} {ys : List ℝ}
    (h0 : ∀ s ∈ l, 0 ≤ value s) (h : List.Forall₂ (fun s y => WithinFactor r.u k (value s) y) l ys) :
    (1 - r.u) ^ k * (l.map value).sum ≤ ys.sum ∧ ys.sum ≤ (1 + r.u) ^ k * (l.map value).sum := by
  induction h with
  | nil => simp
  | cons h _ ih =>
    have g := (near_iff_nonneg r (h0 _ (by simp))).mp h
    have i := ih fun s hs => h0 s (by simp [hs])
    simp only [List.map_cons, List.sum_cons, mul_add]
    exact ⟨add_le_add g.1 i.1, add_le_add g.2 i.2⟩

/-! ## Existence -/

theorem sums_exists (r : Rounding) (l : List ℝ) : ∃ v, Sums r l v := by
  induction l with
  | nil => exact ⟨0, .nil⟩
  | cons x l ih =>
    obtain ⟨a, ha⟩ := ih
    rcases eq_or_ne l [] with rfl | hl
    · exact ⟨x, .one x⟩
    · exact ⟨_, .add (l := [x]) (by simp) hl (.one x) ha⟩

theorem forall₂_exists {A B : Type} {R : A → B → Prop} {l : List A} (h : ∀ a ∈ l, ∃ b, R a b) :
    ∃ l', List.Forall₂ R l l' := by
  induction l with
  | nil => exact ⟨[], .nil⟩
  | cons a l ih =>
    obtain ⟨b, hb⟩ := h a (by simp)
    obtain ⟨l', hl⟩ := ih fun a ha => h a (by simp [ha])
    exact ⟨b :: l', .cons hb hl⟩

theorem globalSumR_exists (r : Rounding) {world : List (List (List ℝ))} (h : ∀ rk ∈ world, rk ≠ []) :
    ∃ v, GlobalSumR r world v := by
  obtain ⟨locals, hl⟩ := forall₂_exists (R := LocalSumR r) (l := world) fun rk hrk => by
    obtain ⟨ds, hd⟩ := forall₂_exists (R := Sums r) (l := rk) fun dev _ => sums_exists r dev
    obtain ⟨v, hv⟩ := sums_exists r ds
    exact ⟨v, ds, h rk hrk, hd, hv⟩
  obtain ⟨v, hv⟩ := sums_exists r locals
  exact ⟨v, locals, hl, hv⟩

theorem dotR_exists (r : Rounding) (dev : List (ℝ × ℝ)) : ∃ y, DotR r dev y := by
  obtain ⟨ys, hy⟩ := forall₂_exists (R := fun s y => r.Rd (s.1 * s.2) y) (l := dev) fun s _ => ⟨_, Or.inl rfl⟩
  obtain ⟨v, hv⟩ := sums_exists r ys
  exact ⟨v, ys, hy, hv⟩

theorem globalMeanR_exists (r : Rounding) {world : List (List (List (ℝ × ℝ)))} (h : ∀ rk ∈ world, rk ≠ []) :
    ∃ v, GlobalMeanR r world v := by
  obtain ⟨hs, hh⟩ := forall₂_exists (R := List.Forall₂ fun dev h => ∃ y, DotR r dev y ∧ h = [y]) (l := world)
    fun rk _ => forall₂_exists fun dev _ => by
      obtain ⟨y, hy⟩ := dotR_exists r dev
      exact ⟨[y], y, hy, rfl⟩
  obtain ⟨v, hv⟩ := globalSumR_exists r (world := hs) (by
    induction hh with
    | nil => simp
    | cons hd _ ih =>
      intro rk hrk
      rcases List.mem_cons.mp hrk with rfl | hm
      · intro h0
        subst h0
        cases hd
        exact h [] (by simp) rfl
      · exact ih (fun rk h' => h rk (by simp [h'])) rk hm)
  exact ⟨v, hs, hh, hv⟩

/-! ## Variances -/

theorem sqTerm_near {m : ℂ} {s : ℝ × ℂ} {y : ℝ} (hp : 0 ≤ s.1) (h : SqTermR r m s y) :
    WithinFactor r.u 5 (s.1 * Complex.normSq (s.2 - m)) y := by
  obtain ⟨dr, di, h1, h2, h3⟩ := h
  have n1 := near_rd r h1
  have n2 := near_rd r h2
  rw [Complex.normSq_apply, Complex.sub_re, Complex.sub_im]
  rcases h3 with ⟨a, b, c, ha, hb, hc, hy⟩ | ⟨e, f, a, b, he, hf, ha, hb, hy⟩
  · have na := near_trans r (near_mul r n1 n1) (near_rd r ha)
    have nb := near_trans r (near_mul r n2 n2) (near_rd r hb)
    have nc := near_trans r (near_add r (mul_self_nonneg _) (mul_self_nonneg _) na nb) (near_rd r hc)
    have ny := near_trans r (near_mul r nc ((near_zero_err r.u s.1 s.1).mpr rfl)) (near_rd r hy)
    rw [mul_comm]
    exact ny
  · have z := (near_zero_err r.u s.1 s.1).mpr rfl
    have na := near_trans r (near_mul r n1 (near_trans r (near_mul r n1 z) (near_rd r he))) (near_rd r ha)
    have nb := near_trans r (near_mul r n2 (near_trans r (near_mul r n2 z) (near_rd r hf))) (near_rd r hb)
    have ny := near_trans r (near_add r (by rw [← mul_assoc]; exact mul_nonneg (mul_self_nonneg _) hp)
      (by rw [← mul_assoc]; exact mul_nonneg (mul_self_nonneg _) hp) na nb) (near_rd r hy)
    have e1 : s.1 * ((s.2.re - m.re) * (s.2.re - m.re) + (s.2.im - m.im) * (s.2.im - m.im)) =
      (s.2.re - m.re) * ((s.2.re - m.re) * s.1) + (s.2.im - m.im) * ((s.2.im - m.im) * s.1) := by ring
    rw [e1]
    exact ny

/-- The local values of a rank with its samples on one device, up to errors. -/
def RankNear (r : Rounding) (k : ℕ) (dm : List (List (ℝ × ℂ)) × ℂ) (ys : List ℝ) : Prop :=
  List.Forall₂ (fun s y => WithinFactor r.u k (s.1 * Complex.normSq (s.2 - dm.2)) y) dm.1.flatten ys

theorem absorbs_rank : Absorbs r (fun l : List ℝ => (l.map fun y => y).sum) (RankNear r) := by
  intro k j t t' y h h'
  exact absorbs_list (absorbs_near (r := r) fun s : ℝ × ℂ => s.1 * Complex.normSq (s.2 - t.2)) k j _ t' y h h'

/-- `∑ p |x - m_r|²`, where `m_r` is the mean that rank `r` uses. -/
noncomputable def spreadOwn (wm : List (List (List (ℝ × ℂ)) × ℂ)) : ℝ :=
  (wm.map fun dm => spreadAround dm.1.flatten dm.2).sum

theorem globalVar_bounds {world : List (List (List (ℝ × ℂ)))} {means : List ℂ} {v : ℝ} (h : GlobalVarR r world means v)
    {n k : ℕ} (hw : AtMost n 1 k world) (hp : ∀ s ∈ everything world, 0 ≤ s.1) :
    (1 - r.u) ^ (n + k + 3) * spreadOwn (world.zip means) ≤ v ∧ v ≤ (1 + r.u) ^ (n + k + 3) * spreadOwn (world.zip means) := by
  obtain ⟨-, locals, h1, hlen, h2⟩ := h
  have hmem : ∀ dm ∈ world.zip means, dm.1 ∈ world := fun dm hdm => (List.of_mem_zip hdm).1
  have hpos : ∀ dm ∈ world.zip means, ∀ s ∈ dm.1.flatten, 0 ≤ s.1 := by
    intro dm hdm s hs
    refine hp s ?_
    unfold everything
    rw [List.mem_flatten] at hs ⊢
    obtain ⟨dev, hd, hs⟩ := hs
    exact ⟨dev, List.mem_flatten.mpr ⟨dm.1, hmem dm hdm, hd⟩, hs⟩
  have hrk : ∀ dm ∈ world.zip means, ∀ x, LocalVarR r dm.2 dm.1 x →
      ∃ t', RankNear r (5 + (n - 1)) dm t' ∧ (t'.map fun y => y).sum = x := by
    rintro ⟨data, m⟩ hdm x ⟨dev, rest, ys, hd, hy, hs⟩
    have hdw := hmem _ hdm
    dsimp only at hd hy hdw
    subst hd
    have hrest : rest = [] := by
      have := hw.devices _ hdw
      rw [List.length_cons] at this
      exact List.length_eq_zero_iff.mp (by omega)
    subst hrest
    obtain ⟨t', g1, g2⟩ := sums_lift (absorbs_near (r := r) fun s : ℝ × ℂ => s.1 * Complex.normSq (s.2 - m)) (k := 5)
      (P := SqTermR r m) (fun s hs x hx => ⟨x, sqTerm_near (hpos _ hdm s (by simpa using hs)) hx, rfl⟩) hy hs
      (hw.samples _ hdw dev (by simp))
    refine ⟨t', ?_, g2⟩
    unfold RankNear
    simpa using g1
  obtain ⟨w, g1, rfl⟩ := sums_lift absorbs_rank hrk h1 h2 (n := k)
    (by rw [List.length_zip]; exact (min_le_left _ _).trans hw.ranks)
  have hk : 5 + (n - 1) + (k - 1) = n + k + 3 := by have := hw.pos; omega
  rw [hk] at g1
  clear hrk h1 h2 hk hmem
  unfold spreadOwn
  generalize world.zip means = wm at *
  induction g1 with
  | nil => simp
  | cons hd _ ih =>
    have i := ih fun dm hdm => hpos dm (List.mem_cons_of_mem _ hdm)
    have b := forall₂_sum_bounds r (fun s hs => mul_nonneg (hpos _ List.mem_cons_self s hs) (Complex.normSq_nonneg _)) hd
    simp only [List.map_cons, List.sum_cons, mul_add, List.map_id'] at i ⊢
    unfold spreadAround at i ⊢
    exact ⟨add_le_add b.1 i.1, add_le_add b.2 i.2⟩

theorem sum_quadratic (l : List (ℝ × ℂ)) (m : ℂ) (c d : ℝ) :
    (l.map fun s => s.1 * (c * ‖s.2 - m‖ - d) ^ 2).sum =
      c ^ 2 * spreadAround l m - 2 * c * d * (l.map fun s => s.1 * ‖s.2 - m‖).sum + d ^ 2 * (l.map Prod.fst).sum := by
  unfold spreadAround
  induction l with
  | nil => simp
  | cons s l ih =>
    simp only [List.map_cons, List.sum_cons, ih, Complex.normSq_eq_norm_sq]
    ring

theorem list_sum_nonneg' {A : Type} {f : A → ℝ} {l : List A} (h : ∀ s ∈ l, 0 ≤ f s) : 0 ≤ (l.map f).sum :=
  List.sum_nonneg fun x hx => by
    obtain ⟨s, hs, rfl⟩ := List.mem_map.mp hx
    exact h s hs

theorem spreadAround_nonneg {l : List (ℝ × ℂ)} (hp : ∀ s ∈ l, 0 ≤ s.1) (m : ℂ) : 0 ≤ spreadAround l m :=
  list_sum_nonneg' fun s hs => mul_nonneg (hp s hs) (Complex.normSq_nonneg _)

theorem sum_dist_le {l : List (ℝ × ℂ)} (hp : ∀ s ∈ l, 0 ≤ s.1) (m : ℂ) :
    (l.map fun s => s.1 * ‖s.2 - m‖).sum ≤ Real.sqrt (spreadAround l m * (l.map Prod.fst).sum) := by
  apply Real.le_sqrt_of_sq_le
  set S := (l.map fun s => s.1 * ‖s.2 - m‖).sum with hS
  set W := (l.map Prod.fst).sum with hW
  set Q := spreadAround l m with hQ
  have hW0 : 0 ≤ W := list_sum_nonneg' hp
  have h1 : ∀ c d : ℝ, 0 ≤ c ^ 2 * Q - 2 * c * d * S + d ^ 2 * W := by
    intro c d
    rw [hQ, hS, hW, ← sum_quadratic l m c d]
    exact list_sum_nonneg' fun s hs => mul_nonneg (hp s hs) (sq_nonneg _)
  rcases hW0.eq_or_lt with h0 | h0
  · have hS0 : S = 0 := by
      have hz : ∀ s ∈ l, s.1 = 0 := by
        intro s hs
        have := List.single_le_sum (l := l.map Prod.fst) (fun x hx => by
          obtain ⟨t, ht, rfl⟩ := List.mem_map.mp hx
          exact hp t ht) s.1 (List.mem_map_of_mem hs)
        exact le_antisymm (this.trans h0.symm.le) (hp s hs)
      rw [hS]
      refine List.sum_eq_zero fun x hx => ?_
      obtain ⟨t, ht, rfl⟩ := List.mem_map.mp hx
      rw [hz t ht, zero_mul]
    rw [hS0, ← h0]
    simp
  · have h2 := h1 W S
    have h3 : W ^ 2 * Q - 2 * W * S * S + S ^ 2 * W = W * (Q * W - S ^ 2) := by ring
    rw [h3] at h2
    linarith [nonneg_of_mul_nonneg_right h2 h0]

/-- Moving the centre by at most `ε` changes `|x - m|²` by at most `2 ε |x - m| + ε²`. -/
theorem normSq_shift {x m m' : ℂ} {ε : ℝ} (h : ‖m' - m‖ ≤ ε) :
    ‖x - m‖ ^ 2 - 2 * ε * ‖x - m‖ ≤ Complex.normSq (x - m') ∧
    Complex.normSq (x - m') ≤ ‖x - m‖ ^ 2 + 2 * ε * ‖x - m‖ + ε ^ 2 := by
  rw [Complex.normSq_eq_norm_sq]
  have e1 : x - m' = (x - m) - (m' - m) := by ring
  have h1 : ‖x - m'‖ ≤ ‖x - m‖ + ‖m' - m‖ := by rw [e1]; exact norm_sub_le _ _
  have h2 : ‖x - m‖ - ‖m' - m‖ ≤ ‖x - m'‖ := by rw [e1]; exact norm_sub_norm_le _ _
  have a := norm_nonneg (x - m)
  have b := norm_nonneg (x - m')
  have c := norm_nonneg (m' - m)
  constructor
  · rcases le_total ‖x - m‖ ε with g | g
    · nlinarith
    · have : (‖x - m‖ - ε) ^ 2 ≤ ‖x - m'‖ ^ 2 := by
        apply pow_le_pow_left₀ (by linarith)
        linarith
      nlinarith [sq_nonneg ε]
  · have : ‖x - m'‖ ^ 2 ≤ (‖x - m‖ + ε) ^ 2 := by
      apply pow_le_pow_left₀ b
      linarith
    nlinarith

theorem spread_shift {l : List (ℝ × ℂ)} (hp : ∀ s ∈ l, 0 ≤ s.1) {m m' : ℂ} {ε : ℝ} (h : ‖m' - m‖ ≤ ε) :
    spreadAround l m - 2 * ε * (l.map fun s => s.1 * ‖s.2 - m‖).sum ≤ spreadAround l m' ∧
    spreadAround l m' ≤ spreadAround l m + 2 * ε * (l.map fun s => s.1 * ‖s.2 - m‖).sum + ε ^ 2 * (l.map Prod.fst).sum := by
  unfold spreadAround
  induction l with
  | nil => simp
  | cons s l ih =>
    have i := ih fun t ht => hp t (by simp [ht])
    have q := normSq_shift (x := s.2) h
    have p := hp s (by simp)
    simp only [List.map_cons, List.sum_cons] at i ⊢
    rw [Complex.normSq_eq_norm_sq (s.2 - m)]
    constructor
    · nlinarith [mul_le_mul_of_nonneg_left q.1 p, i.1]
    · nlinarith [mul_le_mul_of_nonneg_left q.2 p, i.2]

theorem spreadOwn_shift {world : List (List (List (ℝ × ℂ)))} {means : List ℂ} (hlen : world.length = means.length)
    (hp : ∀ s ∈ everything world, 0 ≤ s.1) {m : ℂ} {ε : ℝ} (h : ∀ m' ∈ means, ‖m' - m‖ ≤ ε) :
    spreadAround (everything world) m - 2 * ε * ((everything world).map fun s => s.1 * ‖s.2 - m‖).sum
      ≤ spreadOwn (world.zip means) ∧
    spreadOwn (world.zip means) ≤ spreadAround (everything world) m
      + 2 * ε * ((everything world).map fun s => s.1 * ‖s.2 - m‖).sum + ε ^ 2 * ((everything world).map Prod.fst).sum := by
  unfold spreadOwn everything
  induction world generalizing means with
  | nil => simp [spreadAround]
  | cons rk world ih =>
    cases means with
    | nil => simp at hlen
    | cons m' means =>
    have hp' : ∀ s ∈ rk.flatten, 0 ≤ s.1 := fun s hs => hp s (by
      unfold everything
      rw [List.flatten_cons, List.flatten_append]
      exact List.mem_append_left _ hs)
    have i := ih (means := means) (by simpa using hlen) (fun s hs => hp s (by
      unfold everything
      rw [List.flatten_cons, List.flatten_append]
      exact List.mem_append_right _ hs)) (fun m'' hm => h m'' (by simp [hm]))
    have q := spread_shift hp' (h m' (by simp))
    have e : ∀ c : ℂ, spreadAround ((rk :: world).flatten.flatten) c
        = spreadAround rk.flatten c + spreadAround world.flatten.flatten c := by
      intro c
      unfold spreadAround
      rw [List.flatten_cons, List.flatten_append, List.map_append, List.sum_append]
    rw [e]
    simp only [List.flatten_cons, List.flatten_append, List.map_append, List.sum_append, List.zip_cons_cons,
      List.map_cons, List.sum_cons] at i q ⊢
    constructor
    · linarith [i.1, q.1]
    · linarith [i.2, q.2]

/-! ## Complex means -/

theorem list_norm_sum_le {A : Type} (f : A → ℂ) (l : List A) : ‖(l.map f).sum‖ ≤ (l.map fun s => ‖f s‖).sum := by
  induction l with
  | nil => simp
  | cons s l ih =>
    simp only [List.map_cons, List.sum_cons]
    exact (norm_add_le _ _).trans (by linarith)

theorem everything_map {A B : Type} (f : A → B) (world : List (List (List A))) :
    everything (world.map fun rk => rk.map fun dev => dev.map f) = (everything world).map f := by
  unfold everything
  simp [List.map_flatten]

theorem atMost_map {A B : Type} (f : A → B) {world : List (List (List A))} {n d k : ℕ} (h : AtMost n d k world) :
    AtMost n d k (world.map fun rk => rk.map fun dev => dev.map f) where
  samples := by
    intro rk hrk dev hdev
    obtain ⟨rk', hr, rfl⟩ := List.mem_map.mp hrk
    obtain ⟨dev', hd, rfl⟩ := List.mem_map.mp hdev
    rw [List.length_map]
    exact h.samples rk' hr dev' hd
  devices := by
    intro rk hrk
    obtain ⟨rk', hr, rfl⟩ := List.mem_map.mp hrk
    rw [List.length_map]
    exact h.devices rk' hr
  ranks := by
    rw [List.length_map]
    exact h.ranks
  pos := h.pos

theorem globalMeanR_err {world : List (List (List (ℝ × ℝ)))} {v : ℝ} (hv : GlobalMeanR r world v) {n d k : ℕ}
    (hw : AtMost n d k world) :
    |v - wsum (everything world)| ≤ ((1 + r.u) ^ (n + d + k - 2) - 1) * wabs (everything world) := by
  obtain ⟨w, h, rfl⟩ := globalMean_near hv hw
  have hk : n + (d - 1) + (k - 1) = n + d + k - 2 := by have := hw.pos; omega
  rw [hk] at h
  exact forall₂_sum_abs r (everything_same h)

theorem globalMeanC_err {world : List (List (List (ℝ × ℂ)))} {v : ℂ} (hv : GlobalMeanC r world v) {n d k : ℕ}
    (hw : AtMost n d k world) (hp : ∀ s ∈ everything world, 0 ≤ s.1) :
    ‖v - wmean (everything world)‖ ≤
      ((1 + r.u) ^ (n + d + k - 2) - 1) * ((everything world).map fun s => s.1 * ‖s.2‖).sum := by
  have h1 := globalMeanR_err hv.1 (atMost_map _ hw)
  have h2 := globalMeanR_err hv.2 (atMost_map _ hw)
  rw [everything_map] at h1 h2
  generalize everything world = l at *
  set g := (1 + r.u) ^ (n + d + k - 2) - 1 with hg
  have hg0 : 0 ≤ g := by
    rw [hg]
    linarith [one_le_pow₀ (one_le_hi r) (n := n + d + k - 2)]
  have e1 : wsum (l.map fun s => (s.1, s.2.re)) = (wmean l).re := by
    unfold wsum wmean
    clear h1 h2 hp
    induction l with
    | nil => simp
    | cons s l ih =>
      simp only [List.map_cons, List.sum_cons, Complex.add_re] at ih ⊢
      rw [ih]
      simp
  have e2 : wsum (l.map fun s => (s.1, s.2.im)) = (wmean l).im := by
    unfold wsum wmean
    clear h1 h2 hp e1
    induction l with
    | nil => simp
    | cons s l ih =>
      simp only [List.map_cons, List.sum_cons, Complex.add_im] at ih ⊢
      rw [ih]
      simp
  rw [e1] at h1
  rw [e2] at h2
  set A := wabs (l.map fun s => (s.1, s.2.re)) with hA
  set B := wabs (l.map fun s => (s.1, s.2.im)) with hB
  have hAB : ‖(⟨A, B⟩ : ℂ)‖ ≤ (l.map fun s => s.1 * ‖s.2‖).sum := by
    have e : (⟨A, B⟩ : ℂ) = (l.map fun s : ℝ × ℂ => (⟨|s.1 * s.2.re|, |s.1 * s.2.im|⟩ : ℂ)).sum := by
      rw [hA, hB]
      unfold wabs
      clear h1 h2 hp hA hB e1 e2 A B
      induction l with
      | nil => rfl
      | cons s l ih =>
        simp only [List.map_cons, List.sum_cons] at ih ⊢
        rw [← ih]
        rfl
    rw [e]
    refine (list_norm_sum_le _ l).trans (le_of_eq ?_)
    congr 1
    apply List.map_congr_left
    intro s hs
    have : (s.1 : ℂ) * s.2 = ⟨s.1 * s.2.re, s.1 * s.2.im⟩ := by
      apply Complex.ext <;> simp
    have h3 : ‖(⟨|s.1 * s.2.re|, |s.1 * s.2.im|⟩ : ℂ)‖ = ‖(⟨s.1 * s.2.re, s.1 * s.2.im⟩ : ℂ)‖ := by
      rw [Complex.norm_eq_sqrt_sq_add_sq, Complex.norm_eq_sqrt_sq_add_sq]
      simp only [sq_abs]
    rw [h3, ← this, norm_mul, Complex.norm_real, Real.norm_of_nonneg (hp s hs)]
  refine le_trans ?_ (mul_le_mul_of_nonneg_left hAB hg0)
  rw [Complex.norm_eq_sqrt_sq_add_sq, Complex.norm_eq_sqrt_sq_add_sq, ← Real.sqrt_sq hg0, ← Real.sqrt_mul (sq_nonneg g)]
  apply Real.sqrt_le_sqrt
  rw [Complex.sub_re, Complex.sub_im, mul_add, ← mul_pow, ← mul_pow]
  exact add_le_add (sq_le_sq' (abs_le.mp h1).1 (abs_le.mp h1).2) (sq_le_sq' (abs_le.mp h2).1 (abs_le.mp h2).2)

/-! ## Normalised weights -/

theorem forall₂_mem_right {A B : Type} {R : A → B → Prop} {l : List A} {l' : List B} (h : List.Forall₂ R l l') :
    ∀ b ∈ l', ∃ a ∈ l, R a b := by
  induction h with
  | nil => simp
  | cons h _ ih =>
    intro b hb
    rcases List.mem_cons.mp hb with rfl | hm
    · exact ⟨_, by simp, h⟩
    · obtain ⟨a, ha, hr⟩ := ih b hm
      exact ⟨a, by simp [ha], hr⟩

theorem forall₂_of_mem {A B : Type} {P : A → Prop} {R : A → B → Prop} {l : List A} {l' : List B}
    (h : List.Forall₂ (fun a b => P a → R a b) l l') (hP : ∀ a ∈ l, P a) : List.Forall₂ R l l' := by
  induction h with
  | nil => exact .nil
  | cons hx _ ih => exact .cons (hx (hP _ (by simp))) (ih fun q hq => hP q (by simp [hq]))

theorem globalSumR_bounds {world : List (List (List ℝ))} {v : ℝ} (hv : GlobalSumR r world v) {n d k : ℕ}
    (hw : AtMost n d k world) (h0 : ∀ q ∈ everything world, 0 ≤ q) :
    (1 - r.u) ^ (n + d + k - 3) * (everything world).sum ≤ v ∧ v ≤ (1 + r.u) ^ (n + d + k - 3) * (everything world).sum := by
  obtain ⟨w, h, rfl⟩ := globalSum_near hv hw
  have hk : n - 1 + (d - 1) + (k - 1) = n + d + k - 3 := by have := hw.pos; omega
  rw [hk] at h
  have := forall₂_sum_bounds r (value := fun x : ℝ => x) h0 (everything_same h)
  rwa [List.map_id'] at this

/-- Division by a computed sum, rounded. -/
theorem normalize_bounds {Q q nrm y : ℝ} {k : ℕ} (hq : 0 ≤ q) (hQ : 0 < Q)
    (h1 : (1 - r.u) ^ k * Q ≤ nrm) (h2 : nrm ≤ (1 + r.u) ^ k * Q) (hy : r.Rd (q / nrm) y) :
    (1 - r.u) / (1 + r.u) ^ k * (q / Q) ≤ y ∧ y ≤ (1 + r.u) / (1 - r.u) ^ k * (q / Q) := by
  have hlo := pow_pos (lo_pos r) k
  have hhi := pow_pos (hi_pos r) k
  have hn : 0 < nrm := lt_of_lt_of_le (mul_pos hlo hQ) h1
  have hb := (near_iff_nonneg r (div_nonneg hq hn.le)).mp (near_rd r hy)
  rw [pow_one, pow_one] at hb
  constructor
  · refine le_trans ?_ hb.1
    rw [div_mul_div_comm, mul_div_assoc]
    apply mul_le_mul_of_nonneg_left _ (lo_pos r).le
    exact div_le_div_of_nonneg_left hq hn h2
  · refine hb.2.trans ?_
    rw [div_mul_div_comm, mul_div_assoc]
    apply mul_le_mul_of_nonneg_left _ (hi_pos r).le
    exact div_le_div_of_nonneg_left hq (mul_pos hlo hQ) h1

theorem forall₂_sum_le {A : Type} {f g : A → ℝ} {l : List A} {ys : List ℝ}
    (h : List.Forall₂ (fun s y => f s ≤ y ∧ y ≤ g s) l ys) : (l.map f).sum ≤ ys.sum ∧ ys.sum ≤ (l.map g).sum := by
  induction h with
  | nil => simp
  | cons h _ ih =>
    simp only [List.map_cons, List.sum_cons]
    exact ⟨add_le_add h.1 ih.1, add_le_add h.2 ih.2⟩

/-- Both factors of a normalised weight and of further errors. -/
theorem factor_bounds (r : Rounding) (j k : ℕ) :
    2 ≤ (1 + r.u) ^ j / (1 - r.u) ^ k + (1 - r.u) ^ j / (1 + r.u) ^ k := by
  have hlo := lo_pos r
  have hhi := hi_pos r
  have hprod : (1 - r.u) * (1 + r.u) ≤ 1 := by nlinarith [sq_nonneg r.u]
  have hk : (1 - r.u) ^ k * (1 + r.u) ^ k ≤ 1 := by
    rw [← mul_pow]
    exact pow_le_one₀ (mul_pos hlo hhi).le hprod
  have a : (1 + r.u) ^ (j + k) ≤ (1 + r.u) ^ j / (1 - r.u) ^ k := by
    rw [le_div_iff₀ (pow_pos hlo k), pow_add, mul_assoc]
    have := mul_le_mul_of_nonneg_left hk (pow_pos hhi j).le
    rw [mul_one] at this
    linarith [mul_comm ((1 + r.u) ^ k) ((1 - r.u) ^ k)]
  have b : (1 - r.u) ^ (j + k) ≤ (1 - r.u) ^ j / (1 + r.u) ^ k := by
    rw [le_div_iff₀ (pow_pos hhi k), pow_add, mul_assoc]
    have := mul_le_mul_of_nonneg_left hk (pow_pos hlo j).le
    rw [mul_one] at this
    exact this
  have g1 := one_add_mul_le_pow (a := r.u) (by linarith [r.u_nonneg]) (j + k)
  have g2 := one_add_mul_le_pow (a := -r.u) (by linarith [r.u_lt]) (j + k)
  rw [← sub_eq_add_neg] at g2
  linarith

theorem pow_double_bound {u : ℝ} (hu : 0 ≤ u) {m : ℕ} (hm : m * u ≤ 1) : (1 + u) ^ m - 1 ≤ 2 * (m * u) := by
  have h1 : (1 + u) ^ m ≤ Real.exp (m * u) := by
    rw [Real.exp_nat_mul]
    exact pow_le_pow_left₀ (by linarith) (by linarith [Real.add_one_le_exp u]) m
  have h0 : 0 ≤ m * u := by positivity
  have h2 := Real.abs_exp_sub_one_le (x := m * u) (by rw [abs_of_nonneg h0]; exact hm)
  rw [abs_of_nonneg h0] at h2
  linarith [(abs_le.mp h2).2]

theorem globalSumR_devices {world : List (List (List ℝ))} {v : ℝ} (h : GlobalSumR r world v) : ∀ rk ∈ world, rk ≠ [] := by
  obtain ⟨locals, h, -⟩ := h
  clear v
  induction h with
  | nil => simp
  | cons h _ ih =>
    intro rk hrk
    rcases List.mem_cons.mp hrk with rfl | hm
    · obtain ⟨ds, h0, -⟩ := h
      exact h0
    · exact ih rk hm

theorem globalMeanR_devices {world : List (List (List (ℝ × ℝ)))} {v : ℝ} (h : GlobalMeanR r world v) :
    ∀ rk ∈ world, rk ≠ [] := by
  obtain ⟨hs, h, hg⟩ := h
  have hd := globalSumR_devices hg
  clear hg v
  induction h with
  | nil => simp
  | cons h _ ih =>
    intro rk hrk
    rcases List.mem_cons.mp hrk with rfl | hm
    · intro h0
      subst h0
      cases h
      exact hd [] (by simp) rfl
    · exact ih (fun rk hrk => hd rk (by simp [hrk])) rk hm

theorem atMost_exists {A : Type} (world : List (List (List A))) : ∃ n d k, AtMost n d k world := by
  refine ⟨(everything world).length + 1, world.flatten.length + 1, world.length + 1, ?_, ?_, by omega, by omega⟩
  · intro rk hrk dev hdev
    have h1 : dev.Sublist (everything world) :=
      List.sublist_flatten_of_mem (List.mem_flatten.mpr ⟨rk, hrk, hdev⟩)
    exact h1.length_le.trans (by omega)
  · intro rk hrk
    exact (List.sublist_flatten_of_mem hrk).length_le.trans (by omega)

theorem roundDouble_eq {x : ℝ} {L : ℤ} (h1 : (2 : ℝ) ^ L ≤ x) (h2 : x < (2 : ℝ) ^ (L + 1)) :
    roundDouble x = (2 : ℝ) ^ (L - 52) * (round (x / (2 : ℝ) ^ (L - 52)) : ℝ) := by
  have hx : 0 < x := lt_of_lt_of_le (zpow_pos (by norm_num) _) h1
  have hlog : Int.log 2 |x| = L := by
    rw [abs_of_pos hx]
    apply le_antisymm
    · exact Int.lt_add_one_iff.mp ((Int.lt_zpow_iff_log_lt (b := 2) (by norm_num) hx).mp (by exact_mod_cast h2))
    · exact (Int.zpow_le_iff_le_log (b := 2) (by norm_num) hx).mp (by exact_mod_cast h1)
  unfold roundDouble
  rw [hlog]

/-- Three numbers whose sum depends on the order. -/
theorem roundDouble_order :
    roundDouble (1 + 3 / 2 ^ 55) = 1 ∧ roundDouble (3 / 2 ^ 55 + 3 / 2 ^ 55) = 3 / 2 ^ 54 ∧
    roundDouble (1 + 3 / 2 ^ 54) = 1 + 1 / 2 ^ 52 := by
  refine ⟨?_, ?_, ?_⟩
  · rw [roundDouble_eq (L := 0) (by norm_num) (by norm_num)]
    have : round ((1 + 3 / 2 ^ 55 : ℝ) / 2 ^ ((0 : ℤ) - 52)) = 2 ^ 52 := by
      rw [round_eq, Int.floor_eq_iff]
      norm_num
    rw [this]
    norm_num
  · rw [roundDouble_eq (L := -53) (by norm_num) (by norm_num)]
    have : round ((3 / 2 ^ 55 + 3 / 2 ^ 55 : ℝ) / 2 ^ ((-53 : ℤ) - 52)) = 3 * 2 ^ 51 := by
      rw [round_eq, Int.floor_eq_iff]
      norm_num
    rw [this]
    norm_num
  · rw [roundDouble_eq (L := 0) (by norm_num) (by norm_num)]
    have : round ((1 + 3 / 2 ^ 54 : ℝ) / 2 ^ ((0 : ℤ) - 52)) = 2 ^ 52 + 1 := by
      rw [round_eq, Int.floor_eq_iff]
      norm_num
    rw [this]
    norm_num

theorem globalMeanC_exists (r : Rounding) {world : List (List (List (ℝ × ℂ)))} (h : ∀ rk ∈ world, rk ≠ []) :
    ∃ v, GlobalMeanC r world v := by
  have hm : ∀ f : ℝ × ℂ → ℝ × ℝ, ∀ rk ∈ world.map fun rk => rk.map fun dev => dev.map f, rk ≠ [] := by
    intro f rk hrk
    obtain ⟨rk', hr, rfl⟩ := List.mem_map.mp hrk
    intro h0
    exact h rk' hr (List.map_eq_nil_iff.mp h0)
  obtain ⟨a, ha⟩ := globalMeanR_exists r (hm fun s => (s.1, s.2.re))
  obtain ⟨b, hb⟩ := globalMeanR_exists r (hm fun s => (s.1, s.2.im))
  exact ⟨⟨a, b⟩, ha, hb⟩

theorem globalVarR_exists (r : Rounding) {world : List (List (List (ℝ × ℂ)))} (h : ∀ rk ∈ world, rk ≠ []) :
    ∃ means v, GlobalVarR r world means v := by
  obtain ⟨m, hm⟩ := globalMeanC_exists r h
  have hl : ∀ dm ∈ world.zip (List.replicate world.length m), ∃ x, LocalVarR r dm.2 dm.1 x := by
    intro dm hdm
    obtain ⟨dev, rest, hd⟩ := List.exists_cons_of_ne_nil (h dm.1 (List.of_mem_zip hdm).1)
    obtain ⟨ys, hy⟩ := forall₂_exists (R := SqTermR r dm.2) (l := dev) fun s _ =>
      ⟨_, _, _, Or.inl rfl, Or.inl rfl, Or.inl ⟨_, _, _, Or.inl rfl, Or.inl rfl, Or.inl rfl, Or.inl rfl⟩⟩
    obtain ⟨x, hx⟩ := sums_exists r ys
    exact ⟨x, dev, rest, ys, hd, hy, hx⟩
  obtain ⟨locals, hlo⟩ := forall₂_exists hl
  obtain ⟨v, hv⟩ := sums_exists r locals
  refine ⟨_, v, ?_, locals, hlo, by simp, hv⟩
  intro m' hm'
  rw [(List.mem_replicate.mp hm').2]
  exact hm

theorem normalizeR_exists (r : Rounding) {world : List (List (List ℝ))} (h : ∀ rk ∈ world, rk ≠ []) :
    ∃ ps, NormalizeR r world ps := by
  obtain ⟨nrm, hn⟩ := globalSumR_exists r h
  refine forall₂_exists fun data _ => ?_
  obtain ⟨p, hp⟩ := forall₂_exists (R := List.Forall₂ fun q y => r.Rd (q / nrm) y) (l := data)
    fun dev _ => forall₂_exists fun q _ => ⟨_, Or.inl rfl⟩
  exact ⟨p, nrm, hn, hp⟩

theorem expectationR_exists (r : Rounding) {world : List (List (List (ℝ × ℝ)))} (h : ∀ rk ∈ world, rk ≠ []) :
    ∃ v, ExpectationR r world v := by
  have hm : ∀ rk ∈ world.map fun rk => rk.map fun dev => dev.map Prod.fst, rk ≠ [] := by
    intro rk hrk
    obtain ⟨rk', hr, rfl⟩ := List.mem_map.mp hrk
    intro h0
    exact h rk' hr (List.map_eq_nil_iff.mp h0)
  obtain ⟨nrm, hn⟩ := globalSumR_exists r hm
  obtain ⟨w, hw⟩ := forall₂_exists (l := world) (R := fun data d => ∃ nrm,
      GlobalSumR r (world.map fun rk => rk.map fun dev => dev.map Prod.fst) nrm ∧
      List.Forall₂ (List.Forall₂ fun s t : ℝ × ℝ => r.Rd (s.1 / nrm) t.1 ∧ t.2 = s.2) data d) fun data _ => by
    obtain ⟨p, hp⟩ := forall₂_exists (R := List.Forall₂ fun s t : ℝ × ℝ => r.Rd (s.1 / nrm) t.1 ∧ t.2 = s.2) (l := data)
      fun dev _ => forall₂_exists fun s _ => ⟨(r.rnd (s.1 / nrm), s.2), Or.inl rfl, rfl⟩
    exact ⟨p, nrm, hn, hp⟩
  have hd : ∀ rk ∈ w, rk ≠ [] := by
    intro rk hrk h0
    obtain ⟨rk', hr, nrm', -, hf⟩ := forall₂_mem_right hw rk hrk
    rw [h0] at hf
    cases hf
    exact h [] hr rfl
  obtain ⟨v, hv⟩ := globalMeanR_exists r hd
  exact ⟨v, w, hw, hv⟩

end JVMC
