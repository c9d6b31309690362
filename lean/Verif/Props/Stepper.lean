import Mathlib.Analysis.SpecificLimits.Basic
import Verif.Lemmas.Stepper

/-!
# Properties of the integration schemes

C49 (AdaptiveHeun), C50 (Euler and Heun).
-/

namespace JVMC

open Spec

variable {M σ : Type} [AddCommGroup M] [Module ℝ M]

/-! ## C50 -/

/-- C50: `Euler.step`; one evaluation, with `intStep = 0`. -/
theorem c50_euler (dt t : ℝ) (f : VRhs M σ) (y : M) (s : σ) :
    eulerStep dt t f y s = ((y + dt • (f y t 0 s).1, dt), (f y t 0 s).2) := rfl

/-- C50: `Heun.step` is the textbook step, for the time step of the object unless one is passed. -/
theorem c50_heun (selfDt : ℝ) (dtArg : Option ℝ) (t : ℝ) (f : M → ℝ → M) (y : M) (s : σ) :
    heunStep selfDt dtArg t (fun y t _ s => (f y t, s)) y s
      = ((heun f t (dtArg.getD selfDt) y, dtArg.getD selfDt), s) := by
  cases dtArg <;> simp only [heunStep, heun, Option.getD_some, Option.getD_none] <;>
    · congr 4
      ring

/-- C50: the evaluations of `Heun.step`: first at the initial value and time with `intStep = 0`, then at
the end with `intStep = 1`. `log` records the arguments. -/
theorem c50_heun_calls (dt t : ℝ) (f : VRhs M σ) (y : M) (s : σ) (log : List (M × ℝ × ℕ)) :
    (heunStep dt none t (fun y t k (s : σ × List (M × ℝ × ℕ)) =>
      ((f y t k s.1).1, ((f y t k s.1).2, s.2 ++ [(y, t, k)]))) y (s, log)).2.2
      = log ++ [(y, t, 0), (y + dt • (f y t 0 s).1, t + dt, 1)] := by
  simp [heunStep]

/-- C50: `Heun.step` is exact for `dy/dt = a + b t`. -/
theorem c50_heun_exact (dt t : ℝ) (a b c : M) (s : σ) :
    (heunStep dt none t (fun _ t _ s => (a + t • b, s)) (c + t • a + (t ^ 2 / 2) • b) s).1.1
      = c + (t + dt) • a + ((t + dt) ^ 2 / 2) • b := by
  simp only [heunStep]
  module

/-- C50: for linear systems `Heun.step` is the second-order Taylor polynomial of the solution. -/
theorem c50_heun_linear (dt t : ℝ) (A : M →ₗ[ℝ] M) (y : M) (s : σ) :
    (heunStep dt none t (fun y _ _ s => (A y, s)) y s).1.1
      = y + dt • A y + (dt ^ 2 / 2) • A (A y) := by
  simp only [heunStep, map_add, map_smul]
  module

/-- Case: exponential growth. -/
example : (heunStep (M := ℝ) (1 / 2) none 0 (fun y _ _ (s : Unit) => (y, s)) 1 ()).1.1 = 13 / 8 := by
  simp [heunStep]; norm_num

/-! ## C49 -/

/-- One pass of the loop. -/
theorem ahBody_eq (inplace : Bool) (obj : AHeun) (f : RRhs M σ) (g : VRhs M σ) (hf : Computes inplace f g)
    (norm : M → ℝ) (t : ℝ) (y₀ : ℕ) (fe : Num) (dt : ℝ) (out : Option (M × ℝ)) (h : List M) (s : σ)
    (hy : y₀ < h.length) :
    ∃ h', ahBody inplace obj f norm t y₀ ⟨fe, some dt, out, (h, s)⟩ =
      ⟨Num.quot obj.tolerance (heunDev g norm t dt (h.getD y₀ 0) s),
        (ahFactor (Num.quot obj.tolerance (heunDev g norm t dt (h.getD y₀ 0) s))).map fun c =>
          min (dt * c) obj.maxStep,
        some ((heunPair g t dt (h.getD y₀ 0) s).1.2, dt), (h', (heunPair g t dt (h.getD y₀ 0) s).2)⟩ ∧
      Keeps none h h' := by
  obtain ⟨h', e, hk⟩ := ahAttempt_eq inplace f g hf t y₀ dt h s hy
  refine ⟨h', ?_, hk⟩
  unfold ahBody
  dsimp only
  rw [e]
  unfold heunDev
  dsimp only
  congr 2
  funext c
  split_ifs with hc
  · rw [min_eq_right hc.le]
  · rw [min_eq_left (not_lt.mp hc)]

/-- What the loop does from a given time step on. -/
theorem ahLoop_spec (inplace : Bool) (obj : AHeun) (htol : 0 < obj.tolerance) (f : RRhs M σ) (g : VRhs M σ)
    (hf : Computes inplace f g) (norm : M → ℝ) (hn : ∀ x, 0 ≤ norm x) (t : ℝ) (y₀ : ℕ) (Y : M) (n : ℕ) :
    ∀ (fe : Num) (dt : ℝ) (out : Option (M × ℝ)) (h : List M) (s : σ), y₀ < h.length → h.getD y₀ 0 = Y →
      fe.below 1 = true →
      ∀ S : AHState M σ, S = (ahBody inplace obj f norm t y₀)^[n] ⟨fe, some dt, out, (h, s)⟩ →
      (∀ k < n, ((ahBody inplace obj f norm t y₀)^[k] ⟨fe, some dt, out, (h, s)⟩).fe.below 1 = true) →
      S.fe.below 1 = false →
      ∃ dt' s', Attempts g norm obj.tolerance obj.maxStep t Y dt s dt' s' ∧
        S.out = some ((heunPair g t dt' Y s').1.2, dt') ∧
        S.dt = some (nextDt obj.tolerance obj.maxStep (heunDev g norm t dt' Y s') dt') ∧
        S.w.2 = (heunPair g t dt' Y s').2 ∧ Keeps none h S.w.1 := by
  induction n with
  | zero =>
    intro fe dt out h s _ _ hfe S hS _ hSf
    rw [hS] at hSf
    exact absurd hfe (by simpa using hSf)
  | succ n ih =>
    intro fe dt out h s hy hY hfe S hS hk hSf
    obtain ⟨h', e, hkeep⟩ := ahBody_eq inplace obj f g hf norm t y₀ fe dt out h s hy
    rw [hY] at e
    rw [Function.iterate_succ_apply, e] at hS
    have hdev : 0 ≤ heunDev g norm t dt Y s := hn _
    generalize hd : heunDev g norm t dt Y s = dev at *
    by_cases hacc : dev ≤ obj.tolerance
    · -- accepted
      have hquot : (Num.quot obj.tolerance dev).below 1 = false := by
        unfold Num.quot
        split_ifs with h1 h2
        · rfl
        · rfl
        · have : 1 ≤ obj.tolerance / dev := by
            rw [le_div_iff₀ (lt_of_le_of_ne hdev (Ne.symm h1)), one_mul]
            exact hacc
          simp only [Num.below, decide_eq_false_iff_not, not_lt]
          exact this
      have hn0 : n = 0 := by
        by_contra hne
        have := hk 1 (by omega)
        rw [Function.iterate_one, e] at this
        dsimp only at this
        rw [hquot] at this
        cases this
      subst hn0
      rw [Function.iterate_zero, id] at hS
      refine ⟨dt, s, .accept dt s (by rw [hd]; exact hacc), by rw [hS], ?_, by rw [hS], by rw [hS]; exact hkeep⟩
      rw [hS]
      dsimp only
      unfold nextDt
      rw [hd]
      unfold Num.quot
      by_cases h0 : dev = 0
      · rw [if_pos h0, if_neg htol.ne', if_pos h0]
        rfl
      · have : 1 ≤ obj.tolerance / dev := by
          rw [le_div_iff₀ (lt_of_le_of_ne hdev (Ne.symm h0)), one_mul]
          exact hacc
        rw [if_neg h0, if_neg h0, (factor_accept _ this).1]
        rfl
    · -- rejected
      rw [not_le] at hacc
      have h0 : dev ≠ 0 := fun h => by rw [h] at hacc; exact absurd hacc (not_lt.mpr htol.le)
      have hlt : obj.tolerance / dev < 1 := by
        rw [div_lt_one (htol.trans hacc)]
        exact hacc
      have hnn : 0 ≤ obj.tolerance / dev := div_nonneg htol.le hdev
      have hquot : Num.quot obj.tolerance dev = .fin (obj.tolerance / dev) := by
        unfold Num.quot
        rw [if_neg h0]
      rw [hquot, (factor_reject _ hnn hlt).1] at hS e
      have hlen := hkeep.1
      have hY' : h'.getD y₀ 0 = Y := by rw [hkeep.get' y₀ hy, hY]
      obtain ⟨dt', s', ha, ho, hdt, hw, hkk⟩ := ih _ _ _ h' _ (by omega) hY'
        (by simp only [Num.below, decide_eq_true_eq]; exact hlt) S hS (fun k hkn => by
          have := hk (k + 1) (by omega)
          rw [Function.iterate_succ_apply, e] at this
          exact this) hSf
      have hkk1 := hkk.1
      refine ⟨dt', s', .reject dt s dt' s' (by rw [hd]; exact hacc) (by rw [hd]; exact ha), ho, hdt, hw,
        by omega, fun q hq _ => ?_⟩
      rw [hkk.get' q (by omega), hkeep.get' q hq]

/-- C49: when `AdaptiveHeun.step` returns, the new value is the initial one plus two half steps of the
accepted attempt; time steps of attempts and the next time step follow the stated rules; no existing
array is modified. Holds for right-hand sides that, for NumPy arrays, return a new array
(`c49_alias_violated`), for every state they have. -/
theorem c49_step_partial (inplace : Bool) (obj : AHeun) (htol : 0 < obj.tolerance) (f : RRhs M σ) (g : VRhs M σ)
    (hf : Computes inplace f g) (norm : M → ℝ) (hn : ∀ x, 0 ≤ norm x) (t : ℝ) (y : ℕ) (h : List M) (s : σ)
    (y' : M) (dt' : ℝ) (obj' : Flt AHeun) (h' : List M) (s' : σ)
    (hres : ahStep inplace obj t f y norm (h, s) = .ok ((y', dt', obj'), (h', s'))) :
    ∃ s₁, Attempts g norm obj.tolerance obj.maxStep t (h.getD y 0) obj.dt s dt' s₁ ∧
      y' = h.getD y 0 + (heunPair g t dt' (h.getD y 0) s₁).1.2 ∧
      s' = (heunPair g t dt' (h.getD y 0) s₁).2 ∧
      obj' = some ⟨nextDt obj.tolerance obj.maxStep (heunDev g norm t dt' (h.getD y 0) s₁) dt',
        obj.tolerance, obj.maxStep⟩ ∧
      ∀ q < h.length, h'.getD q 0 = h.getD q 0 := by
  unfold ahStep at hres
  obtain ⟨e1, v1, p1⟩ := newArr_spec (σ := σ) (h.getD y 0) h s
  rw [e1] at hres
  dsimp only at hres
  generalize hh1 : h ++ [h.getD y 0] = h1 at *
  have l1 : h1.length = h.length + 1 := by rw [← hh1]; simp
  cases hl : whileLoop (fun s : AHState M σ => s.fe.below 1) (ahBody inplace obj f norm t h.length)
      ⟨.fin 0.5, some obj.dt, none, (h1, s)⟩ with
  | none => rw [hl] at hres; cases hres
  | some S =>
    rw [hl] at hres
    obtain ⟨n, hS, hc, hk⟩ := whileLoop_spec _ _ _ _ hl
    obtain ⟨d, s₁, ha, ho, hdt, hw, hkeep⟩ := ahLoop_spec inplace obj htol f g hf norm hn t h.length
      (h.getD y 0) n (.fin 0.5) obj.dt none h1 s (by omega) v1
      (by simp only [Num.below, decide_eq_true_eq]; norm_num) S hS hk hc
    dsimp only at hres
    rw [ho] at hres
    dsimp only at hres
    rw [hdt, hkeep.get' h.length (by omega), v1] at hres
    simp only [Except.ok.injEq, Prod.mk.injEq, Option.map_some] at hres
    obtain ⟨⟨rfl, rfl, rfl⟩, hw'⟩ := hres
    refine ⟨s₁, ha, rfl, ?_, rfl, fun q hq => ?_⟩
    · rw [← hw, hw']
    · rw [hw'] at hkeep
      rw [hkeep.get' q (by omega), p1.get' q hq]

/-- Two Heun steps of half the size, and one, for a right-hand side without state. -/
theorem heunPair_det (f : M → ℝ → M) (t dt : ℝ) (y : M) (s : σ) :
    y + (heunPair (fun y t _ s => (f y t, s)) t dt y s).1.2
        = heun f (t + dt / 2) (dt / 2) (heun f t (dt / 2) y) ∧
      y + (heunPair (fun y t _ s => (f y t, s)) t dt y s).1.1 = heun f t dt y := by
  have h4 : dt / 2 / 2 = dt / 4 := by ring
  have ht : t + dt / 2 + dt / 2 = t + dt := by ring
  constructor
  · unfold heunPair heun
    dsimp only
    rw [h4, ht, ← add_assoc]
  · rfl

theorem attempts_dev {g : VRhs M σ} {norm : M → ℝ} {tol mx t : ℝ} {y : M} {dt dt' : ℝ} {s s' : σ}
    (h : Attempts g norm tol mx t y dt s dt' s') : heunDev g norm t dt' y s' ≤ tol := by
  induction h with
  | accept _ _ h => exact h
  | reject _ _ _ _ _ _ ih => exact ih

theorem attempts_le {g : VRhs M σ} {norm : M → ℝ} {tol mx t : ℝ} {y : M} {dt dt' : ℝ} {s s' : σ}
    (h : Attempts g norm tol mx t y dt s dt' s') : dt' = dt ∨ dt' ≤ mx := by
  induction h with
  | accept _ _ h => exact .inl rfl
  | reject _ _ _ _ _ _ ih =>
    rcases ih with rfl | h
    · exact .inr (min_le_right _ _)
    · exact .inr h

/-- C49, for a right-hand side that is a function of `y` and `t`: the new value is the result of two Heun
steps of half the size, and deviates from a single one by at most the tolerance. -/
theorem c49_heun_partial (inplace : Bool) (obj : AHeun) (htol : 0 < obj.tolerance) (f : RRhs M σ) (F : M → ℝ → M)
    (hf : Computes inplace f fun y t _ s => (F y t, s)) (norm : M → ℝ) (hn : ∀ x, 0 ≤ norm x) (t : ℝ)
    (y : ℕ) (h : List M) (s : σ) (y' : M) (dt' : ℝ) (obj' : Flt AHeun) (h' : List M) (s' : σ)
    (hres : ahStep inplace obj t f y norm (h, s) = .ok ((y', dt', obj'), (h', s'))) :
    y' = heun F (t + dt' / 2) (dt' / 2) (heun F t (dt' / 2) (h.getD y 0)) ∧
      norm (y' - heun F t dt' (h.getD y 0)) ≤ obj.tolerance := by
  obtain ⟨s₁, ha, hy, _⟩ := c49_step_partial inplace obj htol f _ hf norm hn t y h s y' dt' obj' h' s' hres
  have hp := heunPair_det F t dt' (h.getD y 0) s₁
  refine ⟨hy.trans hp.1, ?_⟩
  have := attempts_dev ha
  unfold heunDev at this
  rw [hy, ← hp.2, add_sub_add_left_eq_sub]
  exact this

/-- C49: the time step of the first attempt is that of the object; all others, and the next one, are at
most `maxStep`. After an accepted step the time step at most doubles, and shrinks by at most a factor 0.9
unless it is limited by `maxStep`. -/
theorem c49_bounds_partial (inplace : Bool) (obj : AHeun) (htol : 0 < obj.tolerance) (f : RRhs M σ) (g : VRhs M σ)
    (hf : Computes inplace f g) (norm : M → ℝ) (hn : ∀ x, 0 ≤ norm x) (t : ℝ) (y : ℕ) (h : List M) (s : σ)
    (y' : M) (dt' : ℝ) (obj' : Flt AHeun) (h' : List M) (s' : σ)
    (hres : ahStep inplace obj t f y norm (h, s) = .ok ((y', dt', obj'), (h', s'))) :
    (obj.dt ≤ obj.maxStep → dt' ≤ obj.maxStep) ∧
    ∃ d, obj' = some ⟨d, obj.tolerance, obj.maxStep⟩ ∧ d ≤ obj.maxStep ∧
      (0 ≤ dt' → d ≤ 2 * dt' ∧ min (0.9 * dt') obj.maxStep ≤ d) := by
  obtain ⟨s₁, ha, _, _, ho, _⟩ := c49_step_partial inplace obj htol f g hf norm hn t y h s y' dt' obj' h' s' hres
  refine ⟨fun hd => ?_, _, ho, min_le_right _ _, fun hdt => ?_⟩
  · rcases attempts_le ha with rfl | h
    · exact hd
    · exact h
  · have hdev := attempts_dev ha
    have hdev0 : 0 ≤ heunDev g norm t dt' (h.getD y 0) s₁ := hn _
    generalize heunDev g norm t dt' (h.getD y 0) s₁ = dev at *
    unfold nextDt
    have hfac : 0.9 ≤ (if dev = 0 then 2 else min 2 (0.9 * (obj.tolerance / dev) ^ (0.33333 : ℝ)) : ℝ) ∧
        (if dev = 0 then 2 else min 2 (0.9 * (obj.tolerance / dev) ^ (0.33333 : ℝ)) : ℝ) ≤ 2 := by
      split_ifs with h0
      · norm_num
      · refine ⟨(factor_accept _ ?_).2, min_le_left _ _⟩
        rw [le_div_iff₀ (lt_of_le_of_ne hdev0 (Ne.symm h0)), one_mul]
        exact hdev
    refine ⟨(min_le_left _ _).trans ?_, min_le_min_right _ ?_⟩
    · nlinarith [hfac.2]
    · nlinarith [hfac.1]

/-- C49: every rejected attempt shrinks a positive time step by at least a factor 0.9, and by at most a
factor 5 unless it is limited by `maxStep`. -/
theorem c49_rejected (tol mx dev dt : ℝ) (htol : 0 < tol) (hdev : tol < dev) (hdt : 0 < dt) :
    min (dt * max 0.2 (0.9 * (tol / dev) ^ (0.33333 : ℝ))) mx < 0.9 * dt ∧
    min (dt / 5) mx ≤ min (dt * max 0.2 (0.9 * (tol / dev) ^ (0.33333 : ℝ))) mx := by
  have hlt : tol / dev < 1 := by rw [div_lt_one (htol.trans hdev)]; exact hdev
  have := (factor_reject (tol / dev) (div_nonneg htol.le (htol.trans hdev).le) hlt).2
  constructor
  · refine (min_le_left _ _).trans_lt ?_
    nlinarith
  · apply min_le_min_right
    have h2 : (0.2 : ℝ) ≤ max 0.2 (0.9 * (tol / dev) ^ (0.33333 : ℝ)) := le_max_left _ _
    nlinarith

example := c49_rejected 1e-8 1 1e-3 1e-2 (by norm_num) (by norm_num) (by norm_num)

/-- A norm for the next theorem. -/
structure IsSeminorm (norm : M → ℝ) : Prop where
  nonneg : ∀ x, 0 ≤ norm x
  add : ∀ x y, norm (x + y) ≤ norm x + norm y
  smul : ∀ (c : ℝ) x, norm (c • x) ≤ |c| * norm x

theorem dev_le (g : VRhs M σ) (norm : M → ℝ) (hn : IsSeminorm norm) (B : ℝ)
    (hB : ∀ y t k s, norm (g y t k s).1 ≤ B) (t dt : ℝ) (hdt : 0 ≤ dt) (y : M) (s : σ) :
    heunDev g norm t dt y s ≤ 2 * dt * B := by
  unfold heunDev heunPair
  dsimp only
  generalize hk0 : g y t 0 s = K0
  generalize hk1 : g (y + dt • K0.1) (t + dt) 1 K0.2 = K1
  generalize hk2 : g (y + (dt / 2) • K0.1) (t + dt / 2) 2 K1.2 = K2
  generalize hk3 : g (y + (dt / 4) • (K0.1 + K2.1)) (t + dt / 2) 3 K2.2 = K3
  generalize hk4 : g (y + (dt / 4) • (K0.1 + K2.1) + (dt / 2) • K3.1) (t + dt) 4 K3.2 = K4
  have b0 : norm K0.1 ≤ B := hk0 ▸ hB _ _ _ _
  have b1 : norm K1.1 ≤ B := hk1 ▸ hB _ _ _ _
  have b2 : norm K2.1 ≤ B := hk2 ▸ hB _ _ _ _
  have b3 : norm K3.1 ≤ B := hk3 ▸ hB _ _ _ _
  have b4 : norm K4.1 ≤ B := hk4 ▸ hB _ _ _ _
  have e : (dt / 4) • (K0.1 + K2.1) + (dt / 4) • (K3.1 + K4.1) - (dt / 2) • (K0.1 + K1.1)
      = (-(dt / 4)) • K0.1 + ((dt / 4) • K2.1 + ((dt / 4) • K3.1 + ((dt / 4) • K4.1 + (-(dt / 2)) • K1.1))) := by
    module
  rw [e]
  have s0 := hn.smul (-(dt / 4)) K0.1
  have s2 := hn.smul (dt / 4) K2.1
  have s3 := hn.smul (dt / 4) K3.1
  have s4 := hn.smul (dt / 4) K4.1
  have s1 := hn.smul (-(dt / 2)) K1.1
  have a1 := hn.add ((-(dt / 4)) • K0.1) ((dt / 4) • K2.1 + ((dt / 4) • K3.1 + ((dt / 4) • K4.1 + (-(dt / 2)) • K1.1)))
  have a2 := hn.add ((dt / 4) • K2.1) ((dt / 4) • K3.1 + ((dt / 4) • K4.1 + (-(dt / 2)) • K1.1))
  have a3 := hn.add ((dt / 4) • K3.1) ((dt / 4) • K4.1 + (-(dt / 2)) • K1.1)
  have a4 := hn.add ((dt / 4) • K4.1) ((-(dt / 2)) • K1.1)
  rw [abs_neg, abs_of_nonneg (by positivity)] at s0 s1
  rw [abs_of_nonneg (by positivity)] at s2 s3 s4
  nlinarith [hn.nonneg K0.1, hn.nonneg K1.1, hn.nonneg K2.1, hn.nonneg K3.1, hn.nonneg K4.1]

/-- The loop ends if the right-hand side is bounded. -/
theorem ahLoop_ends (inplace : Bool) (obj : AHeun) (htol : 0 < obj.tolerance) (hmax : 0 < obj.maxStep)
    (f : RRhs M σ) (g : VRhs M σ) (hf : Computes inplace f g) (norm : M → ℝ) (hn : IsSeminorm norm) (B : ℝ)
    (hB : ∀ y t k s, norm (g y t k s).1 ≤ B) (t : ℝ) (y₀ : ℕ) (N : ℕ) :
    ∀ (fe : Num) (dt : ℝ) (out : Option (M × ℝ)) (h : List M) (s : σ), y₀ < h.length → 0 < dt →
      2 * ((0.9 : ℝ) ^ N * dt) * B ≤ obj.tolerance →
      ∃ n, (((ahBody inplace obj f norm t y₀)^[n] ⟨fe, some dt, out, (h, s)⟩).fe.below 1) = false := by
  have acc : ∀ (fe : Num) (dt : ℝ) (out : Option (M × ℝ)) (h : List M) (s : σ), y₀ < h.length →
      heunDev g norm t dt (h.getD y₀ 0) s ≤ obj.tolerance →
      (ahBody inplace obj f norm t y₀ ⟨fe, some dt, out, (h, s)⟩).fe.below 1 = false := by
    intro fe dt out h s hy hd
    obtain ⟨h', e, _⟩ := ahBody_eq inplace obj f g hf norm t y₀ fe dt out h s hy
    rw [e]
    have hdev0 : 0 ≤ heunDev g norm t dt (h.getD y₀ 0) s := hn.nonneg _
    unfold Num.quot
    split_ifs with h1 h2
    · rfl
    · rfl
    · simp only [Num.below, decide_eq_false_iff_not, not_lt]
      rw [le_div_iff₀ (lt_of_le_of_ne hdev0 (Ne.symm h1)), one_mul]
      exact hd
  induction N with
  | zero =>
    intro fe dt out h s hy hdt hle
    refine ⟨1, acc fe dt out h s hy ?_⟩
    refine (dev_le g norm hn B hB t dt hdt.le _ _).trans ?_
    simpa using hle
  | succ N ih =>
    intro fe dt out h s hy hdt hle
    by_cases hacc : heunDev g norm t dt (h.getD y₀ 0) s ≤ obj.tolerance
    · exact ⟨1, acc fe dt out h s hy hacc⟩
    · rw [not_le] at hacc
      obtain ⟨h', e, hkeep⟩ := ahBody_eq inplace obj f g hf norm t y₀ fe dt out h s hy
      have hdev : 0 < heunDev g norm t dt (h.getD y₀ 0) s := htol.trans hacc
      generalize heunDev g norm t dt (h.getD y₀ 0) s = dev at *
      have hquot : Num.quot obj.tolerance dev = .fin (obj.tolerance / dev) := by
        unfold Num.quot
        rw [if_neg hdev.ne']
      have hlt : obj.tolerance / dev < 1 := by rw [div_lt_one hdev]; exact hacc
      have hfr := (factor_reject _ (div_nonneg htol.le hdev.le) hlt).1
      rw [hquot, hfr] at e
      obtain ⟨c1, c2⟩ := c49_rejected obj.tolerance obj.maxStep dev dt htol hacc hdt
      have hpos : 0 < min (dt * max 0.2 (0.9 * (obj.tolerance / dev) ^ (0.33333 : ℝ))) obj.maxStep :=
        lt_of_lt_of_le (lt_min (by positivity) hmax) c2
      have hk1 := hkeep.1
      obtain ⟨n, hn'⟩ := ih (.fin (obj.tolerance / dev)) _ (some ((heunPair g t dt (h.getD y₀ 0) s).1.2, dt)) h'
        (heunPair g t dt (h.getD y₀ 0) s).2 (by omega) hpos (by
          refine le_trans ?_ hle
          have hB0 : 0 ≤ B := (hn.nonneg _).trans (hB 0 0 0 s)
          have hp : (0 : ℝ) ≤ 0.9 ^ N := by positivity
          rw [pow_succ]
          apply mul_le_mul_of_nonneg_right _ hB0
          nlinarith [mul_le_mul_of_nonneg_left c1.le hp])
      refine ⟨n + 1, ?_⟩
      rw [Function.iterate_succ_apply, e]
      exact hn'

/-- C49: `AdaptiveHeun.step` returns if the right-hand side is bounded. Missing: unbounded ones. -/
theorem c49_returns_partial (inplace : Bool) (obj : AHeun) (htol : 0 < obj.tolerance) (hmax : 0 < obj.maxStep)
    (hdt : 0 < obj.dt) (f : RRhs M σ) (g : VRhs M σ) (hf : Computes inplace f g) (norm : M → ℝ)
    (hn : IsSeminorm norm) (B : ℝ) (hB : ∀ y t k s, norm (g y t k s).1 ≤ B) (t : ℝ) (y : ℕ) (h : List M)
    (s : σ) : ∃ r, ahStep inplace obj t f y norm (h, s) = .ok r := by
  have hB0 : 0 ≤ B := (hn.nonneg _).trans (hB 0 0 0 s)
  obtain ⟨N, hN⟩ : ∃ N : ℕ, 2 * ((0.9 : ℝ) ^ N * obj.dt) * B ≤ obj.tolerance := by
    rcases hB0.eq_or_lt with rfl | hB0
    · exact ⟨0, by simpa using htol.le⟩
    · obtain ⟨N, hN⟩ := exists_pow_lt_of_lt_one (show 0 < obj.tolerance / (2 * obj.dt * B) by positivity)
        (show (0.9 : ℝ) < 1 by norm_num)
      rw [lt_div_iff₀ (by positivity)] at hN
      exact ⟨N, by nlinarith⟩
  obtain ⟨e1, v1, p1⟩ := newArr_spec (σ := σ) (h.getD y 0) h s
  obtain ⟨n, hn'⟩ := ahLoop_ends inplace obj htol hmax f g hf norm hn B hB t h.length N (.fin 0.5) obj.dt none
    (h ++ [h.getD y 0]) s (by simp) hdt hN
  obtain ⟨S, hS⟩ := whileLoop_some (fun s : AHState M σ => s.fe.below 1) (ahBody inplace obj f norm t h.length)
    ⟨.fin 0.5, some obj.dt, none, (h ++ [h.getD y 0], s)⟩ ⟨n, hn'⟩
  obtain ⟨m, hSm, hc, hk⟩ := whileLoop_spec _ _ _ _ hS
  obtain ⟨d, s₁, _, ho, _⟩ := ahLoop_spec inplace obj htol f g hf norm hn.nonneg t h.length
      (h.getD y 0) m (.fin 0.5) obj.dt none _ s (by simp) v1
      (by simp only [Num.below, decide_eq_true_eq]; norm_num) S hSm hk hc
  unfold ahStep
  rw [e1]
  dsimp only
  rw [hS]
  dsimp only
  rw [ho]
  exact ⟨_, rfl⟩

omit [Module ℝ M] in
theorem refRhs_computes (inplace : Bool) (g : VRhs M σ) : Computes inplace (refRhs g) g := by
  intro r t k h s _
  refine ⟨h.length, [(g (h.getD r 0) t k s).1], rfl, by simp, ?_, fun _ => le_rfl⟩
  simp [List.getD_eq_getElem?_getD]

/-- Case: `dy/dt = cos`-like bounded right-hand side with NumPy arrays and the default tolerance; the
step returns. -/
example : ∃ r, ahStep (M := ℝ) true ⟨1e-3, 1e-8, 1⟩ 0 (refRhs fun y t _ (n : ℕ) => (t / (1 + t ^ 2 + y ^ 2), n + 1))
    0 (fun x => |x|) ([5], 0) = .ok r := by
  refine c49_returns_partial true ⟨1e-3, 1e-8, 1⟩ (by norm_num) (by norm_num) (by norm_num) _ _
    (refRhs_computes _ _) _ ⟨fun x => abs_nonneg x, fun x y => abs_add_le x y, fun c x => (abs_mul c x).le⟩ 1 ?_ _ _ _ _
  intro y t k s
  dsimp only
  rw [abs_div, abs_of_pos (show 0 < 1 + t ^ 2 + y ^ 2 by positivity), div_le_one (by positivity)]
  rw [abs_le]
  constructor <;> nlinarith [sq_nonneg (t - 1), sq_nonneg (t + 1), sq_nonneg y]

/-- A step whose first attempt is accepted. -/
theorem ahStep_first (inplace : Bool) (obj : AHeun) (t : ℝ) (f : RRhs M σ) (y : ℕ) (norm : M → ℝ) (h : List M)
    (s : σ) (dy0 dy1 : M) (w : List M × σ)
    (ha : ahAttempt inplace f t h.length obj.dt (h ++ [h.getD y 0], s) = ((dy0, dy1), w))
    (hb : (Num.quot obj.tolerance (norm (dy1 - dy0))).below 1 = false) :
    ∃ o, ahStep inplace obj t f y norm (h, s) = .ok ((w.1.getD h.length 0 + dy1, obj.dt, o), w) := by
  unfold ahStep newArr
  dsimp only
  rw [whileLoop_step _ _ _ (by simp only [Num.below, decide_eq_true_eq]; norm_num)]
  have e : ahBody inplace obj f norm t h.length ⟨.fin 0.5, some obj.dt, none, (h ++ [h.getD y 0], s)⟩
      = ⟨Num.quot obj.tolerance (norm (dy1 - dy0)), (ahFactor (Num.quot obj.tolerance (norm (dy1 - dy0)))).map
          fun tmp => if obj.dt * tmp > obj.maxStep then obj.maxStep else obj.dt * tmp, some (dy1, obj.dt), w⟩ := by
    unfold ahBody
    dsimp only
    rw [ha]
  rw [e, whileLoop_zero (fun s : AHState M σ => s.fe.below 1) _ _ hb]
  exact ⟨_, rfl⟩

/-- C49: the claim `dt ≤ maxStep` fails for the first step: a `timeStep` above `maxStep` is used. -/
theorem c49_first_step_violated : ∃ (obj : AHeun) (r : (ℝ × ℝ × Flt AHeun) × (List ℝ × Unit)),
    0 < obj.tolerance ∧ 0 < obj.maxStep ∧
    ahStep true obj 0 (refRhs fun _ _ _ s => (0, s)) 0 (fun x => |x|) ([5], ()) = .ok r ∧
      obj.maxStep < r.1.2.1 := by
  obtain ⟨o, ho⟩ := ahStep_first (M := ℝ) true ⟨2, 1, 1⟩ 0 (refRhs fun _ _ _ (s : Unit) => (0, s)) 0 (fun x => |x|)
    [5] () _ _ _ rfl (by simp [Num.quot, Num.below])
  exact ⟨⟨2, 1, 1⟩, _, by norm_num, by norm_num, ho, by norm_num⟩

/-- C49: with NumPy arrays, a right-hand side that returns its argument (for `dy/dt = y`) makes
`y += dt * k0` change `k0` too. From `y = 1` with time step 1 the result is 2.625. Two Heun steps of
size 1/2 give 2.640625, which is also the result with JAX arrays. -/
theorem c49_alias_violated : ∃ (obj : AHeun) (f : RRhs ℝ Unit) (r : (ℝ × ℝ × Flt AHeun) × (List ℝ × Unit))
    (r' : (ℝ × ℝ × Flt AHeun) × (List ℝ × Unit)), 0 < obj.tolerance ∧ obj.dt ≤ obj.maxStep ∧
    (∀ q t k w, (f q t k w).2 = w ∧ w.1.getD (f q t k w).1 0 = w.1.getD q 0) ∧
    ahStep true obj 0 f 0 (fun x => |x|) ([1], ()) = .ok r ∧
    ahStep false obj 0 f 0 (fun x => |x|) ([1], ()) = .ok r' ∧
    r.1.2.1 = 1 ∧ r'.1.2.1 = 1 ∧
    r'.1.1 = heun (fun y _ => y) (1 / 2) (1 / 2) (heun (fun y _ => y) 0 (1 / 2) 1) ∧
    r.1.1 ≠ heun (fun y _ => y) (1 / 2) (1 / 2) (heun (fun y _ => y) 0 (1 / 2) 1) := by
  obtain ⟨o, ho⟩ := ahStep_first (M := ℝ) true ⟨1, 10, 1⟩ 0 (fun q _ _ (w : List ℝ × Unit) => (q, w)) 0 (fun x => |x|)
    [1] () 2 1.625 ([1, 1, 1, 2.25], ()) (by
      simp only [ahAttempt, newArr, readArr, addArr, bind, StateT.bind, pure, StateT.pure]
      norm_num) (by
      simp only [Num.quot, Num.below]
      norm_num)
  obtain ⟨o', ho'⟩ := ahStep_first (M := ℝ) false ⟨1, 10, 1⟩ 0 (fun q _ _ (w : List ℝ × Unit) => (q, w)) 0 (fun x => |x|)
    [1] () 1.5 1.640625 ([1, 1, 1, 2, 1.5, 1.625, 2.4375], ()) (by
      simp only [ahAttempt, newArr, readArr, addArr, bind, StateT.bind, pure, StateT.pure]
      norm_num) (by
      simp only [Num.quot, Num.below]
      norm_num)
  refine ⟨⟨1, 10, 1⟩, _, _, _, by norm_num, by norm_num, fun q t k w => ⟨rfl, rfl⟩, ho, ho', rfl, rfl, ?_, ?_⟩
  · simp only [heun, smul_eq_mul]
    norm_num
  · simp only [heun, smul_eq_mul]
    norm_num

/-- The hypotheses of `c49_step_partial`, `c49_heun_partial` and `c49_bounds_partial` are met: the adaptive stepper returns for
`y' = t / (1 + t^2)`. -/
example : ∃ r, Computes (M := ℝ) (σ := ℕ) true (refRhs fun _ t _ n => (t / (1 + t ^ 2), n))
      (fun _ t _ n => (t / (1 + t ^ 2), n)) ∧
    ahStep (M := ℝ) true ⟨1e-3, 1e-8, 1⟩ 0 (refRhs fun _ t _ (n : ℕ) => (t / (1 + t ^ 2), n)) 0 (fun x => |x|) ([5], 0)
      = .ok r := by
  refine (c49_returns_partial true ⟨1e-3, 1e-8, 1⟩ (by norm_num) (by norm_num) (by norm_num) _ _
    (refRhs_computes _ _) _ ⟨fun x => abs_nonneg x, fun x y => abs_add_le x y, fun c x => (abs_mul c x).le⟩ 1 ?_ _ _ _ _).imp
    fun r hr => ⟨refRhs_computes _ _, hr⟩
  intro y t k s
  dsimp only
  rw [abs_div, abs_of_pos (show 0 < 1 + t ^ 2 by positivity), div_le_one (by positivity), abs_le]
  constructor <;> nlinarith [sq_nonneg (t - 1), sq_nonneg (t + 1)]

end JVMC
