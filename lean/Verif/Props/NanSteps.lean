import Verif.Lemmas.NanSteps

/-!
# Integration steps when evaluations fail

C131: what Euler, Heun, AdaptiveHeun and an evolution do when the right-hand side returns NaN or infinite numbers.
-/

namespace JVMC

variable {n : ℕ} {σ : Type}

/-- A right-hand side that records what it returns. -/
def recordD (f : DRhs n σ) : DRhs n (σ × List (DVec n)) := fun y t k s =>
  ((f y t k s.1).1, ((f y t k s.1).2, s.2 ++ [(f y t k s.1).1]))

/-- An array with a NaN. -/
def HasNan (v : DVec n) : Prop := ∃ i, v i = .nan

/-- An array of finite numbers. -/
def IsFinite (v : DVec n) : Prop := ∃ w, v = liftD w

theorem evalsD_record (f : DRhs n σ) (t : Dbl) (y : DVec n) (dt : Dbl) (s : σ × List (DVec n)) :
    evalsD (recordD f) t y dt s =
      ((evalsD f t y dt s.1).1, ((evalsD f t y dt s.1).2, s.2 ++ (evalsD f t y dt s.1).1.list)) := by
  simp [evalsD, recordD, Evals.list]

theorem feD_nonneg {tol : ℝ} (htol : 0 < tol) {normD : DVec n → Dbl} {norm : (Fin n → ℝ) → ℝ} (hN : NormD normD norm)
    (hn : ∀ w, 0 ≤ norm w) (v : DVec n) :
    (normD v = .nan ∧ (Dbl.fin tol).div (normD v) = .nan) ∨
    (normD v = .fin 0 ∧ (Dbl.fin tol).div (normD v) = .inf) ∨
    (∃ r, 0 < r ∧ normD v = .fin r ∧ (Dbl.fin tol).div (normD v) = .fin (tol / r)) ∨
    ((∀ r, normD v ≠ .fin r) ∧ normD v ≠ .nan ∧ (Dbl.fin tol).div (normD v) = .fin 0) := by
  cases h : normD v with
  | nan => exact .inl ⟨rfl, rfl⟩
  | inf => exact .inr (.inr (.inr ⟨by simp, by simp, rfl⟩))
  | ninf => exact .inr (.inr (.inr ⟨by simp, by simp, rfl⟩))
  | fin r =>
    obtain ⟨w, -, hr⟩ := hN.fin v r h
    have h0 : 0 ≤ r := hr ▸ hn w
    rcases h0.eq_or_lt with rfl | hpos
    · refine .inr (.inl ⟨rfl, ?_⟩)
      simp only [Dbl.div, Dbl.quotient, if_true, Dbl.infTimes, htol.ne', htol, if_false]
    · refine .inr (.inr (.inl ⟨r, hpos, rfl, ?_⟩))
      simp only [Dbl.div, Dbl.quotient, hpos.ne', if_false]

/-- C131, the part that holds: if the time step that `AdaptiveHeun.step` chooses for the next step is a number, then the
returned step was checked: all five evaluations of the last attempt gave finite numbers, the new value is that of two
half steps, and its deviation from a single step is at most the tolerance. For every right-hand side, which may return
infinite numbers and NaN at any time. -/
theorem c131_checked_partial (obj : AHeunD) (htol : 0 < obj.tolerance) (dt t : ℝ) (hdt : obj.dt = .fin dt)
    (f : DRhs n σ) (y : Fin n → ℝ) (normD : DVec n → Dbl) (norm : (Fin n → ℝ) → ℝ) (hN : NormD normD norm)
    (hn : ∀ w, 0 ≤ norm w) (s : σ) (y' : DVec n) (dt' : Dbl) (obj' : AHeunD) (s' : σ)
    (h : ahStepD obj (.fin t) f (liftD y) normD s = .ok ((y', dt', obj'), s')) (hnext : obj'.dt ≠ .nan) :
    ∃ (d : ℝ) (s₁ s₂ s₃ s₄ s₅ : σ) (k0 k1 k10 k01 k11 : Fin n → ℝ),
      dt' = .fin d ∧
      f (liftD y) (.fin t) 0 s₁ = (liftD k0, s₂) ∧
      f (liftD (y + d • k0)) (.fin (t + d)) 1 s₂ = (liftD k1, s₃) ∧
      f (liftD (y + (d / 2) • k0)) (.fin (t + d / 2)) 2 s₃ = (liftD k10, s₄) ∧
      f (liftD (y + (d / 4) • (k0 + k10))) (.fin (t + d / 2)) 3 s₄ = (liftD k01, s₅) ∧
      f (liftD (y + (d / 4) • (k0 + k10) + (d / 2) • k01)) (.fin (t + d)) 4 s₅ = (liftD k11, s') ∧
      y' = liftD (y + ((d / 4) • (k0 + k10) + (d / 4) • (k01 + k11))) ∧
      norm (((d / 4) • (k0 + k10) + (d / 4) • (k01 + k11)) - (d / 2) • (k0 + k1)) ≤ obj.tolerance := by
  obtain ⟨x, ⟨d, hd⟩, -, hacc, rfl, rfl, rfl, rfl⟩ := ahStepD_last obj (.fin t) f (liftD y) normD s
    (fun x => ∃ d, x.dt = .fin d) ⟨dt, hdt⟩ (by
      rintro x ⟨d, hd⟩ - hlt
      rw [ahBodyD_eq] at hlt ⊢
      dsimp only at hlt ⊢
      rw [hd] at hlt ⊢
      apply nextDtD_fin
      · intro z hz
        rcases feD_nonneg htol hN hn ((evalsD f (.fin t) (liftD y) (.fin d) x.s).1.diff (.fin d)) with
          ⟨-, e⟩ | ⟨-, e⟩ | ⟨r, hr, -, e⟩ | ⟨-, -, e⟩ <;> rw [e] at hz
        · cases hz
        · cases hz
        · rw [← Dbl.fin.inj hz]; positivity
        · rw [← Dbl.fin.inj hz]
      · intro e
        rw [e, Dbl.nan_lt] at hlt
        cases hlt) y' dt' obj' s' h
  rw [ahBodyD_eq] at hacc hnext
  dsimp only at hacc hnext
  rw [hd] at hacc hnext ⊢
  have key : ∃ r, r ≤ obj.tolerance ∧
      normD ((evalsD f (.fin t) (liftD y) (.fin d) x.s).1.diff (.fin d)) = .fin r := by
    rcases feD_nonneg htol hN hn ((evalsD f (.fin t) (liftD y) (.fin d) x.s).1.diff (.fin d)) with
      ⟨-, e⟩ | ⟨e', -⟩ | ⟨r, hr, e', e⟩ | ⟨-, -, e⟩
    · rw [e, nextDtD_nan] at hnext
      exact absurd rfl hnext
    · exact ⟨0, htol.le, e'⟩
    · refine ⟨r, ?_, e'⟩
      rw [e] at hacc
      simp only [Dbl.lt, decide_eq_false_iff_not, not_lt] at hacc
      rwa [le_div_iff₀ hr, one_mul] at hacc
    · rw [e] at hacc
      simp only [Dbl.lt, decide_eq_false_iff_not, not_lt] at hacc
      exact absurd hacc (by norm_num)
  obtain ⟨r, hr, hnorm⟩ := key
  obtain ⟨w, hw, hrw⟩ := hN.fin _ _ hnorm
  obtain ⟨k0, k1, k10, k01, k11, he⟩ := Evals.diff_fin _ _ w hw
  rw [hrw] at hr
  have hdiff := hw
  rw [he] at hdiff ⊢
  obtain ⟨s₂, s₃, s₄, s₅, h0, h1, h2, h3, h4⟩ := evalsD_fin f t d y x.s k0 k1 k10 k01 k11 he
  rw [Evals.diff_value] at hdiff
  refine ⟨d, x.s, s₂, s₃, s₄, s₅, k0, k1, k10, k01, k11, rfl, h0, h1, h2, h3, h4, ?_, ?_⟩
  · rw [Evals.incr_value]
    rfl
  · rw [liftD_inj hdiff]
    exact hr

/-- Case: `y' = y`, one parameter, a step of size 1/10 with tolerance 1; all hypotheses hold. -/
example : ∃ y' dt' obj', ahStepD ⟨.fin 0.1, 1, 1⟩ (.fin 0) (fun y _ _ (s : Unit) => (y, s)) (liftD fun _ : Fin 1 => 1) jnpNorm ()
    = .ok ((y', dt', obj'), ()) ∧ obj'.dt ≠ .nan := by
  have he : (evalsD (fun y _ _ (s : Unit) => (y, s)) (.fin 0) (liftD fun _ : Fin 1 => 1) (.fin 0.1) ()).1
      = ⟨liftD fun _ => 1, liftD fun _ => 1.1, liftD fun _ => 1.05, liftD fun _ => 1.05125, liftD fun _ => 1.1038125⟩ := by
    simp only [evalsD, Evals.mk.injEq]
    refine ⟨trivial, ?_, ?_, ?_, ?_⟩ <;> funext i <;>
      simp only [liftD, DVec.add, DVec.sub, DVec.scale, Dbl.mul, Dbl.sub, Dbl.neg, Dbl.add, Dbl.fin.injEq] <;> norm_num
  have hx : ∃ x : ℝ, 1 ≤ x ∧ (Dbl.fin 1).div (jnpNorm ((evalsD (fun y _ _ (s : Unit) => (y, s)) (.fin 0)
      (liftD fun _ : Fin 1 => 1) (.fin 0.1) ()).1.diff (.fin 0.1))) = .fin x := by
    have hv : ((0.1 : ℝ) / 4) • ((fun _ : Fin 1 => (1 : ℝ)) + fun _ => 1.05)
        + ((0.1 : ℝ) / 4) • ((fun _ : Fin 1 => (1.05125 : ℝ)) + fun _ => 1.1038125)
        - ((0.1 : ℝ) / 2) • ((fun _ : Fin 1 => (1 : ℝ)) + fun _ => 1.1) = fun _ => 0.0001265625 := by
      funext i
      simp only [Pi.add_apply, Pi.sub_apply, Pi.smul_apply, smul_eq_mul]
      norm_num
    rw [he, Evals.diff_value, hv]
    unfold liftD
    rw [jnpNorm_value, Finset.univ_unique, Finset.sum_singleton, Real.sqrt_sq (by norm_num)]
    refine ⟨1 / 0.0001265625, by norm_num, ?_⟩
    simp only [Dbl.div, Dbl.quotient]
    norm_num
  obtain ⟨x, hx1, hx⟩ := hx
  refine ⟨_, _, _, ahStepD_first _ _ _ _ _ _ ?_, ?_⟩
  · dsimp only
    rw [hx]
    simp only [Dbl.lt, decide_eq_false_iff_not, not_lt]
    exact hx1
  · dsimp only
    rw [hx]
    obtain ⟨d, hd⟩ := nextDtD_fin ⟨.fin 0.1, 1, 1⟩ 0.1 (.fin x) (fun z hz => by
      rw [← Dbl.fin.inj hz]; linarith) (by simp)
    rw [hd]
    simp

/-- C131: the next time step is NaN as soon as one evaluation of the step returned a NaN, in any attempt; and only if
some evaluation returned a NaN or an infinite number. -/
theorem c131_detect (obj : AHeunD) (htol : 0 < obj.tolerance) (dt t : ℝ) (hdt : obj.dt = .fin dt)
    (f : DRhs n σ) (y : Fin n → ℝ) (normD : DVec n → Dbl) (norm : (Fin n → ℝ) → ℝ) (hN : NormD normD norm)
    (hn : ∀ w, 0 ≤ norm w) (s : σ) (y' : DVec n) (dt' : Dbl) (obj' : AHeunD) (s' : σ) (evaluated : List (DVec n))
    (h : ahStepD obj (.fin t) (recordD f) (liftD y) normD (s, []) = .ok ((y', dt', obj'), (s', evaluated))) :
    ((∃ v ∈ evaluated, HasNan v) → obj'.dt = .nan) ∧
    (obj'.dt = .nan → ∃ v ∈ evaluated, ¬ IsFinite v) := by
  constructor
  · rintro ⟨v, hv, i, hi⟩
    obtain ⟨x, hx, -, -, -, -, rfl, hs⟩ := ahStepD_last obj (.fin t) (recordD f) (liftD y) normD (s, [])
      (fun x => ∀ v ∈ x.s.2, ¬ HasNan v) (by simp) (by
        intro x hx _ hlt v hv ⟨i, hi⟩
        rw [ahBodyD_eq] at hv hlt
        dsimp only at hv hlt
        rw [evalsD_record] at hv hlt
        dsimp only at hv hlt
        rcases List.mem_append.1 hv with hv | hv
        · exact hx v hv ⟨i, hi⟩
        · rw [hN.nan _ i (Evals.diff_nan _ _ v hv i hi), Dbl.div_nan, Dbl.nan_lt] at hlt
          cases hlt) y' dt' obj' (s', evaluated) h
    rw [evalsD_record, Prod.mk.injEq] at hs
    rw [hs.2] at hv
    rw [ahBodyD_eq]
    dsimp only
    rw [evalsD_record]
    rcases List.mem_append.1 hv with hv | hv
    · exact absurd ⟨i, hi⟩ (hx v hv)
    · rw [hN.nan _ i (Evals.diff_nan _ _ v hv i hi), Dbl.div_nan, nextDtD_nan]
  · intro hnan
    by_contra hcon
    push Not at hcon
    have hbody : ∀ x : AHStateD n (σ × List (DVec n)), ((∀ v ∈ x.s.2, IsFinite v) → ∃ d, x.dt = .fin d) →
        (∀ v ∈ (ahBodyD obj (recordD f) normD (.fin t) (liftD y) x).s.2, IsFinite v) →
        ∃ d, (ahBodyD obj (recordD f) normD (.fin t) (liftD y) x).dt = .fin d := by
      intro x hx hfin
      rw [ahBodyD_eq] at hfin ⊢
      dsimp only at hfin ⊢
      rw [evalsD_record] at hfin ⊢
      dsimp only at hfin ⊢
      obtain ⟨d, hd⟩ := hx fun v hv => hfin v (List.mem_append_left _ hv)
      rw [hd] at hfin ⊢
      generalize (evalsD f (.fin t) (liftD y) (.fin d) x.s.1).1 = e at hfin ⊢
      have hl : ∀ v ∈ e.list, IsFinite v := fun v hv => hfin v (List.mem_append_right _ hv)
      cases e with
      | mk a b c p q =>
        obtain ⟨k0, rfl⟩ := hl a (by simp [Evals.list])
        obtain ⟨k1, rfl⟩ := hl b (by simp [Evals.list])
        obtain ⟨k10, rfl⟩ := hl c (by simp [Evals.list])
        obtain ⟨k01, rfl⟩ := hl p (by simp [Evals.list])
        obtain ⟨k11, rfl⟩ := hl q (by simp [Evals.list])
        rw [Evals.diff_value]
        apply nextDtD_fin
        · intro z hz
          rcases feD_nonneg htol hN hn (liftD (((d / 4) • (k0 + k10) + (d / 4) • (k01 + k11)) - (d / 2) • (k0 + k1))) with
            ⟨-, e⟩ | ⟨-, e⟩ | ⟨r, hr, -, e⟩ | ⟨-, -, e⟩ <;> rw [e] at hz
          · cases hz
          · cases hz
          · rw [← Dbl.fin.inj hz]; positivity
          · rw [← Dbl.fin.inj hz]
        · intro e
          unfold liftD at e
          rw [hN.value] at e
          unfold Dbl.div Dbl.quotient Dbl.infTimes at e
          dsimp only at e
          split_ifs at e with h0 h1
          · exact htol.ne' h1
    obtain ⟨x, hx, -, -, -, -, rfl, hs⟩ := ahStepD_last obj (.fin t) (recordD f) (liftD y) normD (s, [])
      (fun x => (∀ v ∈ x.s.2, IsFinite v) → ∃ d, x.dt = .fin d) (fun _ => ⟨dt, hdt⟩)
      (fun x hx _ _ => hbody x hx) y' dt' obj' (s', evaluated) h
    obtain ⟨d, hd⟩ := hbody x hx (by
      rw [ahBodyD_eq]
      dsimp only
      rw [← hs]
      exact hcon)
    dsimp only at hnan
    rw [hd] at hnan
    cases hnan

/-- C131 is violated: if the first evaluation returns a NaN then `AdaptiveHeun.step` does not raise an exception and
does not reject the step, whatever its tolerance: it returns the time step of the object and an array with a NaN, and
the time step of the object becomes NaN. -/
theorem c131_accepted_violated (obj : AHeunD) (t : Dbl) (f : DRhs n σ) (y : DVec n) (normD : DVec n → Dbl)
    (norm : (Fin n → ℝ) → ℝ) (hN : NormD normD norm) (s : σ) (i : Fin n) (hi : (f y t 0 s).1 i = .nan) :
    ∃ y' s', ahStepD obj t f y normD s = .ok ((y', obj.dt, { obj with dt := .nan }), s') ∧ y' i = .nan := by
  have h0 : (evalsD f t y obj.dt s).1.k0 i = .nan := hi
  have hfe : (Dbl.fin obj.tolerance).div (normD ((evalsD f t y obj.dt s).1.diff obj.dt)) = .nan := by
    rw [hN.nan _ i (Evals.diff_nan _ _ _ (by simp [Evals.list]) i h0), Dbl.div_nan]
  have e := ahStepD_first obj t f y normD s (by rw [hfe, Dbl.nan_lt])
  rw [hfe, nextDtD_nan] at e
  refine ⟨_, _, e, ?_⟩
  unfold Evals.incr DVec.add DVec.scale
  dsimp only
  rw [h0, Dbl.nan_add, Dbl.mul_nan, Dbl.nan_add, Dbl.add_nan]

/-- C131 is violated: the new value can be finite although the step was not checked. If only the evaluation at the end
of the single step returns a NaN, then the two half steps are returned, however far apart the results may be. -/
theorem c131_unchecked_violated (obj : AHeunD) (dt t : ℝ) (hdt : obj.dt = .fin dt) (f : DRhs n σ) (y : Fin n → ℝ)
    (normD : DVec n → Dbl) (norm : (Fin n → ℝ) → ℝ) (hN : NormD normD norm) (s : σ) (i : Fin n)
    (hi : (f ((liftD y).add ((f (liftD y) (.fin t) 0 s).1.scale (.fin dt))) (.fin (t + dt)) 1
      (f (liftD y) (.fin t) 0 s).2).1 i = .nan) :
    ∃ y' s', ahStepD obj (.fin t) f (liftD y) normD s = .ok ((y', .fin dt, { obj with dt := .nan }), s') ∧
      ((∀ y t k s, k ≠ 1 → IsFinite (f y t k s).1) → IsFinite y') := by
  have h0 : (evalsD f (.fin t) (liftD y) obj.dt s).1.k1 i = .nan := by rw [hdt]; exact hi
  have hfe : (Dbl.fin obj.tolerance).div (normD ((evalsD f (.fin t) (liftD y) obj.dt s).1.diff obj.dt)) = .nan := by
    rw [hN.nan _ i (Evals.diff_nan _ _ _ (by simp [Evals.list]) i h0), Dbl.div_nan]
  have e := ahStepD_first obj (.fin t) f (liftD y) normD s (by rw [hfe, Dbl.nan_lt])
  rw [hfe, nextDtD_nan] at e
  refine ⟨_, _, by rw [e, hdt], ?_⟩
  · intro hfin
    obtain ⟨k0, e0⟩ : IsFinite (evalsD f (.fin t) (liftD y) (.fin dt) s).1.k0 := hfin _ _ 0 _ (by decide)
    obtain ⟨k10, e1⟩ : IsFinite (evalsD f (.fin t) (liftD y) (.fin dt) s).1.k10 := hfin _ _ 2 _ (by decide)
    obtain ⟨k01, e2⟩ : IsFinite (evalsD f (.fin t) (liftD y) (.fin dt) s).1.k01 := hfin _ _ 3 _ (by decide)
    obtain ⟨k11, e3⟩ : IsFinite (evalsD f (.fin t) (liftD y) (.fin dt) s).1.k11 := hfin _ _ 4 _ (by decide)
    unfold Evals.incr
    rw [e0, e1, e2, e3]
    exact ⟨_, rfl⟩

/-- Case: a right-hand side that fails once. -/
example : ∃ y' s', ahStepD ⟨.fin 1, 1e-8, 1⟩ (.fin 0)
    (fun y _ k (s : Unit) => (if k = 1 then fun _ => .nan else y, s)) (liftD fun _ : Fin 1 => 1) jnpNorm ()
    = .ok ((y', .fin 1, ⟨.nan, 1e-8, 1⟩), s') := by
  obtain ⟨y', s', h, -⟩ := c131_unchecked_violated ⟨.fin 1, 1e-8, 1⟩ 1 0 rfl
    (fun y _ k (s : Unit) => (if k = 1 then fun _ => .nan else y, s)) (fun _ : Fin 1 => 1) jnpNorm _ jnpNorm_normD () 0
    (by simp)
  exact ⟨y', s', h⟩

/-- C131: a step that starts with a NaN time step makes all parameters NaN, for every right-hand side, also if its
values are finite again. -/
theorem c131_dead_violated (obj : AHeunD) (hdt : obj.dt = .nan) (t : Dbl) (f : DRhs n σ) (y : DVec n)
    (normD : DVec n → Dbl) (norm : (Fin n → ℝ) → ℝ) (hN : NormD normD norm) (hpos : 0 < n) (s : σ) :
    ∃ s', ahStepD obj t f y normD s = .ok ((fun _ => .nan, .nan, obj), s') := by
  have hfe : (Dbl.fin obj.tolerance).div (normD ((evalsD f t y obj.dt s).1.diff obj.dt)) = .nan := by
    rw [hdt, hN.nan _ ⟨0, hpos⟩ (Evals.diff_nan_dt _ _), Dbl.div_nan]
  have e := ahStepD_first obj t f y normD s (by rw [hfe, Dbl.nan_lt])
  rw [hfe, nextDtD_nan] at e
  have e1 : y.add ((evalsD f t y obj.dt s).1.incr obj.dt).2 = fun _ => .nan := by
    funext i
    unfold DVec.add
    rw [hdt, Evals.incr_nan_dt, Dbl.add_nan]
  have e2 : ({ obj with dt := .nan } : AHeunD) = obj := by
    cases obj
    simp only at hdt
    rw [hdt]
  rw [e1, e2, hdt] at e
  exact ⟨_, e⟩

/-- C131: an attempt whose deviation is infinite (overflow) is rejected, and the next one has a fifth of the time step
(or `maxStep`, if that is smaller). -/
theorem c131_overflow (obj : AHeunD) (dt : ℝ) (hdt : obj.dt = .fin dt) (t : Dbl) (f : DRhs n σ)
    (y : DVec n) (normD : DVec n → Dbl) (s : σ) (hinf : normD ((evalsD f t y obj.dt s).1.diff obj.dt) = .inf) :
    ahStepD obj t f y normD s =
      ahStepD { obj with dt := .fin (min (dt * 0.2) obj.maxStep) } t f y normD (evalsD f t y obj.dt s).2 := by
  rw [ahStepD_rejected obj t f y normD s (.fin 0) (by rw [hinf]; rfl) (by simp [Dbl.lt])]
  congr 2
  have hz : (0 : ℝ) ^ (0.33333 : ℝ) = 0 := Real.zero_rpow (by norm_num)
  have h1 : ahFactorD (.fin 0) = .fin 0.2 := by
    unfold ahFactorD
    simp only [Dbl.pow13, lt_self_iff_false, if_false, hz, Dbl.mul, Dbl.lt, mul_zero]
    norm_num
  unfold nextDtD
  rw [h1, hdt]
  simp only [Dbl.mul, Dbl.lt, decide_eq_true_eq]
  split_ifs with hc
  · rw [min_eq_right hc.le]
  · rw [min_eq_left (not_lt.1 hc)]

/-- The numbers `f` returns in one attempt with the time step `d`, if they are finite. -/
def AttemptGives (f : DRhs n σ) (t d : ℝ) (y : Fin n → ℝ) (s s' : σ) (k0 k1 k10 k01 k11 : Fin n → ℝ) : Prop :=
  ∃ s₂ s₃ s₄ s₅ : σ,
    f (liftD y) (.fin t) 0 s = (liftD k0, s₂) ∧
    f (liftD (y + d • k0)) (.fin (t + d)) 1 s₂ = (liftD k1, s₃) ∧
    f (liftD (y + (d / 2) • k0)) (.fin (t + d / 2)) 2 s₃ = (liftD k10, s₄) ∧
    f (liftD (y + (d / 4) • (k0 + k10))) (.fin (t + d / 2)) 3 s₄ = (liftD k01, s₅) ∧
    f (liftD (y + (d / 4) • (k0 + k10) + (d / 2) • k01)) (.fin (t + d)) 4 s₅ = (liftD k11, s')

theorem AttemptGives.evals {f : DRhs n σ} {t d : ℝ} {y : Fin n → ℝ} {s s' : σ} {k0 k1 k10 k01 k11 : Fin n → ℝ}
    (h : AttemptGives f t d y s s' k0 k1 k10 k01 k11) :
    evalsD f (.fin t) (liftD y) (.fin d) s = (⟨liftD k0, liftD k1, liftD k10, liftD k01, liftD k11⟩, s') := by
  obtain ⟨s₂, s₃, s₄, s₅, h0, h1, h2, h3, h4⟩ := h
  have p1 : (liftD y).add ((liftD k0).scale (.fin d)) = liftD (y + d • k0) := rfl
  have p2 : (liftD (y + d • k0)).sub ((liftD k0).scale ((Dbl.fin 0.5).mul (.fin d))) = liftD (y + (d / 2) • k0) := by
    funext i
    simp only [DVec.sub, DVec.scale, liftD, Dbl.mul, Dbl.sub, Dbl.neg, Dbl.add, Dbl.fin.injEq, Pi.add_apply,
      Pi.smul_apply, smul_eq_mul]
    ring
  have p3 : (liftD y).add (((liftD k0).add (liftD k10)).scale ((Dbl.fin 0.25).mul (.fin d)))
      = liftD (y + (d / 4) • (k0 + k10)) := by
    funext i
    simp only [DVec.add, DVec.scale, liftD, Dbl.mul, Dbl.add, Dbl.fin.injEq, Pi.add_apply,
      Pi.smul_apply, smul_eq_mul]
    ring
  have p4 : (liftD (y + (d / 4) • (k0 + k10))).add ((liftD k01).scale ((Dbl.fin 0.5).mul (.fin d)))
      = liftD (y + (d / 4) • (k0 + k10) + (d / 2) • k01) := by
    funext i
    simp only [DVec.add, DVec.scale, liftD, Dbl.mul, Dbl.add, Dbl.fin.injEq, Pi.add_apply,
      Pi.smul_apply, smul_eq_mul]
    ring
  have t1 : (Dbl.fin t).add (.fin d) = .fin (t + d) := rfl
  have t2 : (Dbl.fin t).add ((Dbl.fin 0.5).mul (.fin d)) = .fin (t + d / 2) := by
    simp only [Dbl.mul, Dbl.add, Dbl.fin.injEq]
    ring
  unfold evalsD
  simp only [t1, t2, h0, p1, p2, h1, h2, p3, h3, p4, h4]

theorem nextDtD_value (obj : AHeunD) (d q : ℝ) (hq : 0 ≤ q) :
    nextDtD obj (.fin d) (.fin q) = .fin (min (d * min 2 (max 0.2 (0.9 * q ^ (0.33333 : ℝ)))) obj.maxStep) := by
  have hf : ahFactorD (.fin q) = .fin (min 2 (max 0.2 (0.9 * q ^ (0.33333 : ℝ)))) := by
    unfold ahFactorD
    simp only [Dbl.pow13, if_neg (not_lt.2 hq), Dbl.mul, Dbl.lt, decide_eq_true_eq]
    by_cases h1 : 0.9 * q ^ (0.33333 : ℝ) < 0.2
    · rw [if_pos h1, max_eq_left h1.le]
      simp only [decide_eq_true_eq]
      rw [if_neg (by norm_num), min_eq_right (by norm_num)]
    · rw [if_neg h1, max_eq_right (not_lt.1 h1)]
      simp only [decide_eq_true_eq]
      by_cases h2 : 2 < 0.9 * q ^ (0.33333 : ℝ)
      · rw [if_pos h2, min_eq_left h2.le]
      · rw [if_neg h2, min_eq_right (not_lt.1 h2)]
  unfold nextDtD
  rw [hf]
  simp only [Dbl.mul, Dbl.lt, decide_eq_true_eq]
  by_cases h : obj.maxStep < d * min 2 (max 0.2 (0.9 * q ^ (0.33333 : ℝ)))
  · rw [if_pos h, min_eq_right h.le]
  · rw [if_neg h, min_eq_left (not_lt.1 h)]

theorem nextDtD_inf (obj : AHeunD) (d : ℝ) : nextDtD obj (.fin d) .inf = .fin (min (d * 2) obj.maxStep) := by
  have hf : ahFactorD .inf = .fin 2 := by
    have : Dbl.infTimes 0.9 = .inf := by unfold Dbl.infTimes; norm_num
    unfold ahFactorD
    simp only [Dbl.pow13, Dbl.mul, this, Dbl.lt, Bool.false_eq_true, if_false, if_true]
  unfold nextDtD
  rw [hf]
  simp only [Dbl.mul, Dbl.lt, decide_eq_true_eq]
  by_cases h : obj.maxStep < d * 2
  · rw [if_pos h, min_eq_right h.le]
  · rw [if_neg h, min_eq_left (not_lt.1 h)]

/-- C131: the time steps, if an attempt gives finite numbers with the deviation `r` of the two half steps from the single
step. It is accepted exactly if `r ≤ tol`, and the time step of the next attempt or of the next step is the old one times
`0.9 (tol / r) ^ 0.33333`, this factor kept between 0.2 and 2 (2 for `r = 0`), at most `maxStep`. -/
theorem c131_steps (obj : AHeunD) (htol : 0 < obj.tolerance) (d t : ℝ) (hdt : obj.dt = .fin d) (f : DRhs n σ)
    (y : Fin n → ℝ) (normD : DVec n → Dbl) (norm : (Fin n → ℝ) → ℝ) (hN : NormD normD norm) (hn : ∀ w, 0 ≤ norm w)
    (s s' : σ) (k0 k1 k10 k01 k11 : Fin n → ℝ) (hk : AttemptGives f t d y s s' k0 k1 k10 k01 k11) (r : ℝ)
    (hr : r = norm (((d / 4) • (k0 + k10) + (d / 4) • (k01 + k11)) - (d / 2) • (k0 + k1))) (next : ℝ)
    (hnext : next = if r = 0 then min (d * 2) obj.maxStep
      else min (d * min 2 (max 0.2 (0.9 * (obj.tolerance / r) ^ (0.33333 : ℝ)))) obj.maxStep) :
    (r ≤ obj.tolerance → ahStepD obj (.fin t) f (liftD y) normD s =
      .ok ((liftD (y + ((d / 4) • (k0 + k10) + (d / 4) • (k01 + k11))), .fin d, { obj with dt := .fin next }), s')) ∧
    (obj.tolerance < r → ahStepD obj (.fin t) f (liftD y) normD s =
      ahStepD { obj with dt := .fin next } (.fin t) f (liftD y) normD s') := by
  have he := hk.evals
  have hdiff : normD ((evalsD f (.fin t) (liftD y) obj.dt s).1.diff obj.dt) = .fin r := by
    rw [hdt, he]
    dsimp only
    rw [Evals.diff_value, hr]
    exact hN.value _
  have hr0 : 0 ≤ r := hr ▸ hn _
  have hinc : (liftD y).add ((evalsD f (.fin t) (liftD y) obj.dt s).1.incr obj.dt).2
      = liftD (y + ((d / 4) • (k0 + k10) + (d / 4) • (k01 + k11))) := by
    rw [hdt, he]
    dsimp only
    rw [Evals.incr_value]
    rfl
  rcases hr0.eq_or_lt with h0 | hpos
  · have hfe : (Dbl.fin obj.tolerance).div (.fin r) = .inf := by
      rw [← h0]
      simp only [Dbl.div, Dbl.quotient, if_true, Dbl.infTimes, htol.ne', htol, if_false]
    rw [if_pos h0.symm] at hnext
    refine ⟨fun _ => ?_, fun h => absurd h (not_lt.2 (h0 ▸ htol.le))⟩
    rw [ahStepD_first _ _ _ _ _ _ (by rw [hdiff, hfe]; rfl), hdiff, hfe, hinc, hdt, nextDtD_inf, ← hnext, he]
  · have hfe : (Dbl.fin obj.tolerance).div (.fin r) = .fin (obj.tolerance / r) := by
      simp only [Dbl.div, Dbl.quotient, hpos.ne', if_false]
    have hq : 0 ≤ obj.tolerance / r := (div_pos htol hpos).le
    rw [if_neg hpos.ne'] at hnext
    constructor
    · intro h
      have h1 : ¬ obj.tolerance / r < 1 := not_lt.2 ((one_le_div hpos).2 h)
      rw [ahStepD_first _ _ _ _ _ _ (by rw [hdiff, hfe]; simp only [Dbl.lt, h1, decide_false]), hdiff, hfe, hinc, hdt,
        nextDtD_value _ _ _ hq, ← hnext, he]
    · intro h
      have h1 : obj.tolerance / r < 1 := (div_lt_one hpos).2 h
      rw [ahStepD_rejected obj _ _ _ _ _ (.fin (obj.tolerance / r)) (by rw [hdiff, hfe])
        (by simp only [Dbl.lt, h1, decide_true]), hdt, nextDtD_value _ _ _ hq, ← hnext, he]

/-- A right-hand side with an attempt that is rejected: `f(t) = 1` for `intStep = 1` and 0 otherwise, time step 1, tolerance
`1/16`. -/
example : ahStepD (n := 1) ⟨.fin 1, 1 / 16, 1⟩ (.fin 0) (fun _ _ k s => (liftD fun _ => if k = 1 then 1 else 0, s))
      (liftD fun _ => 0) jnpNorm () =
    ahStepD ⟨.fin (min (1 * min 2 (max 0.2 (0.9 * (1 / 16 / (1 / 2)) ^ (0.33333 : ℝ)))) 1), 1 / 16, 1⟩ (.fin 0)
      (fun _ _ k s => (liftD fun _ => if k = 1 then 1 else 0, s)) (liftD fun _ => 0) jnpNorm () := by
  refine (c131_steps (n := 1) ⟨.fin 1, 1 / 16, 1⟩ (by norm_num) 1 0 rfl _ (fun _ => 0) jnpNorm _ jnpNorm_normD
    (fun _ => Real.sqrt_nonneg _) () () 0 (fun _ => 1) 0 0 0 ⟨(), (), (), (), rfl, rfl, rfl, rfl, rfl⟩ (1 / 2) ?_ _
    (by rw [if_neg (by norm_num)])).2 (by norm_num)
  simp

/-! ## Whole evolutions -/

/-- Unfolding the loop of the script. -/
theorem evolveD_pass (f : DRhs n σ) (normD : DVec n → Dbl) (tmax : ℝ) (x x' : EvolveD n σ)
    (ht : x.t.lt (.fin tmax) = true) (h : evolvePassD f normD x = .ok x') :
    evolveD f normD tmax x = evolveD f normD tmax x' := by
  have e : whileLoop (evolveGoesOn tmax) (fun r => r.bind (evolvePassD f normD)) (.ok x)
      = whileLoop (evolveGoesOn tmax) (fun r => r.bind (evolvePassD f normD)) (.ok x') := by
    rw [whileLoop_step _ _ _ (by exact ht)]
    change whileLoop _ _ (evolvePassD f normD x) = _
    rw [h]
  unfold evolveD
  rw [e]

theorem evolveD_end (f : DRhs n σ) (normD : DVec n → Dbl) (tmax : ℝ) (x : EvolveD n σ)
    (ht : x.t.lt (.fin tmax) = false) : evolveD f normD tmax x = .ok x := by
  unfold evolveD
  rw [whileLoop_zero _ _ _ (by exact ht)]

/-- C131 is violated for whole evolutions: if the right-hand side returns a NaN in the first evaluation of a step, and
the time after this step is still below `tmax`, then the loop of the script ends after one more step, without an
exception, with all parameters and the time NaN. -/
theorem c131_run_violated (f : DRhs n σ) (normD : DVec n → Dbl) (norm : (Fin n → ℝ) → ℝ) (hN : NormD normD norm)
    (tmax : ℝ) (x : EvolveD n σ) (ht : x.t.lt (.fin tmax) = true) (ht' : (x.t.add x.obj.dt).lt (.fin tmax) = true)
    (i : Fin n) (hi : (f x.y (.fin 0) 0 x.s).1 i = .nan) :
    ∃ x', evolveD f normD tmax x = .ok x' ∧ x'.t = .nan ∧ (∀ j, x'.y j = .nan) ∧ x'.obj.dt = .nan := by
  obtain ⟨y₁, s₁, h₁, -⟩ := c131_accepted_violated x.obj (.fin 0) f x.y normD norm hN x.s i hi
  obtain ⟨s₂, h₂⟩ := c131_dead_violated { x.obj with dt := .nan } rfl (.fin 0) f y₁ normD norm hN
    (Nat.lt_of_le_of_lt (Nat.zero_le _) i.2) s₁
  rw [evolveD_pass f normD tmax x ⟨x.t.add x.obj.dt, y₁, { x.obj with dt := .nan }, s₁⟩ ht
      (by unfold evolvePassD; rw [h₁]),
    evolveD_pass f normD tmax _ ⟨(x.t.add x.obj.dt).add .nan, fun _ => .nan, { x.obj with dt := .nan }, s₂⟩ ht'
      (by unfold evolvePassD; dsimp only; rw [h₂]),
    evolveD_end f normD tmax _ (by dsimp only; rw [Dbl.add_nan, Dbl.nan_lt])]
  exact ⟨_, rfl, Dbl.add_nan _, fun _ => rfl, rfl⟩

/-- Case: time 1/2 of an evolution to time 1. -/
example : ∃ x', evolveD (fun _ _ _ (s : Unit) => (fun _ : Fin 2 => Dbl.nan, s)) jnpNorm 1
    ⟨.fin 0.5, liftD fun _ => 1, ⟨.fin 0.1, 1e-8, 1⟩, ()⟩ = .ok x' ∧ x'.t = .nan := by
  obtain ⟨x', h, h', -⟩ := c131_run_violated (fun _ _ _ (s : Unit) => (fun _ : Fin 2 => Dbl.nan, s)) jnpNorm _ jnpNorm_normD
    1 ⟨.fin 0.5, liftD fun _ => 1, ⟨.fin 0.1, 1e-8, 1⟩, ()⟩
    (by simp only [Dbl.lt, decide_eq_true_eq]; norm_num)
    (by simp only [Dbl.add, Dbl.lt, decide_eq_true_eq]; norm_num) 0 rfl
  exact ⟨x', h, h'⟩

/-- C131, the part that holds for evolutions: if the time step of the integrator is a number at the end of an evolution,
then no evaluation in any step of the evolution returned a NaN. -/
theorem c131_run_partial (f : DRhs n σ) (normD : DVec n → Dbl) (norm : (Fin n → ℝ) → ℝ) (hN : NormD normD norm)
    (hpos : 0 < n) (tmax t₀ : ℝ) (y₀ : DVec n) (obj : AHeunD) (s₀ : σ) (x : EvolveD n (σ × List (DVec n)))
    (h : evolveD (recordD f) normD tmax ⟨.fin t₀, y₀, obj, (s₀, [])⟩ = .ok x) :
    x.t.lt (.fin tmax) = false ∧ (x.obj.dt ≠ .nan → ∀ v ∈ x.s.2, ¬ HasNan v) := by
  unfold evolveD at h
  cases hl : whileLoop (evolveGoesOn tmax) (fun r => r.bind (evolvePassD (recordD f) normD))
      (.ok ⟨.fin t₀, y₀, obj, (s₀, [])⟩) with
  | none => rw [hl] at h; cases h
  | some r =>
    rw [hl] at h
    dsimp only at h
    subst h
    obtain ⟨hinv, hc⟩ := whileLoop_inv _ _ (fun r : Except PyErr (EvolveD n (σ × List (DVec n))) =>
      ∀ x, r = .ok x → x.obj.dt ≠ .nan → ∀ v ∈ x.s.2, ¬ HasNan v) _ _ (by
        intro x hx _ v hv
        cases hx
        simp at hv) (by
        intro r hr _ x hx hne v hv hvn
        cases r with
        | error e => cases hx
        | ok x₀ =>
          change evolvePassD (recordD f) normD x₀ = .ok x at hx
          unfold evolvePassD at hx
          cases hs : ahStepD x₀.obj (.fin 0) (recordD f) x₀.y normD x₀.s with
          | error e => rw [hs] at hx; cases hx
          | ok p =>
            obtain ⟨⟨y', dt', obj'⟩, s'⟩ := p
            rw [hs] at hx
            simp only [Except.ok.injEq] at hx
            subst hx
            dsimp only at hne hv
            by_cases h0 : x₀.obj.dt = .nan
            · obtain ⟨s₂, h₂⟩ := c131_dead_violated x₀.obj h0 (.fin 0) (recordD f) x₀.y normD norm hN hpos x₀.s
              rw [hs] at h₂
              simp only [Except.ok.injEq, Prod.mk.injEq] at h₂
              rw [h₂.1.2.2] at hne
              exact hne h0
            · have hold := hr x₀ rfl h0
              obtain ⟨i, hi⟩ := hvn
              obtain ⟨z, hz, -, -, -, -, rfl, rfl⟩ := ahStepD_last x₀.obj (.fin 0) (recordD f) x₀.y normD x₀.s
                (fun z => ∀ v ∈ z.s.2, ¬ HasNan v) hold (by
                  intro z hz _ hlt v hv ⟨i, hi⟩
                  rw [ahBodyD_eq] at hv hlt
                  dsimp only at hv hlt
                  rw [evalsD_record] at hv hlt
                  dsimp only at hv hlt
                  rcases List.mem_append.1 hv with hv | hv
                  · exact hz v hv ⟨i, hi⟩
                  · rw [hN.nan _ i (Evals.diff_nan _ _ v hv i hi), Dbl.div_nan, Dbl.nan_lt] at hlt
                    cases hlt) y' dt' obj' s' hs
              rw [ahBodyD_eq] at hne
              dsimp only at hne
              rw [evalsD_record] at hv hne
              dsimp only at hv hne
              rcases List.mem_append.1 hv with hv | hv
              · exact hz v hv ⟨i, hi⟩
              · rw [hN.nan _ i (Evals.diff_nan _ _ v hv i hi), Dbl.div_nan, nextDtD_nan] at hne
                exact hne rfl) hl
    exact ⟨hc, hinv x rfl⟩

/-- C131 is violated for fixed time steps: a NaN that Euler or Heun get from the right-hand side for a parameter stays
in this parameter, whatever the right-hand side returns later; the loop goes on to its end. -/
theorem c131_fixed_violated (dt : Dbl) (f : DRhs n σ) (k m : ℕ) (t : Dbl) (y : DVec n) (s : σ) (i : Fin n)
    (step : Dbl → DVec n → σ → (DVec n × Dbl) × σ)
    (hstep : step = (fun t y s => eulerStepD dt t f y s) ∨ step = fun t y s => heunStepD dt t f y s)
    (hi : (f (fixedLoopD step k t y s).2.1 (fixedLoopD step k t y s).1 0 (fixedLoopD step k t y s).2.2).1 i = .nan) :
    (fixedLoopD step (k + 1 + m) t y s).2.1 i = .nan := by
  have hkeep : ∀ t y s, y i = .nan → (step t y s).1.1 i = .nan := by
    intro t y s hy
    rcases hstep with rfl | rfl
    · simp only [eulerStepD, DVec.add, hy, Dbl.nan_add]
    · simp only [heunStepD, DVec.add, hy, Dbl.nan_add]
  have hnew : ∀ t y s, (f y t 0 s).1 i = .nan → (step t y s).1.1 i = .nan := by
    intro t y s hy
    rcases hstep with rfl | rfl
    · simp only [eulerStepD, DVec.add, DVec.scale, hy, Dbl.mul_nan, Dbl.add_nan]
    · simp only [heunStepD, DVec.add, DVec.scale, hy, Dbl.nan_add, Dbl.mul_nan, Dbl.add_nan]
  have hrest : ∀ m t y s, y i = .nan → (fixedLoopD step m t y s).2.1 i = .nan := by
    intro m
    induction m with
    | zero => intro t y s hy; exact hy
    | succ m ih => intro t y s hy; exact ih _ _ _ (hkeep t y s hy)
  induction k generalizing t y s with
  | zero =>
    rw [Nat.zero_add, Nat.add_comm]
    exact hrest m _ _ _ (hnew t y s hi)
  | succ k ih =>
    rw [show k + 1 + 1 + m = (k + 1 + m) + 1 by omega]
    exact ih _ _ _ hi

/-- Case: the first evaluation fails. -/
example : (fixedLoopD (fun t y (s : ℕ) => heunStepD (.fin 0.1) t
    (fun y _ _ s => (if s = 0 then fun _ => .nan else y, s + 1)) y s) (0 + 1 + 9) (.fin 0) (liftD fun _ : Fin 2 => 1) 0).2.1 1
    = .nan :=
  c131_fixed_violated (.fin 0.1) (fun y _ _ s => (if s = 0 then fun _ => .nan else y, s + 1)) 0 9 (.fin 0) _ 0 1 _
    (.inr rfl) rfl

end JVMC
