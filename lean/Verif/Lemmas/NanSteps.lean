import Verif.Lemmas.Stepper
import Verif.Model.NanSteps

/-!
# Lemmas: integration steps with infinities and NaN
-/

namespace JVMC

variable {n : ℕ} {σ : Type}

/-! ## Numbers -/

theorem Dbl.add_nan (a : Dbl) : a.add .nan = .nan := by cases a <;> rfl
theorem Dbl.nan_add (a : Dbl) : Dbl.nan.add a = .nan := by cases a <;> rfl
theorem Dbl.mul_nan (a : Dbl) : a.mul .nan = .nan := by cases a <;> rfl
theorem Dbl.nan_mul (a : Dbl) : Dbl.nan.mul a = .nan := by cases a <;> rfl
theorem Dbl.sub_nan (a : Dbl) : a.sub .nan = .nan := by cases a <;> rfl
theorem Dbl.nan_sub (a : Dbl) : Dbl.nan.sub a = .nan := by cases a <;> rfl
theorem Dbl.nan_div (a : Dbl) : Dbl.nan.div a = .nan := by cases a <;> rfl
theorem Dbl.div_nan (a : Dbl) : a.div .nan = .nan := by cases a <;> rfl
theorem Dbl.nan_lt (a : Dbl) : Dbl.nan.lt a = false := by cases a <;> rfl
theorem Dbl.lt_nan (a : Dbl) : a.lt .nan = false := by cases a <;> rfl

/-- The sum is finite only if both numbers are. -/
theorem Dbl.add_fin {a b : Dbl} {r : ℝ} (h : a.add b = .fin r) : ∃ x y, a = .fin x ∧ b = .fin y ∧ r = x + y := by
  cases a <;> cases b <;> simp only [Dbl.add, Dbl.fin.injEq, reduceCtorEq] at h
  exact ⟨_, _, rfl, rfl, h.symm⟩

theorem Dbl.infTimes_ne (r x : ℝ) : Dbl.infTimes r ≠ .fin x := by
  unfold Dbl.infTimes
  split_ifs <;> simp

/-- The product is finite only if both numbers are. -/
theorem Dbl.mul_fin {a b : Dbl} {r : ℝ} (h : a.mul b = .fin r) : ∃ x y, a = .fin x ∧ b = .fin y ∧ r = x * y := by
  cases a with
  | fin x =>
    cases b with
    | fin y => simp only [Dbl.mul, Dbl.fin.injEq] at h; exact ⟨_, _, rfl, rfl, h.symm⟩
    | inf => exact absurd h (Dbl.infTimes_ne _ _)
    | ninf =>
      simp only [Dbl.mul, Dbl.infTimes] at h
      split_ifs at h <;> simp [Dbl.neg] at h
    | nan => simp [Dbl.mul] at h
  | inf =>
    cases b with
    | fin y => exact absurd h (Dbl.infTimes_ne _ _)
    | inf => simp [Dbl.mul] at h
    | ninf => simp [Dbl.mul] at h
    | nan => simp [Dbl.mul] at h
  | ninf =>
    cases b with
    | fin y =>
      simp only [Dbl.mul, Dbl.infTimes] at h
      split_ifs at h <;> simp [Dbl.neg] at h
    | inf => simp [Dbl.mul] at h
    | ninf => simp [Dbl.mul] at h
    | nan => simp [Dbl.mul] at h
  | nan => simp [Dbl.mul] at h

theorem Dbl.sub_fin {a b : Dbl} {r : ℝ} (h : a.sub b = .fin r) : ∃ x y, a = .fin x ∧ b = .fin y ∧ r = x - y := by
  obtain ⟨x, y, ha, hb, hr⟩ := Dbl.add_fin h
  cases b with
  | fin z => simp only [Dbl.neg, Dbl.fin.injEq] at hb; exact ⟨x, z, ha, rfl, by rw [hr, ← hb, sub_eq_add_neg]⟩
  | inf => simp [Dbl.neg] at hb
  | ninf => simp [Dbl.neg] at hb
  | nan => simp [Dbl.neg] at hb

/-! ## Norms -/

/-- What a norm does with infinities and NaN: it is NaN for an array with a NaN, and a finite number, that of `norm`,
exactly for arrays of finite numbers. -/
structure NormD (normD : DVec n → Dbl) (norm : (Fin n → ℝ) → ℝ) : Prop where
  nan : ∀ v i, v i = .nan → normD v = .nan
  fin : ∀ v r, normD v = .fin r → ∃ w : Fin n → ℝ, (v = fun i => .fin (w i)) ∧ r = norm w
  value : ∀ w : Fin n → ℝ, normD (fun i => .fin (w i)) = .fin (norm w)

theorem Dbl.foldl_nan (l : List Dbl) : ∀ a, (a = .nan ∨ Dbl.nan ∈ l) → l.foldl Dbl.add a = .nan := by
  induction l with
  | nil => intro a h; rcases h with rfl | h
           · rfl
           · simp at h
  | cons b l ih =>
    intro a h
    rw [List.foldl_cons]
    apply ih
    rcases h with rfl | h
    · exact .inl (Dbl.nan_add b)
    · rcases List.mem_cons.1 h with rfl | h
      · exact .inl (Dbl.add_nan a)
      · exact .inr h

theorem Dbl.foldl_fin (l : List Dbl) : ∀ a r, l.foldl Dbl.add a = .fin r → (∃ x, a = .fin x) ∧ ∀ b ∈ l, ∃ x, b = .fin x := by
  induction l with
  | nil => intro a r h; exact ⟨⟨r, h⟩, by simp⟩
  | cons b l ih =>
    intro a r h
    rw [List.foldl_cons] at h
    obtain ⟨⟨x, hx⟩, hl⟩ := ih _ _ h
    obtain ⟨u, v, rfl, rfl, -⟩ := Dbl.add_fin hx
    refine ⟨⟨u, rfl⟩, fun c hc => ?_⟩
    rcases List.mem_cons.1 hc with rfl | hc
    · exact ⟨v, rfl⟩
    · exact hl c hc

theorem Dbl.foldl_value (l : List ℝ) : ∀ a, (l.map Dbl.fin).foldl Dbl.add (.fin a) = .fin (a + l.sum) := by
  induction l with
  | nil => intro a; simp
  | cons b l ih =>
    intro a
    rw [List.map_cons, List.foldl_cons, show (Dbl.fin a).add (.fin b) = .fin (a + b) from rfl, ih, List.sum_cons, add_assoc]

theorem jnpNorm_value (w : Fin n → ℝ) : jnpNorm (fun i => .fin (w i)) = .fin (Real.sqrt (∑ i, w i ^ 2)) := by
  have h : (List.ofFn fun i => (Dbl.fin (w i)).mul (.fin (w i))) = (List.ofFn fun i => w i ^ 2).map Dbl.fin := by
    rw [List.map_ofFn]
    congr 1
    funext i
    simp [Dbl.mul, sq]
  unfold jnpNorm
  rw [h]
  unfold Dbl.sum
  rw [Dbl.foldl_value, zero_add, List.sum_ofFn]
  unfold Dbl.sqrt
  dsimp only
  rw [if_neg (not_lt.2 (Finset.sum_nonneg fun i _ => sq_nonneg _))]

theorem jnpNorm_normD : NormD (jnpNorm (n := n)) fun w => Real.sqrt (∑ i, w i ^ 2) where
  nan v i h := by
    unfold jnpNorm Dbl.sum
    rw [Dbl.foldl_nan _ _ (.inr ?_)]
    · rfl
    · rw [List.mem_ofFn]
      exact ⟨i, by rw [h]; rfl⟩
  fin v r h := by
    have h0 : ∃ x, Dbl.sum (List.ofFn fun i => (v i).mul (v i)) = .fin x := by
      unfold jnpNorm at h
      cases hs : Dbl.sum (List.ofFn fun i => (v i).mul (v i)) with
      | fin x => exact ⟨x, rfl⟩
      | inf => rw [hs] at h; simp [Dbl.sqrt] at h
      | ninf => rw [hs] at h; simp [Dbl.sqrt] at h
      | nan => rw [hs] at h; simp [Dbl.sqrt] at h
    obtain ⟨x, hx⟩ := h0
    have hall := (Dbl.foldl_fin _ _ _ hx).2
    have hv : ∀ i, ∃ y, v i = .fin y := by
      intro i
      obtain ⟨y, hy⟩ := hall ((v i).mul (v i)) (by rw [List.mem_ofFn]; exact ⟨i, rfl⟩)
      obtain ⟨a, _, ha, -⟩ := Dbl.mul_fin hy
      exact ⟨a, ha⟩
    choose w hw using hv
    have e : v = fun i => .fin (w i) := funext hw
    refine ⟨w, e, ?_⟩
    rw [e, jnpNorm_value] at h
    exact (Dbl.fin.inj h).symm
  value := jnpNorm_value

/-! ## One attempt -/

/-- The five evaluations of an attempt. -/
structure Evals (n : ℕ) where
  k0 : DVec n
  k1 : DVec n
  k10 : DVec n
  k01 : DVec n
  k11 : DVec n

/-- The evaluations as a list. -/
def Evals.list (e : Evals n) : List (DVec n) := [e.k0, e.k1, e.k10, e.k01, e.k11]

/-- The evaluations of an attempt, and the state after it. -/
noncomputable def evalsD (f : DRhs n σ) (t : Dbl) (y : DVec n) (dt : Dbl) (s : σ) : Evals n × σ :=
  let e0 := f y t 0 s
  let y1 := y.add (e0.1.scale dt)
  let e1 := f y1 (t.add dt) 1 e0.2
  let e2 := f (y1.sub (e0.1.scale ((Dbl.fin 0.5).mul dt))) (t.add ((Dbl.fin 0.5).mul dt)) 2 e1.2
  let y2 := y.add ((e0.1.add e2.1).scale ((Dbl.fin 0.25).mul dt))
  let e3 := f y2 (t.add ((Dbl.fin 0.5).mul dt)) 3 e2.2
  let e4 := f (y2.add (e3.1.scale ((Dbl.fin 0.5).mul dt))) (t.add dt) 4 e3.2
  (⟨e0.1, e1.1, e2.1, e3.1, e4.1⟩, e4.2)

/-- The increments in terms of the evaluations. -/
noncomputable def Evals.incr (e : Evals n) (dt : Dbl) : DVec n × DVec n :=
  ((e.k0.add e.k1).scale ((Dbl.fin 0.5).mul dt),
    ((e.k0.add e.k10).scale ((Dbl.fin 0.25).mul dt)).add ((e.k01.add e.k11).scale ((Dbl.fin 0.25).mul dt)))

theorem ahAttemptD_eq (f : DRhs n σ) (t : Dbl) (y : DVec n) (dt : Dbl) (s : σ) :
    ahAttemptD f t y dt s = ((evalsD f t y dt s).1.incr dt, (evalsD f t y dt s).2) := rfl

/-- The difference of the increments of an attempt. -/
noncomputable def Evals.diff (e : Evals n) (dt : Dbl) : DVec n := (e.incr dt).2.sub (e.incr dt).1

/-- A NaN in one of the evaluations is a NaN in the difference. -/
theorem Evals.diff_nan (e : Evals n) (dt : Dbl) (v : DVec n) (hv : v ∈ e.list) (i : Fin n) (hi : v i = .nan) :
    e.diff dt i = .nan := by
  simp only [Evals.list, List.mem_cons, List.not_mem_nil, or_false] at hv
  unfold Evals.diff Evals.incr DVec.sub DVec.add DVec.scale
  dsimp only
  rcases hv with rfl | rfl | rfl | rfl | rfl <;>
    simp only [hi, Dbl.add_nan, Dbl.nan_add, Dbl.mul_nan, Dbl.sub_nan, Dbl.nan_sub]

/-- Also if the time step is NaN. -/
theorem Evals.diff_nan_dt (e : Evals n) (i : Fin n) : e.diff .nan i = .nan := by
  unfold Evals.diff Evals.incr DVec.sub DVec.add DVec.scale
  simp only [Dbl.mul_nan, Dbl.nan_mul, Dbl.sub_nan]

theorem Evals.incr_nan_dt (e : Evals n) (i : Fin n) : (e.incr .nan).2 i = .nan := by
  unfold Evals.incr DVec.add DVec.scale
  simp only [Dbl.mul_nan, Dbl.nan_mul, Dbl.nan_add]

/-- An array of finite numbers. -/
def liftD (w : Fin n → ℝ) : DVec n := fun i => .fin (w i)

theorem choose_fin {v : DVec n} (h : ∀ i, ∃ x, v i = .fin x) : ∃ w, v = liftD w := by
  choose w hw using h
  exact ⟨w, funext hw⟩

/-- If the difference is finite then all evaluations and the time step are. -/
theorem Evals.diff_fin (e : Evals n) (dt : Dbl) (w : Fin n → ℝ) (h : e.diff dt = liftD w) :
    ∃ k0 k1 k10 k01 k11 : Fin n → ℝ, e = ⟨liftD k0, liftD k1, liftD k10, liftD k01, liftD k11⟩ := by
  have hi : ∀ i, ∃ a b c d e', e.k0 i = .fin a ∧ e.k1 i = .fin b ∧ e.k10 i = .fin c ∧ e.k01 i = .fin d ∧
      e.k11 i = .fin e' := by
    intro i
    have := congrFun h i
    unfold Evals.diff Evals.incr DVec.sub DVec.add DVec.scale liftD at this
    dsimp only at this
    obtain ⟨x, y, hx, hy, -⟩ := Dbl.sub_fin this
    obtain ⟨x1, x2, hx1, hx2, -⟩ := Dbl.add_fin hx
    obtain ⟨_, p, -, hp, -⟩ := Dbl.mul_fin hx1
    obtain ⟨_, q, -, hq, -⟩ := Dbl.mul_fin hx2
    obtain ⟨_, r, -, hr, -⟩ := Dbl.mul_fin hy
    obtain ⟨a, c, ha, hc, -⟩ := Dbl.add_fin hp
    obtain ⟨d, e', hd, he, -⟩ := Dbl.add_fin hq
    obtain ⟨_, b, -, hb, -⟩ := Dbl.add_fin hr
    exact ⟨a, b, c, d, e', ha, hb, hc, hd, he⟩
  choose a b c d e' ha hb hc hd he using hi
  refine ⟨a, b, c, d, e', ?_⟩
  cases e
  simp only [Evals.mk.injEq]
  exact ⟨funext ha, funext hb, funext hc, funext hd, funext he⟩

/-- Finite evaluations are evaluations at the points of the two half steps and the single step. -/
theorem evalsD_fin (f : DRhs n σ) (t d : ℝ) (y : Fin n → ℝ) (s : σ) (k0 k1 k10 k01 k11 : Fin n → ℝ)
    (h : (evalsD f (.fin t) (liftD y) (.fin d) s).1 = ⟨liftD k0, liftD k1, liftD k10, liftD k01, liftD k11⟩) :
    ∃ s₂ s₃ s₄ s₅ : σ,
      f (liftD y) (.fin t) 0 s = (liftD k0, s₂) ∧
      f (liftD (y + d • k0)) (.fin (t + d)) 1 s₂ = (liftD k1, s₃) ∧
      f (liftD (y + (d / 2) • k0)) (.fin (t + d / 2)) 2 s₃ = (liftD k10, s₄) ∧
      f (liftD (y + (d / 4) • (k0 + k10))) (.fin (t + d / 2)) 3 s₄ = (liftD k01, s₅) ∧
      f (liftD (y + (d / 4) • (k0 + k10) + (d / 2) • k01)) (.fin (t + d)) 4 s₅
        = (liftD k11, (evalsD f (.fin t) (liftD y) (.fin d) s).2) := by
  have p1 : (liftD y).add ((liftD k0).scale (.fin d)) = liftD (y + d • k0) := rfl
  have p2 : (liftD (y + d • k0)).sub ((liftD k0).scale ((Dbl.fin 0.5).mul (.fin d))) = liftD (y + (d / 2) • k0) := by
    funext i
    simp only [DVec.sub, DVec.scale, liftD, Dbl.mul, Dbl.sub, Dbl.neg, Dbl.add, Dbl.fin.injEq, Pi.add_apply,
      Pi.smul_apply, smul_eq_mul]
    ring
  have p3 : (liftD y).add (((liftD k0).add (liftD k10)).scale ((Dbl.fin 0.25).mul (.fin d)))
      = liftD (y + (d / 4) • (k0 + k10)) := by
    funext i
    simp only [DVec.add, DVec.scale, liftD, Dbl.mul, Dbl.add, Dbl.fin.injEq, Pi.add_apply,
      Pi.smul_apply, smul_eq_mul]
    ring
  have p4 : (liftD (y + (d / 4) • (k0 + k10))).add ((liftD k01).scale ((Dbl.fin 0.5).mul (.fin d)))
      = liftD (y + (d / 4) • (k0 + k10) + (d / 2) • k01) := by
    funext i
    simp only [DVec.add, DVec.scale, liftD, Dbl.mul, Dbl.add, Dbl.fin.injEq, Pi.add_apply,
      Pi.smul_apply, smul_eq_mul]
    ring
  have t1 : (Dbl.fin t).add (.fin d) = .fin (t + d) := rfl
  have t2 : (Dbl.fin t).add ((Dbl.fin 0.5).mul (.fin d)) = .fin (t + d / 2) := by
    simp only [Dbl.mul, Dbl.add, Dbl.fin.injEq]
    ring
  unfold evalsD at h ⊢
  simp only [t1, t2, Evals.mk.injEq] at h ⊢
  obtain ⟨h0, h1, h2, h3, h4⟩ := h
  simp only [h0, p1, p2] at h1 h2 h3 h4 ⊢
  simp only [h2, p3] at h3 h4 ⊢
  simp only [h3, p4] at h4 ⊢
  exact ⟨_, _, _, _, Prod.ext h0 rfl, Prod.ext h1 rfl, Prod.ext h2 rfl, Prod.ext h3 rfl, Prod.ext h4 rfl⟩

/-- The difference of finite evaluations. -/
theorem Evals.diff_value (d : ℝ) (k0 k1 k10 k01 k11 : Fin n → ℝ) :
    (⟨liftD k0, liftD k1, liftD k10, liftD k01, liftD k11⟩ : Evals n).diff (.fin d)
      = liftD (((d / 4) • (k0 + k10) + (d / 4) • (k01 + k11)) - (d / 2) • (k0 + k1)) := by
  funext i
  simp only [Evals.diff, Evals.incr, DVec.sub, DVec.add, DVec.scale, liftD, Dbl.mul, Dbl.sub, Dbl.neg, Dbl.add,
    Dbl.fin.injEq, Pi.add_apply, Pi.sub_apply, Pi.smul_apply, smul_eq_mul]
  ring

theorem Evals.incr_value (d : ℝ) (k0 k1 k10 k01 k11 : Fin n → ℝ) :
    ((⟨liftD k0, liftD k1, liftD k10, liftD k01, liftD k11⟩ : Evals n).incr (.fin d)).2
      = liftD ((d / 4) • (k0 + k10) + (d / 4) • (k01 + k11)) := by
  funext i
  simp only [Evals.incr, DVec.add, DVec.scale, liftD, Dbl.mul, Dbl.add,
    Dbl.fin.injEq, Pi.add_apply, Pi.smul_apply, smul_eq_mul]
  ring

theorem liftD_inj {a b : Fin n → ℝ} (h : liftD a = liftD b) : a = b :=
  funext fun i => Dbl.fin.inj (congrFun h i)

/-! ## The loop -/

/-- The time step after an attempt. -/
noncomputable def nextDtD (obj : AHeunD) (dt fe : Dbl) : Dbl :=
  if (Dbl.fin obj.maxStep).lt (dt.mul (ahFactorD fe)) then .fin obj.maxStep else dt.mul (ahFactorD fe)

theorem ahBodyD_eq (obj : AHeunD) (f : DRhs n σ) (norm : DVec n → Dbl) (t : Dbl) (y : DVec n) (x : AHStateD n σ) :
    ahBodyD obj f norm t y x =
      ⟨(Dbl.fin obj.tolerance).div (norm ((evalsD f t y x.dt x.s).1.diff x.dt)),
        nextDtD obj x.dt ((Dbl.fin obj.tolerance).div (norm ((evalsD f t y x.dt x.s).1.diff x.dt))),
        some (((evalsD f t y x.dt x.s).1.incr x.dt).2, x.dt), (evalsD f t y x.dt x.s).2⟩ := rfl

theorem ahFactorD_nan : ahFactorD .nan = .nan := by
  unfold ahFactorD
  simp only [Dbl.pow13, Dbl.mul_nan, Dbl.nan_lt, Dbl.lt_nan, Bool.false_eq_true, if_false]

theorem nextDtD_nan (obj : AHeunD) (dt : Dbl) : nextDtD obj dt .nan = .nan := by
  unfold nextDtD
  rw [ahFactorD_nan, Dbl.mul_nan, Dbl.lt_nan]
  rfl

theorem nextDtD_nan_dt (obj : AHeunD) (fe : Dbl) : nextDtD obj .nan fe = .nan := by
  unfold nextDtD
  rw [Dbl.nan_mul, Dbl.lt_nan]
  rfl

/-- The factor is finite. -/
theorem ahFactorD_fin (fe : Dbl) (h : ∀ x, fe = .fin x → 0 ≤ x) (hn : fe ≠ .nan) : ∃ c, ahFactorD fe = .fin c := by
  unfold ahFactorD
  cases fe with
  | nan => exact absurd rfl hn
  | inf =>
    have : Dbl.infTimes 0.9 = .inf := by unfold Dbl.infTimes; norm_num
    simp only [Dbl.pow13, Dbl.mul, this, Dbl.lt, Bool.false_eq_true, if_false, if_true]
    exact ⟨_, rfl⟩
  | ninf =>
    have : Dbl.infTimes 0.9 = .inf := by unfold Dbl.infTimes; norm_num
    simp only [Dbl.pow13, Dbl.mul, this, Dbl.lt, Bool.false_eq_true, if_false, if_true]
    exact ⟨_, rfl⟩
  | fin x =>
    have hx : ¬ x < 0 := not_lt.2 (h x rfl)
    simp only [Dbl.pow13, if_neg hx, Dbl.mul, Dbl.lt]
    split_ifs <;> exact ⟨_, rfl⟩

theorem nextDtD_fin (obj : AHeunD) (dt : ℝ) (fe : Dbl) (h : ∀ x, fe = .fin x → 0 ≤ x) (hn : fe ≠ .nan) :
    ∃ d, nextDtD obj (.fin dt) fe = .fin d := by
  obtain ⟨c, hc⟩ := ahFactorD_fin fe h hn
  unfold nextDtD
  rw [hc]
  split_ifs
  · exact ⟨_, rfl⟩
  · exact ⟨_, rfl⟩

/-- What a step returns is one pass of the loop from some state with the same initial value, which was reached through
rejected attempts. -/
theorem ahStepD_last (obj : AHeunD) (t : Dbl) (f : DRhs n σ) (y : DVec n) (norm : DVec n → Dbl) (s : σ)
    (P : AHStateD n σ → Prop) (h0 : P ⟨.fin 0.5, obj.dt, none, s⟩)
    (hb : ∀ x, P x → x.fe.lt (.fin 1) = true → (ahBodyD obj f norm t y x).fe.lt (.fin 1) = true →
      P (ahBodyD obj f norm t y x))
    (y' : DVec n) (dt' : Dbl) (obj' : AHeunD) (s' : σ)
    (h : ahStepD obj t f y norm s = .ok ((y', dt', obj'), s')) :
    ∃ x, P x ∧ x.fe.lt (.fin 1) = true ∧ (ahBodyD obj f norm t y x).fe.lt (.fin 1) = false ∧
      y' = y.add ((evalsD f t y x.dt x.s).1.incr x.dt).2 ∧ dt' = x.dt ∧
      obj' = { obj with dt := (ahBodyD obj f norm t y x).dt } ∧ s' = (evalsD f t y x.dt x.s).2 := by
  unfold ahStepD at h
  cases hl : whileLoop (fun x : AHStateD n σ => x.fe.lt (.fin 1)) (ahBodyD obj f norm t y) ⟨.fin 0.5, obj.dt, none, s⟩ with
  | none => rw [hl] at h; cases h
  | some X =>
    rw [hl] at h
    obtain ⟨m, rfl, hc, hk⟩ := whileLoop_spec _ _ _ _ hl
    have hP : ∀ j, j < m → P ((ahBodyD obj f norm t y)^[j] ⟨.fin 0.5, obj.dt, none, s⟩) := by
      intro j
      induction j with
      | zero => intro _; exact h0
      | succ j ih =>
        intro hj
        have h2 := hk (j + 1) hj
        rw [Function.iterate_succ_apply'] at h2 ⊢
        exact hb _ (ih (by omega)) (hk j (by omega)) h2
    rcases m with _ | m
    · simp only [Function.iterate_zero, id] at hc
      simp only [Dbl.lt, decide_eq_false_iff_not] at hc
      exact absurd (by norm_num) hc
    · rw [Function.iterate_succ_apply'] at h hc
      refine ⟨_, hP m (by omega), hk m (by omega), hc, ?_⟩
      generalize (ahBodyD obj f norm t y)^[m] ⟨.fin 0.5, obj.dt, none, s⟩ = x at h ⊢
      rw [ahBodyD_eq] at h
      simp only [Except.ok.injEq, Prod.mk.injEq] at h
      obtain ⟨⟨h1, h2, h3⟩, h4⟩ := h
      exact ⟨h1.symm, h2.symm, h3.symm, h4.symm⟩

/-- If the first attempt is accepted. -/
theorem ahStepD_first (obj : AHeunD) (t : Dbl) (f : DRhs n σ) (y : DVec n) (norm : DVec n → Dbl) (s : σ)
    (h : ((Dbl.fin obj.tolerance).div (norm ((evalsD f t y obj.dt s).1.diff obj.dt))).lt (.fin 1) = false) :
    ahStepD obj t f y norm s = .ok ((y.add ((evalsD f t y obj.dt s).1.incr obj.dt).2, obj.dt,
      { obj with dt := nextDtD obj obj.dt ((Dbl.fin obj.tolerance).div (norm ((evalsD f t y obj.dt s).1.diff obj.dt))) }),
      (evalsD f t y obj.dt s).2) := by
  unfold ahStepD
  rw [whileLoop_step _ _ _ (by simp only [Dbl.lt, decide_eq_true_eq]; norm_num), ahBodyD_eq,
    whileLoop_zero _ _ _ (by exact h)]

/-- If the first attempt is rejected, the others are those of a step that starts with the next time step. -/
theorem ahStepD_rejected (obj : AHeunD) (t : Dbl) (f : DRhs n σ) (y : DVec n) (norm : DVec n → Dbl) (s : σ) (fe : Dbl)
    (hfe : fe = (Dbl.fin obj.tolerance).div (norm ((evalsD f t y obj.dt s).1.diff obj.dt)))
    (h : fe.lt (.fin 1) = true) :
    ahStepD obj t f y norm s =
      ahStepD { obj with dt := nextDtD obj obj.dt fe } t f y norm (evalsD f t y obj.dt s).2 := by
  subst hfe
  unfold ahStepD
  rw [whileLoop_step _ _ _ (by simp only [Dbl.lt, decide_eq_true_eq]; norm_num), ahBodyD_eq,
    whileLoop_step _ _ _ (by exact h)]
  conv_rhs =>
    rw [whileLoop_step _ _ _ (by simp only [Dbl.lt, decide_eq_true_eq]; norm_num)]
  rfl

end JVMC
