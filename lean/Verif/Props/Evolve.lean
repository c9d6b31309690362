import Verif.Lemmas.Evolve
import Verif.Props.EnergyDrift
import Verif.Props.SearchFile

/-!
# C127: the script of a unitary time evolution as a whole

`evolveScript` is `examples/ex2_unitary_time_evolution.py` from the first measurement on.
-/

namespace JVMC

open Spec Set Matrix

variable {n : ℕ} {smp O : Type}

/-- The parameters of `psi` are `θ`. -/
def HasParams (psi : NqsState) (θ : Fin (n + 1) → ℝ) : Prop :=
  (getParameters.call psi).1 = .ok (some (List.ofFn θ))

/-- An adaptive step of the TDVP equation from `θ` to `θ'` in which the time `d` passes: the first attempt is made with the
time step `dt`, `dt'` is what the next step starts with. No call raises an exception. -/
def EvoStep (env : TdvpEnv n smp) (cfg : TdvpCfg n) (r : ℕ) (p₀ : Params) (norm : (Fin (n + 1) → ℝ) → ℝ) (tol mx : ℝ)
    (θ : Fin (n + 1) → ℝ) (dt d : ℝ) (θ' : Fin (n + 1) → ℝ) (dt' : ℝ) : Prop :=
  ∃ psi rhs s psi' rhs', IsNetwork p₀ psi ∧ HasParams psi θ ∧
    Attempts (tdvpRhs env cfg r) norm tol mx 0 θ dt (.ok (psi, rhs)) d s ∧
    θ' = θ + (heunPair (tdvpRhs env cfg r) 0 d θ s).1.2 ∧
    (heunPair (tdvpRhs env cfg r) 0 d θ s).2 = .ok (psi', rhs') ∧
    dt' = nextDt tol mx (heunDev (tdvpRhs env cfg r) norm 0 d θ s) d

/-- What the script has done when it ends in `x`: there are rows for the times `t 0 = 0`, ..., `t N` with the observables
`obs k` that were measured at the parameters `θ k`; `t N` is the first time from `tmax` on; from one row to the next there
is one step. -/
structure EvoRows (env : TdvpEnv n smp) (cfg : TdvpCfg n) (r : ℕ) (p₀ : Params) (norm : (Fin (n + 1) → ℝ) → ℝ)
    (meas : NqsState → smp → Except PyErr (O × smp)) (tmax : ℝ) (obj : AHeun) (psi : NqsState) (x : Evo n smp O)
    (N : ℕ) (t dt : ℕ → ℝ) (θ : ℕ → Fin (n + 1) → ℝ) (obs : ℕ → O) : Prop where
  rows : x.data = (List.range (N + 1)).map fun k => (t k, obs k)
  start : t 0 = 0 ∧ dt 0 = obj.dt ∧ HasParams psi (θ 0)
  finish : x.t = t N ∧ IsNetwork p₀ x.psi ∧ HasParams x.psi (θ N) ∧ x.stepper = ⟨dt N, obj.tolerance, obj.maxStep⟩
  before : ∀ k < N, t k < tmax
  after : tmax ≤ t N
  step : ∀ k < N, EvoStep env cfg r p₀ norm obj.tolerance obj.maxStep (θ k) (dt k) (t (k + 1) - t k) (θ (k + 1))
    (dt (k + 1))
  measured : ∀ k ≤ N, ∃ psi sm sm', IsNetwork p₀ psi ∧ HasParams psi (θ k) ∧ meas psi sm = .ok (obs k, sm')

section passes

variable (env : TdvpEnv n smp) (cfg : TdvpCfg n) (r : ℕ) (p₀ : Params) (norm : (Fin (n + 1) → ℝ) → ℝ)
  (meas : NqsState → smp → Except PyErr (O × smp))

theorem ofFn_getD (v : List ℝ) (hv : v.length = n + 1) : List.ofFn (fun i : Fin (n + 1) => v.getD i 0) = v := by
  refine List.ext_getElem (by simp [hv]) fun i h1 h2 => ?_
  rw [List.getElem_ofFn, List.getD_eq_getElem _ _ h2]

theorem hasParams_inj {psi : NqsState} {θ θ' : Fin (n + 1) → ℝ} (h : HasParams psi θ) (h' : HasParams psi θ') : θ = θ' := by
  unfold HasParams at h h'
  rw [h] at h'
  exact List.ofFn_injective (Option.some.inj (Except.ok.inj h'))

theorem hasParams_exists (hsize : (flattenParams p₀).length = n + 1) {psi : NqsState} (h : IsNetwork p₀ psi) :
    ∃ θ : Fin (n + 1) → ℝ, HasParams psi θ := by
  obtain ⟨p, rfl, h1, h2⟩ := (isNetwork_iff p₀ psi).mp h
  refine ⟨fun i => (flattenParams p).getD i 0, ?_⟩
  unfold HasParams
  rw [ofFn_getD]
  · rfl
  · rw [flatten_length_params, h1, h2, ← flatten_length_params, hsize]

/-- One pass. -/
theorem evoPass_ok (hsize : (flattenParams p₀).length = n + 1) (hn : ∀ y, 0 ≤ norm y) (x x' : Evo n smp O)
    (htol : 0 < x.stepper.tolerance) (hx : IsNetwork p₀ x.psi) (h : evoPass env cfg r norm meas x = .ok x') :
    ∃ (θ θ' : Fin (n + 1) → ℝ) (d dt' : ℝ) (o : O) (sm sm' : smp), HasParams x.psi θ ∧ HasParams x'.psi θ' ∧
      IsNetwork p₀ x'.psi ∧ x'.t = x.t + d ∧
      EvoStep env cfg r p₀ norm x.stepper.tolerance x.stepper.maxStep θ x.stepper.dt d θ' dt' ∧
      x'.stepper = ⟨dt', x.stepper.tolerance, x.stepper.maxStep⟩ ∧ x'.data = x.data ++ [(x'.t, o)] ∧
      meas x'.psi sm = .ok (o, sm') := by
  obtain ⟨p, hp, h1, h2⟩ := (isNetwork_iff p₀ _).mp hx
  obtain ⟨t, psi, rhs, obj, data⟩ := x
  dsimp only at hp hx htol
  subst hp
  have hlen : (flattenParams p).length = n + 1 := by
    rw [flatten_length_params, h1, h2, ← flatten_length_params, hsize]
  unfold evoPass at h
  have hget : getParameters.call (netState p₀ p) = (.ok (some (flattenParams p)), netState p₀ p) := rfl
  dsimp only at h
  rw [hget] at h
  dsimp only at h
  have hθ : HasParams (netState p₀ p) (fun i : Fin (n + 1) => (flattenParams p).getD i 0) := by
    unfold HasParams
    rw [ofFn_getD _ hlen]
    rfl
  set θ : Fin (n + 1) → ℝ := fun i => (flattenParams p).getD i 0 with hθd
  cases hs : ahStep false obj 0 (refRhs (tdvpRhs env cfg r)) 0 norm ([θ], .ok (netState p₀ p, rhs)) with
  | error e => rw [hs] at h; cases h
  | ok out =>
    obtain ⟨⟨y, d, o⟩, heap, s'⟩ := out
    rw [hs] at h
    obtain ⟨s₁, hat, hy, hs', ho, -⟩ := c49_step_partial false obj htol _ _ (refRhs_computes false (tdvpRhs env cfg r)) norm
      hn 0 0 [θ] _ y d o heap s' hs
    have hg : ([θ] : List (Fin (n + 1) → ℝ)).getD 0 0 = θ := rfl
    rw [hg] at hat hy hs' ho
    cases s' with
    | error e => cases h
    | ok a =>
      obtain ⟨psi₁, sm, at₁⟩ := a
      subst ho
      dsimp only at h
      have hk := attempts_keeps env cfg r p₀ norm hat (by
        intro a ha
        obtain rfl := Except.ok.inj ha
        exact hx)
      have hk' : IsNetwork p₀ psi₁ := heunPair_keeps env cfg r p₀ θ 0 d s₁ hk _ hs'.symm
      obtain ⟨p₁, rfl, -, -⟩ := (isNetwork_iff p₀ _).mp hk'
      obtain ⟨q, _, q1, q2, q3⟩ := paramUnflatten_ok p₀.isReal p₀.sizes (List.ofFn y) (by
        rw [List.length_ofFn, ← flatten_length_params, hsize])
      rw [netState_set p₀ p₁ q _ q1 q2 q3] at h
      dsimp only at h
      cases hm : meas (netState p₀ q) sm with
      | error e => rw [hm] at h; cases h
      | ok b =>
        obtain ⟨o, sm'⟩ := b
        rw [hm] at h
        obtain rfl := Except.ok.inj h
        refine ⟨θ, y, d, _, o, sm, sm', hθ, ?_, (isNetwork_iff p₀ _).mpr ⟨q, rfl, q1, q2⟩, rfl,
          ⟨_, _, s₁, _, _, hx, hθ, hat, hy, hs'.symm, rfl⟩, rfl, rfl, hm⟩
        unfold HasParams
        rw [← q3]
        rfl

end passes

/-- C127: when the script ends, it has recorded the initial observables and those after every step, with their times,
until a time from `tmax` on was reached; every step is one of the TDVP equation from the parameters of one row to those
of the next, and the observables of a row are what `measure` returned at its parameters. -/
theorem c127_rows (env : TdvpEnv n smp) (cfg : TdvpCfg n) (r : ℕ) (p₀ : Params)
    (hsize : (flattenParams p₀).length = n + 1) (norm : (Fin (n + 1) → ℝ) → ℝ) (hn : ∀ y, 0 ≤ norm y)
    (meas : NqsState → smp → Except PyErr (O × smp)) (tmax : ℝ) (obj : AHeun) (htol : 0 < obj.tolerance)
    (psi : NqsState) (hpsi : IsNetwork p₀ psi) (sm : smp) (at₀ : TdvpAttrs n) (x : Evo n smp O)
    (h : evolveScript env cfg r norm meas tmax obj psi sm at₀ = .ok x) :
    ∃ N t dt θ obs, EvoRows env cfg r p₀ norm meas tmax obj psi x N t dt θ obs := by
  unfold evolveScript at h
  cases hm : meas psi sm with
  | error e => rw [hm] at h; cases h
  | ok a =>
    obtain ⟨o₀, sm₁⟩ := a
    rw [hm] at h
    dsimp only at h
    set body := evoBody env cfg r norm meas with hbody
    set x₀ : Evo n smp O := ⟨0, psi, (sm₁, at₀), obj, [(0, o₀)]⟩ with hx₀
    cases hl : whileLoop (evoGoesOn tmax) body (.ok x₀) with
    | none => rw [hl] at h; cases h
    | some s =>
      rw [hl] at h
      dsimp only at h
      subst h
      obtain ⟨N, hN, hc, hk⟩ := whileLoop_spec _ _ _ _ hl
      have hstate : ∀ k : ℕ, ∃ y, k ≤ N → body^[k] (.ok x₀) = .ok y := by
        intro k
        by_cases hkN : k ≤ N
        · rcases hkN.lt_or_eq with hlt | rfl
          · have := hk k hlt
            cases hb : body^[k] (.ok x₀) with
            | error e => rw [hb] at this; cases this
            | ok y => exact ⟨y, fun _ => rfl⟩
          · exact ⟨x, fun _ => hN.symm⟩
        · exact ⟨x, fun h => absurd h hkN⟩
      choose X hX using hstate
      have hX0 : X 0 = x₀ := (Except.ok.inj (hX 0 (Nat.zero_le _))).symm
      have hXN : X N = x := by
        have := hX N le_rfl
        rw [← hN] at this
        exact (Except.ok.inj this).symm
      have hpass : ∀ k < N, evoPass env cfg r norm meas (X k) = .ok (X (k + 1)) := by
        intro k hkN
        have h1 := hX (k + 1) hkN
        rw [Function.iterate_succ_apply', hX k hkN.le] at h1
        exact h1
      have hinv : ∀ k ≤ N, IsNetwork p₀ (X k).psi ∧ (X k).stepper.tolerance = obj.tolerance ∧
          (X k).stepper.maxStep = obj.maxStep := by
        intro k
        induction k with
        | zero => intro _; rw [hX0]; exact ⟨hpsi, rfl, rfl⟩
        | succ k ih =>
          intro hkN
          obtain ⟨i1, i2, i3⟩ := ih (by omega)
          obtain ⟨_, _, _, _, _, _, _, _, _, h3, _, _, h4, _⟩ := evoPass_ok env cfg r p₀ norm meas hsize hn _ _
            (by rw [i2]; exact htol) i1 (hpass k (by omega))
          rw [h4]
          exact ⟨h3, i2, i3⟩
      have hθ : ∀ k : ℕ, ∃ θ : Fin (n + 1) → ℝ, k ≤ N → HasParams (X k).psi θ := by
        intro k
        by_cases hkN : k ≤ N
        · obtain ⟨θ, h⟩ := hasParams_exists p₀ hsize (hinv k hkN).1
          exact ⟨θ, fun _ => h⟩
        · exact ⟨0, fun h => absurd h hkN⟩
      choose θ hθ using hθ
      have hobs : ∀ k : ℕ, ∃ o : O, k < N → ∃ sm sm', meas (X (k + 1)).psi sm = .ok (o, sm') ∧
          (X (k + 1)).data = (X k).data ++ [((X (k + 1)).t, o)] := by
        intro k
        by_cases hkN : k < N
        · obtain ⟨i1, i2, -⟩ := hinv k hkN.le
          obtain ⟨_, _, _, _, o, sm, sm', _, _, _, _, _, _, h5, h6⟩ := evoPass_ok env cfg r p₀ norm meas hsize hn _ _
            (by rw [i2]; exact htol) i1 (hpass k hkN)
          exact ⟨o, fun _ => ⟨sm, sm', h6, h5⟩⟩
        · exact ⟨o₀, fun h => absurd h hkN⟩
      choose obs hobs using hobs
      refine ⟨N, fun k => (X k).t, fun k => (X k).stepper.dt, θ, fun k => k.casesOn o₀ obs, ?_, ?_, ?_, ?_, ?_, ?_, ?_⟩
      · rw [← hXN]
        have : ∀ k ≤ N, (X k).data = (List.range (k + 1)).map fun k => ((X k).t, (k.casesOn o₀ obs : O)) := by
          intro k
          induction k with
          | zero => intro _; rw [hX0]; simp [hx₀, hX0]
          | succ k ih =>
            intro hkN
            obtain ⟨_, _, _, h5⟩ := hobs k (by omega)
            rw [h5, ih (by omega), List.range_succ (n := k + 1), List.map_append]
            rfl
        exact this N le_rfl
      · refine ⟨by rw [hX0], by rw [hX0], ?_⟩
        have := hθ 0 (Nat.zero_le _)
        rw [hX0] at this
        exact this
      · obtain ⟨i1, i2, i3⟩ := hinv N le_rfl
        have h2 := hθ N le_rfl
        rw [hXN] at *
        refine ⟨rfl, i1, h2, ?_⟩
        cases hst : x.stepper
        rw [hst] at i2 i3
        dsimp only at i2 i3
        rw [i2, i3]
      · intro k hkN
        have := hk k hkN
        rw [hX k hkN.le] at this
        exact of_decide_eq_true this
      · rw [hXN]
        exact not_lt.mp (of_decide_eq_false hc)
      · intro k hkN
        obtain ⟨i1, i2, i3⟩ := hinv k hkN.le
        obtain ⟨θ₁, θ₂, d, dt', _, _, _, e1, e2, _, e3, e4, e5, _⟩ := evoPass_ok env cfg r p₀ norm meas hsize hn _ _
          (by rw [i2]; exact htol) i1 (hpass k hkN)
        rw [hasParams_inj (hθ k hkN.le) e1, hasParams_inj (hθ (k + 1) hkN) e2]
        rw [e3, e5, add_sub_cancel_left, ← i2, ← i3]
        exact e4
      · intro k hkN
        cases k with
        | zero =>
          have := hθ 0 (Nat.zero_le _)
          rw [hX0] at this
          exact ⟨psi, sm, sm₁, hpsi, this, hm⟩
        | succ k =>
          obtain ⟨sm, sm', h6, _⟩ := hobs k (by omega)
          exact ⟨_, sm, sm', (hinv (k + 1) hkN).1, hθ (k + 1) hkN, h6⟩

/-- The velocities that calls return have norm at most `B`. -/
def CallsBounded (env : TdvpEnv n smp) (cfg : TdvpCfg n) (r : ℕ) (norm : (Fin (n + 1) → ℝ) → ℝ) (B : ℝ) : Prop :=
  ∀ (x : Fin (n + 1) → ℝ) psi time k sm at₀ u at₁ sm' psi',
    (tdvpCall env cfg r (List.ofFn x) time (some k) sm at₀).call psi = (.ok (some u, at₁, sm'), psi') → norm u ≤ B

theorem CallsBounded.mono {env : TdvpEnv n smp} {cfg : TdvpCfg n} {r : ℕ} {norm : (Fin (n + 1) → ℝ) → ℝ} {B B' : ℝ}
    (h : CallsBounded env cfg r norm B) (hBB : B ≤ B') : CallsBounded env cfg r norm B' :=
  fun x psi time k sm at₀ u at₁ sm' psi' hc => (h x psi time k sm at₀ u at₁ sm' psi' hc).trans hBB

theorem rhs_bounded {env : TdvpEnv n smp} {cfg : TdvpCfg n} {r : ℕ} {norm : (Fin (n + 1) → ℝ) → ℝ} (hn : IsSeminorm norm)
    {B : ℝ} (hB0 : 0 ≤ B) (hB : CallsBounded env cfg r norm B) (x : Fin (n + 1) → ℝ) (t : ℝ) (k : ℕ) (s : SimRhs n smp) :
    norm (tdvpRhs env cfg r x t k s).1 ≤ B := by
  have h0 : norm 0 ≤ B := by
    have := hn.smul 0 (0 : Fin (n + 1) → ℝ)
    rw [zero_smul, abs_zero, zero_mul] at this
    exact this.trans hB0
  unfold tdvpRhs
  cases s with
  | error e => exact h0
  | ok a =>
    obtain ⟨psi, sm, at₀⟩ := a
    dsimp only
    generalize hc : (tdvpCall env cfg r (List.ofFn x) t (some k) sm at₀).call psi = c
    obtain ⟨res, q⟩ := c
    rcases res with e | ⟨u, at₁, sm'⟩
    · exact h0
    · cases u with
      | none => exact h0
      | some u => exact hB x psi t k sm at₀ u at₁ sm' q hc

section rows

variable {env : TdvpEnv n smp} {cfg : TdvpCfg n} {r : ℕ} {p₀ : Params} {norm : (Fin (n + 1) → ℝ) → ℝ}
  {meas : NqsState → smp → Except PyErr (O × smp)} {tmax : ℝ} {obj : AHeun} {psi : NqsState} {x : Evo n smp O}
  {N : ℕ} {t dt : ℕ → ℝ} {θ : ℕ → Fin (n + 1) → ℝ} {obs : ℕ → O}

theorem evoRows_dt (hn : ∀ y, 0 ≤ norm y) (htol : 0 < obj.tolerance) (hmx : 0 < obj.maxStep) (hdt : 0 < obj.dt)
    (h : EvoRows env cfg r p₀ norm meas tmax obj psi x N t dt θ obs) : ∀ k ≤ N, 0 < dt k ∧
      (obj.dt ≤ obj.maxStep → dt k ≤ obj.maxStep) := by
  intro k
  induction k with
  | zero => intro _; rw [h.start.2.1]; exact ⟨hdt, fun h => h⟩
  | succ k ih =>
    intro hk
    obtain ⟨_, _, s, _, _, -, -, hat, -, -, hd⟩ := h.step k (by omega)
    rw [hd]
    exact ⟨nextDt_pos htol hmx (hn _) (attempts_pos hmx (ih (by omega)).1 hat), fun _ => min_le_right _ _⟩

/-- C127: the time increases in every step, by at most the maximal time step if the initial one is not larger. -/
theorem c127_times (hn : ∀ y, 0 ≤ norm y) (htol : 0 < obj.tolerance) (hdt : 0 < obj.dt) (hle : obj.dt ≤ obj.maxStep)
    (h : EvoRows env cfg r p₀ norm meas tmax obj psi x N t dt θ obs) :
    (∀ k < N, t k < t (k + 1) ∧ t (k + 1) ≤ t k + obj.maxStep) ∧ (0 < N → t N < tmax + obj.maxStep) := by
  have hmx := hdt.trans_le hle
  have key : ∀ k < N, t k < t (k + 1) ∧ t (k + 1) ≤ t k + obj.maxStep := by
    intro k hk
    obtain ⟨_, _, s, _, _, -, -, hat, -⟩ := h.step k hk
    obtain ⟨d1, d2⟩ := evoRows_dt hn htol hmx hdt h k hk.le
    have h1 := attempts_pos hmx d1 hat
    have h2 : t (k + 1) - t k ≤ obj.maxStep := by
      rcases attempts_le hat with h | h
      · rw [h]; exact d2 hle
      · exact h
    exact ⟨by linarith, by linarith⟩
  refine ⟨key, fun hN => ?_⟩
  obtain ⟨m, rfl⟩ : ∃ m, N = m + 1 := ⟨N - 1, by omega⟩
  have := key m (by omega)
  have := h.before m (by omega)
  linarith

theorem evoRows_le (hn : ∀ y, 0 ≤ norm y) (htol : 0 < obj.tolerance) (hdt : 0 < obj.dt) (hle : obj.dt ≤ obj.maxStep)
    (h : EvoRows env cfg r p₀ norm meas tmax obj psi x N t dt θ obs) : ∀ k ≤ N, t k ≤ t N := by
  have key := (c127_times hn htol hdt hle h).1
  have : ∀ m k, k + m ≤ N → t k ≤ t (k + m) := by
    intro m
    induction m with
    | zero => intro k _; exact le_rfl
    | succ m ih =>
      intro k hk
      have h1 := ih k (by omega)
      have h2 := (key (k + m) (by omega)).1
      rw [← add_assoc]
      linarith
  intro k hk
  have := this (N - k) k (by omega)
  rwa [Nat.add_sub_cancel' hk] at this

/-- Every call at parameters within `R` of the solution `y` deviates by at most `ε` from `F`, whatever the sampler and the
TDVP object have been used for before. -/
def CallsNear (env : TdvpEnv n smp) (cfg : TdvpCfg n) (r : ℕ) (p₀ : Params)
    (F : (Fin (n + 1) → ℝ) → Fin (n + 1) → ℝ) (y : ℝ → Fin (n + 1) → ℝ) (T R ε : ℝ) : Prop :=
  0 ≤ ε ∧ ∀ t ∈ Icc 0 T, ∀ x, ‖x - y t‖ ≤ R → ∀ psi time k sm at₀ u at₁ sm' psi', IsNetwork p₀ psi →
    (tdvpCall env cfg r (List.ofFn x) time (some k) sm at₀).call psi = (.ok (some u, at₁, sm'), psi') → ‖u - F x‖ ≤ ε

theorem shifted_evaluates {F : (Fin (n + 1) → ℝ) → Fin (n + 1) → ℝ} {y : ℝ → Fin (n + 1) → ℝ} {T R ε : ℝ}
    (h : CallsNear env cfg r p₀ F y T R ε) (t₀ : ℝ) :
    EvaluatesNear (shiftedRhs env cfg r p₀ t₀ F) (fun x _ => F x) y 0 T R ε := by
  refine ⟨h.1, fun t ht x k s hx => ?_⟩
  unfold shiftedRhs
  split_ifs with hg
  · obtain ⟨⟨psi, ⟨sm, at₀⟩, rfl, hpsi⟩, a, ha⟩ := hg
    unfold tdvpRhs at ha ⊢
    dsimp only at ha ⊢
    generalize hc : (tdvpCall env cfg r (List.ofFn x) (t - t₀) (some k) sm at₀).call psi = c at ha ⊢
    obtain ⟨res, q⟩ := c
    rcases res with e | ⟨u, at₁, sm'⟩
    · cases ha
    · cases u with
      | none => cases ha
      | some u => exact h.2 t ht x hx psi _ k sm at₀ u at₁ sm' q hpsi hc
  · simpa using h.1

/-- C127: the parameters of all rows up to time `T` follow the solution `y` of `dθ/dt = F(θ)`, up to an error of second
order in the maximal time step and the deviations of the calls from `F`. -/
theorem c127_accuracy {F : (Fin (n + 1) → ℝ) → Fin (n + 1) → ℝ} {y : ℝ → Fin (n + 1) → ℝ} {T K K' L R ε : ℝ}
    (hy : IsSolution (fun x _ => F x) y 0 T) (hK : SlowVelocity (fun x _ => F x) y 0 T K)
    (hK' : SlowAcceleration (fun x _ => F x) y 0 T K') (hL : LipschitzNear (fun x _ => F x) y 0 T R L)
    (hcalls : CallsNear env cfg r p₀ F y T R ε) (hn : ∀ y, 0 ≤ norm y) (htol : 0 < obj.tolerance) (hdt : 0 < obj.dt)
    (hle : obj.dt ≤ obj.maxStep) (h : EvoRows env cfg r p₀ norm meas tmax obj psi x N t dt θ obs)
    (hR : (1 + obj.maxStep / 2 * L) * accumulated (L + obj.maxStep / 2 * L ^ 2 / 2)
      (ε * (1 + obj.maxStep / 2 * L / 2) + (obj.maxStep / 2) ^ 2 * ((L * K + K') / 2)) ‖θ 0 - y 0‖ T
        + obj.maxStep / 2 * (ε + K * (obj.maxStep / 2)) ≤ R) :
    ∀ k ≤ N, t k ≤ T → 0 ≤ t k ∧ ‖θ k - y (t k)‖ ≤ accumulated (L + obj.maxStep / 2 * L ^ 2 / 2)
      (ε * (1 + obj.maxStep / 2 * L / 2) + (obj.maxStep / 2) ^ 2 * ((L * K + K') / 2)) ‖θ 0 - y 0‖ (t k) := by
  intro k
  induction k with
  | zero =>
    intro _ _
    rw [h.start.1]
    exact ⟨le_rfl, by simp [accumulated]⟩
  | succ k ih =>
    intro hk hT
    obtain ⟨h1, h2⟩ := (c127_times hn htol hdt hle h).1 k (by omega)
    obtain ⟨i1, i2⟩ := ih (by omega) (by linarith)
    obtain ⟨ψ, rhs, s, ψ', rhs', hψ, -, hat, hθ, hok, -⟩ := h.step k (by omega)
    have hs := attempts_keeps env cfg r p₀ norm hat (by
      intro a ha
      obtain rfl := Except.ok.inj ha
      exact hψ)
    have hsh := (heunPair_shifted env cfg r p₀ (t k) F (θ k) (t (k + 1) - t k) s hs ⟨_, hok⟩).1
    have := heunPair_error (s := s) hy hK hK' hL (shifted_evaluates hcalls (t k)) (H := obj.maxStep / 2)
      (norm_nonneg (θ 0 - y 0)) i1 (by linarith : 0 ≤ t (k + 1) - t k) (by linarith) (by linarith)
      (by rw [sub_zero]; exact hR) (by rw [sub_zero]; exact i2)
    rw [hsh, ← hθ, add_sub_cancel, sub_zero] at this
    exact ⟨by linarith, this⟩

/-- C127: with velocities of norm at most `B` no accepted time step is smaller than `δ`, the minimum of the initial one,
the maximal one and `tolerance / (40 B)`, so there are at most `tmax/δ + 1` steps. -/
theorem c127_passes (hn : IsSeminorm norm) (htol : 0 < obj.tolerance) (hmx : 0 < obj.maxStep) (hdt : 0 < obj.dt)
    (h : EvoRows env cfg r p₀ norm meas tmax obj psi x N t dt θ obs) {B : ℝ} (hB0 : 0 < B)
    (hB : CallsBounded env cfg r norm B) :
    (∀ k < N, min (obj.tolerance / (40 * B)) (min obj.maxStep obj.dt) ≤ t (k + 1) - t k) ∧
      (0 < N → (N - 1 : ℝ) * min (obj.tolerance / (40 * B)) (min obj.maxStep obj.dt) < tmax) := by
  have hB' := rhs_bounded hn hB0.le hB
  obtain ⟨δ, hδ⟩ : ∃ δ, δ = min (obj.tolerance / (40 * B)) (min obj.maxStep obj.dt) := ⟨_, rfl⟩
  rw [← hδ]
  have hδ0 : 0 < δ := by
    rw [hδ]
    exact lt_min (by positivity) (lt_min hmx hdt)
  have hδ1 : δ ≤ obj.tolerance / (40 * B) := hδ ▸ min_le_left _ _
  have hδ2 : δ ≤ obj.maxStep := hδ ▸ (min_le_right _ _).trans (min_le_left _ _)
  have hδ3 : δ ≤ obj.dt := hδ ▸ (min_le_right _ _).trans (min_le_right _ _)
  have hdts : ∀ k ≤ N, δ ≤ dt k := by
    intro k
    induction k with
    | zero => intro _; rw [h.start.2.1]; exact hδ3
    | succ k ih =>
      intro hk
      obtain ⟨_, _, s, _, _, -, -, hat, -, -, hd⟩ := h.step k (by omega)
      have h1 := attempts_ge hn hB0 hB' htol hδ0 hδ1 hδ2 (ih (by omega)) hat
      rw [hd]
      exact nextDt_ge hB0 hδ0 hδ1 hδ2 (hn.nonneg _) (dev_le _ norm hn B hB' 0 _ (hδ0.le.trans h1) _ s)
        (attempts_dev hat) h1
  have hst : ∀ k < N, δ ≤ t (k + 1) - t k := by
    intro k hk
    obtain ⟨_, _, s, _, _, -, -, hat, -⟩ := h.step k hk
    exact attempts_ge hn hB0 hB' htol hδ0 hδ1 hδ2 (hdts k hk.le) hat
  refine ⟨hst, fun hN => ?_⟩
  have hsum : ∀ k ≤ N, k * δ ≤ t k := by
    intro k
    induction k with
    | zero => intro _; rw [h.start.1]; simp
    | succ k ih =>
      intro hk
      have := hst k (by omega)
      have := ih (by omega)
      push_cast
      linarith
  obtain ⟨m, rfl⟩ : ∃ m, N = m + 1 := ⟨N - 1, by omega⟩
  have h1 := hsum m (by omega)
  have h2 := h.before m (by omega)
  push_cast
  linarith

end rows

section physics

variable {env : TdvpEnv n smp} {cfg : TdvpCfg n} {r : ℕ} {p₀ : Params} {norm : (Fin (n + 1) → ℝ) → ℝ}
  {meas : NqsState → smp → Except PyErr (ObsDict × smp)} {tmax : ℝ} {obj : AHeun} {psi : NqsState} {x : Evo n smp ObsDict}
  {N : ℕ} {t dt : ℕ → ℝ} {θ : ℕ → Fin (n + 1) → ℝ} {obs : ℕ → ObsDict}
  {C : Type} [Fintype C] [DecidableEq C] {logPsi : (Fin (n + 1) → ℝ) → C → ℂ} {reqs : List (String × List (Matrix C C ℂ))}

omit [DecidableEq C] in
/-- C127: if `measure` reports expectation values, the observables of every row are those of the state with the parameters
of the row. -/
theorem c127_expectations (hmeas : ExactResults p₀ logPsi reqs meas)
    (h : EvoRows env cfg r p₀ norm meas tmax obj psi x N t dt θ obs) : ∀ k ≤ N,
    List.Forall₂ (fun (q : String × List (Matrix C C ℂ)) (e : String × List (List MeasResult)) => q.1 = e.1 ∧
      List.Forall₂ (fun A v => v ≠ [] ∧ ∀ m ∈ v, MeasResult.mean m
        = (Spec.expect A fun c => Complex.exp (logPsi (θ k) c)).re) q.2 e.2) reqs (obs k) := by
  intro k hk
  obtain ⟨ψ, sm, sm', h1, h2, h3⟩ := h.measured k hk
  obtain ⟨ops, hops, rfl⟩ := isNetwork_reached p₀ ψ h1
  exact hmeas ops (θ k) sm (obs k) sm' hops h2 h3

omit [Fintype C] [DecidableEq C] in
theorem forall₂_entries {R R' : Matrix C C ℂ → List MeasResult → Prop} {obs : ObsDict}
    (h : List.Forall₂ (fun (q : String × List (Matrix C C ℂ)) (e : String × List (List MeasResult)) => q.1 = e.1 ∧
      List.Forall₂ R q.2 e.2) reqs obs) (hR : ∀ q ∈ reqs, ∀ A ∈ q.2, ∀ v, R A v → R' A v) :
    List.Forall₂ (fun (q : String × List (Matrix C C ℂ)) (e : String × List (List MeasResult)) => q.1 = e.1 ∧
      List.Forall₂ R' q.2 e.2) reqs obs := by
  have inner : ∀ (l : List (Matrix C C ℂ)) (v : List (List MeasResult)), (∀ A ∈ l, ∀ w, R A w → R' A w) →
      List.Forall₂ R l v → List.Forall₂ R' l v := by
    intro l v hl hv
    induction hv with
    | nil => exact .nil
    | cons ha _ ih => exact .cons (hl _ (by simp) _ ha) (ih fun A hA => hl A (by simp [hA]))
  induction h with
  | nil => exact .nil
  | cons ha _ ih => exact .cons ⟨ha.1, inner _ _ (hR _ (by simp)) ha.2⟩ (ih fun q hq => hR q (by simp [hq]))

/-- C127: the states of all rows up to time `T` are close to the solution `φ` of the Schrödinger equation, and so are the
recorded observables: by the distance of the initial states, the errors that the TDVP object reports along the solution
`y` of the TDVP equation, an error of second order in the maximal time step and the deviations of the calls from the
right-hand side of that equation. -/
theorem c127_exact [Nonempty C] {D : Set (Fin (n + 1) → ℝ)} {G Λ : ℝ} (hs : SmoothOn logPsi D G Λ) (hD : Convex ℝ D)
    {kernel : C → List (C × ℂ)} {H : Matrix C C ℂ} {T : ℝ} (φ : ℝ → C → ℂ) (hφ : Evolves (fun _ => H) Complex.I φ T)
    (hφ0 : φ 0 ≠ 0) {F : (Fin (n + 1) → ℝ) → Fin (n + 1) → ℝ} {y : ℝ → Fin (n + 1) → ℝ} {K K' L R ε : ℝ}
    (hy : IsSolution (fun x _ => F x) y 0 T) (hK : SlowVelocity (fun x _ => F x) y 0 T K)
    (hK' : SlowAcceleration (fun x _ => F x) y 0 T K') (hL : LipschitzNear (fun x _ => F x) y 0 T R L)
    (hcalls : CallsNear env cfg r p₀ F y T R ε) (hn : ∀ y, 0 ≤ norm y) (htol : 0 < obj.tolerance) (hdt : 0 < obj.dt)
    (hle : obj.dt ≤ obj.maxStep) (h : EvoRows env cfg r p₀ norm meas tmax obj psi x N t dt θ obs) (hy0 : y 0 = θ 0)
    (hR : (1 + obj.maxStep / 2 * L) * accumulated (L + obj.maxStep / 2 * L ^ 2 / 2)
      (ε * (1 + obj.maxStep / 2 * L / 2) + (obj.maxStep / 2) ^ 2 * ((L * K + K') / 2)) 0 T
        + obj.maxStep / 2 * (ε + K * (obj.maxStep / 2)) ≤ R)
    (hin : ∀ τ ∈ Icc 0 T, y τ ∈ D) (hinθ : ∀ k ≤ N, t k ≤ T → θ k ∈ D)
    (d var : ℝ → ℝ)
    (hrep : ∀ τ ∈ Icc 0 T, TdvpReport kernel H logPsi Complex.I (y τ) (F (y τ)) (d τ) (var τ))
    (B : ℝ → ℝ) (hB : ∀ τ ∈ Icc 0 T, HasDerivWithinAt B (√(d τ * var τ)) (Icc 0 T) τ)
    (hmeas : ExactResults p₀ logPsi reqs meas) (MA : Matrix C C ℂ → ℝ) (hMA : ∀ q ∈ reqs, ∀ A ∈ q.2, NormAtMost A (MA A)) :
    ∀ k ≤ N, t k ≤ T → ∃ δ, δ = stateDistance (φ 0) (fun c => Complex.exp (logPsi (θ 0) c)) + (B (t k) - B 0)
        + G * accumulated (L + obj.maxStep / 2 * L ^ 2 / 2)
          (ε * (1 + obj.maxStep / 2 * L / 2) + (obj.maxStep / 2) ^ 2 * ((L * K + K') / 2)) 0 (t k) ∧
      stateDistance (φ (t k)) (fun c => Complex.exp (logPsi (θ k) c)) ≤ δ ∧
      List.Forall₂ (fun (q : String × List (Matrix C C ℂ)) (e : String × List (List MeasResult)) => q.1 = e.1 ∧
        List.Forall₂ (fun A v => v ≠ [] ∧ ∀ m ∈ v, |MeasResult.mean m - (Spec.expect A (φ (t k))).re| ≤ 2 * MA A * δ)
          q.2 e.2) reqs (obs k) := by
  intro k hk hT
  refine ⟨_, rfl, ?_⟩
  have h1 := c127_accuracy hy hK hK' hL hcalls hn htol hdt hle h (by rw [hy0, sub_self, norm_zero]; exact hR) k hk hT
  rw [hy0, sub_self, norm_zero] at h1
  have h2 := near_flow (H := fun _ => H) (kernel := fun _ => kernel) hs hD φ hφ hφ0 hy d var hrep B hB ⟨h1.1, hT⟩
    (hinθ k hk hT) (hin _ ⟨h1.1, hT⟩) h1.2
  rw [hy0] at h2
  refine ⟨h2, forall₂_entries (c127_expectations hmeas h k hk) fun q hq A hA v hv => ⟨hv.1, fun m hm => ?_⟩⟩
  rw [hv.2 m hm, ← Complex.sub_re]
  obtain ⟨c₀⟩ := id ‹Nonempty C›
  have hO := fun τ hτ => (report_distance (by simp) (hrep τ hτ)).2.2
  have he := c97_expect A (MA A) (hMA q hq A hA) (φ (t k)) (fun c => Complex.exp (logPsi (θ k) c))
    (evolves_ne 1 hO (by simpa using hφ) hφ0 _ ⟨h1.1, hT⟩) (fun h0 => Complex.exp_ne_zero _ (congrFun h0 c₀))
  refine (Complex.abs_re_le_norm _).trans ?_
  rw [norm_sub_rev]
  refine he.trans (mul_le_mul_of_nonneg_left h2 ?_)
  have := (hMA q hq A hA).1
  positivity

/-- C127: with exact samples and `makeReal="imag"`, the energy in all rows up to time `T` is the initial one, up to an error
of second order in the maximal time step and the deviations of the calls. -/
theorem c127_energy [Nonempty C] {D : Set (Fin (n + 1) → ℝ)} {G Λ M : ℝ} (hs : SmoothOn logPsi D G Λ) (hD : Convex ℝ D)
    {kernel : C → List (C × ℂ)} {H : Matrix C C ℂ} (hM : NormAtMost H M) {T : ℝ}
    {F : (Fin (n + 1) → ℝ) → Fin (n + 1) → ℝ} {y : ℝ → Fin (n + 1) → ℝ} {K K' L R ε : ℝ}
    (hy : IsSolution (fun x _ => F x) y 0 T) (hK : SlowVelocity (fun x _ => F x) y 0 T K)
    (hK' : SlowAcceleration (fun x _ => F x) y 0 T K') (hL : LipschitzNear (fun x _ => F x) y 0 T R L)
    (hcalls : CallsNear env cfg r p₀ F y T R ε) (hn : ∀ y, 0 ≤ norm y) (htol : 0 < obj.tolerance) (hdt : 0 < obj.dt)
    (hle : obj.dt ≤ obj.maxStep) (h : EvoRows env cfg r p₀ norm meas tmax obj psi x N t dt θ obs) (hy0 : y 0 = θ 0)
    (hR : (1 + obj.maxStep / 2 * L) * accumulated (L + obj.maxStep / 2 * L ^ 2 / 2)
      (ε * (1 + obj.maxStep / 2 * L / 2) + (obj.maxStep / 2) ^ 2 * ((L * K + K') / 2)) 0 T
        + obj.maxStep / 2 * (ε + K * (obj.maxStep / 2)) ≤ R)
    (hin : ∀ τ ∈ Icc 0 T, y τ ∈ D) (hinθ : ∀ k ≤ N, t k ≤ T → θ k ∈ D)
    (hcall : ∀ τ ∈ Icc 0 T, ∃ k, RealTimeCall 0 kernel H logPsi k (y τ) (F (y τ)))
    (hmeas : ExactResults p₀ logPsi reqs meas) :
    ∀ k ≤ N, t k ≤ T →
      List.Forall₂ (fun (q : String × List (Matrix C C ℂ)) (e : String × List (List MeasResult)) => q.1 = e.1 ∧
        List.Forall₂ (fun A v => v ≠ [] ∧ (A = H → ∀ m ∈ v, |MeasResult.mean m - energyAt H logPsi (θ 0)|
          ≤ 2 * M * (G * accumulated (L + obj.maxStep / 2 * L ^ 2 / 2)
            (ε * (1 + obj.maxStep / 2 * L / 2) + (obj.maxStep / 2) ^ 2 * ((L * K + K') / 2)) 0 (t k))))
          q.2 e.2) reqs (obs k) := by
  intro k hk hT
  have h1 := c127_accuracy hy hK hK' hL hcalls hn htol hdt hle h (by rw [hy0, sub_self, norm_zero]; exact hR) k hk hT
  rw [hy0, sub_self, norm_zero] at h1
  have h2 := near_energy hs hD hM hy hcall ⟨h1.1, hT⟩ (hinθ k hk hT) (hin _ ⟨h1.1, hT⟩) h1.2
  rw [hy0] at h2
  refine forall₂_entries (c127_expectations hmeas h k hk) fun q hq A hA v hv => ⟨hv.1, ?_⟩
  rintro rfl m hm
  rw [hv.2 m hm]
  exact h2

end physics

/-- All calls with a network of `p₀` return velocities. -/
def CallsReturn (env : TdvpEnv n smp) (cfg : TdvpCfg n) (r : ℕ) (p₀ : Params) : Prop :=
  ∀ (x : Fin (n + 1) → ℝ) time k sm at₀ psi, IsNetwork p₀ psi →
    ∃ u at₁ sm' psi', (tdvpCall env cfg r (List.ofFn x) time (some k) sm at₀).call psi = (.ok (some u, at₁, sm'), psi')

theorem tdvpRhs_returns {env : TdvpEnv n smp} {cfg : TdvpCfg n} {r : ℕ} {p₀ : Params} (hcalls : CallsReturn env cfg r p₀)
    (x : Fin (n + 1) → ℝ) (t : ℝ) (k : ℕ) (s : SimRhs n smp) (hs : GoodRhs p₀ s) :
    GoodRhs p₀ (tdvpRhs env cfg r x t k s).2 := by
  obtain ⟨psi, ⟨sm, at₀⟩, rfl, hpsi⟩ := hs
  obtain ⟨u, at₁, sm', psi', hc⟩ := hcalls x t k sm at₀ psi hpsi
  refine (tdvpRhs_good env cfg r p₀ x t k _ (fun a ha => ?_) ⟨(psi', sm', at₁), ?_⟩).2
  · obtain rfl := Except.ok.inj ha
    exact hpsi
  · unfold tdvpRhs
    dsimp only
    rw [hc]

theorem heunPair_returns {env : TdvpEnv n smp} {cfg : TdvpCfg n} {r : ℕ} {p₀ : Params} (hcalls : CallsReturn env cfg r p₀)
    (x : Fin (n + 1) → ℝ) (t d : ℝ) (s : SimRhs n smp) (hs : GoodRhs p₀ s) :
    GoodRhs p₀ (heunPair (tdvpRhs env cfg r) t d x s).2 := by
  unfold heunPair
  dsimp only
  have k := @tdvpRhs_returns n smp env cfg r p₀ hcalls
  exact k _ _ _ _ (k _ _ _ _ (k _ _ _ _ (k _ _ _ _ (k _ _ _ _ hs))))

theorem attempts_returns {env : TdvpEnv n smp} {cfg : TdvpCfg n} {r : ℕ} {p₀ : Params} (hcalls : CallsReturn env cfg r p₀)
    {norm : (Fin (n + 1) → ℝ) → ℝ} {tol mx t : ℝ} {x : Fin (n + 1) → ℝ} {dt dt' : ℝ} {s s' : SimRhs n smp}
    (h : Attempts (tdvpRhs env cfg r) norm tol mx t x dt s dt' s') (hs : GoodRhs p₀ s) : GoodRhs p₀ s' := by
  induction h with
  | accept _ _ _ => exact hs
  | reject dt s _ _ _ _ ih => exact ih (heunPair_returns hcalls x t dt s hs)

theorem evoPass_returns (env : TdvpEnv n smp) (cfg : TdvpCfg n) (r : ℕ) (p₀ : Params) (norm : (Fin (n + 1) → ℝ) → ℝ)
    (meas : NqsState → smp → Except PyErr (O × smp)) (hsize : (flattenParams p₀).length = n + 1) (hn : IsSeminorm norm)
    {B : ℝ} (hB : ∀ y t k s, norm (tdvpRhs env cfg r y t k s).1 ≤ B) (hcalls : CallsReturn env cfg r p₀)
    (hmeas : ∀ psi sm, IsNetwork p₀ psi → ∃ o sm', meas psi sm = .ok (o, sm')) (x : Evo n smp O)
    (htol : 0 < x.stepper.tolerance) (hmx : 0 < x.stepper.maxStep) (hdt : 0 < x.stepper.dt) (hx : IsNetwork p₀ x.psi) :
    ∃ x', evoPass env cfg r norm meas x = .ok x' := by
  obtain ⟨p, hp, h1, h2⟩ := (isNetwork_iff p₀ _).mp hx
  obtain ⟨t, psi, rhs, obj, data⟩ := x
  dsimp only at hp hx htol hmx hdt
  subst hp
  unfold evoPass
  have hget : getParameters.call (netState p₀ p) = (.ok (some (flattenParams p)), netState p₀ p) := rfl
  dsimp only
  rw [hget]
  dsimp only
  obtain ⟨⟨⟨y, d, o⟩, heap, s'⟩, hs⟩ := c49_returns_partial false obj htol hmx hdt _ _
    (refRhs_computes false (tdvpRhs env cfg r)) norm hn B hB 0 0 [fun i => (flattenParams p).getD i 0]
    (.ok (netState p₀ p, rhs))
  obtain ⟨s₁, hat, -, hs', ho, -⟩ := c49_step_partial false obj htol _ _ (refRhs_computes false (tdvpRhs env cfg r)) norm
    hn.nonneg 0 0 _ _ y d o heap s' hs
  rw [hs]
  obtain ⟨psi₁, ⟨sm, at₁⟩, hok, hk⟩ := heunPair_returns hcalls ([fun i : Fin (n + 1) => (flattenParams p).getD i 0].getD 0 0)
    0 d s₁ (attempts_returns hcalls hat ⟨_, _, rfl, hx⟩)
  rw [← hs'] at hok
  subst hok
  subst ho
  dsimp only
  obtain ⟨p₁, rfl, -, -⟩ := (isNetwork_iff p₀ _).mp hk
  obtain ⟨q, _, q1, q2, q3⟩ := paramUnflatten_ok p₀.isReal p₀.sizes (List.ofFn y) (by
    rw [List.length_ofFn, ← flatten_length_params, hsize])
  rw [netState_set p₀ p₁ q _ q1 q2 q3]
  dsimp only
  obtain ⟨o, sm', hm⟩ := hmeas (netState p₀ q) sm ((isNetwork_iff p₀ _).mpr ⟨q, rfl, q1, q2⟩)
  rw [hm]
  exact ⟨_, rfl⟩

/-- C127: the script returns if all calls of the TDVP object and all measurements do, and the velocities are bounded. -/
theorem c127_returns (env : TdvpEnv n smp) (cfg : TdvpCfg n) (r : ℕ) (p₀ : Params)
    (hsize : (flattenParams p₀).length = n + 1) (norm : (Fin (n + 1) → ℝ) → ℝ) (hn : IsSeminorm norm)
    (meas : NqsState → smp → Except PyErr (O × smp)) (tmax : ℝ) (obj : AHeun) (htol : 0 < obj.tolerance)
    (hmx : 0 < obj.maxStep) (hdt : 0 < obj.dt) (psi : NqsState) (hpsi : IsNetwork p₀ psi) (sm : smp) (at₀ : TdvpAttrs n)
    (B : ℝ) (hB : CallsBounded env cfg r norm B) (hcalls : CallsReturn env cfg r p₀)
    (hmeas : ∀ psi sm, IsNetwork p₀ psi → ∃ o sm', meas psi sm = .ok (o, sm')) :
    ∃ x, evolveScript env cfg r norm meas tmax obj psi sm at₀ = .ok x := by
  obtain ⟨B', hB'0, hBB⟩ : ∃ B', 0 < B' ∧ B ≤ B' := ⟨max B 1, by positivity, le_max_left _ _⟩
  have hB' := rhs_bounded hn hB'0.le (hB.mono hBB)
  obtain ⟨δ, hδ0, hδ1, hδ2, hδ3⟩ : ∃ δ > 0, δ ≤ obj.tolerance / (40 * B') ∧ δ ≤ obj.maxStep ∧ δ ≤ obj.dt :=
    ⟨min (obj.tolerance / (40 * B')) (min obj.maxStep obj.dt),
      lt_min (by positivity) (lt_min hmx hdt), min_le_left _ _,
      (min_le_right _ _).trans (min_le_left _ _), (min_le_right _ _).trans (min_le_right _ _)⟩
  obtain ⟨o₀, sm₁, hm⟩ := hmeas psi sm hpsi
  unfold evolveScript
  rw [hm]
  dsimp only
  have key : ∀ k : ℕ, ∃ x : Evo n smp O, (evoBody env cfg r norm meas)^[k] (.ok ⟨0, psi, (sm₁, at₀), obj, [(0, o₀)]⟩) = .ok x ∧
      IsNetwork p₀ x.psi ∧ x.stepper.tolerance = obj.tolerance ∧ x.stepper.maxStep = obj.maxStep ∧ δ ≤ x.stepper.dt ∧
      k * δ ≤ x.t := by
    intro k
    induction k with
    | zero => exact ⟨_, rfl, hpsi, rfl, rfl, hδ3, by simp⟩
    | succ k ih =>
      obtain ⟨x, h1, h2, h3, h4, h5, h6⟩ := ih
      rw [Function.iterate_succ_apply', h1]
      obtain ⟨x', hx'⟩ := evoPass_returns env cfg r p₀ norm meas hsize hn hB' hcalls hmeas x (by rw [h3]; exact htol)
        (by rw [h4]; exact hmx) (hδ0.trans_le h5) h2
      obtain ⟨_, _, d, dt', _, _, _, _, _, e1, e2, ⟨_, _, s, _, _, _, _, hat, _, _, e3⟩, e4, _⟩ :=
        evoPass_ok env cfg r p₀ norm meas hsize hn.nonneg x x' (by rw [h3]; exact htol) h2 hx'
      rw [h3, h4] at hat e3 e4
      have hd := attempts_ge hn hB'0 hB' htol hδ0 hδ1 hδ2 h5 hat
      refine ⟨x', hx', e1, by rw [e4], by rw [e4], ?_, ?_⟩
      · rw [e4, e3]
        exact nextDt_ge hB'0 hδ0 hδ1 hδ2 (hn.nonneg _) (dev_le _ norm hn B' hB' 0 d (hδ0.le.trans hd) _ s)
          (attempts_dev hat) hd
      · rw [e2]
        push_cast
        linarith
  have hex : ∃ k : ℕ, evoGoesOn tmax
      ((evoBody env cfg r norm meas)^[k] (.ok ⟨0, psi, (sm₁, at₀), obj, [(0, o₀)]⟩)) = false := by
    obtain ⟨k, hk⟩ := exists_nat_ge (tmax / δ)
    rw [div_le_iff₀ hδ0] at hk
    obtain ⟨x, h1, -, -, -, -, h6⟩ := key k
    refine ⟨k, ?_⟩
    rw [h1]
    exact decide_eq_false (not_lt.mpr (hk.trans h6))
  obtain ⟨s, hs⟩ := whileLoop_some _ _ _ hex
  obtain ⟨k, hk, -, -⟩ := whileLoop_spec _ _ _ _ hs
  obtain ⟨x, h1, -⟩ := key k
  rw [hs]
  exact ⟨x, hk.trans h1⟩

/-! ### Cases: networks whose velocities are the same everywhere -/

section constant

variable {env : TdvpEnv n smp} {cfg : TdvpCfg n} {r : ℕ} {p₀ : Params}
  {joint : World (ℝ × (Fin 1 → ℂ) × (Fin (n + 1) → ℂ))} {E : SObs (Fin 1)} {G : SObs (Fin (n + 1))} {res : SolveRes n}
  {atA atB : TdvpAttrs n} {u : Fin (n + 1) → ℝ}

theorem constant_call (henv : ∀ p sm t, env.measure p sm t = .ok (joint, sm)) (hcv : cfg.crossValidation = false)
    (hi : TdvpInput joint r E G) (hres : tdvpSolve cfg r (some (E, G)) atA = .ok (res, atB)) (x : Fin (n + 1) → ℝ)
    (psi psi' : NqsState) (time : ℝ) (k : Option ℕ) (sm sm' : smp) (at₀ at₁ : TdvpAttrs n) (u' : Flt (Fin (n + 1) → ℝ))
    (h : (tdvpCall env cfg r (List.ofFn x) time k sm at₀).call psi = (.ok (u', at₁, sm'), psi')) : u' = res.update := by
  cases psi with
  | none => cases h
  | some st =>
    obtain ⟨q, joint₂, E', G', res', atS', p', -, hm₂, hd, hs, -, -, hk, hz⟩ :=
      tdvpCall_ok env cfg r (List.ofFn x) time k sm sm' at₀ at₁ st psi' u' h
    rw [henv] at hm₂
    obtain ⟨rfl, -⟩ := Prod.mk.inj (Except.ok.inj hm₂)
    have h1 := hi.data
    obtain rfl : E' = E := Except.ok.inj (hd.1.symm.trans h1.1)
    obtain rfl : G' = G := Except.ok.inj (hd.2.symm.trans h1.2)
    obtain ⟨_, _, _, _, _, hsol⟩ := solve_attrs cfg r _ atA atB res hres
    rw [hsol at₀] at hs
    obtain ⟨rfl, -⟩ := Prod.mk.inj (Except.ok.inj hs)
    by_cases hk0 : k = some 0
    · obtain ⟨err, -, hf, -⟩ := hz hk0
      exact (hf hcv).1
    · exact (hk hk0).1

theorem constant_bounded (henv : ∀ p sm t, env.measure p sm t = .ok (joint, sm)) (hcv : cfg.crossValidation = false)
    (hi : TdvpInput joint r E G) (hres : tdvpSolve cfg r (some (E, G)) atA = .ok (res, atB)) (hu : res.update = some u)
    (norm : (Fin (n + 1) → ℝ) → ℝ) : CallsBounded env cfg r norm (norm u) := by
  intro x psi time k sm at₀ u' at₁ sm' psi' h
  have := constant_call henv hcv hi hres x psi psi' time (some k) sm sm' at₀ at₁ (some u') h
  rw [hu] at this
  rw [Option.some.inj this]

theorem constant_near (henv : ∀ p sm t, env.measure p sm t = .ok (joint, sm)) (hcv : cfg.crossValidation = false)
    (hi : TdvpInput joint r E G) (hres : tdvpSolve cfg r (some (E, G)) atA = .ok (res, atB)) (hu : res.update = some u)
    (y : ℝ → Fin (n + 1) → ℝ) (T R : ℝ) : CallsNear env cfg r p₀ (fun _ => u) y T R 0 := by
  refine ⟨le_rfl, fun t _ x _ psi time k sm at₀ u' at₁ sm' psi' _ h => ?_⟩
  have := constant_call henv hcv hi hres x psi psi' time (some k) sm sm' at₀ at₁ (some u') h
  rw [hu] at this
  rw [Option.some.inj this, sub_self, norm_zero]

theorem constant_return (henv : ∀ p sm t, env.measure p sm t = .ok (joint, sm)) (hcv : cfg.crossValidation = false)
    (hc : 0 < cfg.pinvCutoff) (hc' : cfg.pinvCutoff < 1e-2) (ht : cfg.pinvTol < 1)
    (hsize : (flattenParams p₀).length = n + 1)
    (hi : TdvpInput joint r E G) (hres : tdvpSolve cfg r (some (E, G)) atA = .ok (res, atB)) (hu : res.update = some u) :
    CallsReturn env cfg r p₀ := by
  intro x time k sm at₀ psi hpsi
  obtain ⟨ops, hops, rfl⟩ := isNetwork_reached p₀ psi hpsi
  obtain ⟨p, hp, -⟩ := paramUnflatten_ok p₀.isReal p₀.sizes (List.ofFn x) (by
    rw [List.length_ofFn, ← flatten_length_params, hsize])
  obtain ⟨u', at₁, h⟩ := c44_returns env cfg hc hc' ht r (List.ofFn x) time (some k) sm sm at₀ p₀ ops hops (by
    obtain ⟨st, h, -⟩ := hpsi
    rw [h]
    simp) p hp joint (henv p sm time) hi.devices hi.weights hi.rank
  have := constant_call henv hcv hi hres x _ _ time (some k) sm sm at₀ at₁ u' h
  rw [hu] at this
  subst this
  exact ⟨u, at₁, sm, _, h⟩

end constant

/-- A measurement of one observable that reports the expectation value. -/
noncomputable def exactMeasure {C : Type} [Fintype C] (logPsi : (Fin (n + 1) → ℝ) → C → ℂ) (A : Matrix C C ℂ) (psi : NqsState)
    (sm : smp) : Except PyErr (ObsDict × smp) :=
  match (getParameters.call psi).1 with
  | .ok (some v) => .ok ([("energy", [[⟨(Spec.expect A fun c => Complex.exp (logPsi (fun i => v.getD i 0) c)).re, 0, 0⟩]])], sm)
  | _ => .error .typeError

theorem exactMeasure_exact {C : Type} [Fintype C] (p₀ : Params) (logPsi : (Fin (n + 1) → ℝ) → C → ℂ) (A : Matrix C C ℂ) :
    ExactResults p₀ logPsi [("energy", [A])] (exactMeasure (smp := smp) logPsi A) := by
  intro ops θ sm obs sm' _ hget hm
  unfold exactMeasure at hm
  rw [hget] at hm
  obtain ⟨rfl, -⟩ := Prod.mk.inj (Except.ok.inj hm)
  have hθ : (fun i : Fin (n + 1) => (List.ofFn θ).getD i 0) = θ := by
    funext i
    rw [List.getD_eq_getElem _ _ (by rw [List.length_ofFn]; exact i.2), List.getElem_ofFn]
  refine .cons ⟨rfl, .cons ⟨by simp, fun m hm => ?_⟩ .nil⟩ .nil
  rw [List.mem_singleton] at hm
  rw [hm, hθ]

theorem exactMeasure_returns {C : Type} [Fintype C] (p₀ : Params) (logPsi : (Fin (n + 1) → ℝ) → C → ℂ) (A : Matrix C C ℂ)
    (psi : NqsState) (sm : smp) (h : IsNetwork p₀ psi) : ∃ o sm', exactMeasure logPsi A psi sm = .ok (o, sm') := by
  obtain ⟨p, rfl, -⟩ := (isNetwork_iff p₀ psi).mp h
  exact ⟨_, _, rfl⟩

/-- Case for `c127_rows`, `c127_times`, `c127_accuracy`, `c127_exact`, `c127_passes` and `c127_returns`: one spin in a field
along `z` and the network `ψ_θ = (exp(iθ), exp(-iθ))` with the default options of `AdaptiveHeun`. -/
example (tmax : ℝ) : ∃ (u : Fin 1 → ℝ) (d var : ℝ) (x : Evo 0 Unit ObsDict) (N : ℕ) (t dt : ℕ → ℝ) (θ : ℕ → Fin 1 → ℝ)
    (obs : ℕ → ObsDict),
    evolveScript ⟨fun _ _ _ => .ok (phaseJoint, ())⟩ phaseCfg 0 (fun y => ‖y‖) (exactMeasure phaseLog phaseMatrix) tmax
      ⟨1e-3, 1e-8, 1⟩ (nqsRun (.real [[0]]) [.eval]) () {} = .ok x ∧
    EvoRows ⟨fun _ _ _ => .ok (phaseJoint, ())⟩ phaseCfg 0 (.real [[0]]) (fun y => ‖y‖) (exactMeasure phaseLog phaseMatrix)
      tmax ⟨1e-3, 1e-8, 1⟩ (nqsRun (.real [[0]]) [.eval]) x N t dt θ obs ∧
    (∀ k ≤ N, θ k = t k • u) ∧ (0 < N → t N < tmax + 1) ∧
    ∀ k ≤ N, stateDistance (fun s : Fin 2 => Complex.exp (-(Complex.I * (t k : ℝ) * (1 - 2 * (s.val : ℂ)))))
      (fun c => Complex.exp (phaseLog (θ k) c)) ≤ t k * √(d * var) := by
  obtain ⟨E, G, res, atS, u, hi, hres, hu⟩ := phase_solve
  obtain ⟨d, var, hrep⟩ := phase_report_of hi hres hu
  obtain ⟨env, henv⟩ : ∃ env : TdvpEnv 0 Unit, env = ⟨fun _ _ _ => .ok (phaseJoint, ())⟩ := ⟨_, rfl⟩
  rw [← henv]
  have henv' : ∀ p sm t, env.measure p sm t = .ok (phaseJoint, sm) := fun p sm t => by rw [henv]
  have hinit : nqsRun (.real [[0]]) [.eval] ≠ none :=
    (c25_initialised_iff _ _).mpr ⟨.eval, List.mem_singleton_self _, rfl⟩
  have hpsi := isNetwork_run (.real [[0]]) [.eval] (by simp [NqsOp.Fits]) hinit
  have hn : IsSeminorm fun y : Fin 1 → ℝ => ‖y‖ :=
    ⟨fun y => norm_nonneg y, fun y z => norm_add_le y z, fun c y => (norm_smul c y).le⟩
  obtain ⟨x, hx⟩ := c127_returns env phaseCfg 0 (.real [[0]]) rfl (fun y => ‖y‖) hn (exactMeasure phaseLog phaseMatrix) tmax
    ⟨1e-3, 1e-8, 1⟩ (by norm_num) (by norm_num) (by norm_num) (nqsRun (.real [[0]]) [.eval]) hpsi () {} ‖u‖
    (constant_bounded henv' rfl hi hres hu _)
    (constant_return henv' rfl (by norm_num [phaseCfg]) (by norm_num [phaseCfg]) (by norm_num [phaseCfg]) rfl hi hres hu)
    (exactMeasure_returns _ _ _)
  obtain ⟨N, t, dt, θ, obs, hrows⟩ := c127_rows env phaseCfg 0 (.real [[0]]) rfl (fun y => ‖y‖) hn.nonneg
    (exactMeasure phaseLog phaseMatrix) tmax ⟨1e-3, 1e-8, 1⟩ (by norm_num) _ hpsi () {} x hx
  have hθ0 : θ 0 = 0 := by
    refine hasParams_inj hrows.start.2.2 ?_
    unfold HasParams
    rw [show getParameters.call (nqsRun (.real [[0]]) [.eval]) = (.ok (some [0]), _) from rfl]
    simp
  have htimes := c127_times hn.nonneg (by norm_num) (by norm_num) (by norm_num) hrows
  have hmono := evoRows_le hn.nonneg (by norm_num) (by norm_num) (by norm_num) hrows
  have hsol : ∀ t : ℝ, HasDerivAt (fun t : ℝ => t • u) u t := fun t => by
    simpa using (hasDerivAt_id t).smul_const u
  have hacc := c127_accuracy (F := fun _ => u) (y := fun t => t • u) (T := t N) (K := 0) (K' := 0) (L := 0) (R := 0) (ε := 0)
    (fun t _ => (hsol t).hasDerivWithinAt) ⟨le_rfl, by simp⟩
    ⟨le_rfl, fun _ => 0, fun t _ => hasDerivWithinAt_const t _ u, by simp⟩ ⟨le_rfl, by simp⟩
    (constant_near henv' rfl hi hres hu _ _ _) hn.nonneg (by norm_num) (by norm_num) (by norm_num) hrows
    (by simp [accumulated, hθ0])
  have hex := c127_exact (kernel := phaseKernel) phase_smooth convex_univ _ (phase_evolves (t N))
    (fun h0 => Complex.exp_ne_zero _ (congrFun h0 0)) (F := fun _ => u) (y := fun t => t • u) (K := 0) (K' := 0) (L := 0)
    (R := 0) (ε := 0)
    (fun t _ => (hsol t).hasDerivWithinAt) ⟨le_rfl, by simp⟩
    ⟨le_rfl, fun _ => 0, fun t _ => hasDerivWithinAt_const t _ u, by simp⟩ ⟨le_rfl, by simp⟩
    (constant_near henv' rfl hi hres hu _ _ _) hn.nonneg (by norm_num) (by norm_num) (by norm_num) hrows
    (by simp [hθ0]) (by simp [accumulated]) (fun _ _ => mem_univ _) (fun _ _ _ => mem_univ _) (fun _ => d) (fun _ => var)
    (fun t _ => hrep _) (fun t => t * √(d * var))
    (fun t _ => by simpa using ((hasDerivAt_id t).mul_const (√(d * var))).hasDerivWithinAt)
    (exactMeasure_exact _ _ _) (fun _ => 1) (by
      intro q hq A hA
      rw [List.mem_singleton] at hq
      subst hq
      rw [List.mem_singleton] at hA
      subst hA
      exact (phase_slow 0).bound 0 (by simp))
  refine ⟨u, d, var, x, N, t, dt, θ, obs, hx, hrows, fun k hk => ?_, htimes.2, fun k hk => ?_⟩
  · have := (hacc k hk (hmono k hk)).2
    simp [accumulated, hθ0] at this
    exact sub_eq_zero.mp this
  · obtain ⟨δ, hδ, h, -⟩ := hex k hk (hmono k hk)
    refine h.trans (le_of_eq ?_)
    have h0 : stateDistance (fun s : Fin 2 => Complex.exp (-(Complex.I * (0 : ℝ) * (1 - 2 * (s.val : ℂ)))))
        (fun c => Complex.exp (phaseLog (θ 0) c)) = 0 := by
      have h1 : (fun s : Fin 2 => Complex.exp (-(Complex.I * (0 : ℝ) * (1 - 2 * (s.val : ℂ)))))
          = fun c => Complex.exp (phaseLog (θ 0) c) := by
        funext s
        simp [phaseLog, hθ0]
      rw [h1]
      exact distance_self _ fun h0 => Complex.exp_ne_zero _ (congrFun h0 0)
    rw [hδ, h0]
    simp [accumulated]

/-- Case for `c127_energy`: a spin that precesses about the `z` axis, with `makeReal="imag"`. -/
example (tmax : ℝ) : ∃ (x : Evo 1 Unit ObsDict) (N : ℕ) (t : ℕ → ℝ) (θ : ℕ → Fin 2 → ℝ) (obs : ℕ → ObsDict),
    evolveScript ⟨fun _ _ _ => .ok (spinData (1 / 2) ![1, -1], ())⟩ spinRealTime 0 (fun y => ‖y‖)
      (exactMeasure spinLog phaseMatrix) tmax ⟨1e-3, 1e-8, 1⟩ (nqsRun (.real [[0, 0]]) [.eval]) () {} = .ok x ∧
    tmax ≤ t N ∧ x.data = (List.range (N + 1)).map (fun k => (t k, obs k)) ∧
    ∀ k ≤ N, List.Forall₂ (fun (q : String × List (Matrix (Fin 2) (Fin 2) ℂ)) (e : String × List (List MeasResult)) =>
      q.1 = e.1 ∧ List.Forall₂ (fun A v => v ≠ [] ∧ (A = phaseMatrix → ∀ m ∈ v,
        |MeasResult.mean m - energyAt phaseMatrix spinLog (θ 0)| ≤ 0)) q.2 e.2) [("energy", [phaseMatrix])] (obs k) := by
  obtain ⟨E, G, res, atS, v, hi, hres, hu, hcall⟩ := precession_solve
  obtain ⟨env, henv⟩ : ∃ env : TdvpEnv 1 Unit, env = ⟨fun _ _ _ => .ok (spinData (1 / 2) ![1, -1], ())⟩ := ⟨_, rfl⟩
  rw [← henv]
  have henv' : ∀ p sm t, env.measure p sm t = .ok (spinData (1 / 2) ![1, -1], sm) := fun p sm t => by rw [henv]
  have hinit : nqsRun (.real [[0, 0]]) [.eval] ≠ none :=
    (c25_initialised_iff _ _).mpr ⟨.eval, List.mem_singleton_self _, rfl⟩
  have hpsi := isNetwork_run (.real [[0, 0]]) [.eval] (by simp [NqsOp.Fits]) hinit
  have hn : IsSeminorm fun y : Fin 2 → ℝ => ‖y‖ :=
    ⟨fun y => norm_nonneg y, fun y z => norm_add_le y z, fun c y => (norm_smul c y).le⟩
  obtain ⟨x, hx⟩ := c127_returns env spinRealTime 0 (.real [[0, 0]]) rfl (fun y => ‖y‖) hn (exactMeasure spinLog phaseMatrix)
    tmax ⟨1e-3, 1e-8, 1⟩ (by norm_num) (by norm_num) (by norm_num) (nqsRun (.real [[0, 0]]) [.eval]) hpsi () {} _
    (constant_bounded henv' rfl hi hres hu _)
    (constant_return henv' rfl (by norm_num [spinRealTime]) (by norm_num [spinRealTime]) (by norm_num [spinRealTime]) rfl hi
      hres hu) (exactMeasure_returns _ _ _)
  obtain ⟨N, t, dt, θ, obs, hrows⟩ := c127_rows env spinRealTime 0 (.real [[0, 0]]) rfl (fun y => ‖y‖) hn.nonneg
    (exactMeasure spinLog phaseMatrix) tmax ⟨1e-3, 1e-8, 1⟩ (by norm_num) _ hpsi () {} x hx
  have hθ0 : θ 0 = 0 := by
    refine hasParams_inj hrows.start.2.2 ?_
    unfold HasParams
    rw [show getParameters.call (nqsRun (.real [[0, 0]]) [.eval]) = (.ok (some [0, 0]), _) from rfl]
    simp
  have hmono := evoRows_le hn.nonneg (by norm_num) (by norm_num) (by norm_num) hrows
  have hE := c127_energy (kernel := phaseKernel) (T := t N) spin_smooth convex_univ ((phase_slow 0).bound 0 (by simp))
    (F := fun _ => ![0, v]) (y := fun t => t • ![0, v]) (K := 0) (K' := 0) (L := 0) (R := 0) (ε := 0)
    (precession_solution v _) ⟨le_rfl, by simp⟩
    ⟨le_rfl, fun _ => 0, fun t _ => hasDerivWithinAt_const t _ _, by simp⟩ ⟨le_rfl, by simp⟩
    (constant_near henv' rfl hi hres hu _ _ _) hn.nonneg (by norm_num) (by norm_num) (by norm_num) hrows
    (by simp [hθ0]) (by simp [accumulated]) (fun _ _ => mem_univ _) (fun _ _ _ => mem_univ _)
    (fun τ _ => ⟨_, (hcall _ (by simp)).1⟩) (exactMeasure_exact _ _ _)
  refine ⟨x, N, t, θ, obs, hx, hrows.after, hrows.rows, fun k hk => ?_⟩
  have := hE k hk (hmono k hk)
  simpa [accumulated] using this

end JVMC
