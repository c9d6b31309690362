import Verif.Spec.GroundState
import Verif.Props.Tdvp

/-!
# Properties of `ground_state_search`

C51.
-/

namespace JVMC

open Spec

variable {P O W : Type} [AddCommGroup P] [Module ℝ P]

omit [AddCommGroup P] [Module ℝ P] in
theorem gsMeasure_ok (api : GsApi P O W) (record : Bool) (n : ℕ) (w : W) (log : List (ℕ × O)) (w' : W)
    (log' : List (ℕ × O)) (h : gsMeasure api record n w log = .ok (w', log')) :
    ∃ e, log' = log ++ e ∧ Recorded api record n w w' e := by
  unfold gsMeasure at h
  unfold Recorded
  cases record with
  | true =>
    simp only [if_true] at h ⊢
    cases hm : api.measure w with
    | error e => rw [hm] at h; cases h
    | ok r =>
      rw [hm] at h
      cases h
      exact ⟨_, rfl, r.1, rfl, rfl⟩
  | false => cases h; exact ⟨[], by simp, by simp⟩

theorem gsBody_ok (api : GsApi P O W) (stepSize : ℝ) (record : Bool) (s s' : GsState O W)
    (h : gsBody api stepSize record s = .ok s') :
    s'.n = s.n + 1 ∧
    (∃ w₂ e, SrUpdate api stepSize s.shift s.w w₂ s'.varE ∧ Recorded api record (s.n + 1) w₂ s'.w e ∧
      s'.log = s.log ++ e) ∧
    (api.hasSetter = false → s'.delta = s.delta ∧ s'.shift = s.shift) ∧
    (api.hasSetter = true → ∃ d, s.delta = some d ∧ s'.delta = some (0.95 * d) ∧ s'.shift = 0.95 * d) := by
  unfold gsBody at h
  cases h1 : api.getParams s.w with
  | error e => rw [h1] at h; cases h
  | ok p =>
  rw [h1] at h
  change Except.bind (api.rhs s.shift p 0 s.w) _ = _ at h
  cases h2 : api.rhs s.shift p 0 s.w with
  | error e => rw [h2] at h; cases h
  | ok r =>
  obtain ⟨dp, w₁⟩ := r
  rw [h2] at h
  change Except.bind (api.setParams _ w₁) _ = _ at h
  cases h3 : api.setParams (p + stepSize • dp) w₁ with
  | error e => rw [h3] at h; cases h
  | ok w₂ =>
  rw [h3] at h
  change Except.bind (api.variance w₂) _ = _ at h
  cases h4 : api.variance w₂ with
  | error e => rw [h4] at h; cases h
  | ok v =>
  rw [h4] at h
  change Except.bind (gsMeasure api record (s.n + 1) w₂ s.log) _ = _ at h
  cases h5 : gsMeasure api record (s.n + 1) w₂ s.log with
  | error e => rw [h5] at h; cases h
  | ok q =>
  obtain ⟨w₃, log⟩ := q
  obtain ⟨e, rfl, he⟩ := gsMeasure_ok _ _ _ _ _ _ _ h5
  rw [h5] at h
  change (if api.hasSetter = true then _ else _) = _ at h
  have hu : SrUpdate api stepSize s.shift s.w w₂ v := ⟨p, dp, w₁, h1, h2, h3, h4⟩
  cases hs : api.hasSetter with
  | false =>
    rw [hs] at h
    cases h
    exact ⟨rfl, ⟨w₂, e, hu, he, rfl⟩, fun _ => ⟨rfl, rfl⟩, fun h => by cases h⟩
  | true =>
    rw [hs, if_pos rfl] at h
    cases hd : s.delta with
    | none => rw [hd] at h; cases h
    | some d =>
      rw [hd] at h
      cases h
      exact ⟨rfl, ⟨w₂, e, hu, he, rfl⟩, (fun h => by cases h), fun _ => ⟨d, rfl, rfl, rfl⟩⟩

/-- What is known about the state after some passes of the loop. -/
structure GsInv (api : GsApi P O W) (numSteps : ℤ) (tol stepSize : ℝ) (record : Bool) (shift : ℝ) (w₀ : W)
    (s : GsState O W) : Prop where
  bound : (s.n : ℤ) ≤ max numSteps 0
  sh : s.shift = if api.hasSetter then 0.95 ^ s.n * shift else shift
  delta : api.hasShift = true → s.delta = some s.shift
  log : s.log.map Prod.fst = if record then List.range (s.n + 1) else []
  trace : ∃ (w u : ℕ → W) (v : ℕ → Flt ℝ) (e : ℕ → List (ℕ × O)),
    Recorded api record 0 w₀ (w 0) (e 0) ∧ s.w = w s.n ∧
    (∀ k < s.n, SrUpdate api stepSize (if api.hasSetter then 0.95 ^ k * shift else shift) (w k) (u k) (v k) ∧
      Recorded api record (k + 1) (u k) (w (k + 1)) (e (k + 1))) ∧
    s.log = ((List.range (s.n + 1)).map e).flatten ∧
    (s.n = 0 → s.varE = some 1) ∧ (∀ k, k + 1 = s.n → s.varE = v k) ∧
    (0 < s.n → tol < 1) ∧ ∀ k, k + 1 < s.n → Above (v k) tol

omit [AddCommGroup P] [Module ℝ P] in
theorem recorded_fst (api : GsApi P O W) (record : Bool) (n : ℕ) (w w' : W) (e : List (ℕ × O))
    (h : Recorded api record n w w' e) : e.map Prod.fst = if record then [n] else [] := by
  unfold Recorded at h
  cases record with
  | true => obtain ⟨o, _, rfl⟩ := h; rfl
  | false => obtain ⟨_, rfl⟩ := h; rfl

theorem gsInv_step (api : GsApi P O W) (hapi : api.hasSetter = true → api.hasShift = true) (numSteps : ℤ)
    (tol stepSize : ℝ) (record : Bool) (shift : ℝ) (w₀ : W) (s s' : GsState O W)
    (hi : GsInv api numSteps tol stepSize record shift w₀ s) (hc : gsCond numSteps tol s = true)
    (h : gsBody api stepSize record s = .ok s') : GsInv api numSteps tol stepSize record shift w₀ s' := by
  obtain ⟨hn, ⟨w₂, e', hu, hr, hl⟩, hF, hT⟩ := gsBody_ok _ _ _ _ _ h
  obtain ⟨w, u, v, e, h0, hw, hk, hlog, hv0, hv, ht, ha⟩ := hi.trace
  unfold gsCond at hc
  rw [Bool.and_eq_true, decide_eq_true_eq] at hc
  obtain ⟨hc1, hc2⟩ := hc
  have habove : Above s.varE tol := by
    cases hx : s.varE with
    | none => rw [hx] at hc2; cases hc2
    | some x => rw [hx, decide_eq_true_eq] at hc2; exact ⟨x, rfl, hc2⟩
  have hsh : s'.shift = if api.hasSetter then 0.95 ^ s'.n * shift else shift := by
    cases hs : api.hasSetter with
    | false => rw [(hF hs).2, hi.sh, hs]; rfl
    | true =>
      obtain ⟨d, hd, _, hd'⟩ := hT hs
      have := hi.delta (hapi hs)
      rw [hd, hi.sh, hs] at this
      cases this
      rw [hd', hn, pow_succ]
      simp only [if_true]
      ring
  refine ⟨by omega, hsh, ?_, ?_, ?_⟩
  · intro hh
    cases hs : api.hasSetter with
    | false => rw [(hF hs).1, (hF hs).2, hi.delta hh]
    | true => obtain ⟨d, _, h1, h2⟩ := hT hs; rw [h1, h2]
  · rw [hl, List.map_append, hi.log, recorded_fst _ _ _ _ _ _ hr, hn]
    cases record with
    | true => simp only [if_true]; rw [List.range_succ (n := s.n + 1)]
    | false => rfl
  · refine ⟨fun k => if k ≤ s.n then w k else s'.w, fun k => if k < s.n then u k else w₂,
      fun k => if k < s.n then v k else s'.varE, fun k => if k ≤ s.n then e k else e', ?_, ?_, ?_, ?_, ?_, ?_, ?_, ?_⟩
    · simpa using h0
    · rw [hn]; simp
    · intro k hks
      rw [hn] at hks
      by_cases hkn : k < s.n
      · simp only [hkn, hkn.le, if_true, show k + 1 ≤ s.n from hkn]
        exact hk k hkn
      · have : k = s.n := by omega
        subst this
        simp only [lt_irrefl, le_refl, if_true, if_false, show ¬ (s.n + 1 ≤ s.n) by omega]
        rw [← hw, ← hi.sh]
        exact ⟨hu, hr⟩
    · rw [hl, hn, List.range_succ (n := s.n + 1), List.map_append, List.flatten_append, hlog]
      congr 1
      · congr 1
        apply List.map_congr_left
        intro k hk'
        rw [List.mem_range] at hk'
        simp [show k ≤ s.n by omega]
      · simp
    · omega
    · intro k hk'
      have : k = s.n := by omega
      subst this
      simp
    · intro _
      rcases Nat.eq_zero_or_pos s.n with h | h
      · obtain ⟨x, hx, hx'⟩ := habove
        rw [hv0 h] at hx
        cases hx
        exact hx'
      · exact ht h
    · intro k hk'
      have hks : k < s.n := by omega
      simp only [hks, if_true]
      by_cases hkn : k + 1 < s.n
      · exact ha k hkn
      · rw [← hv k (by omega)]
        exact habove

theorem gsInv_loop (api : GsApi P O W) (hapi : api.hasSetter = true → api.hasShift = true) (numSteps : ℤ)
    (tol stepSize : ℝ) (record : Bool) (shift : ℝ) (w₀ : W) (fuel : ℕ) : ∀ (s s' : GsState O W),
    GsInv api numSteps tol stepSize record shift w₀ s →
    gsLoop api numSteps tol stepSize record fuel s = .ok s' →
    GsInv api numSteps tol stepSize record shift w₀ s' ∧ gsCond numSteps tol s' = false := by
  induction fuel with
  | zero =>
    intro s s' hi h
    unfold gsLoop at h
    cases hc : gsCond numSteps tol s with
    | true => rw [hc] at h; cases h
    | false => rw [hc] at h; cases h; exact ⟨hi, hc⟩
  | succ fuel ih =>
    intro s s' hi h
    unfold gsLoop at h
    cases hc : gsCond numSteps tol s with
    | false => rw [hc] at h; cases h; exact ⟨hi, hc⟩
    | true =>
      rw [hc, if_pos rfl] at h
      cases hb : gsBody api stepSize record s with
      | error e => rw [hb] at h; cases h
      | ok s₁ =>
        rw [hb] at h
        exact ih s₁ s' (gsInv_step api hapi _ _ _ _ _ _ _ _ hi hc hb) h

/-- **C51**, for the library's two equations and every other one that has `diagonalShift` if it has
`set_diagonal_shift`: when the search returns, it has done `n ≤ numSteps` updates, each with step size
`stepSize` and a diagonal shift `0.95^k` times the initial one; observables have been recorded at the
steps `0, ..., n`, after the updates; the variances reported by all updates but the last are above the
tolerance; if `n < numSteps`, that of the last one is not. Missing: for `varianceTol ≥ 1` no update is
done (`c51_tolerance_violated`), and a NaN variance stops the search like a small one. -/
theorem c51_search_partial (api : GsApi P O W) (hapi : api.hasSetter = true → api.hasShift = true)
    (numSteps : ℤ) (tol stepSize : ℝ) (record : Bool) (shift : ℝ) (w₀ : W) (s : GsState O W)
    (h : groundStateSearch api numSteps tol stepSize record shift w₀ = .ok s) :
    (s.n : ℤ) ≤ max numSteps 0 ∧
    s.shift = (if api.hasSetter then 0.95 ^ s.n * shift else shift) ∧
    s.log.map Prod.fst = (if record then List.range (s.n + 1) else []) ∧
    ∃ (w u : ℕ → W) (v : ℕ → Flt ℝ) (e : ℕ → List (ℕ × O)),
      Recorded api record 0 w₀ (w 0) (e 0) ∧
      (∀ k < s.n, SrUpdate api stepSize (if api.hasSetter then 0.95 ^ k * shift else shift) (w k) (u k) (v k) ∧
        Recorded api record (k + 1) (u k) (w (k + 1)) (e (k + 1))) ∧
      s.w = w s.n ∧ s.log = ((List.range (s.n + 1)).map e).flatten ∧
      (∀ k, k + 1 < s.n → Above (v k) tol) ∧
      ((s.n : ℤ) < numSteps → (s.n = 0 ∧ 1 ≤ tol) ∨ ∃ k, k + 1 = s.n ∧ ¬ Above (v k) tol) := by
  unfold groundStateSearch at h
  cases hm : gsMeasure api record 0 w₀ ([] : List (ℕ × O)) with
  | error e => simp only [hm] at h; cases h
  | ok r =>
    obtain ⟨w₁, log⟩ := r
    simp only [hm] at h
    change gsLoop _ _ _ _ _ _ _ = _ at h
    obtain ⟨e₀, hlog₀, he⟩ := gsMeasure_ok _ _ _ _ _ _ _ hm
    rw [hlog₀] at h
    have hi : GsInv api numSteps tol stepSize record shift w₀
        ⟨0, some 1, if api.hasShift then some shift else none, shift, w₁, [] ++ e₀⟩ := by
      refine ⟨by simp, by simp, fun hh => by simp [hh], ?_, fun _ => w₁, fun _ => w₁, fun _ => none, fun _ => e₀, he, rfl,
        by simp, by simp, fun _ => rfl, by simp, by simp, by simp⟩
      rw [List.nil_append, recorded_fst _ _ _ _ _ _ he]
      cases record <;> rfl
    obtain ⟨hj, hc⟩ := gsInv_loop api hapi numSteps tol stepSize record shift w₀ _ _ _ hi h
    obtain ⟨w, u, v, e, h0, hw, hk, hlog, hv0, hv, ht, ha⟩ := hj.trace
    refine ⟨hj.bound, hj.sh, hj.log, w, u, v, e, h0, hk, hw, hlog, ha, fun hlt => ?_⟩
    have hna : ¬ Above s.varE tol := by
      rintro ⟨x, hx, hx'⟩
      unfold gsCond at hc
      rw [hx] at hc
      simp only [hlt, hx', decide_true, Bool.and_self] at hc
      cases hc
    rcases Nat.eq_zero_or_pos s.n with hz | hz
    · left
      refine ⟨hz, ?_⟩
      rw [hv0 hz] at hna
      by_contra hcon
      exact hna ⟨1, rfl, by linarith⟩
    · right
      refine ⟨s.n - 1, by omega, ?_⟩
      rw [← hv (s.n - 1) (by omega)]
      exact hna

/-- **C51**: the search always ends: the only errors are those of the calls it makes. -/
theorem c51_terminates (api : GsApi P O W) (hapi : api.hasSetter = true → api.hasShift = true)
    (hg : ∀ w, ∃ p, api.getParams w = .ok p) (hr : ∀ d p k w, ∃ r, api.rhs d p k w = .ok r)
    (hs : ∀ p w, ∃ w', api.setParams p w = .ok w') (hv : ∀ w, ∃ v, api.variance w = .ok v)
    (hm : ∀ w, ∃ r, api.measure w = .ok r)
    (numSteps : ℤ) (tol stepSize : ℝ) (record : Bool) (shift : ℝ) (w₀ : W) :
    ∃ s, groundStateSearch api numSteps tol stepSize record shift w₀ = .ok s := by
  have meas : ∀ n w (log : List (ℕ × O)), ∃ r, gsMeasure api record n w log = .ok r := by
    intro n w log
    unfold gsMeasure
    obtain ⟨r, hr⟩ := hm w
    rw [hr]
    cases record <;> exact ⟨_, rfl⟩
  have body : ∀ s : GsState O W, (api.hasShift = true → s.delta ≠ none) → ∃ s', gsBody api stepSize record s = .ok s' ∧
      s'.n = s.n + 1 ∧ (api.hasShift = true → s'.delta ≠ none) := by
    intro s hd
    unfold gsBody
    obtain ⟨p, h1⟩ := hg s.w
    obtain ⟨⟨dp, w₁⟩, h2⟩ := hr s.shift p 0 s.w
    obtain ⟨w₂, h3⟩ := hs (p + stepSize • dp) w₁
    obtain ⟨v, h4⟩ := hv w₂
    obtain ⟨⟨w₃, log⟩, h5⟩ := meas (s.n + 1) w₂ s.log
    rw [h1]
    change ∃ s', Except.bind (api.rhs s.shift p 0 s.w) _ = _ ∧ _
    rw [h2]
    change ∃ s', Except.bind (api.setParams (p + stepSize • dp) w₁) _ = _ ∧ _
    rw [h3]
    change ∃ s', Except.bind (api.variance w₂) _ = _ ∧ _
    rw [h4]
    change ∃ s', Except.bind (gsMeasure api record (s.n + 1) w₂ s.log) _ = _ ∧ _
    rw [h5]
    change ∃ s', (if api.hasSetter = true then _ else _) = _ ∧ _
    cases hset : api.hasSetter with
    | false => exact ⟨_, rfl, rfl, hd⟩
    | true =>
      cases hdel : s.delta with
      | none => exact absurd hdel (hd (hapi hset))
      | some d => exact ⟨_, rfl, rfl, fun _ => by simp⟩
  have loop : ∀ (fuel : ℕ) (s : GsState O W), (api.hasShift = true → s.delta ≠ none) → numSteps ≤ s.n + fuel →
      ∃ s', gsLoop api numSteps tol stepSize record fuel s = .ok s' := by
    intro fuel
    induction fuel with
    | zero =>
      intro s _ hf
      unfold gsLoop gsCond
      rw [decide_eq_false (by omega)]
      exact ⟨s, rfl⟩
    | succ fuel ih =>
      intro s hd hf
      unfold gsLoop
      cases hc : gsCond numSteps tol s with
      | false => exact ⟨s, rfl⟩
      | true =>
        obtain ⟨s₁, hb, hn, hd₁⟩ := body s hd
        rw [if_pos rfl, hb]
        exact ih s₁ hd₁ (by omega)
  unfold groundStateSearch
  obtain ⟨⟨w₁, log⟩, h1⟩ := meas 0 w₀ []
  simp only [h1]
  refine loop _ ⟨0, some 1, if api.hasShift then some shift else none, shift, w₁, log⟩ (fun hh => ?_) ?_
  · simp [hh]
  · simp only [Nat.cast_zero, zero_add]
    omega

/-- **C51** for `TDVP` and `NQS` objects, after every history of calls on `psi`: the search sets the
parameters to `θ₁, ..., θₙ`, where `θₖ₊₁ = θₖ + stepSize * uₖ` and `uₖ` is what the TDVP object returns for
`θₖ` with diagonal shift `0.95^k` times the initial one; `θₙ` are the parameters at the end. The variances
that decide about the end are those that the TDVP object stores for `θ₀, ..., θₙ₋₁`; `A k` are its
attributes after `k` calls. What is recorded at step `k` was measured with the parameters `θₖ`. -/
theorem c51_tdvp_partial {n : ℕ} {smp : Type} (env : TdvpEnv n smp) (cfg : TdvpCfg n) (r : ℕ)
    (meas : NqsState → smp → Except PyErr (O × smp)) (numSteps : ℤ) (tol stepSize : ℝ) (record : Bool)
    (p₀ : Params) (hp₀ : (flattenParams p₀).length = n + 1) (ops : List NqsOp) (hops : ∀ op ∈ ops, op.Fits p₀)
    (hinit : nqsRun p₀ ops ≠ none)
    (at₀ : TdvpAttrs n) (sm₀ : smp) (s : GsState O (NqsState × TdvpAttrs n × smp))
    (h : groundStateSearch (tdvpApi env cfg r meas) numSteps tol stepSize record cfg.diagonalShift
      (nqsRun p₀ ops, at₀, sm₀) = .ok s) :
    ∃ (θ u : ℕ → Fin (n + 1) → ℝ) (v : ℕ → Flt ℝ) (A : ℕ → TdvpAttrs n),
      A 0 = at₀ ∧ s.w.2.1 = A s.n ∧
      (getParameters.call (nqsRun p₀ ops)).1 = .ok (some (List.ofFn (θ 0))) ∧
      (∀ k < s.n, θ (k + 1) = θ k + stepSize • u k ∧
        ∃ sm₁ sm₂ ops', (∀ op ∈ ops', op.Fits p₀) ∧
          (getParameters.call (nqsRun p₀ ops')).1 = .ok (some (List.ofFn (θ k))) ∧
          (tdvpCall env { cfg with diagonalShift := 0.95 ^ k * cfg.diagonalShift } r (List.ofFn (θ k)) 0
            (some 0) sm₁ (A k)).call (nqsRun p₀ ops') = (.ok (some (u k), A (k + 1), sm₂), nqsRun p₀ ops') ∧
          ((A (k + 1)).eloc0.map fun x => x.map Prod.snd) = some (v k)) ∧
      s.w.1 = nqsRun p₀ (ops ++ (List.range s.n).map fun k => NqsOp.set (.vec (List.ofFn (θ (k + 1))))) ∧
      (getParameters.call s.w.1).1 = .ok (some (List.ofFn (θ s.n))) ∧
      (∀ k, k + 1 < s.n → Above (v k) tol) ∧
      ((s.n : ℤ) < numSteps → (s.n = 0 ∧ 1 ≤ tol) ∨ ∃ k, k + 1 = s.n ∧ ¬ Above (v k) tol) ∧
      (record = true → ∃ obs : ℕ → O, s.log = (List.range (s.n + 1)).map (fun k => (k, obs k)) ∧
        ∀ k ≤ s.n, ∃ sm₁ sm₂ ops', (∀ op ∈ ops', op.Fits p₀) ∧
          (getParameters.call (nqsRun p₀ ops')).1 = .ok (some (List.ofFn (θ k))) ∧
          meas (nqsRun p₀ ops') sm₁ = .ok (obs k, sm₂)) := by
  obtain ⟨-, -, -, w, u, v, e, h0, hk, hw, hlog, hab, hst⟩ :=
    c51_search_partial (tdvpApi env cfg r meas) (fun _ => rfl) numSteps tol stepSize record cfg.diagonalShift _ s h
  -- recording does not change `psi`
  have hrec : ∀ m (a b : NqsState × TdvpAttrs n × smp) e, Recorded (tdvpApi env cfg r meas) record m a b e →
      b.1 = a.1 ∧ b.2.1 = a.2.1 := by
    intro m a b e hr
    unfold Recorded at hr
    cases record with
    | false => rw [hr.1]; exact ⟨rfl, rfl⟩
    | true =>
      obtain ⟨obs, ho, _⟩ := hr
      change Except.bind (meas a.1 a.2.2) _ = _ at ho
      cases hm : meas a.1 a.2.2 with
      | error e => rw [hm] at ho; cases ho
      | ok x => rw [hm] at ho; cases ho; exact ⟨rfl, rfl⟩
  -- the parameters of a state
  have hget : ∀ ops', (∀ op ∈ ops', op.Fits p₀) → nqsRun p₀ ops' ≠ none → ∃ q : Fin (n + 1) → ℝ,
      (getParameters.call (nqsRun p₀ ops')).1 = .ok (some (List.ofFn q)) := by
    intro ops' hops' hi
    cases hst : nqsRun p₀ ops' with
    | none => exact absurd hst hi
    | some st =>
      have hwf := wf_run p₀ ops' hops' st hst
      have hl : (flattenParams st.params).length = n + 1 := by
        rw [flatten_length_params, hwf.2.2.1, hwf.2.2.2, ← flatten_length_params, hp₀]
      refine ⟨fun i => (flattenParams st.params)[i]'(by omega), ?_⟩
      rw [call_getParameters]
      dsimp only
      congr 2
      apply List.ext_getElem
      · simp [hl]
      · intro i h1 h2
        simp [-List.ofFn_succ]
  -- sequences
  have hset : ∀ ops', (∀ op ∈ ops', op.Fits p₀) → nqsRun p₀ ops' ≠ none → ∀ q : Fin (n + 1) → ℝ,
      (setParameters (.vec (List.ofFn q))).call (nqsRun p₀ ops')
        = (.ok (), nqsRun p₀ (ops' ++ [.set (.vec (List.ofFn q))])) ∧
      nqsRun p₀ (ops' ++ [.set (.vec (List.ofFn q))]) ≠ none ∧
      (getParameters.call (nqsRun p₀ (ops' ++ [.set (.vec (List.ofFn q))]))).1 = .ok (some (List.ofFn q)) := by
    intro ops' hops' hi q
    have happ : nqsRun p₀ (ops' ++ [.set (.vec (List.ofFn q))])
        = ((setParameters (.vec (List.ofFn q))).call (nqsRun p₀ ops')).2 := by
      unfold nqsRun
      rw [List.foldl_append]
      rfl
    have hsg := c22_set_then_get p₀ ops' hops' hi (List.ofFn q) (by simp [hp₀])
    rw [call_bind] at hsg
    cases hc : (setParameters (.vec (List.ofFn q))).call (nqsRun p₀ ops') with
    | mk a b =>
      rw [hc] at hsg happ
      cases a with
      | error e => cases hsg
      | ok x =>
        dsimp only at happ hsg
        rw [happ]
        refine ⟨rfl, ?_, hsg⟩
        intro hb
        rw [hb] at hsg
        cases hsg
  have main : ∀ m ≤ s.n, ∃ (θ u' : ℕ → Fin (n + 1) → ℝ),
      (getParameters.call (nqsRun p₀ ops)).1 = .ok (some (List.ofFn (θ 0))) ∧
      (∀ k < m, θ (k + 1) = θ k + stepSize • u' k ∧
        ∃ sm₁ sm₂ ops', (∀ op ∈ ops', op.Fits p₀) ∧
          (getParameters.call (nqsRun p₀ ops')).1 = .ok (some (List.ofFn (θ k))) ∧
          (tdvpCall env { cfg with diagonalShift := 0.95 ^ k * cfg.diagonalShift } r (List.ofFn (θ k)) 0
            (some 0) sm₁ (w k).2.1).call (nqsRun p₀ ops') = (.ok (some (u' k), (w (k + 1)).2.1, sm₂), nqsRun p₀ ops') ∧
          ((w (k + 1)).2.1.eloc0.map fun x => x.map Prod.snd) = some (v k)) ∧
      (w m).1 = nqsRun p₀ (ops ++ (List.range m).map fun k => NqsOp.set (.vec (List.ofFn (θ (k + 1))))) ∧
      (w m).1 ≠ none ∧
      (getParameters.call (w m).1).1 = .ok (some (List.ofFn (θ m))) ∧
      ∀ k ≤ m, ∃ ops', (∀ op ∈ ops', op.Fits p₀) ∧ (w k).1 = nqsRun p₀ ops' ∧
        (getParameters.call (nqsRun p₀ ops')).1 = .ok (some (List.ofFn (θ k))) := by
    intro m
    induction m with
    | zero =>
      intro _
      obtain ⟨q, hq⟩ := hget ops hops hinit
      have h00 := (hrec _ _ _ _ h0).1
      refine ⟨fun _ => q, fun _ => q, hq, by simp, ?_, ?_, ?_, ?_⟩
      · simpa using h00
      · rw [h00]; exact hinit
      · rw [h00]; exact hq
      · intro k hk0
        obtain rfl : k = 0 := by omega
        exact ⟨ops, hops, h00, hq⟩
    | succ m ih =>
      intro hm
      obtain ⟨θ, u', hθ0, hθ, hwm, hne, hgm, hall⟩ := ih (by omega)
      obtain ⟨⟨p, dp, w₁, e1, e2, e3, e4⟩, hr⟩ := hk m (by omega)
      have hp : p = θ m := by
        unfold tdvpApi at e1
        dsimp only at e1
        rw [hgm] at e1
        simp only [List.length_ofFn, dite_true, Except.ok.injEq] at e1
        rw [← e1]
        funext i
        simp [-List.ofFn_succ]
      subst hp
      have hops' : ∀ op ∈ ops ++ (List.range m).map fun k => NqsOp.set (.vec (List.ofFn (θ (k + 1)))), op.Fits p₀ := by
        intro op hop
        rw [List.mem_append, List.mem_map] at hop
        rcases hop with hop | ⟨k, _, rfl⟩
        · exact hops op hop
        · exact trivial
      -- the call of the TDVP object
      have hcall : ∃ at₂ sm₂, (tdvpCall env { cfg with diagonalShift := 0.95 ^ m * cfg.diagonalShift } r
          (List.ofFn (θ m)) 0 (some 0) (w m).2.2 (w m).2.1).call (w m).1 = (.ok (some dp, at₂, sm₂), (w m).1) ∧
          w₁ = ((w m).1, at₂, sm₂) := by
        unfold tdvpApi at e2
        simp only [if_true] at e2
        have hres := fun a => c44_restores env { cfg with diagonalShift := 0.95 ^ m * cfg.diagonalShift } r
          (List.ofFn (θ m)) 0 (some 0) (w m).2.2 (w m).2.1 p₀ _ hops' a
        rw [← hwm] at hres
        generalize (tdvpCall env { cfg with diagonalShift := 0.95 ^ m * cfg.diagonalShift } r
          (List.ofFn (θ m)) 0 (some 0) (w m).2.2 (w m).2.1).call (w m).1 = c at *
        obtain ⟨a, st⟩ := c
        cases a with
        | error e => cases e2
        | ok x =>
          obtain ⟨ou, at₂, sm₂⟩ := x
          cases ou with
          | none => cases e2
          | some u₁ =>
            dsimp only at e2
            cases e2
            have := hres _ rfl
            dsimp only at this
            subst this
            exact ⟨at₂, sm₂, rfl, rfl⟩
      obtain ⟨at₂, sm₂, hc, rfl⟩ := hcall
      obtain ⟨s1, s2, s3⟩ := hset _ hops' (by rw [← hwm]; exact hne) (θ m + stepSize • dp)
      rw [← hwm] at s1
      unfold tdvpApi at e3
      dsimp only at e3
      rw [s1] at e3
      dsimp only at e3
      have hum : (u m).1 = nqsRun p₀ ((ops ++ (List.range m).map fun k => NqsOp.set (.vec (List.ofFn (θ (k + 1)))))
          ++ [.set (.vec (List.ofFn (θ m + stepSize • dp)))]) := by
        rw [← Except.ok.inj e3]
      have hvm : (at₂.eloc0.map fun x => x.map Prod.snd) = some (v m) := by
        have h2 : (u m).2.1 = at₂ := by rw [← Except.ok.inj e3]
        unfold tdvpApi at e4
        dsimp only at e4
        rw [h2] at e4
        cases hz : at₂.eloc0 with
        | none => rw [hz] at e4; cases e4
        | some x => rw [hz] at e4; exact congrArg some (Except.ok.inj e4)
      have hw1 : (w (m + 1)).1 = (u m).1 := (hrec _ _ _ _ hr).1
      have hw2 : (w (m + 1)).2.1 = at₂ := by rw [(hrec _ _ _ _ hr).2, ← Except.ok.inj e3]
      refine ⟨fun k => if k ≤ m then θ k else θ m + stepSize • dp, fun k => if k < m then u' k else dp, ?_, ?_, ?_, ?_, ?_, ?_⟩
      · simpa using hθ0
      · intro k hkm
        by_cases hlt : k < m
        · simp only [hlt, hlt.le, if_true, show k + 1 ≤ m from hlt]
          exact hθ k hlt
        · have : k = m := by omega
          subst this
          simp only [lt_irrefl, le_refl, if_true, if_false, show ¬ (k + 1 ≤ k) by omega, true_and]
          rw [hw2]
          exact ⟨_, _, _, hops', hwm ▸ hgm, hwm ▸ hc, hvm⟩
      · rw [hw1, hum, List.range_succ, List.map_append, ← List.append_assoc]
        congr 2
        · congr 1
          apply List.map_congr_left
          intro k hk'
          rw [List.mem_range] at hk'
          simp [show k + 1 ≤ m by omega]
        · simp
      · rw [hw1, hum]; exact s2
      · rw [hw1, hum, s3]; simp
      · intro k hkm
        by_cases hle : k ≤ m
        · simp only [hle, if_true]
          exact hall k hle
        · obtain rfl : k = m + 1 := by omega
          simp only [show ¬ (m + 1 ≤ m) by omega, if_false]
          refine ⟨_, ?_, hw1.trans hum, s3⟩
          intro op hop
          rcases List.mem_append.1 hop with hop | hop
          · exact hops' op hop
          · rw [List.mem_singleton.1 hop]
            exact trivial
  obtain ⟨θ, u', a, b, c, d, f, g⟩ := main s.n le_rfl
  rw [hw]
  refine ⟨θ, u', v, fun k => (w k).2.1, (hrec _ _ _ _ h0).2, rfl, a, b, c, f, hab, hst, ?_⟩
  rintro rfl
  -- what was recorded
  have hone : ∀ k ≤ s.n, ∃ obs, e k = [(k, obs)] ∧ ∃ sm₁ sm₂, meas (w k).1 sm₁ = .ok (obs, sm₂) := by
    have key : ∀ k (x y : NqsState × TdvpAttrs n × smp) e, Recorded (tdvpApi env cfg r meas) true k x y e →
        ∃ obs, e = [(k, obs)] ∧ ∃ sm₁ sm₂, meas y.1 sm₁ = .ok (obs, sm₂) := by
      intro k x y e hr
      have hy := (hrec _ _ _ _ hr).1
      obtain ⟨obs, ho, he⟩ := hr
      refine ⟨obs, he, x.2.2, ?_⟩
      rw [hy]
      change Except.bind (meas x.1 x.2.2) _ = _ at ho
      cases hm : meas x.1 x.2.2 with
      | error e => rw [hm] at ho; cases ho
      | ok z => rw [hm] at ho; cases ho; exact ⟨_, rfl⟩
    intro k hkn
    cases k with
    | zero => exact key _ _ _ _ h0
    | succ k => exact key _ _ _ _ (hk k (by omega)).2
  have hch : ∃ obs : ℕ → O, ∀ k ≤ s.n, e k = [(k, obs k)] ∧ ∃ sm₁ sm₂, meas (w k).1 sm₁ = .ok (obs k, sm₂) := by
    obtain ⟨o₀, -⟩ := hone 0 (by omega)
    have : ∀ k, ∃ obs, k ≤ s.n → e k = [(k, obs)] ∧ ∃ sm₁ sm₂, meas (w k).1 sm₁ = .ok (obs, sm₂) := by
      intro k
      by_cases hkn : k ≤ s.n
      · obtain ⟨o, ho⟩ := hone k hkn
        exact ⟨o, fun _ => ho⟩
      · exact ⟨o₀, fun h => absurd h hkn⟩
    choose obs hobs using this
    exact ⟨obs, hobs⟩
  obtain ⟨obs, hobs⟩ := hch
  refine ⟨obs, ?_, ?_⟩
  · rw [hlog, List.map_congr_left (g := fun k => [(k, obs k)])
      (fun k hk' => (hobs k (by rw [List.mem_range] at hk'; omega)).1)]
    rw [← List.flatMap_def]
    generalize List.range (s.n + 1) = l
    induction l with
    | nil => rfl
    | cons x l ih => rw [List.flatMap_cons, ih]; rfl
  · intro k hkn
    obtain ⟨ops', h1, h2, h3⟩ := g k hkn
    obtain ⟨-, sm₁, sm₂, h4⟩ := hobs k hkn
    exact ⟨sm₁, sm₂, ops', h1, h3, h2 ▸ h4⟩

/-- **C51**: "stops earlier only if the last energy variance is at most the tolerance" fails for
tolerances of at least one: `varE` starts as `1.0` without a measurement, and no update is done although
every energy variance is 5 and the tolerance 2. -/
theorem c51_tolerance_violated : ∃ (api : GsApi ℝ Unit ℝ) (s : GsState Unit ℝ),
    (∀ w, api.variance w = .ok (some 5)) ∧
    groundStateSearch api 100 2 0.01 false 0 3 = .ok s ∧ s.n = 0 ∧ s.w = 3 := by
  let api : GsApi ℝ Unit ℝ := ⟨true, true, fun w => .ok w, fun _ p _ w => .ok (-p, w), fun p _ => .ok p,
    fun _ => .ok (some 5), fun w => .ok ((), w)⟩
  refine ⟨api, ⟨0, some 1, some 0, 0, 3, []⟩, fun _ => rfl, ?_, rfl, rfl⟩
  unfold groundStateSearch
  change gsLoop api 100 2 0.01 false 100 ⟨0, some 1, some 0, 0, 3, []⟩ = _
  unfold gsLoop gsCond
  norm_num

/-- **C51**: a NaN energy variance stops the search although it is not at most the tolerance. -/
theorem c51_nan_violated : ∃ (api : GsApi ℝ Unit ℝ) (s : GsState Unit ℝ),
    (∀ w, api.variance w = .ok none) ∧
    groundStateSearch api 100 0.001 0.5 false 0 3 = .ok s ∧ s.n = 1 ∧ s.varE = none := by
  let api : GsApi ℝ Unit ℝ := ⟨true, true, fun w => .ok w, fun _ p _ w => .ok (-p, w), fun p _ => .ok p,
    fun _ => .ok none, fun w => .ok ((), w)⟩
  refine ⟨api, ⟨1, none, some (0.95 * 0), 0.95 * 0, 3 + (0.5 : ℝ) • (-3), []⟩, fun _ => rfl, ?_, rfl, rfl⟩
  unfold groundStateSearch
  change gsLoop api 100 0.001 0.5 false 100 ⟨0, some 1, some 0, 0, 3, []⟩ = _
  unfold gsLoop
  rw [if_pos (by unfold gsCond; norm_num)]
  change gsLoop api 100 0.001 0.5 false 99 ⟨1, none, some (0.95 * 0), 0.95 * 0, 3 + (0.5 : ℝ) • (-3), []⟩ = _
  unfold gsLoop gsCond
  simp

/-- Case: a search with recorded observables; three steps are done, and the parameter decays. -/
example : ∃ s : GsState ℝ ℝ, groundStateSearch (P := ℝ) ⟨true, true, fun w => .ok w, fun _ p _ w => .ok (-p, w), fun p _ => .ok p,
    fun w => .ok (some (w ^ 2)), fun w => .ok (w, w)⟩ 3 0.001 0.5 true 10 8 = .ok s ∧ s.n = 3 ∧ s.w = 1 ∧
    s.log = [(0, 8), (1, 4), (2, 2), (3, 1)] := by
  refine ⟨⟨3, some 1, some (0.95 * (0.95 * (0.95 * 10))), 0.95 * (0.95 * (0.95 * 10)), 1, [(0, 8), (1, 4), (2, 2), (3, 1)]⟩,
    ?_, rfl, rfl, rfl⟩
  simp only [groundStateSearch, gsMeasure, bind, Except.bind, pure, Except.pure, show (3 : ℤ).toNat = 3 from rfl,
    gsLoop, gsBody, gsCond, smul_eq_mul]
  norm_num

end JVMC
