import Verif.Lemmas.MinsrSearch
import Verif.Props.Converges

/-!
# C110 — ground state searches with MinSR

`ground_state_search` with a `MinSR` object: which steps it makes, and how the energy changes, for holomorphic
networks; what becomes of real networks.
-/

namespace JVMC

open Spec Matrix

variable {C : Type} [Fintype C] [DecidableEq C] {kernel : C → List (C × ℂ)} {O : Matrix C C ℂ} {n : ℕ}
  {smp : Type} {ε : ℝ} {logPsi : (Fin (n + 1) → ℝ) → C → ℂ} {θ : Fin (n + 1) → ℝ}

/-- The parameters are the real and imaginary parts of complex ones, leaf by leaf (the real parts of a leaf, then
its imaginary parts), and the log-amplitudes are holomorphic in these: Cauchy-Riemann equations. -/
def CauchyRiemann (sizes : List ℕ) (logPsi : (Fin (n + 1) → ℝ) → C → ℂ) : Prop :=
  ∀ θ s (a b : Fin (n + 1)), isReIdx sizes a = true → (b : ℕ) = partnerIdx sizes a →
    fderiv ℝ (fun p => logPsi p s) θ (Pi.single b 1) = Complex.I * fderiv ℝ (fun p => logPsi p s) θ (Pi.single a 1)

/-- What all theorems assume: samples of relative error `ε` and an eigensolver that does its job. -/
structure MinsrSetting (ε : ℝ) (kernel : C → List (C × ℂ)) (O : Matrix C C ℂ)
    (logPsi : (Fin (n + 1) → ℝ) → C → ℂ) (env : TdvpEnv n smp) (cfg : MinSRCfg) (r : ℕ) (p₀ : Params) : Prop where
  error : ε < 1
  samples : SampledWithin ε kernel O logPsi env r
  eigh : cfg.EighCorrect
  tol : 0 ≤ cfg.pinvTol
  number : (flattenParams p₀).length = n + 1
  complex : p₀.isReal = false
  holomorphic : CauchyRiemann p₀.sizes logPsi

/-- The cutoff `pinvTol` removes no non-zero eigenvalue. -/
def NoCutoff (env : TdvpEnv n smp) (cfg : MinSRCfg) : Prop :=
  ∀ p sm t joint sm', env.measure p sm t = .ok (joint, sm') → SpectrumAbove (kernelOf (allSamples joint)) cfg.pinvTol

variable {env : TdvpEnv n smp} {cfg : MinSRCfg} {r : ℕ} {p₀ : Params}

/-- C110: what a complex update does to a complex network: a complex parameter `a + i b`, whose parts `a` and `b`
are positions of the update, changes by `u_a + i u_b`. Here the update consists of the vectors `xy.1` and `xy.2` for
the real and the imaginary parts of every leaf. -/
theorem c110_update (XY : List (List ℂ × List ℂ)) (hXY : ∀ xy ∈ XY, xy.1.length = xy.2.length)
    (u : Fin (n + 1) → ℂ) (hu : List.ofFn u = XY.flatMap fun xy => xy.1 ++ xy.2) :
    List.ofFn (foldedVelocity (XY.map fun xy => xy.1.length) u)
      = flattenParams (.cpx (XY.map fun xy => List.zipWith (fun a b => a + Complex.I * b) xy.1 xy.2)) := by
  set sizes := XY.map fun xy => xy.1.length with hs
  have key : ∀ (XY : List (List ℂ × List ℂ)) (pre post : List ℂ), (∀ xy ∈ XY, xy.1.length = xy.2.length) →
      unflattenCpxC (XY.map fun xy => xy.1.length) pre.length (pre ++ ((XY.flatMap fun xy => xy.1 ++ xy.2) ++ post))
        = .ok (XY.map fun xy => List.zipWith (fun a b => a + Complex.I * b) xy.1 xy.2) ∧
      (XY.flatMap fun xy => xy.1 ++ xy.2).length = 2 * (XY.map fun xy => xy.1.length).sum := by
    intro XY
    induction XY with
    | nil => exact fun pre post _ => ⟨rfl, rfl⟩
    | cons xy rest ih =>
      intro pre post h
      obtain ⟨x, y⟩ := xy
      have hxy : x.length = y.length := h (x, y) List.mem_cons_self
      obtain ⟨h1, h2⟩ := ih (pre ++ (x ++ y)) post fun z hz => h z (List.mem_cons_of_mem _ hz)
      refine ⟨?_, ?_⟩
      · simp only [List.map_cons, List.flatMap_cons, unflattenCpxC]
        have s1 := pySlice_mid pre x (y ++ ((rest.flatMap fun xy => xy.1 ++ xy.2) ++ post))
        have s2 := pySlice_mid (pre ++ x) y ((rest.flatMap fun xy => xy.1 ++ xy.2) ++ post)
        rw [List.length_append, ← hxy, add_assoc, ← two_mul] at s2
        have s4 : addImagC x y = .ok (List.zipWith (fun a b => a + Complex.I * b) x y) := by
          unfold addImagC
          rw [if_pos hxy]
        rw [List.length_append, List.length_append, ← hxy, ← two_mul] at h1
        simp only [List.append_assoc] at s1 s2 h1 ⊢
        rw [s1, s2, s4, h1]
        show (reshapeTo x.length _ >>= fun leaf => (Except.ok _ >>= fun rest => pure (leaf :: rest))) = _
        rw [show reshapeTo x.length (List.zipWith (fun a b => a + Complex.I * b) x y)
          = .ok (List.zipWith (fun a b => a + Complex.I * b) x y) by simp [reshapeTo, hxy]]
        rfl
      · rw [List.flatMap_cons, List.length_append, h2, List.length_append, ← hxy, List.map_cons, List.sum_cons]
        ring
  obtain ⟨k1, k2⟩ := key XY [] [] hXY
  rw [← hu, ← hs] at k1 k2
  obtain ⟨L, h1, h2, h3⟩ := unflattenCpxC_ok sizes [] (List.ofFn u) [] k2
  have hL := Except.ok.inj (h1.symm.trans k1)
  have h4 := flatC_eq_folded k2 h2 h3
  rw [hL] at h4
  change _ = flatC _
  rw [h4, List.length_ofFn]
  apply List.ext_getElem
  · simp
  · intro k h1 h2
    simp [-List.ofFn_succ, foldedVelocity]

/-! ## One step -/

/-- What a call returns. -/
theorem minsr_step [Nonempty C] (hset : MinsrSetting ε kernel O logPsi env cfg r p₀) {ops : List NqsOp}
    (hops : ∀ op ∈ ops, op.Fits p₀) (hinit : nqsRun p₀ ops ≠ none) {t : ℝ} {sm sm' : smp} {at₀ at₁ : MinSRAttrs}
    {st' : NqsState} {u : Fin (n + 1) → ℂ}
    (h : (minsrCall env cfg r (List.ofFn θ) t (some 0) sm at₀).call (nqsRun p₀ ops) = (.ok (u, at₁, sm'), st')) :
    ∃ grads w, SampledStep ε kernel O logPsi θ grads w ∧
      (foldedVelocity p₀.sizes u = fun k => 2 * (u k).re) ∧
      (∃ E var, at₁ = some (E, var) ∧ (1 - ε) * varianceAt O logPsi θ ≤ var ∧ var ≤ (1 + ε) * varianceAt O logPsi θ) ∧
      ∃ l, l = allSamples (tdvpJoint O (fun c => Complex.exp (logPsi θ c)) grads w) ∧
        tdvpDistance l 1 (foldedVelocity p₀.sizes u) + tdvpDistance l 0 (foldedVelocity p₀.sizes u)
          = tdvpDistance l 1 0 ∧
        (NoCutoff env cfg → ∀ y : Fin (n + 1) → ℝ, tdvpDistance l 1 (foldedVelocity p₀.sizes u) ≤ tdvpDistance l 1 y) := by
  obtain ⟨st, hst⟩ := Option.ne_none_iff_exists'.mp hinit
  have hw := wf_run p₀ ops hops st hst
  obtain ⟨q, hq', -, -, hq3⟩ := paramUnflatten_ok st.realParams st.sizes (List.ofFn θ)
    (by rw [List.length_ofFn, hw.1, hw.2.1, ← flatten_length_params, hset.number])
  have h' := h
  rw [hst] at h'
  obtain ⟨p, joint, E, G, p', hp, hm, hd, hs, -, -, -, -⟩ := minsrCall_ok env cfg r _ t (some 0) sm sm' at₀ at₁ st st' u h'
  obtain rfl := Except.ok.inj (hq'.symm.trans hp)
  obtain ⟨grads, w, hstep, hr, hj⟩ := hset.samples θ q sm t hq3 joint sm' hm
  have hcut := fun hc : NoCutoff env cfg => hc q sm t joint sm' hm
  subst hj
  have hi : TdvpInput (tdvpJoint O (fun c => Complex.exp (logPsi θ c)) grads w) r E G :=
    ⟨World.map_ne _ _ hstep.samples.devices, by
      intro s hs
      unfold tdvpJoint at hs
      rw [allSamples_wmap] at hs
      obtain ⟨y, hy, rfl⟩ := List.mem_map.mp hs
      exact hstep.nonneg y hy, by simpa [tdvpJoint, World.map] using hr, hd⟩
  have hlen : n + 1 = 2 * p₀.sizes.sum := by
    rw [← hset.number, flatten_length_params, hset.complex]
    rfl
  have hspec := fun k : Fin (n + 1) => partnerIdx_spec p₀.sizes k (by have := k.isLt; omega)
  have hpair : IsPairing (m := n + 1) (fun k => ⟨partnerIdx p₀.sizes k, by have := (hspec k).1; omega⟩)
      (fun k => isReIdx p₀.sizes k) :=
    ⟨fun k => Fin.ext (hspec k).2.1, fun k => (hspec k).2.2⟩
  have hholo : ∀ s ∈ allSamples (tdvpJoint O (fun c => Complex.exp (logPsi θ c)) grads w),
      HoloGrad (m := n + 1) (fun k => ⟨partnerIdx p₀.sizes k, by have := (hspec k).1; omega⟩)
        (fun k => isReIdx p₀.sizes k) s.2.2 := by
    intro s hs k hk
    unfold tdvpJoint at hs
    rw [allSamples_wmap] at hs
    obtain ⟨y, hy, rfl⟩ := List.mem_map.mp hs
    change grads y.1 _ = Complex.I * grads y.1 k
    rw [hstep.gradients, hstep.gradients]
    exact hset.holomorphic θ y.1 k _ hk rfl
  have hvar := sampled_variance hstep hset.error.le
  set l := allSamples (tdvpJoint O (fun c => Complex.exp (logPsi θ c)) grads w) with hl
  have hu := Except.ok.inj (hs.symm.trans (minsrSolve_eq cfg r _ E G hi))
  rw [← hl] at hu
  obtain ⟨hpar, hmove⟩ := real_velocity hpair l hholo _ hu
  have hv : foldedVelocity p₀.sizes u = fun k => 2 * (u k).re := by
    funext k
    unfold foldedVelocity foldedEntry
    have hk1 : (List.ofFn u).getD k 0 = u k := by
      rw [List.getD_eq_getElem _ _ (by rw [List.length_ofFn]; exact k.isLt), List.getElem_ofFn]
    have hk2 : (List.ofFn u).getD (partnerIdx p₀.sizes k) 0 = u ⟨partnerIdx p₀.sizes k, by have := (hspec k).1; omega⟩ := by
      rw [List.getD_eq_getElem _ _ (by rw [List.length_ofFn]; have := (hspec k).1; omega), List.getElem_ofFn]
    have hk3 := hpar k
    rw [hk1, hk2, hk3]
    unfold holoSign
    dsimp only
    split_ifs <;> simp <;> ring
  rw [hv]
  refine ⟨grads, w, hstep, rfl, ?_, l, rfl, minsr_pythagoras cfg hset.eigh hset.tol l hi.weights _ hu hmove, ?_⟩
  · obtain ⟨u', -, hcall⟩ := c72_call env cfg r (List.ofFn θ) t (some 0) sm sm' at₀ p₀ ops hops st hst q hq' _ hm E G hi
    rw [h, if_pos rfl] at hcall
    have hat := (Prod.mk.inj (Prod.mk.inj (Except.ok.inj hcall)).2).1
    exact ⟨_, _, hat, hvar.1, hvar.2⟩
  · intro hc y
    have h1 := c47_least_squares_partial cfg hset.eigh hset.tol r _ E G hi (hcut hc) u (fun k => (y k : ℂ)) hs
    rw [← hl, stepDistance_eq _ hi.weights, stepDistance_eq _ hi.weights, ← hmove] at h1
    have h2 : ∀ z : Fin (n + 1) → ℝ, tdvpDistance l 1 z = euclid ((sampleX l *ᵥ fun k => (z k : ℂ)) + sampleE l) ^ 2 := by
      intro z
      rw [tdvpDistance_array l hi.weights]
      unfold euclid
      rw [Real.sq_sqrt (Finset.sum_nonneg fun i _ => Complex.normSq_nonneg _)]
      simp only [one_mul, Pi.add_apply]
    rw [h2, h2]
    exact h1

omit [DecidableEq C] in
theorem offRay_nonneg (ψ φ : C → ℂ) : 0 ≤ offRay ψ φ := by
  unfold offRay
  exact div_nonneg (Finset.sum_nonneg fun _ _ => Complex.normSq_nonneg _)
    (Finset.sum_nonneg fun _ _ => Complex.normSq_nonneg _)

/-- The rate of change of the energy in the direction that a call returns. -/
theorem minsr_call_rate [Nonempty C] (hset : MinsrSetting ε kernel O logPsi env cfg r p₀) {ops : List NqsOp}
    (hops : ∀ op ∈ ops, op.Fits p₀) (hinit : nqsRun p₀ ops ≠ none) {t : ℝ} {sm sm' : smp} {at₀ at₁ : MinSRAttrs}
    {st' : NqsState} {u : Fin (n + 1) → ℂ}
    (h : (minsrCall env cfg r (List.ofFn θ) t (some 0) sm at₀).call (nqsRun p₀ ops) = (.ok (u, at₁, sm'), st')) :
    O.IsHermitian ∧ 0 ≤ ε ∧
    ∃ e : ℝ, HasDerivAt (fun τ : ℝ => Spec.expect O fun c =>
        Complex.exp (logPsi (θ + τ • foldedVelocity p₀.sizes u) c)) (e : ℂ) 0 ∧
      e ≤ -(2 * ((1 - ε) * speedAt logPsi θ (foldedVelocity p₀.sizes u)))
        + 2 * ε * (√(speedAt logPsi θ (foldedVelocity p₀.sizes u)) * √(varianceAt O logPsi θ)) ∧
      ∀ δ, NoCutoff env cfg → (∃ y : Fin (n + 1) → ℝ, offRay (fun c => Complex.exp (logPsi θ c)) (fun s =>
          stateVelocity logPsi θ y s + 1 * (O *ᵥ fun c => Complex.exp (logPsi θ c)) s)
            ≤ δ * varianceAt O logPsi θ) →
        e ≤ -(2 * ((1 / (1 + ε) - δ / (1 - ε)) * varianceAt O logPsi θ)) := by
  obtain ⟨grads, w, hstep, -, -, l, hl, hpyth, hbest⟩ := minsr_step hset hops hinit h
  have hε := hset.error
  have h0 := hstep.eps_nonneg
  set v := foldedVelocity p₀.sizes u with hv
  obtain ⟨e, hd, hn⟩ := rate_near hstep hε.le v
  refine ⟨hstep.hermitian, h0, e, hd, ?_, ?_⟩
  · have hL := (sampled_offRay hstep hε.le 0 v).1
    simp only [zero_mul, add_zero] at hL
    change (1 - ε) * speedAt logPsi θ v ≤ _ at hL
    change |e - _| ≤ 2 * ε * (√(speedAt logPsi θ v) * √(varianceAt O logPsi θ)) at hn
    rw [← hl] at hL hn
    rw [minsr_rate hpyth] at hn
    have := (abs_le.mp hn).2
    linarith
  · rintro δ hc ⟨y, hy⟩
    have hee : e = _ := Complex.ofReal_injective (hd.unique (rate_exact hstep v))
    rw [hee]
    have h1 := (sampled_offRay hstep hε.le 1 v).1
    have h2 := (sampled_offRay hstep hε.le 1 y).2
    have h3 := (sampled_offRay hstep hε.le 1 0).1
    have h4 := (sampled_offRay hstep hε.le 0 v).2
    rw [sampled_still hstep 1, map_one, one_mul] at h3
    simp only [zero_mul, add_zero] at h4
    change (1 - ε) * varianceAt O logPsi θ ≤ _ at h3
    change _ ≤ (1 + ε) * speedAt logPsi θ v at h4
    rw [← hl] at h1 h2 h3 h4
    have h5 := hbest hc y
    set var := varianceAt O logPsi θ
    have h6 := mul_le_mul_of_nonneg_left hy (show 0 ≤ 1 + ε by linarith)
    have h7 : offRay (fun c => Complex.exp (logPsi θ c)) (fun s => stateVelocity logPsi θ v s
        + 1 * (O *ᵥ fun c => Complex.exp (logPsi θ c)) s) ≤ (1 + ε) * (δ * var) / (1 - ε) := by
      rw [le_div_iff₀ (by linarith)]
      linarith
    have h8 : ((1 - ε) * var - (1 + ε) * (δ * var)) / (1 + ε) ≤ speedAt logPsi θ v := by
      rw [div_le_iff₀ (by linarith)]
      linarith
    have h9 : -(2 * ((1 / (1 + ε) - δ / (1 - ε)) * var))
        = (1 + ε) * (δ * var) / (1 - ε) - var - ((1 - ε) * var - (1 + ε) * (δ * var)) / (1 + ε) := by
      have : (1 : ℝ) - ε ≠ 0 := by linarith
      have : (1 : ℝ) + ε ≠ 0 := by linarith
      field_simp
      ring
    rw [h9]
    linarith

/-! ## The search -/

/-- The steps of a search: the parameters `θ 0, ..., θ N`, and the updates `u k` which the MinSR object returns
for `θ k`; its attributes are `A k` before and `A (k + 1)` after this call. -/
def MinsrSteps (env : TdvpEnv n smp) (cfg : MinSRCfg) (r : ℕ) (p₀ : Params) (stepSize : ℝ) (N : ℕ)
    (θ : ℕ → Fin (n + 1) → ℝ) (u : ℕ → Fin (n + 1) → ℂ) (A : ℕ → MinSRAttrs) : Prop :=
  ∀ k < N, θ (k + 1) = θ k + stepSize • foldedVelocity p₀.sizes (u k) ∧
    ∃ sm₁ sm₂ ops', (∀ op ∈ ops', op.Fits p₀) ∧
      (getParameters.call (nqsRun p₀ ops')).1 = .ok (some (List.ofFn (θ k))) ∧
      (minsrCall env cfg r (List.ofFn (θ k)) 0 (some 0) sm₁ (A k)).call (nqsRun p₀ ops')
        = (.ok (u k, A (k + 1), sm₂), nqsRun p₀ ops')

/-- C110 for complex networks: when `ground_state_search` returns after `s.n` steps, there are parameters `θ 0, ...,
θ s.n` from the initial to the final ones, each set by one step from the one before with the update `u k` that the
MinSR object returns (`foldedVelocity`: see `c110_update`). It stops when the last variance is not above the
tolerance, or after `numSteps` steps. -/
theorem c110_steps_partial {Q : Type} (env : TdvpEnv n smp) (cfg : MinSRCfg) (r : ℕ)
    (meas : NqsState → smp → Except PyErr (Q × smp)) (numSteps : ℤ) (tol stepSize : ℝ) (record : Bool) (shift : ℝ)
    (p₀ : Params) (hp₀ : (flattenParams p₀).length = n + 1) (hc : p₀.isReal = false) (ops : List NqsOp)
    (hops : ∀ op ∈ ops, op.Fits p₀) (hinit : nqsRun p₀ ops ≠ none) (at₀ : MinSRAttrs) (sm₀ : smp)
    (s : GsState Q (NqsState × MinSRAttrs × smp))
    (h : groundStateSearch (minsrApi env cfg r meas) numSteps tol stepSize record shift (nqsRun p₀ ops, at₀, sm₀)
      = .ok s) :
    ∃ (θ : ℕ → Fin (n + 1) → ℝ) (u : ℕ → Fin (n + 1) → ℂ) (A : ℕ → MinSRAttrs),
      MinsrSteps env cfg r p₀ stepSize s.n θ u A ∧ A 0 = at₀ ∧ s.w.2.1 = A s.n ∧
      (getParameters.call (nqsRun p₀ ops)).1 = .ok (some (List.ofFn (θ 0))) ∧
      (getParameters.call s.w.1).1 = .ok (some (List.ofFn (θ s.n))) ∧
      s.w.1 = nqsRun p₀ (ops ++ (List.range s.n).map fun k => NqsOp.set (.vec (List.ofFn (θ (k + 1))))) ∧
      (s.n : ℤ) ≤ max numSteps 0 ∧
      (∀ k, k + 1 < s.n → ∃ E var, A (k + 1) = some (E, var) ∧ tol < var) ∧
      ((s.n : ℤ) < numSteps → (s.n = 0 ∧ 1 ≤ tol) ∨
        ∃ k, k + 1 = s.n ∧ ∃ E var, A (k + 1) = some (E, var) ∧ var ≤ tol) := by
  obtain ⟨hnb, -, -, w, u, v, e, h0, hk, hw, -, hab, hst⟩ :=
    c51_search_partial (minsrApi env cfg r meas) (fun h => by cases h) numSteps tol stepSize record shift _ s h
  have hlen : n + 1 = 2 * p₀.sizes.sum := by
    rw [← hp₀, flatten_length_params, hc]
    rfl
  have hrec : ∀ m (a b : NqsState × MinSRAttrs × smp) e, Recorded (minsrApi env cfg r meas) record m a b e →
      b.1 = a.1 ∧ b.2.1 = a.2.1 := by
    intro m a b e hr
    unfold Recorded at hr
    cases record with
    | false => rw [hr.1]; exact ⟨rfl, rfl⟩
    | true =>
      obtain ⟨obs, ho, _⟩ := hr
      change Except.bind (meas a.1 a.2.2) _ = _ at ho
      cases hm : meas a.1 a.2.2 with
      | error e => rw [hm] at ho; cases ho
      | ok x => rw [hm] at ho; cases ho; exact ⟨rfl, rfl⟩
  have hget : ∀ ops', (∀ op ∈ ops', op.Fits p₀) → nqsRun p₀ ops' ≠ none → ∃ q : Fin (n + 1) → ℝ,
      (getParameters.call (nqsRun p₀ ops')).1 = .ok (some (List.ofFn q)) := by
    intro ops' hops' hi
    cases hst : nqsRun p₀ ops' with
    | none => exact absurd hst hi
    | some st =>
      have hwf := wf_run p₀ ops' hops' st hst
      have hl : (flattenParams st.params).length = n + 1 := by
        rw [flatten_length_params, hwf.2.2.1, hwf.2.2.2, ← flatten_length_params, hp₀]
      refine ⟨fun i => (flattenParams st.params)[i]'(by omega), ?_⟩
      rw [call_getParameters]
      dsimp only
      congr 2
      apply List.ext_getElem
      · simp [hl]
      · intro i h1 h2
        simp [-List.ofFn_succ]
  have hset : ∀ ops', (∀ op ∈ ops', op.Fits p₀) → nqsRun p₀ ops' ≠ none → ∀ q : Fin (n + 1) → ℝ,
      nqsRun p₀ (ops' ++ [.set (.vec (List.ofFn q))]) ≠ none ∧
      (getParameters.call (nqsRun p₀ (ops' ++ [.set (.vec (List.ofFn q))]))).1 = .ok (some (List.ofFn q)) := by
    intro ops' hops' hi q
    have happ : nqsRun p₀ (ops' ++ [.set (.vec (List.ofFn q))])
        = ((setParameters (.vec (List.ofFn q))).call (nqsRun p₀ ops')).2 := by
      unfold nqsRun
      rw [List.foldl_append]
      rfl
    have hsg := c22_set_then_get p₀ ops' hops' hi (List.ofFn q) (by simp [hp₀])
    rw [call_bind] at hsg
    cases hc : (setParameters (.vec (List.ofFn q))).call (nqsRun p₀ ops') with
    | mk a b =>
      rw [hc] at hsg happ
      cases a with
      | error e => cases hsg
      | ok x =>
        dsimp only at happ hsg
        rw [happ]
        refine ⟨?_, hsg⟩
        intro hb
        rw [hb] at hsg
        cases hsg
  have main : ∀ m ≤ s.n, ∃ (θ : ℕ → Fin (n + 1) → ℝ) (u' : ℕ → Fin (n + 1) → ℂ),
      (getParameters.call (nqsRun p₀ ops)).1 = .ok (some (List.ofFn (θ 0))) ∧
      (∀ k < m, θ (k + 1) = θ k + stepSize • foldedVelocity p₀.sizes (u' k) ∧
        ∃ sm₁ sm₂ ops', (∀ op ∈ ops', op.Fits p₀) ∧
          (getParameters.call (nqsRun p₀ ops')).1 = .ok (some (List.ofFn (θ k))) ∧
          (minsrCall env cfg r (List.ofFn (θ k)) 0 (some 0) sm₁ (w k).2.1).call (nqsRun p₀ ops')
            = (.ok (u' k, (w (k + 1)).2.1, sm₂), nqsRun p₀ ops') ∧
          ((w (k + 1)).2.1.map fun x => some x.2) = some (v k)) ∧
      (w m).1 = nqsRun p₀ (ops ++ (List.range m).map fun k => NqsOp.set (.vec (List.ofFn (θ (k + 1))))) ∧
      (w m).1 ≠ none ∧
      (getParameters.call (w m).1).1 = .ok (some (List.ofFn (θ m))) := by
    intro m
    induction m with
    | zero =>
      intro _
      obtain ⟨q, hq⟩ := hget ops hops hinit
      have h00 := (hrec _ _ _ _ h0).1
      refine ⟨fun _ => q, fun _ _ => 0, hq, by simp, ?_, ?_, ?_⟩
      · simpa using h00
      · rw [h00]; exact hinit
      · rw [h00]; exact hq
    | succ m ih =>
      intro hm
      obtain ⟨θ, u', hθ0, hθ, hwm, hne, hgm⟩ := ih (by omega)
      obtain ⟨⟨p, dp, w₁, e1, e2, e3, e4⟩, hr⟩ := hk m (by omega)
      have hp : p = fun i => ((θ m i : ℝ) : ℂ) := by
        unfold minsrApi at e1
        dsimp only at e1
        rw [hgm] at e1
        cases hwm1 : (w m).1 with
        | none => exact absurd hwm1 hne
        | some st =>
          rw [hwm1] at e1
          dsimp only at e1
          split_ifs at e1 with h1
          simp only [Except.ok.injEq] at e1
          rw [← e1]
          funext i
          simp [-List.ofFn_succ]
      subst hp
      have hops' : ∀ op ∈ ops ++ (List.range m).map fun k => NqsOp.set (.vec (List.ofFn (θ (k + 1)))), op.Fits p₀ := by
        intro op hop
        rw [List.mem_append, List.mem_map] at hop
        rcases hop with hop | ⟨k, _, rfl⟩
        · exact hops op hop
        · exact trivial
      have hcall : ∃ at₂ sm₂, (minsrCall env cfg r (List.ofFn (θ m)) 0 (some 0) (w m).2.2 (w m).2.1).call (w m).1
            = (.ok (dp, at₂, sm₂), (w m).1) ∧ w₁ = ((w m).1, at₂, sm₂) := by
        unfold minsrApi at e2
        dsimp only at e2
        simp only [Complex.ofReal_re] at e2
        have hres := fun a => c72_restores env cfg r (List.ofFn (θ m)) 0 (some 0) (w m).2.2 (w m).2.1 p₀ _ hops' a
        rw [← hwm] at hres
        change (match (minsrCall env cfg r (List.ofFn (θ m)) 0 (some 0) (w m).2.2 (w m).2.1).call (w m).1 with
          | (.error e, _) => Except.error e
          | (.ok (u, at₁, sm), st) => .ok (u, (st, at₁, sm))) = _ at e2
        generalize (minsrCall env cfg r (List.ofFn (θ m)) 0 (some 0) (w m).2.2 (w m).2.1).call (w m).1 = c at *
        obtain ⟨a, st⟩ := c
        cases a with
        | error e => cases e2
        | ok x =>
          obtain ⟨u₁, at₂, sm₂⟩ := x
          dsimp only at e2
          cases e2
          have := hres _ rfl
          dsimp only at this
          subst this
          exact ⟨at₂, sm₂, rfl, rfl⟩
      obtain ⟨at₂, sm₂, hcl, rfl⟩ := hcall
      have s1 := setC_call hp₀ hc hops' (by rw [← hwm]; exact hne)
        ((fun i => ((θ m i : ℝ) : ℂ)) + stepSize • dp)
      rw [show (fun k : Fin (n + 1) => foldedEntry p₀.sizes (List.ofFn ((fun i => ((θ m i : ℝ) : ℂ)) + stepSize • dp)) k)
        = θ m + stepSize • foldedVelocity p₀.sizes dp from funext (foldedEntry_step p₀.sizes (θ m) stepSize dp hlen)] at s1
      obtain ⟨s2, s3⟩ := hset _ hops' (by rw [← hwm]; exact hne) (θ m + stepSize • foldedVelocity p₀.sizes dp)
      rw [← hwm] at s1
      unfold minsrApi at e3
      dsimp only at e3
      rw [s1] at e3
      dsimp only at e3
      have hum : (u m).1 = nqsRun p₀ ((ops ++ (List.range m).map fun k => NqsOp.set (.vec (List.ofFn (θ (k + 1)))))
          ++ [.set (.vec (List.ofFn (θ m + stepSize • foldedVelocity p₀.sizes dp)))]) := by
        rw [← Except.ok.inj e3]
      have hvm : (at₂.map fun x => some x.2) = some (v m) := by
        have h2 : (u m).2.1 = at₂ := by rw [← Except.ok.inj e3]
        unfold minsrApi at e4
        dsimp only at e4
        rw [h2] at e4
        cases hz : at₂ with
        | none => rw [hz] at e4; cases e4
        | some x => rw [hz] at e4; exact congrArg some (Except.ok.inj e4)
      have hw1 : (w (m + 1)).1 = (u m).1 := (hrec _ _ _ _ hr).1
      have hw2 : (w (m + 1)).2.1 = at₂ := by rw [(hrec _ _ _ _ hr).2, ← Except.ok.inj e3]
      refine ⟨fun k => if k ≤ m then θ k else θ m + stepSize • foldedVelocity p₀.sizes dp,
        fun k => if k < m then u' k else dp, ?_, ?_, ?_, ?_, ?_⟩
      · simpa using hθ0
      · intro k hkm
        by_cases hlt : k < m
        · simp only [hlt, hlt.le, if_true, show k + 1 ≤ m from hlt]
          exact hθ k hlt
        · have : k = m := by omega
          subst this
          simp only [lt_irrefl, le_refl, if_true, if_false, show ¬ (k + 1 ≤ k) by omega, true_and]
          rw [hw2]
          exact ⟨_, _, _, hops', hwm ▸ hgm, hwm ▸ hcl, hvm⟩
      · rw [hw1, hum, List.range_succ, List.map_append, ← List.append_assoc]
        congr 2
        · congr 1
          apply List.map_congr_left
          intro k hk'
          rw [List.mem_range] at hk'
          simp [show k + 1 ≤ m by omega]
        · simp
      · rw [hw1, hum]; exact s2
      · rw [hw1, hum, s3]; simp
  obtain ⟨θ, u', a, b, c, d, f⟩ := main s.n le_rfl
  have hvar : ∀ k < s.n, ∃ E var, (w (k + 1)).2.1 = some (E, var) ∧ v k = some var := by
    intro k hkn
    obtain ⟨-, -, -, -, -, -, -, hvk⟩ := b k hkn
    cases hz : (w (k + 1)).2.1 with
    | none => rw [hz] at hvk; cases hvk
    | some x =>
      rw [hz] at hvk
      exact ⟨x.1, x.2, rfl, (Option.some.inj hvk).symm⟩
  rw [hw]
  refine ⟨θ, u', fun k => (w k).2.1, fun k hkn => ?_, (hrec _ _ _ _ h0).2, rfl, a, f, c, hnb, fun k hkn => ?_, fun hlt => ?_⟩
  · obtain ⟨h1, sm₁, sm₂, ops', h2, h3, h4, -⟩ := b k hkn
    exact ⟨h1, sm₁, sm₂, ops', h2, h3, h4⟩
  · obtain ⟨E, var, h1, h2⟩ := hvar k (by omega)
    obtain ⟨x, hx, hx'⟩ := hab k hkn
    rw [h2] at hx
    cases hx
    exact ⟨E, var, h1, hx'⟩
  · rcases hst hlt with h1 | ⟨k, hkn, hna⟩
    · exact .inl h1
    · obtain ⟨E, var, h1, h2⟩ := hvar k (by omega)
      refine .inr ⟨k, hkn, E, var, h1, ?_⟩
      by_contra hcon
      exact hna ⟨var, h2, not_le.mp hcon⟩

variable {stepSize : ℝ} {N : ℕ} {θs : ℕ → Fin (n + 1) → ℝ} {us : ℕ → Fin (n + 1) → ℂ} {A : ℕ → MinSRAttrs}
  {M G Λ V : ℝ}

/-- C110: whatever the cutoff, the energy at the end of the search is at most the initial one, minus twice the step
size times the sum of the squared speeds of the state, plus sampling errors and a correction of second order in the
step size. -/
theorem c110_energy [Nonempty C] (hset : MinsrSetting ε kernel O logPsi env cfg r p₀) (hdt : 0 ≤ stepSize)
    (hsteps : MinsrSteps env cfg r p₀ stepSize N θs us A)
    (hsm : SearchSmooth O logPsi N θs (fun k => foldedVelocity p₀.sizes (us k)) M G Λ V) :
    energyAt O logPsi (θs N) ≤ energyAt O logPsi (θs 0)
      + stepSize * (∑ k ∈ Finset.range N, (-(2 * ((1 - ε) * speedAt logPsi (θs k) (foldedVelocity p₀.sizes (us k))))
        + 2 * ε * (√(speedAt logPsi (θs k) (foldedVelocity p₀.sizes (us k))) * √(varianceAt O logPsi (θs k)))))
      + N * stepSize ^ 2 * energyCurvature M G Λ V := by
  obtain ⟨D, hs, hD, hθ⟩ := hsm.domain
  have := sum_steps (N := N) (f := fun k => energyAt O logPsi (θs k)) (g := fun k =>
    stepSize * (-(2 * ((1 - ε) * speedAt logPsi (θs k) (foldedVelocity p₀.sizes (us k))))
        + 2 * ε * (√(speedAt logPsi (θs k) (foldedVelocity p₀.sizes (us k))) * √(varianceAt O logPsi (θs k))))
      + stepSize ^ 2 * energyCurvature M G Λ V) (by
    intro k hk
    obtain ⟨hnext, sm₁, sm₂, ops', hops', hget, hcall⟩ := hsteps k hk
    obtain ⟨hH, -, e, he, hle, -⟩ := minsr_call_rate hset hops' (run_of_get hget) hcall
    have h1 := hθ (k + 1) hk
    rw [hnext] at h1
    have key := energy_step hs hD hH hsm.hamiltonian hdt (hθ k hk.le) h1 (hsm.velocities k hk) he
    have h2 := (abs_le.mp key).2
    have h3 := mul_le_mul_of_nonneg_left hle hdt
    rw [hnext]
    unfold energyCurvature energyAt
    linarith)
  refine this.trans (le_of_eq ?_)
  rw [Finset.sum_add_distrib, Finset.sum_const, Finset.card_range, nsmul_eq_mul, ← Finset.mul_sum]
  ring

/-- C110: if the cutoff removes no non-zero eigenvalue, every step moves the state nearly as imaginary time evolution
does, as well as the network can: no velocities `y` of the parameters are better, up to the factor `(1+ε)/(1-ε)`. The
MinSR object stores the energy variance, up to the factor `1 ± ε`. -/
theorem c110_best [Nonempty C] (hset : MinsrSetting ε kernel O logPsi env cfg r p₀) (hcut : NoCutoff env cfg)
    (hsteps : MinsrSteps env cfg r p₀ stepSize N θs us A) {k : ℕ} (hk : k < N) :
    (∀ y : Fin (n + 1) → ℝ,
      (1 - ε) * offRay (fun c => Complex.exp (logPsi (θs k) c)) (fun s =>
          stateVelocity logPsi (θs k) (foldedVelocity p₀.sizes (us k)) s
            + 1 * (O *ᵥ fun c => Complex.exp (logPsi (θs k) c)) s)
        ≤ (1 + ε) * offRay (fun c => Complex.exp (logPsi (θs k) c)) (fun s => stateVelocity logPsi (θs k) y s
            + 1 * (O *ᵥ fun c => Complex.exp (logPsi (θs k) c)) s)) ∧
    ∃ E var, A (k + 1) = some (E, var) ∧ (1 - ε) * varianceAt O logPsi (θs k) ≤ var ∧
      var ≤ (1 + ε) * varianceAt O logPsi (θs k) := by
  obtain ⟨-, sm₁, sm₂, ops', hops', hget, hcall⟩ := hsteps k hk
  obtain ⟨grads, w, hstep, -, hat, l, hl, -, hbest⟩ := minsr_step hset hops' (run_of_get hget) hcall
  refine ⟨fun y => ?_, hat⟩
  have h1 := (sampled_offRay hstep hset.error.le 1 (foldedVelocity p₀.sizes (us k))).1
  have h2 := (sampled_offRay hstep hset.error.le 1 y).2
  rw [← hl] at h1 h2
  exact h1.trans ((hbest hcut y).trans h2)

/-- At every step of the search, some velocities of the parameters move the state as imaginary time evolution
does, up to the relative squared error `δ`. -/
def FollowsWithin (δ : ℝ) (O : Matrix C C ℂ) (logPsi : (Fin (n + 1) → ℝ) → C → ℂ) (N : ℕ)
    (θ : ℕ → Fin (n + 1) → ℝ) : Prop :=
  ∀ k < N, ∃ y : Fin (n + 1) → ℝ, offRay (fun c => Complex.exp (logPsi (θ k) c)) (fun s =>
    stateVelocity logPsi (θ k) y s + 1 * (O *ᵥ fun c => Complex.exp (logPsi (θ k) c)) s)
      ≤ δ * varianceAt O logPsi (θ k)

/-- C110: let the energy of the initial state be below the first excited level by at least `g`, the cutoff remove no
non-zero eigenvalue, and the network follow imaginary time evolution with relative squared error `δ < 1` (for samples
of relative error `ε`: less than `(1-ε)/(1+ε)`). If the step size is small enough, energy and state converge to the
ground state exponentially, at a rate of `2 (1-δ) g`, up to an error proportional to the step size. -/
theorem c110_converges [Nonempty C] (hset : MinsrSetting ε kernel O logPsi env cfg r p₀) (hcut : NoCutoff env cfg)
    (hdt : 0 < stepSize) (hsteps : MinsrSteps env cfg r p₀ stepSize N θs us A)
    (hsm : SearchSmooth O logPsi N θs (fun k => foldedVelocity p₀.sizes (us k)) M G Λ V)
    (hO : O.IsHermitian) {e₀ e₁ : ℝ} {v : C → ℂ} (hgr : GroundState O e₀ e₁ v) {δ : ℝ}
    (hd : FollowsWithin δ O logPsi N θs)
    {c : ℝ} (hc : c = 2 * (1 / (1 + ε) - δ / (1 - ε))) (hc0 : 0 < c) {g : ℝ} (hg : 0 < g)
    (hstart : energyAt O logPsi (θs 0) ≤ e₁ - g) (h1 : stepSize * (c * g) ≤ 1)
    (h2 : stepSize * energyCurvature M G Λ V ≤ c * g * (e₁ - e₀ - g)) :
    ∀ k ≤ N,
      energyAt O logPsi (θs k) - e₀ ≤ (1 - stepSize * (c * g)) ^ k * (energyAt O logPsi (θs 0) - e₀)
        + stepSize * energyCurvature M G Λ V / (c * g) ∧
      stateDistance v (fun s => Complex.exp (logPsi (θs k) s)) ^ 2
        ≤ ((1 - stepSize * (c * g)) ^ k * (energyAt O logPsi (θs 0) - e₀)
          + stepSize * energyCurvature M G Λ V / (c * g)) / (e₁ - e₀) := by
  have s₀ := Classical.arbitrary C
  have hne : ∀ p, (fun s => Complex.exp (logPsi p s)) ≠ 0 := fun p h0 => Complex.exp_ne_zero _ (congrFun h0 s₀)
  obtain ⟨D, hs, hD, hθ⟩ := hsm.domain
  have hK : 0 ≤ energyCurvature M G Λ V := by
    have := hsm.hamiltonian.1
    have := hs.rate_nonneg
    unfold energyCurvature
    positivity
  have hlow : ∀ p, e₀ ≤ energyAt O logPsi p := fun p => (gap_variance hgr hO _ (hne p)).2
  have key := descent_bound (N := N) (a := fun k => energyAt O logPsi (θs k) - e₀) (Δ := e₁ - e₀) hdt hc0 hg hK
    (fun k _ => sub_nonneg.mpr (hlow _)) (by linarith) h1 h2 (by
      intro k hk
      obtain ⟨hnext, sm₁, sm₂, ops', hops', hget, hcall⟩ := hsteps k hk
      obtain ⟨hH, -, e, he, -, hle⟩ := minsr_call_rate hset hops' (run_of_get hget) hcall
      have hle := hle δ hcut (hd k hk)
      have h3 := hθ (k + 1) hk
      rw [hnext] at h3
      have h4 := energy_step hs hD hH hsm.hamiltonian hdt.le (hθ k hk.le) h3 (hsm.velocities k hk) he
      have h4 := (abs_le.mp h4).2
      have h5 := (gap_variance hgr hO _ (hne (θs k))).1
      have h6 : (energyAt O logPsi (θs k) - e₀) * (e₁ - e₀ - (energyAt O logPsi (θs k) - e₀))
          ≤ varianceAt O logPsi (θs k) := by
        rw [show e₁ - e₀ - (energyAt O logPsi (θs k) - e₀) = e₁ - energyAt O logPsi (θs k) by ring]
        exact h5
      have h7 := mul_le_mul_of_nonneg_left (mul_le_mul_of_nonneg_left h6 hc0.le) hdt.le
      rw [show -(2 * ((1 / (1 + ε) - δ / (1 - ε)) * varianceAt O logPsi (θs k)))
        = -(c * varianceAt O logPsi (θs k)) by rw [hc]; ring] at hle
      have h8 := mul_le_mul_of_nonneg_left hle hdt.le
      rw [← hnext] at h4
      change energyAt O logPsi (θs (k + 1)) - energyAt O logPsi (θs k) - stepSize * e
        ≤ stepSize ^ 2 * energyCurvature M G Λ V at h4
      linarith)
  intro k hk
  have h3 := (key k hk).2
  refine ⟨h3, (c98_ground_state hO _ (hne _) hgr).trans ?_⟩
  exact div_le_div_of_nonneg_right h3 (by linarith [hgr.gap])

/-- C110 for `ground_state_search`: the state which it leaves behind after `s.n` steps. -/
theorem c110_search [Nonempty C] {Q : Type} (hset : MinsrSetting ε kernel O logPsi env cfg r p₀)
    (hcut : NoCutoff env cfg) (meas : NqsState → smp → Except PyErr (Q × smp)) (numSteps : ℤ) (tol : ℝ)
    (record : Bool) (shift : ℝ) (ops : List NqsOp) (hops : ∀ op ∈ ops, op.Fits p₀) (hinit : nqsRun p₀ ops ≠ none)
    (at₀ : MinSRAttrs) (sm₀ : smp) (hdt : 0 < stepSize) (s : GsState Q (NqsState × MinSRAttrs × smp))
    (h : groundStateSearch (minsrApi env cfg r meas) numSteps tol stepSize record shift
      (nqsRun p₀ ops, at₀, sm₀) = .ok s) (hO : O.IsHermitian) {e₀ e₁ : ℝ} {v : C → ℂ}
    (hgr : GroundState O e₀ e₁ v) :
    ∃ (θ : ℕ → Fin (n + 1) → ℝ) (u : ℕ → Fin (n + 1) → ℂ) (A : ℕ → MinSRAttrs),
      MinsrSteps env cfg r p₀ stepSize s.n θ u A ∧ A 0 = at₀ ∧ s.w.2.1 = A s.n ∧
      (getParameters.call (nqsRun p₀ ops)).1 = .ok (some (List.ofFn (θ 0))) ∧
      (getParameters.call s.w.1).1 = .ok (some (List.ofFn (θ s.n))) ∧
      ∀ M G Λ V, SearchSmooth O logPsi s.n θ (fun k => foldedVelocity p₀.sizes (u k)) M G Λ V →
        ∀ δ, FollowsWithin δ O logPsi s.n θ →
        ∀ c, c = 2 * (1 / (1 + ε) - δ / (1 - ε)) → 0 < c → ∀ g, 0 < g → energyAt O logPsi (θ 0) ≤ e₁ - g →
          stepSize * (c * g) ≤ 1 → stepSize * energyCurvature M G Λ V ≤ c * g * (e₁ - e₀ - g) →
        stateDistance v (fun x => Complex.exp (logPsi (θ s.n) x)) ^ 2
          ≤ ((1 - stepSize * (c * g)) ^ s.n * (energyAt O logPsi (θ 0) - e₀)
            + stepSize * energyCurvature M G Λ V / (c * g)) / (e₁ - e₀) := by
  obtain ⟨θ, u, A, hsteps, hA0, hA, h0, hfin, -⟩ := c110_steps_partial env cfg r meas numSteps tol stepSize record shift
    p₀ hset.number hset.complex ops hops hinit at₀ sm₀ s h
  exact ⟨θ, u, A, hsteps, hA0, hA, h0, hfin, fun M G Λ V hsm δ hd c hc hc0 g hg hstart h1 h2 =>
    (c110_converges hset hcut hdt hsteps hsm hO hgr hd hc hc0 hg hstart h1 h2 s.n le_rfl).2⟩

/-! ## Real networks, concrete cases -/

/-- A kernel with one eigenvalue other than zero. -/
theorem spectrumAbove_scaled {m : ℕ} (T : Matrix (Fin m) (Fin m) ℂ) (c : ℂ) (hT : T * T = c • T) (tol : ℝ)
    (ht1 : tol < 1) : SpectrumAbove T tol := by
  have key : ∀ (a : ℂ) (u : Fin m → ℂ), u ≠ 0 → T *ᵥ u = a • u → a = 0 ∨ a = c := by
    intro a u hu h
    have h2 : T *ᵥ (T *ᵥ u) = c • (T *ᵥ u) := by rw [Matrix.mulVec_mulVec, hT, Matrix.smul_mulVec]
    rw [h, Matrix.mulVec_smul, h] at h2
    obtain ⟨i, hi⟩ := Function.ne_iff.mp hu
    have h3 := congrFun h2 i
    simp only [Pi.smul_apply, smul_eq_mul] at h3
    have h4 : a * (a - c) = 0 := by
      apply mul_right_cancel₀ hi
      rw [zero_mul]
      linear_combination h3
    rcases mul_eq_zero.mp h4 with h | h
    · exact .inl h
    · exact .inr (sub_eq_zero.mp h)
  intro a b u v hu hv ha hb ha0
  obtain rfl : a = c := (key a u hu ha).resolve_left ha0
  have hp := norm_pos_iff.mpr ha0
  rcases key b v hv hb with rfl | rfl
  · simpa using hp
  · nlinarith

/-- All gradients are multiples of one of them. -/
theorem sampleX_multiple (l : List (ℝ × (Fin 1 → ℂ) × (Fin (n + 1) → ℂ))) (c : Fin (n + 1) → ℂ)
    (h : ∀ s ∈ l, ∀ k, s.2.2 k = c k * s.2.2 0) (a : Fin l.length) (k : Fin (n + 1)) :
    sampleX l a k = c k * sampleX l a 0 := by
  have hm : wMean (l.map fun s => (s.1, s.2.2)) k = c k * wMean (l.map fun s => (s.1, s.2.2)) 0 := by
    have : ∀ l' : List (ℝ × (Fin 1 → ℂ) × (Fin (n + 1) → ℂ)), (∀ s ∈ l', ∀ k, s.2.2 k = c k * s.2.2 0) →
        wMean (l'.map fun s => (s.1, s.2.2)) k = c k * wMean (l'.map fun s => (s.1, s.2.2)) 0 := by
      intro l' hl'
      induction l' with
      | nil => simp [wMean]
      | cons s rest ih =>
        have h1 := ih fun s hs => hl' s (List.mem_cons_of_mem _ hs)
        have h2 := hl' s List.mem_cons_self k
        unfold wMean at h1 ⊢
        simp only [List.map_cons, List.sum_cons, Pi.add_apply, Pi.smul_apply, h1, h2, Complex.real_smul]
        ring
    exact this l h
  have h1 := h _ (List.getElem_mem a.2) k
  unfold sampleX dGrad
  rw [Matrix.of_apply, Matrix.of_apply, hm]
  simp only [Fin.getElem_fin] at h1 ⊢
  rw [h1]
  ring

/-- All gradients are multiples of one of them: the cutoff does not matter. -/
theorem spectrumAbove_gradient (l : List (ℝ × (Fin 1 → ℂ) × (Fin (n + 1) → ℂ))) (c : Fin (n + 1) → ℂ)
    (h : ∀ s ∈ l, ∀ k, s.2.2 k = c k * s.2.2 0) (tol : ℝ) (ht1 : tol < 1) : SpectrumAbove (kernelOf l) tol := by
  have hX := sampleX_multiple l c h
  set z : ℂ := ∑ k, c k * star (c k)
  have hK : ∀ a b, kernelOf l a b = z * (sampleX l a 0 * star (sampleX l b 0)) := by
    intro a b
    rw [kernelOf_eq, Matrix.mul_apply, Finset.sum_mul]
    refine Finset.sum_congr rfl fun k _ => ?_
    rw [Matrix.conjTranspose_apply, hX a k, hX b k, star_mul']
    ring
  refine spectrumAbove_scaled _ (z * ∑ a, sampleX l a 0 * star (sampleX l a 0)) ?_ tol ht1
  ext a b
  rw [Matrix.mul_apply, Matrix.smul_apply, smul_eq_mul, hK, Finset.mul_sum, Finset.sum_mul]
  refine Finset.sum_congr rfl fun k _ => ?_
  rw [hK, hK]
  ring

/-- A search of one step. -/
theorem minsr_one_step {Q : Type} (env : TdvpEnv n smp) (cfg : MinSRCfg) (r : ℕ)
    (meas : NqsState → smp → Except PyErr (Q × smp)) (tol dt shift : ℝ) (htol : tol < 1) (p₀ : Params)
    (ops : List NqsOp) (hops : ∀ op ∈ ops, op.Fits p₀) (st : NqsInit) (hst : nqsRun p₀ ops = some st)
    (at₀ : MinSRAttrs) (sm sm' : smp) (θ : Fin (n + 1) → ℝ) (hθ : flattenParams st.params = List.ofFn θ)
    (joint : World (ℝ × (Fin 1 → ℂ) × (Fin (n + 1) → ℂ))) (hm : env.measure st.params sm 0 = .ok (joint, sm'))
    (h1 : ∀ rk ∈ joint, rk ≠ []) (h2 : ∀ s ∈ allSamples joint, 0 ≤ s.1) (h3 : r < List.length joint) :
    ∃ E G u, TdvpInput joint r E G ∧ minsrSolve cfg r E G = .ok u ∧
      ∀ st', (setParametersC (List.ofFn ((fun i => ((θ i : ℝ) : ℂ)) + dt • u))).call (some st) = (.ok (), st') →
        ∃ s, groundStateSearch (minsrApi env cfg r meas) 1 tol dt false shift (nqsRun p₀ ops, at₀, sm) = .ok s ∧
          s.n = 1 ∧ s.w.1 = st' := by
  obtain ⟨E, G, hi⟩ := tdvpInput_exists joint r h1 h2 h3
  have hw := wf_run p₀ ops hops st hst
  have hp : paramUnflatten st.realParams st.sizes (List.ofFn θ) = .ok st.params := by
    rw [← hθ, hw.1, ← hw.2.2.1, hw.2.1, ← hw.2.2.2, flattenParams_unflatten]
  obtain ⟨u, hu, hc1⟩ := c72_call env cfg r (List.ofFn θ) 0 (some 0) sm sm' at₀ p₀ ops hops st hst st.params hp joint hm
    E G hi
  have hc2 := c72_restores env cfg r (List.ofFn θ) 0 (some 0) sm at₀ p₀ ops hops _ hc1
  rw [if_pos rfl] at hc1
  set var := wVar ((allSamples joint).map fun s => (s.1, s.2.1)) 0
  set mean := wMean ((allSamples joint).map fun s => (s.1, s.2.1)) 0
  have hc : (minsrCall env cfg r (List.ofFn θ) 0 (some 0) sm at₀).call (some st)
      = (.ok (u, some (mean, var), sm'), some st) := by
    rw [← hst]
    exact Prod.ext hc1 hc2
  refine ⟨E, G, u, hi, hu, fun st' hs => ⟨⟨1, some var, none, shift, (st', some (mean, var), sm'), []⟩, ?_, rfl, rfl⟩⟩
  rw [hst]
  have e1 : (minsrApi env cfg r meas).getParams (some st, at₀, sm) = .ok fun i => ((θ i : ℝ) : ℂ) := by
    have hg : (getParameters.call (some st)).1 = .ok (some (List.ofFn θ)) := by
      rw [call_getParameters, hθ]
    simp only [minsrApi]
    rw [if_pos (hw.1.trans hw.2.2.1.symm)]
    simp only [hg]
    rw [dif_pos (by simp)]
    congr 1
    funext i
    simp [-List.ofFn_succ]
  have e2 : (minsrApi env cfg r meas).rhs shift (fun i => ((θ i : ℝ) : ℂ)) 0 (some st, at₀, sm)
      = .ok (u, (some st, some (mean, var), sm')) := by
    simp only [minsrApi, Complex.ofReal_re]
    change (match (minsrCall env cfg r (List.ofFn θ) 0 (some 0) sm at₀).call (some st) with
          | (.error e, _) => Except.error e
          | (.ok (u, at₁, sm), st) => .ok (u, (st, at₁, sm))) = _
    rw [hc]
  have e3 : (minsrApi env cfg r meas).setParams ((fun i => ((θ i : ℝ) : ℂ)) + dt • u) (some st, some (mean, var), sm')
      = .ok (st', some (mean, var), sm') := by
    simp only [minsrApi, hs]
  have e4 : (minsrApi env cfg r meas).variance (st', some (mean, var), sm') = .ok (some var) := rfl
  have e5 : gsBody (minsrApi env cfg r meas) dt false ⟨0, some 1, none, shift, (some st, at₀, sm), []⟩
      = .ok ⟨1, some var, none, shift, (st', some (mean, var), sm'), []⟩ := by
    simp only [gsBody, e1, e2, e3, e4, bind, Except.bind, gsMeasure]
    rfl
  change gsLoop (minsrApi env cfg r meas) 1 tol dt false 1 ⟨0, some 1, none, shift, (some st, at₀, sm), []⟩ = _
  rw [gsLoop, if_pos (by simp [gsCond, htol]), e5]
  simp only [bind, Except.bind]
  rw [gsLoop, if_neg (by simp [gsCond])]

/-- One spin in a field along `y`. -/
noncomputable def yKernel (s : Fin 2) : List (Fin 2 × ℂ) := [(1 - s, if s = 0 then -Complex.I else Complex.I)]

noncomputable def yMatrix : Matrix (Fin 2) (Fin 2) ℂ := !![0, -Complex.I; Complex.I, 0]

noncomputable def yEnv : TdvpEnv 0 Unit :=
  ⟨fun p _ _ => .ok (tdvpJoint yMatrix (fun c => Complex.exp (tiltLog (fun _ => (flattenParams p).headD 0) c))
    tiltGrads (tiltWorld ((flattenParams p).headD 0)), ())⟩

theorem y_step (θ : Fin 1 → ℝ) : TdvpStep yKernel yMatrix tiltLog θ tiltGrads (tiltWorld (θ 0)) := by
  have h := tilt_step θ
  refine ⟨⟨?_, ⟨1, fun _ => rfl⟩, ?_⟩, ?_, h.differentiable, h.gradients, h.samples, h.weights⟩
  · intro s s'
    fin_cases s <;> fin_cases s' <;> simp [yKernel, yMatrix, elementOf]
  · intro s e he
    right
    fin_cases s <;> simp [yKernel] at he <;> subst he <;> norm_num
  · ext i j
    fin_cases i <;> fin_cases j <;> simp [yMatrix, Matrix.conjTranspose_apply]

theorem y_sampled : ExactlySampled yKernel yMatrix tiltLog yEnv 0 := by
  intro θ p sm t hp joint sm' hm
  have h0 : (flattenParams p).headD 0 = θ 0 := by
    rw [hp]
    simp
  have h1 : (fun _ : Fin 1 => θ 0) = θ := by
    funext i
    rw [Fin.fin_one_eq_zero i]
  refine ⟨tiltGrads, tiltWorld (θ 0), y_step θ, by simp [tiltWorld], ?_⟩
  unfold yEnv at hm
  simp only [h0, h1] at hm
  exact (congrArg Prod.fst (Except.ok.inj hm)).symm

/-- At `ψ = (1, 1)`. -/
theorem y_joint : tdvpJoint yMatrix (fun c => Complex.exp (tiltLog (fun _ => 0) c)) tiltGrads (tiltWorld 0)
    = [[[(1 / 2, ![-Complex.I], ![0]), (1 / 2, ![Complex.I], ![1])]]] := by
  rw [tilt_psi]
  unfold tdvpJoint tiltWorld
  simp only [World.map, List.map_cons, List.map_nil]
  congr 3
  · congr 1
    · norm_num
    · congr 1
      · funext i
        fin_cases i
        simp [localValue, yMatrix]
      · simp [tiltGrads]
  · congr 1
    congr 1
    · norm_num
    · congr 1
      · funext i
        fin_cases i
        simp [localValue, yMatrix]
      · simp [tiltGrads]

/-- C110 is violated for real networks: `ground_state_search` with a MinSR object replaces their real parameters by
complex numbers. Here: one spin in a field along `y`, a network with one real parameter, exact samples, the default
cutoff (or any other below 1) and one step of any size: the parameter is imaginary after it. -/
theorem c110_real_violated (cfg : MinSRCfg) (heigh : cfg.EighCorrect) (ht : 0 ≤ cfg.pinvTol) (ht1 : cfg.pinvTol < 1)
    (dt : ℝ) : ExactlySampled yKernel yMatrix tiltLog yEnv 0 ∧
    ∃ (s : GsState Unit (NqsState × MinSRAttrs × Unit)) (st : NqsInit),
      groundStateSearch (minsrApi yEnv cfg 0 fun _ _ => .ok ((), ())) 1 (1 / 10) dt false 0
        (nqsRun (.real [[0]]) [.eval], none, ()) = .ok s ∧
      s.n = 1 ∧ s.w.1 = some st ∧ st.realParams = true ∧ st.params = .cpx [[-(2 * Complex.I * dt)]] := by
  refine ⟨y_sampled, ?_⟩
  have hinit : nqsRun (.real [[0]]) [.eval] ≠ none :=
    (c25_initialised_iff _ _).mpr ⟨.eval, List.mem_singleton_self _, rfl⟩
  obtain ⟨st, hst⟩ := Option.ne_none_iff_exists'.mp hinit
  have hw := wf_run _ _ (by simp [NqsOp.Fits]) st hst
  have hpar : st.params = .real [[0]] := by
    have h1 : (nqsRun (.real [[0]]) [.eval]).map (·.params) = some (.real [[0]]) := rfl
    rw [hst] at h1
    exact Option.some.inj h1
  have hm : yEnv.measure st.params () 0 = .ok ([[[(1 / 2, ![-Complex.I], ![0]), (1 / 2, ![Complex.I], ![1])]]], ()) := by
    rw [hpar, ← y_joint]
    simp [yEnv, flattenParams]
  obtain ⟨E, G, u, hi, hu, hs⟩ := minsr_one_step yEnv cfg 0 (fun _ _ => .ok ((), ())) (1 / 10) dt 0 (by norm_num)
    (.real [[0]]) [.eval] (by simp [NqsOp.Fits]) st hst none () () (fun _ => 0) (by rw [hpar]; simp [flattenParams])
    _ hm (by simp) (by simp [allSamples]) (by simp)
  have hu0 : u 0 = -(2 * Complex.I) := by
    have h := c47_equation_partial cfg heigh ht 0 _ E G hi
      (spectrumAbove_gradient _ (fun _ => 1) (fun s _ k => by rw [Fin.fin_one_eq_zero k, one_mul]) _ ht1) u hu 0
    simp [fisherOf, forceOf, allSamples, wMean] at h
    linear_combination 4 * h
  have hset : (setParametersC (List.ofFn ((fun i : Fin 1 => (((fun _ => 0 : Fin 1 → ℝ) i : ℝ) : ℂ)) + dt • u))).call
      (some st) = (.ok (), some { st with params := .cpx [[-(2 * Complex.I * dt)]] }) := by
    have h1 : (List.ofFn ((fun i : Fin 1 => (((fun _ => 0 : Fin 1 → ℝ) i : ℝ) : ℂ)) + dt • u)) = [-(2 * Complex.I * dt)] := by
      simp [hu0]
      ring
    rw [h1]
    have h2 : paramUnflattenC st.realParams st.sizes [-(2 * Complex.I * dt)] = .ok (.cpx [[-(2 * Complex.I * dt)]]) := by
      rw [hw.1, hw.2.1]
      rfl
    change (match paramUnflattenC st.realParams st.sizes [-(2 * Complex.I * dt)] with
      | .error e => (throw e : PsiM Unit)
      | .ok p => setParams p).call (some st) = _
    rw [h2]
    rfl
  obtain ⟨s, h1, h2, h3⟩ := hs _ hset
  exact ⟨s, _, h1, h2, h3, hw.1, rfl⟩

/-! ### A network with one complex parameter -/

/-- `log ψ(s) = (a + i b) s` for `σ = 1`, which is holomorphic in `a + i b`, and `(a - i b) s` for `σ = -1`, which is
not. -/
noncomputable def turnLog (σ : ℝ) (θ : Fin 2 → ℝ) (s : Fin 2) : ℂ :=
  (θ 0 + σ * θ 1 * Complex.I) * (s.val : ℂ)

noncomputable def turnWorld (σ : ℝ) (θ : Fin 2 → ℝ) : World (Fin 2 × ℂ × ℝ) :=
  [[[(0, 0, 1 / (1 + Real.exp (θ 0) ^ 2)),
    (1, θ 0 + σ * θ 1 * Complex.I, Real.exp (θ 0) ^ 2 / (1 + Real.exp (θ 0) ^ 2))]]]

noncomputable def turnGrads (σ : ℝ) (s : Fin 2) : Fin 2 → ℂ := ![(s.val : ℂ), σ * Complex.I * s.val]

noncomputable def turnEnv (σ : ℝ) : TdvpEnv 1 Unit :=
  ⟨fun p _ _ => .ok (tdvpJoint tiltMatrix
    (fun c => Complex.exp (turnLog σ ![(flattenParams p).getD 0 0, (flattenParams p).getD 1 0] c))
    (turnGrads σ) (turnWorld σ ![(flattenParams p).getD 0 0, (flattenParams p).getD 1 0]), ())⟩

noncomputable def turnLinear (σ : ℝ) (s : Fin 2) : (Fin 2 → ℝ) →ₗ[ℝ] ℂ where
  toFun p := turnLog σ p s
  map_add' p q := by simp [turnLog]; ring
  map_smul' a p := by simp [turnLog]; ring

theorem turn_deriv (σ : ℝ) (θ : Fin 2 → ℝ) (s : Fin 2) : HasFDerivAt (fun p => turnLog σ p s)
    (LinearMap.toContinuousLinearMap (turnLinear σ s)) θ :=
  (LinearMap.toContinuousLinearMap (turnLinear σ s)).hasFDerivAt

theorem turn_psi (σ : ℝ) (θ : Fin 2 → ℝ) : (fun c => Complex.exp (turnLog σ θ c))
    = ![1, Complex.exp (θ 0 + σ * θ 1 * Complex.I)] := by
  funext s
  fin_cases s <;> simp [turnLog]

theorem turn_normSq (σ : ℝ) (θ : Fin 2 → ℝ) :
    Complex.normSq (Complex.exp (θ 0 + σ * θ 1 * Complex.I)) = Real.exp (θ 0) ^ 2 := by
  rw [Complex.normSq_eq_norm_sq, Complex.norm_exp]
  simp

theorem turn_step (σ : ℝ) (θ : Fin 2 → ℝ) :
    TdvpStep tiltKernel tiltMatrix (turnLog σ) θ (turnGrads σ) (turnWorld σ θ) := by
  have h := tilt_step fun _ => 0
  refine ⟨h.operator, h.hermitian, fun s => (turn_deriv σ θ s).differentiableAt, ?_, ?_, ?_⟩
  · intro s k
    rw [(turn_deriv σ θ s).fderiv]
    change _ = turnLog σ (Pi.single k 1) s
    fin_cases k <;> simp [turnLog, turnGrads]
  · refine ⟨?_, ?_, ?_⟩ <;> simp [turnWorld, allSamples, turnLog]
  · have h : weighted (turnWorld σ θ) = [(1 / (1 + Real.exp (θ 0) ^ 2), 0),
        (Real.exp (θ 0) ^ 2 / (1 + Real.exp (θ 0) ^ 2), 1)] := rfl
    have h1 : norm2 (![1, Complex.exp (θ 0 + σ * θ 1 * Complex.I)] : Fin 2 → ℂ) = 1 + Real.exp (θ 0) ^ 2 := by
      unfold norm2
      rw [Fin.sum_univ_two]
      simp only [Matrix.cons_val_zero, Matrix.cons_val_one, turn_normSq, map_one]
    rw [h, turn_psi]
    constructor
    · intro x hx
      have := Real.exp_pos (θ 0)
      simp only [List.mem_cons, List.not_mem_nil, or_false] at hx
      rcases hx with rfl | rfl <;> dsimp only <;> positivity
    · intro s
      rw [h1]
      fin_cases s
      · simp [weightOf]
      · simp [weightOf, turn_normSq]

theorem turn_sampled (σ : ℝ) : ExactlySampled tiltKernel tiltMatrix (turnLog σ) (turnEnv σ) 0 := by
  intro θ p sm t hp joint sm' hm
  have h1 : ![(flattenParams p).getD 0 0, (flattenParams p).getD 1 0] = θ := by
    rw [hp]
    funext i
    fin_cases i <;> simp
  refine ⟨turnGrads σ, turnWorld σ θ, turn_step σ θ, by simp [turnWorld], ?_⟩
  unfold turnEnv at hm
  simp only [h1] at hm
  exact (congrArg Prod.fst (Except.ok.inj hm)).symm

/-- At `ψ = (1, 2)`. -/
noncomputable def turnStart : Fin 2 → ℝ := ![Real.log 2, 0]

theorem turn_flat : flattenParams (.cpx [[(Real.log 2 : ℂ)]]) = List.ofFn turnStart := by
  have : ∀ a : ℝ, flattenParams (.cpx [[(a : ℂ)]]) = List.ofFn ![a, 0] := fun a => by simp [flattenParams]
  exact this _

theorem turn_joint (σ : ℝ) :
    tdvpJoint tiltMatrix (fun c => Complex.exp (turnLog σ turnStart c)) (turnGrads σ) (turnWorld σ turnStart)
      = [[[(1 / 5, ![-2], ![0, 0]), (4 / 5, ![-(1 / 2)], ![1, σ * Complex.I])]]] := by
  have h2 : Complex.exp (((turnStart 0 : ℝ) : ℂ) + σ * ((turnStart 1 : ℝ) : ℂ) * Complex.I) = 2 := by
    have h3 : (((turnStart 0 : ℝ) : ℂ) + σ * ((turnStart 1 : ℝ) : ℂ) * Complex.I) = ((Real.log 2 : ℝ) : ℂ) := by
      simp [turnStart]
    rw [h3, ← Complex.ofReal_exp, Real.exp_log (by norm_num)]
    norm_num
  have h3 : Real.exp (turnStart 0) = 2 := by
    simp only [turnStart, Matrix.cons_val_zero]
    exact Real.exp_log (by norm_num)
  rw [turn_psi, h2]
  unfold tdvpJoint turnWorld
  rw [h3]
  simp only [World.map, List.map_cons, List.map_nil]
  congr 3
  · congr 1
    · norm_num
    · congr 1
      · funext i
        fin_cases i
        simp [localValue, tiltMatrix]
      · simp [turnGrads]
  · congr 1
    congr 1
    · norm_num
    · congr 1
      · funext i
        fin_cases i
        simp [localValue, tiltMatrix]
        norm_num
      · simp [turnGrads]

theorem turn_offRay (σ : ℝ) (y : Fin 2 → ℝ) :
    offRay (fun c => Complex.exp (turnLog σ turnStart c)) (fun s => stateVelocity (turnLog σ) turnStart y s
      + 1 * (tiltMatrix *ᵥ fun c => Complex.exp (turnLog σ turnStart c)) s)
      = 4 / 25 * ((y 0 + 3 / 2) ^ 2 + (σ * y 1) ^ 2) := by
  rw [← distance_offRay (turn_step σ turnStart), turn_joint]
  simp [tdvpDistance, wMean, allSamples, Fin.sum_univ_two]
  rw [show (-((y 0 : ℂ) * (4 / 5)) + -((y 1 : ℂ) * (4 / 5 * (σ * Complex.I))) + (-2 - (-(5⁻¹ * 2) + -(4 / 5 * 2⁻¹))) : ℂ)
      = ((-(y 0 * (4 / 5)) - 6 / 5 : ℝ) : ℂ) + ((-(y 1 * (4 / 5 * σ)) : ℝ) : ℂ) * Complex.I by push_cast; ring,
    show ((y 0 : ℂ) * (1 - 4 / 5) + (y 1 : ℂ) * (σ * Complex.I - 4 / 5 * (σ * Complex.I))
        + (-2⁻¹ - (-(5⁻¹ * 2) + -(4 / 5 * 2⁻¹))) : ℂ)
      = ((y 0 * (1 / 5) + 3 / 10 : ℝ) : ℂ) + ((y 1 * (1 / 5 * σ) : ℝ) : ℂ) * Complex.I by push_cast; ring,
    Complex.normSq_add_mul_I, Complex.normSq_add_mul_I]
  ring

theorem turn_energy (σ : ℝ) : energyAt tiltMatrix (turnLog σ) turnStart = -(4 / 5) ∧
    varianceAt tiltMatrix (turnLog σ) turnStart = 9 / 25 := by
  obtain ⟨h1, h2⟩ := joint_energy (turn_step σ turnStart)
  rw [turn_joint] at h1 h2
  constructor
  · unfold energyAt
    rw [← h1]
    simp [allSamples, wMean]
    norm_num
  · unfold varianceAt
    rw [← h2]
    simp [allSamples, wMean, wVar]
    norm_num

/-- The calls at the start of the search return; what the search does. -/
theorem turn_search (σ : ℝ) (cfg : MinSRCfg) (dt : ℝ) : ∃ (E : SObs (Fin 1)) (G : SObs (Fin 2)) (u : Fin 2 → ℂ)
    (s : GsState Unit (NqsState × MinSRAttrs × Unit)),
    TdvpInput [[[(1 / 5, ![-2], ![0, 0]), (4 / 5, ![-(1 / 2)], ![1, σ * Complex.I])]]] 0 E G ∧
    minsrSolve cfg 0 E G = .ok u ∧
    groundStateSearch (minsrApi (turnEnv σ) cfg 0 fun _ _ => .ok ((), ())) 1 (1 / 10) dt false 0
      (nqsRun (.cpx [[(Real.log 2 : ℂ)]]) [.eval], none, ()) = .ok s ∧ s.n = 1 ∧
    s.w.1 = nqsRun (.cpx [[(Real.log 2 : ℂ)]]) [.eval, .set (.vec (List.ofFn
      (turnStart + dt • foldedVelocity [1] u)))] := by
  have hinit : nqsRun (.cpx [[(Real.log 2 : ℂ)]]) [.eval] ≠ none :=
    (c25_initialised_iff _ _).mpr ⟨.eval, List.mem_singleton_self _, rfl⟩
  obtain ⟨st, hst⟩ := Option.ne_none_iff_exists'.mp hinit
  have hpar : st.params = .cpx [[(Real.log 2 : ℂ)]] := by
    have h1 : (nqsRun (.cpx [[(Real.log 2 : ℂ)]]) [.eval]).map (·.params) = some (.cpx [[(Real.log 2 : ℂ)]]) := rfl
    rw [hst] at h1
    exact Option.some.inj h1
  have hfl := turn_flat
  have hm : (turnEnv σ).measure st.params () 0
      = .ok ([[[(1 / 5, ![-2], ![0, 0]), (4 / 5, ![-(1 / 2)], ![1, σ * Complex.I])]]], ()) := by
    have h1 : ![(List.ofFn turnStart).getD 0 0, (List.ofFn turnStart).getD 1 0] = turnStart := by
      funext i
      fin_cases i <;> simp
    rw [hpar, ← turn_joint]
    unfold turnEnv
    simp only [hfl, h1]
  obtain ⟨E, G, u, hi, hu, hs⟩ := minsr_one_step (turnEnv σ) cfg 0 (fun _ _ => .ok ((), ())) (1 / 10) dt 0 (by norm_num)
    (.cpx [[(Real.log 2 : ℂ)]]) [.eval] (by simp [NqsOp.Fits]) st hst none () () turnStart (by rw [hpar, hfl])
    _ hm (by simp) (by simp [allSamples]; norm_num) (by simp)
  have h2 := setC_call (n := 1) (p₀ := .cpx [[(Real.log 2 : ℂ)]]) rfl rfl (ops := [.eval]) (by simp [NqsOp.Fits]) hinit
    ((fun i => ((turnStart i : ℝ) : ℂ)) + dt • u)
  rw [show (fun k : Fin 2 => foldedEntry (Params.cpx [[(Real.log 2 : ℂ)]]).sizes
      (List.ofFn ((fun i => ((turnStart i : ℝ) : ℂ)) + dt • u)) k) = turnStart + dt • foldedVelocity [1] u from
    funext (foldedEntry_step [1] turnStart dt u rfl), hst] at h2
  obtain ⟨s, h3, h4, h5⟩ := hs _ h2
  exact ⟨E, G, u, s, hi, hu, h3, h4, h5⟩

theorem turn_cutoff (σ : ℝ) (cfg : MinSRCfg) (ht1 : cfg.pinvTol < 1) : NoCutoff (turnEnv σ) cfg := by
  intro p sm t joint sm' hm
  unfold turnEnv at hm
  have hj := (congrArg Prod.fst (Except.ok.inj hm)).symm
  dsimp only at hj
  subst hj
  refine spectrumAbove_gradient _ ![1, σ * Complex.I] (fun s hs k => ?_) _ ht1
  unfold tdvpJoint at hs
  rw [allSamples_wmap] at hs
  obtain ⟨y, hy, rfl⟩ := List.mem_map.mp hs
  fin_cases k <;> simp [turnGrads]

/-- C110 is violated for complex networks that are not holomorphic: the search may not move the parameters at all,
although the energy variance is not zero and the network can follow imaginary time evolution exactly. Here: one spin,
`log ψ(s) = (a - i b) s` with the complex parameter `a + i b`, exact samples, any cutoff and step size. -/
theorem c110_nonholomorphic_violated (cfg : MinSRCfg) (dt : ℝ) :
    ExactlySampled tiltKernel tiltMatrix (turnLog (-1)) (turnEnv (-1)) 0 ∧
    varianceAt tiltMatrix (turnLog (-1)) turnStart = 9 / 25 ∧
    FollowsWithin 0 tiltMatrix (turnLog (-1)) 1 (fun _ => turnStart) ∧
    flattenParams (.cpx [[(Real.log 2 : ℂ)]]) = List.ofFn turnStart ∧
    ∃ s : GsState Unit (NqsState × MinSRAttrs × Unit),
      groundStateSearch (minsrApi (turnEnv (-1)) cfg 0 fun _ _ => .ok ((), ())) 1 (1 / 10) dt false 0
        (nqsRun (.cpx [[(Real.log 2 : ℂ)]]) [.eval], none, ()) = .ok s ∧ s.n = 1 ∧
      (getParameters.call s.w.1).1 = .ok (some (List.ofFn turnStart)) := by
  refine ⟨turn_sampled _, (turn_energy _).2, fun k _ => ⟨![-(3 / 2), 0], ?_⟩, ?_, ?_⟩
  · rw [turn_offRay]
    simp
  · exact turn_flat
  · obtain ⟨E, G, u, s, hi, hu, h1, h2, h3⟩ := turn_search (-1) cfg dt
    refine ⟨s, h1, h2, ?_⟩
    have hu' := Except.ok.inj (hu.symm.trans (minsrSolve_eq cfg 0 _ E G hi))
    have h4 : u 1 = Complex.I * u 0 := by
      rw [hu']
      simp only [Pi.neg_apply, Matrix.mulVec, dotProduct, Matrix.conjTranspose_apply]
      rw [mul_neg, neg_inj, Finset.mul_sum]
      refine Finset.sum_congr rfl fun a _ => ?_
      rw [sampleX_multiple _ ![1, -Complex.I] (by
        intro s hs k
        simp [allSamples] at hs
        rcases hs with rfl | rfl <;> fin_cases k <;> simp) a 1]
      simp
      ring
    have h5 : foldedVelocity [1] u = 0 := by
      funext k
      fin_cases k <;> simp [foldedVelocity, foldedEntry, isReIdx, partnerIdx, h4]
    rw [h3, h5, smul_zero, add_zero]
    have h6 := c22_set_then_get (.cpx [[(Real.log 2 : ℂ)]]) [.eval] (by simp [NqsOp.Fits])
      ((c25_initialised_iff _ _).mpr ⟨.eval, List.mem_singleton_self _, rfl⟩) (List.ofFn turnStart) (by simp; rfl)
    exact h6

/-! ### Concrete cases -/

noncomputable def turnCfg : MinSRCfg := ⟨1e-14, "imag", fun _ => someEigh⟩

theorem turn_setting : MinsrSetting 0 tiltKernel tiltMatrix (turnLog 1) (turnEnv 1) turnCfg 0
    (.cpx [[(Real.log 2 : ℂ)]]) := by
  refine ⟨zero_lt_one, (turn_sampled 1).within, minsrEigh_correct _ rfl, by norm_num [turnCfg], rfl, rfl, ?_⟩
  intro θ s a b ha hb
  have ha' : isReIdx [1] a = true := ha
  have hb' : (b : ℕ) = partnerIdx [1] a := hb
  rw [(turn_deriv 1 θ s).fderiv]
  change turnLog 1 (Pi.single b 1) s = Complex.I * turnLog 1 (Pi.single a 1) s
  fin_cases a
  · fin_cases b
    · simp [partnerIdx] at hb'
    · simp [turnLog]
  · simp [isReIdx] at ha'

theorem turn_smooth : SmoothOn (turnLog 1) Set.univ 2 0 := by
  refine ⟨zero_le_two, le_rfl, fun θ _ s => (turn_deriv 1 θ s).differentiableAt, ?_, ?_⟩
  · intro θ _ s v
    rw [(turn_deriv 1 θ s).fderiv]
    change ‖turnLog 1 v s‖ ≤ 2 * ‖v‖
    have h0 := norm_le_pi_norm v 0
    have h1 := norm_le_pi_norm v 1
    have h2 : ‖((v 0 : ℂ) + (1 : ℝ) * (v 1 : ℂ) * Complex.I)‖ ≤ 2 * ‖v‖ := by
      refine (norm_add_le _ _).trans ?_
      simp only [Complex.ofReal_one, one_mul, norm_mul, Complex.norm_I, mul_one, Complex.norm_real]
      linarith
    unfold turnLog
    rw [norm_mul]
    have h3 : ‖((s.val : ℕ) : ℂ)‖ ≤ 1 := by fin_cases s <;> simp
    calc _ ≤ ‖((v 0 : ℂ) + (1 : ℝ) * (v 1 : ℂ) * Complex.I)‖ * 1 := mul_le_mul_of_nonneg_left h3 (norm_nonneg _)
      _ ≤ _ := by rwa [mul_one]
  · intro θ _ θ' _ s v
    rw [(turn_deriv 1 θ s).fderiv, (turn_deriv 1 θ' s).fderiv]
    simp

/-- Case for all theorems about searches: one step of size `1/1000`. -/
theorem turn_steps : ∃ (s : GsState Unit (NqsState × MinSRAttrs × Unit)) (θ : ℕ → Fin 2 → ℝ) (u : ℕ → Fin 2 → ℂ)
    (A : ℕ → MinSRAttrs),
    groundStateSearch (minsrApi (turnEnv 1) turnCfg 0 fun _ _ => .ok ((), ())) 1 (1 / 10) (1 / 1000) false 0
      (nqsRun (.cpx [[(Real.log 2 : ℂ)]]) [.eval], none, ()) = .ok s ∧ s.n = 1 ∧
    MinsrSteps (turnEnv 1) turnCfg 0 (.cpx [[(Real.log 2 : ℂ)]]) (1 / 1000) 1 θ u A ∧ θ 0 = turnStart ∧
    foldedVelocity [1] (u 0) = ![-(3 / 2), 0] ∧
    SearchSmooth tiltMatrix (turnLog 1) 1 θ (fun k => foldedVelocity [1] (u k)) 1 2 0 (3 / 2) ∧
    FollowsWithin 0 tiltMatrix (turnLog 1) 1 θ := by
  obtain ⟨-, -, -, s, -, -, hs, hn, -⟩ := turn_search 1 turnCfg (1 / 1000)
  obtain ⟨θ, u, A, hsteps, -, -, h0, -⟩ := c110_steps_partial (n := 1) (turnEnv 1) turnCfg 0 (fun _ _ => .ok ((), ())) 1
    (1 / 10) (1 / 1000) false 0 (.cpx [[(Real.log 2 : ℂ)]]) rfl rfl [.eval] (by simp [NqsOp.Fits])
    ((c25_initialised_iff _ _).mpr ⟨.eval, List.mem_singleton_self _, rfl⟩) none () s hs
  rw [hn] at hsteps
  have hθ : θ 0 = turnStart := by
    have h1 : (Except.ok (some (flattenParams (.cpx [[(Real.log 2 : ℂ)]]))) : Except PyErr (Option (List ℝ)))
      = .ok (some (List.ofFn (θ 0))) := h0
    have h2 := Option.some.inj (Except.ok.inj h1)
    apply List.ofFn_injective
    rw [← h2, turn_flat]
  have hv : foldedVelocity [1] (u 0) = ![-(3 / 2), 0] := by
    have h1 := (c110_best turn_setting (turn_cutoff 1 turnCfg (by norm_num [turnCfg])) hsteps one_pos).1 ![-(3 / 2), 0]
    change (1 - 0) * offRay _ (fun s => stateVelocity _ _ (foldedVelocity [1] (u 0)) s + _) ≤ _ at h1
    rw [hθ, turn_offRay, turn_offRay] at h1
    simp only [Matrix.cons_val_zero, Matrix.cons_val_one] at h1
    have h2 : (foldedVelocity [1] (u 0) 0 + 3 / 2) ^ 2 + (foldedVelocity [1] (u 0) 1) ^ 2 ≤ 0 := by linarith
    have h3 := sq_nonneg (foldedVelocity [1] (u 0) 0 + 3 / 2)
    have h4 := sq_nonneg (foldedVelocity [1] (u 0) 1)
    have h5 : foldedVelocity [1] (u 0) 0 + 3 / 2 = 0 := pow_eq_zero_iff (two_ne_zero) |>.mp (by linarith)
    have h6 : foldedVelocity [1] (u 0) 1 = 0 := pow_eq_zero_iff (two_ne_zero) |>.mp (by linarith)
    funext k
    fin_cases k
    · simp only [Fin.zero_eta, Matrix.cons_val_zero]
      linarith
    · exact h6
  refine ⟨s, θ, u, A, hs, hn, hsteps, hθ, hv, ⟨⟨Set.univ, turn_smooth, convex_univ, fun _ _ => Set.mem_univ _⟩,
    tilt_norm, fun k hk => ?_⟩, fun k hk => ?_⟩
  · obtain rfl : k = 0 := by omega
    rw [hv, pi_norm_le_iff_of_nonneg (by norm_num)]
    intro i
    fin_cases i <;> norm_num
  · obtain rfl : k = 0 := by omega
    refine ⟨![-(3 / 2), 0], ?_⟩
    rw [hθ, turn_offRay]
    simp

/-- Case for `c110_converges`, `c110_energy` and `c110_best`: the step from `(1, 2)`, whose ground state is `(1, 1)`. -/
example : ∃ (θ : ℕ → Fin 2 → ℝ) (A : ℕ → MinSRAttrs), θ 1 = ![Real.log 2 - 3 / 2000, 0] ∧
    (∃ E, A 1 = some (E, 9 / 25)) ∧
    (energyAt tiltMatrix (turnLog 1) (θ 1) ≤ energyAt tiltMatrix (turnLog 1) (θ 0)
      - 2 / 1000 * speedAt (turnLog 1) (θ 0) ![-(3 / 2), 0] + 45 / 1000 ^ 2) ∧
    ∀ k ≤ 1, energyAt tiltMatrix (turnLog 1) (θ k) + 1 ≤ (1 - 9 / 2500) ^ k * (1 / 5) + 1 / 80 ∧
    stateDistance ![1, 1] (fun s => Complex.exp (turnLog 1 (θ k) s)) ^ 2
      ≤ ((1 - 9 / 2500) ^ k * (1 / 5) + 1 / 80) / 2 := by
  obtain ⟨s, θ, u, A, -, -, hsteps, hθ, hv, hsm, hd⟩ := turn_steps
  refine ⟨θ, A, ?_, ?_, ?_, fun k hk => ?_⟩
  · have h1 := (hsteps 0 one_pos).1
    change θ 1 = θ 0 + (1 / 1000 : ℝ) • foldedVelocity [1] (u 0) at h1
    rw [h1, hθ, hv]
    funext i
    fin_cases i
    · simp [turnStart]
      ring
    · simp [turnStart]
  · obtain ⟨-, E, var, h1, h2, h3⟩ := c110_best turn_setting (turn_cutoff 1 turnCfg (by norm_num [turnCfg])) hsteps one_pos
    rw [hθ, (turn_energy 1).2] at h2 h3
    obtain rfl : var = 9 / 25 := by linarith
    exact ⟨E, h1⟩
  · have h := c110_energy turn_setting (by norm_num) hsteps hsm
    refine h.trans (le_of_eq ?_)
    change _ + 1 / 1000 * (∑ k ∈ Finset.range 1, (-(2 * ((1 - 0) * speedAt (turnLog 1) (θ k) (foldedVelocity [1] (u k))))
      + _)) + _ = _
    rw [Finset.sum_range_one, hv]
    norm_num [energyCurvature]
    ring
  · have h := c110_converges turn_setting (turn_cutoff 1 turnCfg (by norm_num [turnCfg])) (by norm_num) hsteps hsm
      (tilt_step fun _ => 0).hermitian tilt_ground hd (c := 2) (by norm_num) (by norm_num) (g := 9 / 5) (by norm_num)
      (by rw [hθ, (turn_energy 1).1]; norm_num) (by norm_num) (by norm_num [energyCurvature]) k hk
    rw [hθ, (turn_energy 1).1] at h
    norm_num [energyCurvature] at h
    norm_num
    exact h

/-- Case for `c110_search`. -/
example : ∃ s : GsState Unit (NqsState × MinSRAttrs × Unit),
    groundStateSearch (minsrApi (turnEnv 1) turnCfg 0 fun _ _ => .ok ((), ())) 1 (1 / 10) (1 / 1000) false 0
      (nqsRun (.cpx [[(Real.log 2 : ℂ)]]) [.eval], none, ()) = .ok s ∧
    ∃ θ u A, MinsrSteps (turnEnv 1) turnCfg 0 (.cpx [[(Real.log 2 : ℂ)]]) (1 / 1000) s.n θ u A ∧
      (getParameters.call s.w.1).1 = .ok (some (List.ofFn (θ s.n))) := by
  obtain ⟨s, -, -, -, hs, -⟩ := turn_steps
  obtain ⟨θ, u, A, hsteps, -, -, -, hfin, -⟩ := c110_search (n := 1) turn_setting
    (turn_cutoff 1 turnCfg (by norm_num [turnCfg])) (fun _ _ => .ok ((), ())) 1 (1 / 10) false 0 [.eval]
    (by simp [NqsOp.Fits]) ((c25_initialised_iff _ _).mpr ⟨.eval, List.mem_singleton_self _, rfl⟩) none ()
    (by norm_num) s hs (tilt_step fun _ => 0).hermitian tilt_ground
  exact ⟨s, hs, θ, u, A, hsteps, hfin⟩

/-- Case for `c110_update`: one leaf with two complex parameters. -/
example : List.ofFn (foldedVelocity [2] ![1, 2, Complex.I, 3]) = [0, 2, 0, 3] := by
  have h := c110_update (n := 3) [([1, 2], [Complex.I, 3])] (by simp) ![1, 2, Complex.I, 3] (by simp)
  simp only [List.map_cons, List.map_nil, List.length_cons, List.length_nil] at h
  rw [h]
  simp [flattenParams]

end JVMC
