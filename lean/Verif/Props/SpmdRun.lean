import Verif.Lemmas.SpmdRun

/-!
# Properties of whole simulations on several ranks

C105: the programs of all ranks run through a whole ground-state search or time evolution without hanging,
leave the loops together, and end with the same parameters and the same records.
-/

namespace JVMC

open Spec

variable {N n : ℕ} {smp O : Type}

theorem startPsi_network (init : ℕ → List ℕ → Params) (seed : ℕ) (shape : List ℕ) :
    IsNetwork (init seed shape) (startPsi init seed shape) :=
  (isNetwork_iff _ _).mpr ⟨_, rfl, rfl, rfl⟩

/-! ## Ground states -/

/-- **C105** for `ground_state_search` with a `TDVP` object: when all ranks initialise `psi` with the same seed and
configurations of the same shape, then under every timing of the ranks the search returns on all ranks, and
all end with the same number of steps, variance, shift, parameters, and records. What they return is what
`groundStateSearch` describes (see `c51_tdvp_partial`). The samplers (`henv`, `hall`) and `measure` (`hobs`) are any that
return on all ranks in step. Settings as in `c44_returns`. -/
theorem c105_search [NeZero N] {inv : (Fin N → smp) → Prop} {env : TdvpEnv n (Fin N → smp)}
    {envR : TdvpEnvR n smp} (henv : MeasuresInStep inv env envR) (hall : MeasuresAlways inv env)
    {meas : ℕ → Params → (Fin N → smp) → Except PyErr (O × (Fin N → smp))}
    {measR : Params → smp → Prog (O × smp)} (hobs : ObservesInStep inv meas measR) (cfg : TdvpCfg n)
    (hc : 0 < cfg.pinvCutoff) (hc' : cfg.pinvCutoff < 1e-2) (ht : cfg.pinvTol < 1)
    (init : ℕ → List ℕ → Params) (seed : ℕ) (shape : List ℕ)
    (hp₀ : (flattenParams (init seed shape)).length = n + 1)
    (shapes : Fin N → List ℕ) (hshape : ∀ r, shapes r = shape) (at₀ : Fin N → TdvpAttrs n)
    (sm : Fin N → smp) (hsm : inv sm) (numSteps : ℤ) (tol stepSize : ℝ) (record : Bool) :
    ∃ (v : Fin N → Option (GsState O (RankState n smp))) (sm' : Fin N → smp),
      AlwaysReturns (fun r => groundStateSearchR (tdvpApiR envR cfg measR) numSteps tol stepSize record
        cfg.diagonalShift (startPsi init seed (shapes r), at₀ r, sm r)) v ∧
      SameSearch v ∧
      ∀ r : Fin N,
        (v r = none ∧ groundStateSearch (tdvpApi env cfg r.val (psiMeasure (meas r.val))) numSteps tol stepSize record
          cfg.diagonalShift (startPsi init seed (shapes r), at₀ r, sm) = .error .noReturn) ∨
        ∃ s, v r = some s ∧ s.w.2.2 = sm' r ∧
          groundStateSearch (tdvpApi env cfg r.val (psiMeasure (meas r.val))) numSteps tol stepSize record
            cfg.diagonalShift (startPsi init seed (shapes r), at₀ r, sm)
            = .ok ⟨s.n, s.varE, s.delta, s.shift, (s.w.1, s.w.2.1, sm'), s.log⟩ := by
  have hagree : RanksAgree (init seed shape) inv
      (fun r => (startPsi init seed (shapes r), at₀ r, sm r)) :=
    ⟨⟨_, startPsi_network init seed shape, fun r => congrArg (startPsi init seed) (hshape r)⟩, hsm⟩
  obtain ⟨w', ⟨⟨psi, -, hpsi⟩, -⟩, hcase⟩ := search_ranks (tdvpApi_inStep henv hall cfg hc hc' ht (init seed shape) hp₀ hobs)
    (fun _ => rfl) numSteps tol stepSize record cfg.diagonalShift _ hagree
  rcases hcase with ⟨m, varE, delta, shift, log, l, hs⟩ | ⟨l, hs, -⟩
  · exact ⟨_, fun r => (w' r).2.2, lockstep_always l,
      Or.inr ⟨m, varE, shift, psi, log, fun r => ⟨_, rfl, rfl, rfl, rfl, hpsi r, rfl⟩⟩,
      fun r => Or.inr ⟨_, rfl, rfl, hs r⟩⟩
  · exact ⟨_, sm, lockstep_always l, Or.inl fun _ => rfl, fun r => Or.inl ⟨rfl, hs r⟩⟩

/-- **C105** for `ground_state_search` with `TDVP` and `ExactSampler`: every rank has a part of the basis, on at least
one device; `loc` are local energies and gradients there, `obs` the local values of the observables. -/
theorem c105_search_exact [NeZero N] {β : Type} {K : ℕ} (lpf : ℝ)
    (loc : β → Params → ℝ → List (List (ExactEntry × (Fin 1 → ℂ) × (Fin (n + 1) → ℂ))))
    (obs : β → Params → List (List (ExactEntry × (Fin K → ℂ))))
    (hdev : ∀ b p t, loc b p t ≠ []) (hdev' : ∀ b p, obs b p ≠ []) (cfg : TdvpCfg n)
    (hc : 0 < cfg.pinvCutoff) (hc' : cfg.pinvCutoff < 1e-2) (ht : cfg.pinvTol < 1)
    (init : ℕ → List ℕ → Params) (seed : ℕ) (shape : List ℕ)
    (hp₀ : (flattenParams (init seed shape)).length = n + 1)
    (shapes : Fin N → List ℕ) (hshape : ∀ r, shapes r = shape) (at₀ : Fin N → TdvpAttrs n)
    (part : Fin N → β) (lastNorm : ℝ) (numSteps : ℤ) (tol stepSize : ℝ) (record : Bool) :
    ∃ v : Fin N → Option (GsState (List MeasResult) (RankState n (β × ℝ))),
      AlwaysReturns (fun r => groundStateSearchR (tdvpApiR (exactEnvR lpf loc) cfg (exactObsR lpf obs)) numSteps tol
        stepSize record cfg.diagonalShift (startPsi init seed (shapes r), at₀ r, (part r, lastNorm))) v ∧
      SameSearch v := by
  obtain ⟨v, sm', h1, h2, -⟩ := c105_search (exactEnv_inStep (N := N) lpf loc)
    (fun p sm t _ => exactEnv_measure lpf loc p sm t fun r => hdev _ _ _) (exactObs_inStep lpf obs hdev') cfg hc hc' ht
    init seed shape hp₀ shapes hshape at₀ (fun r => (part r, lastNorm)) (fun _ => rfl) numSteps tol stepSize record
  exact ⟨v, h1, h2⟩

/-- **C105** for `ground_state_search` with `TDVP` and `MCSampler`: every rank draws samples on its own, on at least
one device, with its own random numbers. -/
theorem c105_search_mcmc [NeZero N] {σ : Type} {K : ℕ} (lpf mu : ℝ) (num : ℕ)
    (draw : σ → Params → ℝ → List (List (ℂ × (Fin 1 → ℂ) × (Fin (n + 1) → ℂ))) × σ)
    (obs : σ → Params → List (List (ℂ × (Fin K → ℂ))) × σ)
    (hdev : ∀ s p t, (draw s p t).1 ≠ []) (hdev' : ∀ s p, (obs s p).1 ≠ []) (cfg : TdvpCfg n)
    (hc : 0 < cfg.pinvCutoff) (hc' : cfg.pinvCutoff < 1e-2) (ht : cfg.pinvTol < 1)
    (init : ℕ → List ℕ → Params) (seed : ℕ) (shape : List ℕ)
    (hp₀ : (flattenParams (init seed shape)).length = n + 1)
    (shapes : Fin N → List ℕ) (hshape : ∀ r, shapes r = shape) (at₀ : Fin N → TdvpAttrs n)
    (sm : Fin N → σ) (numSteps : ℤ) (tol stepSize : ℝ) (record : Bool) :
    ∃ v : Fin N → Option (GsState (List MeasResult) (RankState n σ)),
      AlwaysReturns (fun r => groundStateSearchR (tdvpApiR (mcmcEnvR lpf mu draw) cfg (mcmcObsR lpf mu num obs)) numSteps
        tol stepSize record cfg.diagonalShift (startPsi init seed (shapes r), at₀ r, sm r)) v ∧
      SameSearch v := by
  obtain ⟨v, sm', h1, h2, -⟩ := c105_search (mcmcEnv_inStep (N := N) lpf mu draw)
    (fun p sm t _ => mcmcEnv_measure lpf mu draw p sm t fun r => hdev _ _ _) (mcmcObs_inStep lpf mu num obs hdev') cfg
    hc hc' ht init seed shape hp₀ shapes hshape at₀ sm trivial numSteps tol stepSize record
  exact ⟨v, h1, h2⟩

/-- An observable for `demoDraw`. -/
noncomputable def demoObsDraw (s : ℕ) (_ : Params) : List (List (ℂ × (Fin 2 → ℂ))) × ℕ :=
  ([[((s : ℂ), ![(s : ℂ), 1])], [(1, ![2, 3])]], s + 1)

/-- Case: two ranks with different random numbers, two observables, 50 steps. -/
example : ∃ v : Fin 2 → Option (GsState (List MeasResult) (RankState 1 ℕ)),
    AlwaysReturns (fun r => groundStateSearchR (tdvpApiR (mcmcEnvR 2 2 demoDraw) demoCfg (mcmcObsR 2 2 4 demoObsDraw)) 50
      (1 / 100) (1 / 10) true demoCfg.diagonalShift
      (startPsi (fun seed shape => .real [[seed, shape.length]]) 7 [4], {}, ![3, 5] r)) v ∧ SameSearch v :=
  c105_search_mcmc 2 2 4 demoDraw demoObsDraw (fun s p t => by simp [demoDraw])
    (fun s p => by simp [demoObsDraw]) demoCfg (by norm_num [demoCfg]) (by norm_num [demoCfg]) (by norm_num [demoCfg])
    (fun seed shape => .real [[seed, shape.length]]) 7 [4] (by simp [flattenParams]) (fun _ => [4]) (fun _ => rfl)
    (fun _ => {}) ![3, 5] 50 (1 / 100) (1 / 10) true

/-! ## Time evolution -/

/-- **C105** for the time evolution: when all ranks initialise `psi` with the same seed and configurations of the same
shape, then under every timing of the ranks the script gets through any number of passes on all ranks, with `Euler`,
`Heun` or `AdaptiveHeun` and any norm that uses what a `TDVP` object stores (`S_dot`); the ranks agree on the times, the
steps (so they leave the loop together), the parameters and the records, and these are the ones described
by `Spec.simulation`. -/
theorem c105_evolution [NeZero N] {inv : (Fin N → smp) → Prop} {env : TdvpEnv n (Fin N → smp)}
    {envR : TdvpEnvR n smp} (henv : MeasuresInStep inv env envR) (hall : MeasuresAlways inv env)
    {meas : ℕ → Params → (Fin N → smp) → Except PyErr (O × (Fin N → smp))}
    {measR : Params → smp → Prog (O × smp)} (hobs : ObservesInStep inv meas measR) (cfg : TdvpCfg n)
    (hc : 0 < cfg.pinvCutoff) (hc' : cfg.pinvCutoff < 1e-2) (ht : cfg.pinvTol < 1)
    (norm : Option (Flt (TdvpEqn n)) → (Fin (n + 1) → ℝ) → ℝ)
    (init : ℕ → List ℕ → Params) (seed : ℕ) (shape : List ℕ)
    (hp₀ : (flattenParams (init seed shape)).length = n + 1)
    (shapes : Fin N → List ℕ) (hshape : ∀ r, shapes r = shape)
    (sm : Fin N → smp) (hsm : inv sm) (tmax t : ℝ) (stepper : StepperR) (passes : ℕ) :
    ∃ (v : Fin N → Option (EvoState O (RankState n smp))) (sm' : Fin N → smp),
      AlwaysReturns (fun r => simulateR envR cfg norm measR tmax passes t stepper
        (startPsi init seed (shapes r), {}, sm r)) v ∧
      SameEvolution v ∧
      ∀ r : Fin N,
        (v r = none ∧ simulation env cfg r.val norm (meas r.val) tmax passes t stepper
          (startPsi init seed (shapes r), {}, sm) = none) ∨
        ∃ s, v r = some s ∧ s.w.2.2 = sm' r ∧
          simulation env cfg r.val norm (meas r.val) tmax passes t stepper (startPsi init seed (shapes r), {}, sm)
            = some ⟨s.t, s.stepper, (s.w.1, s.w.2.1, sm'), s.log⟩ := by
  have hagree : EvoAgree (init seed shape) inv
      (fun r => ((startPsi init seed (shapes r), ({} : TdvpAttrs n), sm r) : RankState n smp)) :=
    ⟨⟨⟨_, startPsi_network init seed shape, fun r => congrArg (startPsi init seed) (hshape r)⟩, hsm⟩, none, fun _ => rfl⟩
  obtain ⟨o, sm₁, hw', lm, hm⟩ := rankMeasure_ranks (init seed shape) hobs _ hagree
  obtain ⟨v, ⟨hv, sm', hseq⟩, l⟩ := evolve_ranks henv hall cfg hc hc' ht (init seed shape) hp₀ norm hobs tmax passes t
    stepper _ [(t, o)] hw'
  refine ⟨v, sm', lockstep_always (lockstep_seq lm l), hv, fun r => ?_⟩
  have e : simulation env cfg r.val norm (meas r.val) tmax passes t stepper (startPsi init seed (shapes r), {}, sm)
      = evolution env cfg r.val norm (meas r.val) tmax passes
        ⟨t, stepper, (startPsi init seed (shapes r), {}, sm₁), [(t, o)]⟩ := by
    unfold simulation
    have := hm r
    dsimp only at this ⊢
    rw [this]
    rfl
  rw [e]
  exact hseq r

/-- **C105** for the time evolution with `ExactSampler`. -/
theorem c105_evolution_exact [NeZero N] {β : Type} {K : ℕ} (lpf : ℝ)
    (loc : β → Params → ℝ → List (List (ExactEntry × (Fin 1 → ℂ) × (Fin (n + 1) → ℂ))))
    (obs : β → Params → List (List (ExactEntry × (Fin K → ℂ))))
    (hdev : ∀ b p t, loc b p t ≠ []) (hdev' : ∀ b p, obs b p ≠ []) (cfg : TdvpCfg n)
    (hc : 0 < cfg.pinvCutoff) (hc' : cfg.pinvCutoff < 1e-2) (ht : cfg.pinvTol < 1)
    (norm : Option (Flt (TdvpEqn n)) → (Fin (n + 1) → ℝ) → ℝ)
    (init : ℕ → List ℕ → Params) (seed : ℕ) (shape : List ℕ)
    (hp₀ : (flattenParams (init seed shape)).length = n + 1)
    (shapes : Fin N → List ℕ) (hshape : ∀ r, shapes r = shape)
    (part : Fin N → β) (lastNorm : ℝ) (tmax t : ℝ) (stepper : StepperR) (passes : ℕ) :
    ∃ v : Fin N → Option (EvoState (List MeasResult) (RankState n (β × ℝ))),
      AlwaysReturns (fun r => simulateR (exactEnvR lpf loc) cfg norm (exactObsR lpf obs) tmax passes t stepper
        (startPsi init seed (shapes r), {}, (part r, lastNorm))) v ∧ SameEvolution v := by
  obtain ⟨v, -, h1, h2, -⟩ := c105_evolution (exactEnv_inStep (N := N) lpf loc)
    (fun p sm t _ => exactEnv_measure lpf loc p sm t fun r => hdev _ _ _) (exactObs_inStep lpf obs hdev') cfg hc hc' ht
    norm init seed shape hp₀ shapes hshape (fun r => (part r, lastNorm)) (fun _ => rfl) tmax t stepper passes
  exact ⟨v, h1, h2⟩

/-- **C105** for the time evolution with `MCSampler`. -/
theorem c105_evolution_mcmc [NeZero N] {σ : Type} {K : ℕ} (lpf mu : ℝ) (num : ℕ)
    (draw : σ → Params → ℝ → List (List (ℂ × (Fin 1 → ℂ) × (Fin (n + 1) → ℂ))) × σ)
    (obs : σ → Params → List (List (ℂ × (Fin K → ℂ))) × σ)
    (hdev : ∀ s p t, (draw s p t).1 ≠ []) (hdev' : ∀ s p, (obs s p).1 ≠ []) (cfg : TdvpCfg n)
    (hc : 0 < cfg.pinvCutoff) (hc' : cfg.pinvCutoff < 1e-2) (ht : cfg.pinvTol < 1)
    (norm : Option (Flt (TdvpEqn n)) → (Fin (n + 1) → ℝ) → ℝ)
    (init : ℕ → List ℕ → Params) (seed : ℕ) (shape : List ℕ)
    (hp₀ : (flattenParams (init seed shape)).length = n + 1)
    (shapes : Fin N → List ℕ) (hshape : ∀ r, shapes r = shape)
    (sm : Fin N → σ) (tmax t : ℝ) (stepper : StepperR) (passes : ℕ) :
    ∃ v : Fin N → Option (EvoState (List MeasResult) (RankState n σ)),
      AlwaysReturns (fun r => simulateR (mcmcEnvR lpf mu draw) cfg norm (mcmcObsR lpf mu num obs) tmax passes t stepper
        (startPsi init seed (shapes r), {}, sm r)) v ∧ SameEvolution v := by
  obtain ⟨v, -, h1, h2, -⟩ := c105_evolution (mcmcEnv_inStep (N := N) lpf mu draw)
    (fun p sm t _ => mcmcEnv_measure lpf mu draw p sm t fun r => hdev _ _ _) (mcmcObs_inStep lpf mu num obs hdev') cfg
    hc hc' ht norm init seed shape hp₀ shapes hshape sm trivial tmax t stepper passes
  exact ⟨v, h1, h2⟩

/-- The norm of `ex5_dissipative_Lindblad.py`: `vᵀ S₀ v`. -/
noncomputable def demoNorm (e : Option (Flt (TdvpEqn 1))) (v : Fin 2 → ℝ) : ℝ :=
  match e with
  | some (some e) => (∑ i, ∑ j, (v i : ℂ) * e.S0 i j * (v j : ℂ)).re
  | _ => 0

/-- Observables for `demoPart`. -/
noncomputable def demoObsPart (z : ℂ) (_ : Params) : List (List (ExactEntry × (Fin 1 → ℂ))) :=
  [[((true, z), ![z])]]

/-- Case: the exact sampler on two ranks, adaptive steps, the norm given by `S_dot`. -/
example : ∃ v : Fin 2 → Option (EvoState (List MeasResult) (RankState 1 (ℂ × ℝ))),
    AlwaysReturns (fun r => simulateR (exactEnvR 2 demoPart) demoCfg demoNorm (exactObsR 2 demoObsPart) 5 1000 0
      (.adaptive ⟨1 / 1000, 1 / 10000, 1⟩ 100)
      (startPsi (fun seed shape => .real [[seed, shape.length]]) 7 [4], {}, (![1, Complex.I] r, 0))) v ∧
      SameEvolution v :=
  c105_evolution_exact 2 demoPart demoObsPart (fun s p t => by simp [demoPart])
    (fun s p => by simp [demoObsPart]) demoCfg (by norm_num [demoCfg]) (by norm_num [demoCfg]) (by norm_num [demoCfg])
    demoNorm (fun seed shape => .real [[seed, shape.length]]) 7 [4] (by simp [flattenParams]) (fun _ => [4])
    (fun _ => rfl) ![1, Complex.I] 0 5 0 _ 1000

end JVMC
