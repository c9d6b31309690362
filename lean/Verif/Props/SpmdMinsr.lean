import Verif.Lemmas.SpmdMinsr
import Verif.Props.SpmdRun

/-!
# C105 with `MinSR`

Ground-state searches with a `MinSR` object and a complex network on several ranks.
-/

namespace JVMC

open Spec

variable {N n : ℕ} {smp O : Type}

/-- **C105** for `ground_state_search` with a `MinSR` object and a network with complex parameters (`hcpx`): when all ranks
initialise `psi` with the same seed and configurations of the same shape, then under every timing of the ranks the
search returns on all ranks, and all end with the same number of steps, variance, parameters, and records. What they
return is what `groundStateSearch` describes (see `c110_steps_partial`). The samplers (`henv`, `hall`) and `measure` (`hobs`) are any
that return on all ranks in step. Every value of `pinvTol` and every eigensolver is covered. -/
theorem c105_minsr_search [NeZero N] {inv : (Fin N → smp) → Prop} {env : TdvpEnv n (Fin N → smp)}
    {envR : TdvpEnvR n smp} (henv : MeasuresInStep inv env envR) (hall : MeasuresAlways inv env)
    {meas : ℕ → Params → (Fin N → smp) → Except PyErr (O × (Fin N → smp))}
    {measR : Params → smp → Prog (O × smp)} (hobs : ObservesInStep inv meas measR) (cfg : MinSRCfg)
    (init : ℕ → List ℕ → Params) (seed : ℕ) (shape : List ℕ)
    (hp₀ : (flattenParams (init seed shape)).length = n + 1) (hcpx : (init seed shape).isReal = false)
    (shapes : Fin N → List ℕ) (hshape : ∀ r, shapes r = shape) (at₀ : Fin N → MinSRAttrs)
    (sm : Fin N → smp) (hsm : inv sm) (numSteps : ℤ) (tol stepSize : ℝ) (record : Bool) (shift : ℝ) :
    ∃ (v : Fin N → GsState O (MinsrState smp)) (sm' : Fin N → smp),
      AlwaysReturns (fun r => groundStateSearchR (minsrApiR envR cfg measR) numSteps tol stepSize record
        shift (startPsi init seed (shapes r), at₀ r, sm r)) (fun r => some (v r)) ∧
      SameSearch (fun r => some (v r)) ∧
      ∀ r : Fin N, (v r).w.2.2 = sm' r ∧
        groundStateSearch (minsrApi env cfg r.val (psiMeasure (meas r.val))) numSteps tol stepSize record
          shift (startPsi init seed (shapes r), at₀ r, sm)
          = .ok ⟨(v r).n, (v r).varE, (v r).delta, (v r).shift, ((v r).w.1, (v r).w.2.1, sm'), (v r).log⟩ := by
  have hagree : MinsrAgree (init seed shape) inv
      (fun r => (startPsi init seed (shapes r), at₀ r, sm r)) :=
    ⟨⟨_, startPsi_network init seed shape, fun r => congrArg (startPsi init seed) (hshape r)⟩, hsm⟩
  obtain ⟨w', ⟨⟨psi, -, hpsi⟩, -⟩, hcase⟩ := search_ranks
    (minsrApi_inStep henv hall cfg (init seed shape) hp₀ hcpx hobs)
    (fun h => by cases h) numSteps tol stepSize record shift _ hagree
  rcases hcase with ⟨m, varE, delta, shift', log, l, hs⟩ | ⟨-, -, d, y, w, ⟨⟨psi', hpsi', hw1⟩, hsm'⟩, hno⟩
  · exact ⟨_, fun r => (w' r).2.2, lockstep_always l,
      Or.inr ⟨m, varE, shift', psi, log, fun r => ⟨_, rfl, rfl, rfl, rfl, hpsi r, rfl⟩⟩,
      fun r => ⟨rfl, hs r⟩⟩
  · obtain ⟨u, at₁, sm', -, -, hcall, -⟩ := minsr_call_ranks henv hall cfg (init seed shape) hp₀
      (fun i => (y i).re) 0 (some 0) psi' hpsi' (fun r => (w r).2.2) hsm' (fun r => (w r).2.1)
    have h1 := hno 0
    have h2 := hcall 0
    unfold minsrApi at h1
    dsimp only at h1
    rw [hw1 0, h2] at h1
    cases h1

/-- **C105** for `ground_state_search` with `MinSR` and `ExactSampler`: every rank has a part of the basis, on at least
one device; `loc` are local energies and gradients there, `obs` the local values of the observables. -/
theorem c105_minsr_search_exact [NeZero N] {β : Type} {K : ℕ} (lpf : ℝ)
    (loc : β → Params → ℝ → List (List (ExactEntry × (Fin 1 → ℂ) × (Fin (n + 1) → ℂ))))
    (obs : β → Params → List (List (ExactEntry × (Fin K → ℂ))))
    (hdev : ∀ b p t, loc b p t ≠ []) (hdev' : ∀ b p, obs b p ≠ []) (cfg : MinSRCfg)
    (init : ℕ → List ℕ → Params) (seed : ℕ) (shape : List ℕ)
    (hp₀ : (flattenParams (init seed shape)).length = n + 1) (hcpx : (init seed shape).isReal = false)
    (shapes : Fin N → List ℕ) (hshape : ∀ r, shapes r = shape) (at₀ : Fin N → MinSRAttrs)
    (part : Fin N → β) (lastNorm : ℝ) (numSteps : ℤ) (tol stepSize : ℝ) (record : Bool) (shift : ℝ) :
    ∃ v : Fin N → GsState (List MeasResult) (MinsrState (β × ℝ)),
      AlwaysReturns (fun r => groundStateSearchR (minsrApiR (exactEnvR lpf loc) cfg (exactObsR lpf obs)) numSteps tol
        stepSize record shift (startPsi init seed (shapes r), at₀ r, (part r, lastNorm))) (fun r => some (v r)) ∧
      SameSearch fun r => some (v r) := by
  obtain ⟨v, sm', h1, h2, -⟩ := c105_minsr_search (exactEnv_inStep (N := N) lpf loc)
    (fun p sm t _ => exactEnv_measure lpf loc p sm t fun r => hdev _ _ _) (exactObs_inStep lpf obs hdev') cfg
    init seed shape hp₀ hcpx shapes hshape at₀ (fun r => (part r, lastNorm)) (fun _ => rfl) numSteps tol stepSize record shift
  exact ⟨v, h1, h2⟩

/-- Case: two ranks, each with one basis state, a network with one complex parameter, 30 steps. -/
example : ∃ v : Fin 2 → GsState (List MeasResult) (MinsrState (ℂ × ℝ)),
    AlwaysReturns (fun r => groundStateSearchR (minsrApiR (exactEnvR 2 demoPart) ⟨1e-14, "real", fun _ => someEigh⟩
      (exactObsR 2 demoObsPart)) 30 (1 / 100) (1 / 10) true 0
      (startPsi (fun seed shape => .cpx [[⟨seed, shape.length⟩]]) 7 [4], none, (![1, Complex.I] r, 0)))
        (fun r => some (v r)) ∧ SameSearch fun r => some (v r) :=
  c105_minsr_search_exact 2 demoPart demoObsPart (fun s p t => by simp [demoPart])
    (fun s p => by simp [demoObsPart]) ⟨1e-14, "real", fun _ => someEigh⟩
    (fun seed shape => .cpx [[⟨seed, shape.length⟩]]) 7 [4] (by simp [flattenParams]) rfl (fun _ => [4])
    (fun _ => rfl) (fun _ => none) ![1, Complex.I] 0 30 (1 / 100) (1 / 10) true 0

/-- **C105** for `ground_state_search` with `MinSR` and `MCSampler`: `draw` is what a rank does on its own, from its own
random numbers, for the equation, and `obs` for the observables. -/
theorem c105_minsr_search_mcmc [NeZero N] {σ : Type} {K : ℕ} (lpf mu : ℝ) (num : ℕ)
    (draw : σ → Params → ℝ → List (List (ℂ × (Fin 1 → ℂ) × (Fin (n + 1) → ℂ))) × σ)
    (obs : σ → Params → List (List (ℂ × (Fin K → ℂ))) × σ)
    (hdev : ∀ s p t, (draw s p t).1 ≠ []) (hdev' : ∀ s p, (obs s p).1 ≠ []) (cfg : MinSRCfg)
    (init : ℕ → List ℕ → Params) (seed : ℕ) (shape : List ℕ)
    (hp₀ : (flattenParams (init seed shape)).length = n + 1) (hcpx : (init seed shape).isReal = false)
    (shapes : Fin N → List ℕ) (hshape : ∀ r, shapes r = shape) (at₀ : Fin N → MinSRAttrs)
    (sm : Fin N → σ) (numSteps : ℤ) (tol stepSize : ℝ) (record : Bool) (shift : ℝ) :
    ∃ v : Fin N → GsState (List MeasResult) (MinsrState σ),
      AlwaysReturns (fun r => groundStateSearchR (minsrApiR (mcmcEnvR lpf mu draw) cfg (mcmcObsR lpf mu num obs)) numSteps
        tol stepSize record shift (startPsi init seed (shapes r), at₀ r, sm r)) (fun r => some (v r)) ∧
      SameSearch fun r => some (v r) := by
  obtain ⟨v, sm', h1, h2, -⟩ := c105_minsr_search (mcmcEnv_inStep (N := N) lpf mu draw)
    (fun p sm t _ => mcmcEnv_measure lpf mu draw p sm t fun r => hdev _ _ _) (mcmcObs_inStep lpf mu num obs hdev') cfg
    init seed shape hp₀ hcpx shapes hshape at₀ sm trivial numSteps tol stepSize record shift
  exact ⟨v, h1, h2⟩

/-- Case: two ranks with different random numbers, two observables, 50 steps. -/
example : ∃ v : Fin 2 → GsState (List MeasResult) (MinsrState ℕ),
    AlwaysReturns (fun r => groundStateSearchR (minsrApiR (mcmcEnvR 2 2 demoDraw) ⟨1e-14, "real", fun _ => someEigh⟩
      (mcmcObsR 2 2 4 demoObsDraw)) 50 (1 / 100) (1 / 10) true 0
      (startPsi (fun seed shape => .cpx [[⟨seed, shape.length⟩]]) 7 [4], none, ![3, 5] r)) (fun r => some (v r)) ∧
      SameSearch fun r => some (v r) :=
  c105_minsr_search_mcmc 2 2 4 demoDraw demoObsDraw (fun s p t => by simp [demoDraw])
    (fun s p => by simp [demoObsDraw]) ⟨1e-14, "real", fun _ => someEigh⟩
    (fun seed shape => .cpx [[⟨seed, shape.length⟩]]) 7 [4] (by simp [flattenParams]) rfl (fun _ => [4])
    (fun _ => rfl) (fun _ => none) ![3, 5] 50 (1 / 100) (1 / 10) true 0

end JVMC
