import Mathlib.Algebra.Order.BigOperators.Group.List
import Mathlib.Data.List.GetD
import Mathlib.Tactic.Linarith
import Mathlib.Tactic.Ring
import Verif.Model.MCSampler
import Verif.Spec.Samples
import Verif.Lemmas.Mpi

/-! # Helper lemmas for the `MCSampler` properties -/

namespace JVMC

variable {S P K : Type}

/-- The cached log-probabilities belong to the current states. -/
def Coherent (c : McConfig S P K) (params : P) (d : ChainState S K) : Prop :=
  d.logAccProb = d.states.map fun y => c.mu * c.netRe params y

theorem coherent_mcInit (c : McConfig S P K) (params : P) (d : ChainState S K) :
    Coherent c params (mcInit c params d) := rfl

theorem zipWith_sel {A B : Type*} (g : A → B) (acc : List Bool) (old new : List A) :
    List.zipWith (fun a no => if a then no.1 else no.2) acc ((new.map g).zip (old.map g))
      = (List.zipWith (fun a on => if a then on.2 else on.1) acc (old.zip new)).map g := by
  induction acc generalizing old new with
  | nil => simp
  | cons a acc ih =>
    cases old with
    | nil => simp
    | cons o old =>
      cases new with
      | nil => simp
      | cons n new =>
        simp only [List.map_cons, List.zip_cons_cons, List.zipWith_cons_cons, ih]
        cases a <;> simp

theorem coherent_update (c : McConfig S P K) (params : P) (d : ChainState S K)
    (h : Coherent c params d) : Coherent c params (performMcUpdate c params d) := by
  unfold Coherent at *
  unfold performMcUpdate
  dsimp only
  rw [h]
  exact zipWith_sel _ _ _ _

theorem coherent_iterate (c : McConfig S P K) (params : P) (n : ℕ) (d : ChainState S K)
    (h : Coherent c params d) : Coherent c params ((performMcUpdate c params)^[n] d) := by
  induction n generalizing d with
  | zero => exact h
  | succ n ih =>
    rw [Function.iterate_succ_apply]
    exact ih _ (coherent_update c params d h)

theorem update_length (c : McConfig S P K) (params : P) (d : ChainState S K)
    (h : d.logAccProb.length = d.states.length) :
    (performMcUpdate c params d).states.length = d.states.length ∧
    (performMcUpdate c params d).logAccProb.length = d.states.length := by
  unfold performMcUpdate
  simp [h]

theorem iterate_length (c : McConfig S P K) (params : P) (n : ℕ) (d : ChainState S K)
    (h : d.logAccProb.length = d.states.length) :
    ((performMcUpdate c params)^[n] d).states.length = d.states.length ∧
    ((performMcUpdate c params)^[n] d).logAccProb.length = d.states.length := by
  induction n generalizing d with
  | zero => exact ⟨rfl, h⟩
  | succ n ih =>
    rw [Function.iterate_succ_apply]
    have := update_length c params d h
    have := ih _ (this.2.trans this.1.symm)
    omega

theorem iterate_counts (c : McConfig S P K) (params : P) (n : ℕ) (d : ChainState S K)
    (h : d.logAccProb.length = d.states.length) :
    ((performMcUpdate c params)^[n] d).numProposed = d.numProposed + n * d.states.length ∧
    ((performMcUpdate c params)^[n] d).numAccepted ≤ d.numAccepted + n * d.states.length := by
  induction n generalizing d with
  | zero => simp
  | succ n ih =>
    rw [Function.iterate_succ_apply]
    have hl := update_length c params d h
    have hi := ih _ (hl.2.trans hl.1.symm)
    rw [hl.1] at hi
    have h1 : (performMcUpdate c params d).numProposed = d.numProposed + d.states.length := by
      simp [performMcUpdate]
    have h2 : (performMcUpdate c params d).numAccepted ≤ d.numAccepted + d.states.length := by
      unfold performMcUpdate
      dsimp only
      apply Nat.add_le_add_left
      refine (List.length_filter_le _ _).trans ?_
      simp
    have h3 : (n + 1) * d.states.length = n * d.states.length + d.states.length := by ring
    omega

theorem collect_fst (c : McConfig S P K) (params : P) (n : ℕ) (d : ChainState S K) :
    (collect c params n d).1 = (performMcUpdate c params)^[n * c.sweepSteps] d := by
  induction n generalizing d with
  | zero => simp [collect]
  | succ n ih =>
    simp only [collect, sweep]
    rw [ih, ← Function.iterate_add_apply]
    congr 1
    ring

theorem collect_snd (c : McConfig S P K) (params : P) (n : ℕ) (d : ChainState S K) :
    (collect c params n d).2 = (List.range n).map fun j =>
      ((performMcUpdate c params)^[(j + 1) * c.sweepSteps] d).states := by
  induction n generalizing d with
  | zero => simp [collect]
  | succ n ih =>
    simp only [collect, sweep]
    rw [ih, List.range_succ_eq_map, List.map_cons, List.map_map]
    congr 1
    · simp
    · apply List.map_congr_left
      intro j _
      simp only [Function.comp]
      rw [← Function.iterate_add_apply]
      congr 2
      rw [Nat.succ_eq_add_one]
      ring

theorem getSamples_fst (c : McConfig S P K) (params : P) (n : ℕ) (d : ChainState S K) :
    (getSamples c params n d).1
      = (performMcUpdate c params)^[(c.thermSweeps + n) * c.sweepSteps] d := by
  simp only [getSamples, sweep]
  rw [collect_fst, ← Function.iterate_add_apply]
  congr 1
  ring

theorem getSamples_snd (c : McConfig S P K) (params : P) (n : ℕ) (d : ChainState S K) :
    (getSamples c params n d).2 = (List.range n).flatMap fun j =>
      ((performMcUpdate c params)^[(c.thermSweeps + j + 1) * c.sweepSteps] d).states := by
  simp only [getSamples, sweep]
  rw [collect_snd, List.flatMap_def]
  congr 1
  apply List.map_congr_left
  intro j _
  rw [← Function.iterate_add_apply]
  congr 2
  ring

theorem getSamples_length (c : McConfig S P K) (params : P) (n : ℕ) (d : ChainState S K)
    (h : d.logAccProb.length = d.states.length) :
    (getSamples c params n d).2.length = n * d.states.length := by
  rw [getSamples_snd, List.length_flatMap]
  have : ∀ j ∈ List.range n,
      ((performMcUpdate c params)^[(c.thermSweeps + j + 1) * c.sweepSteps] d).states.length
        = d.states.length := fun j _ => (iterate_length c params _ d h).1
  rw [List.map_congr_left this]
  simp

theorem mcInit_length (c : McConfig S P K) (params : P) (d : ChainState S K) :
    (mcInit c params d).logAccProb.length = (mcInit c params d).states.length := by
  simp [mcInit]

/-- What one MCMC call does on one rank if there is at least one chain. -/
theorem getSamplesMcmc_eq (c : McConfig S P K) (s r : ℕ) (params : P) (N m : ℕ)
    (devs : List (ChainState S K)) (hs : 0 < s) (hd : devs ≠ []) (hc : 0 < c.numChains)
    (hm : 0 < m) :
    ∃ glob, getSamplesMcmc c s r params N m devs = .ok
      (devs.map (fun d => (getSamples c params
          (samplesPerChain (devs.length * Nat.lcm c.numChains m) (samplesPerProcess s r N))
          (mcInit c params d)).1),
        devs.map (fun d => (getSamples c params
          (samplesPerChain (devs.length * Nat.lcm c.numChains m) (samplesPerProcess s r N))
          (mcInit c params d)).2), glob) ∧
      distributeSampling s r N (some devs.length) (Nat.lcm c.numChains m) = .ok
        (samplesPerChain (devs.length * Nat.lcm c.numChains m) (samplesPerProcess s r N), glob) := by
  have hlcm : 0 < Nat.lcm c.numChains m := Nat.lcm_pos hc hm
  have hne : devs.length * Nat.lcm c.numChains m ≠ 0 :=
    Nat.mul_ne_zero (by simpa using hd) hlcm.ne'
  have key : ∃ glob, distributeSampling s r N (some devs.length) (Nat.lcm c.numChains m) = .ok
      (samplesPerChain (devs.length * Nat.lcm c.numChains m) (samplesPerProcess s r N), glob) := by
    simp only [distributeSampling, hs.ne', if_false, hne]
    exact ⟨_, rfl⟩
  obtain ⟨glob, hg⟩ := key
  refine ⟨glob, ?_, hg⟩
  unfold getSamplesMcmc
  dsimp only
  rw [hg]
  show Except.ok _ = Except.ok _
  simp [List.map_map, Function.comp_def]

end JVMC
