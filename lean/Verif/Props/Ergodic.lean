import Mathlib.Algebra.Ring.Int.Parity
import Verif.Lemmas.Ergodic

/-! # Property C75: ergodicity of the Markov chains

"Whatever the initial configuration, the chain can visit every configuration of the space, the
target distribution is the only stationary one, and the distribution of the samples converges to
it." -/

namespace JVMC

open Relation

/-- The chain can move from `a` to `b` in one update with positive probability. -/
private def CanMove {Ω : Type} (W : Finset Ω) (propose : Ω → List ℤ → List ℤ) (lw : List ℤ → ℝ)
    (a b : List ℤ) : Prop :=
  0 < Spec.transProb W (metropolisStep propose lw) (fun _ : Fin 1 => a) (fun _ => b)

private theorem canMove_of {Ω : Type} (W : Finset Ω) (propose : Ω → List ℤ → List ℤ)
    (lw : List ℤ → ℝ) (s t : List ℤ)
    (h : ReflTransGen (fun a b => ∃ ω ∈ W, propose ω a = b) s t) :
    ReflTransGen (CanMove W propose lw) s t := by
  refine (ReflTransGen.mono ?_) _ _ h
  rintro a b ⟨ω, hω, rfl⟩
  unfold CanMove
  rw [transProb_one]
  exact chainKernel_pos W propose lw ω hω a

/-- **C75**, spin flip: for every wave function without zeros, from every spin configuration every
other one is reached by finitely many updates that each have positive probability. -/
theorem c75_spin_flip_reaches_all (lw : List ℤ → ℝ) (s t : List ℤ) (hs : Spec.InSpace 2 s)
    (ht : Spec.InSpace 2 t) (hl : s.length = t.length) :
    ReflTransGen (fun a b => 0 < Spec.transProb (spinFlipDraws s.length)
      (metropolisStep proposeSpinFlip lw) (fun _ : Fin 1 => a) (fun _ => b)) s t :=
  canMove_of _ _ lw s t
    (spinFlip_connected s t ((bin_iff s).mpr hs) ((bin_iff t).mpr ht) hl)

example (lw : List ℤ → ℝ) : ReflTransGen (fun a b => 0 < Spec.transProb (spinFlipDraws 4)
    (metropolisStep proposeSpinFlip lw) (fun _ : Fin 1 => a) (fun _ => b)) [1, 0, 0, 1] [0, 1, 0, 0] :=
  c75_spin_flip_reaches_all lw [1, 0, 0, 1] [0, 1, 0, 0] (by unfold Spec.InSpace; decide) (by unfold Spec.InSpace; decide) rfl

/-- **C75**, spin flip with global flip. -/
theorem c75_spin_flip_Z2_reaches_all (lw : List ℤ → ℝ) (s t : List ℤ) (hs : Spec.InSpace 2 s)
    (ht : Spec.InSpace 2 t) (hl : s.length = t.length) :
    ReflTransGen (fun a b => 0 < Spec.transProb (z2Draws s.length)
      (metropolisStep (fun d => proposeSpinFlipZ2 d.1 d.2) lw)
      (fun _ : Fin 1 => a) (fun _ => b)) s t :=
  canMove_of _ (fun d : ℕ × ℕ => proposeSpinFlipZ2 d.1 d.2) lw s t
    (z2_connected s t ((bin_iff s).mpr hs) ((bin_iff t).mpr ht) hl)

example (lw : List ℤ → ℝ) : ReflTransGen (fun a b => 0 < Spec.transProb (z2Draws 4)
    (metropolisStep (fun d => proposeSpinFlipZ2 d.1 d.2) lw) (fun _ : Fin 1 => a) (fun _ => b)) [1, 0, 0, 1] [0, 1, 0, 0] :=
  c75_spin_flip_Z2_reaches_all lw [1, 0, 0, 1] [0, 1, 0, 0] (by unfold Spec.InSpace; decide) (by unfold Spec.InSpace; decide) rfl

/-- **C75**, zero magnetisation: from every balanced configuration every balanced configuration is
reached. -/
theorem c75_zeroMag_reaches_all (lw : List ℤ → ℝ) (s t : List ℤ) (hs : Spec.Balanced s)
    (ht : Spec.Balanced t) (hl : s.length = t.length) :
    ReflTransGen (fun a b => 0 < Spec.transProb (zeroMagDraws s.length)
      (metropolisStep (fun d => proposeSpinFlipZeroMag d.1 d.2.1 d.2.2) lw)
      (fun _ : Fin 1 => a) (fun _ => b)) s t :=
  canMove_of _ (fun d : ℤ × ℤ × ℕ => proposeSpinFlipZeroMag d.1 d.2.1 d.2.2) lw s t
    (zeroMag_connected s t hs ht hl)

example (lw : List ℤ → ℝ) : ReflTransGen (fun a b => 0 < Spec.transProb (zeroMagDraws 4)
    (metropolisStep (fun d => proposeSpinFlipZeroMag d.1 d.2.1 d.2.2) lw) (fun _ : Fin 1 => a) (fun _ => b))
    [1, 0, 0, 1] [1, 1, 0, 0] :=
  c75_zeroMag_reaches_all lw [1, 0, 0, 1] [1, 1, 0, 0] (by unfold Spec.Balanced; decide) (by unfold Spec.Balanced; decide) rfl

/-- **C75**, uniqueness, for any symmetric proposer whose moves connect the finite space `X`: a
distribution of one chain that an update leaves unchanged is the target distribution. -/
theorem c75_unique_stationary {Ω S : Type*} [DecidableEq S] (W : Finset Ω) (propose : Ω → S → S)
    (lw : S → ℝ) (hW : W.Nonempty) (X : Finset S)
    (hX : ∀ ω ∈ W, ∀ s ∈ X, propose ω s ∈ X)
    (hsym : ∀ s ∈ X, ∀ s' ∈ X, (W.filter fun ω => propose ω s = s').card
      = (W.filter fun ω => propose ω s' = s).card)
    (hirr : ∀ s ∈ X, ∀ t ∈ X, ReflTransGen (fun a b => ∃ ω ∈ W, propose ω a = b) s t)
    (μ : (Fin 1 → S) → ℝ)
    (hμ : ∀ s : Fin 1 → S, s 0 ∈ X → Spec.evolve W (metropolisStep propose lw) X μ s = μ s)
    (hsum : ∑ s ∈ Fintype.piFinset (fun _ : Fin 1 => X), μ s = 1)
    (s : Fin 1 → S) (hs : s 0 ∈ X) :
    μ s = Spec.productDist X (fun x => Real.exp (lw x)) s := by
  set f : S → ℝ := fun x => μ (fun _ => x) / Real.exp (lw x) with hfdef
  have hfm : ∀ x, μ (fun _ => x) = Real.exp (lw x) * f x := by
    intro x
    rw [hfdef]
    have := (Real.exp_pos (lw x)).ne'
    field_simp
  have hharm : ∀ x ∈ X, ∑ t ∈ X, chainKernel W propose lw x t * f t = f x := by
    intro x hx
    have h := hμ (fun _ => x) hx
    unfold Spec.evolve at h
    rw [sum_piFinset_one] at h
    simp only [transProb_one] at h
    have hpos := Real.exp_pos (lw x)
    have h2 : ∀ t ∈ X, μ (fun _ => t) * chainKernel W propose lw t x
        = Real.exp (lw x) * (chainKernel W propose lw x t * f t) := by
      intro t ht
      rw [hfm t]
      have := chainKernel_balance W propose lw t x (hsym t ht x hx)
      linear_combination f t * this
    rw [Finset.sum_congr rfl h2, ← Finset.mul_sum, hfm x] at h
    exact mul_left_cancel₀ hpos.ne' h
  have hconst := harmonic_const W propose lw X hW hX hirr f hharm
  have hμs : ∀ x ∈ X, μ (fun _ => x) = Real.exp (lw x) * f (s 0) := by
    intro x hx
    rw [hfm x, hconst x (s 0) hx hs]
  rw [sum_piFinset_one, Finset.sum_congr rfl hμs, ← Finset.sum_mul] at hsum
  have hs' : s = fun _ => s 0 := by funext i; rw [Subsingleton.elim i 0]
  unfold Spec.productDist
  rw [Fin.prod_univ_one, hs', hμs _ hs]
  have hZ : (∑ x ∈ X, Real.exp (lw x)) ≠ 0 := by
    intro h; rw [h] at hsum; simp at hsum
  rw [eq_div_iff hZ]
  generalize f (s 0) = y at hsum
  linear_combination Real.exp (lw (s 0)) * hsum

/-- A particle that hops on a ring of three sites. -/
example (lw : ZMod 3 → ℝ) (μ : (Fin 1 → ZMod 3) → ℝ)
    (hμ : ∀ s, Spec.evolve {1, -1} (metropolisStep (fun (d s : ZMod 3) => s + d) lw) Finset.univ μ s = μ s)
    (hsum : ∑ s ∈ Fintype.piFinset (fun _ : Fin 1 => (Finset.univ : Finset (ZMod 3))), μ s = 1) (s : Fin 1 → ZMod 3) :
    μ s = Spec.productDist Finset.univ (fun x => Real.exp (lw x)) s := by
  refine c75_unique_stationary {1, -1} (fun d s => s + d) lw (by simp) Finset.univ (fun _ _ _ _ => Finset.mem_univ _)
    (by decide) ?_ μ (fun s _ => hμ s) hsum s (Finset.mem_univ _)
  have h1 : ∀ s t : ZMod 3, s ≠ t → ∃ ω ∈ ({1, -1} : Finset (ZMod 3)), s + ω = t := by decide
  intro s _ t _
  by_cases h : s = t
  · rw [h]
  · exact Relation.ReflTransGen.single (h1 s t h)

/-- **C75**, uniqueness for `propose_spin_flip`. -/
theorem c75_spin_flip_unique (L : ℕ) (hL : 0 < L) (lw : List ℤ → ℝ) (μ : (Fin 1 → List ℤ) → ℝ)
    (hμ : ∀ s : Fin 1 → List ℤ, s 0 ∈ spinConfigs L →
      Spec.evolve (spinFlipDraws L) (metropolisStep proposeSpinFlip lw) (spinConfigs L) μ s = μ s)
    (hsum : ∑ s ∈ Fintype.piFinset (fun _ : Fin 1 => spinConfigs L), μ s = 1)
    (s : Fin 1 → List ℤ) (hs : s 0 ∈ spinConfigs L) :
    μ s = Spec.productDist (spinConfigs L) (fun x => Real.exp (lw x)) s := by
  apply c75_unique_stationary (spinFlipDraws L) proposeSpinFlip lw _ _ _ _ _ μ hμ hsum s hs
  · exact ⟨0, by simp [spinFlipDraws, hL]⟩
  · intro ω _ s hs
    rw [mem_spinConfigs] at hs ⊢
    have := c13_spin_flip s hs.1 ω
    exact ⟨this.1, this.2.trans hs.2⟩
  · intro s hs s' hs'
    rw [mem_spinConfigs] at hs hs'
    have := c14_spin_flip s s' hs.1 hs'.1 (hs.2.trans hs'.2.symm)
    rwa [hs.2, hs'.2] at this
  · intro s hs t ht
    rw [mem_spinConfigs] at hs ht
    have := spinFlip_connected s t ((bin_iff s).mpr hs.1) ((bin_iff t).mpr ht.1)
      (hs.2.trans ht.2.symm)
    rwa [hs.2] at this

/-- **C75**, uniqueness for `propose_spin_flip_Z2`. -/
theorem c75_spin_flip_Z2_unique (L : ℕ) (hL : 0 < L) (lw : List ℤ → ℝ) (μ : (Fin 1 → List ℤ) → ℝ)
    (hμ : ∀ s : Fin 1 → List ℤ, s 0 ∈ spinConfigs L →
      Spec.evolve (z2Draws L) (metropolisStep (fun d => proposeSpinFlipZ2 d.1 d.2) lw)
        (spinConfigs L) μ s = μ s)
    (hsum : ∑ s ∈ Fintype.piFinset (fun _ : Fin 1 => spinConfigs L), μ s = 1)
    (s : Fin 1 → List ℤ) (hs : s 0 ∈ spinConfigs L) :
    μ s = Spec.productDist (spinConfigs L) (fun x => Real.exp (lw x)) s := by
  apply c75_unique_stationary (z2Draws L) (fun d => proposeSpinFlipZ2 d.1 d.2) lw _ _ _ _ _ μ hμ
    hsum s hs
  · exact ⟨(0, 0), by simp [z2Draws, hL]⟩
  · intro ω _ s hs
    rw [mem_spinConfigs] at hs ⊢
    have := c13_spin_flip_Z2 s hs.1 ω.1 ω.2
    exact ⟨this.1, this.2.trans hs.2⟩
  · intro s hs s' hs'
    rw [mem_spinConfigs] at hs hs'
    have := c14_spin_flip_Z2 s s' hs.1 hs'.1 (hs.2.trans hs'.2.symm)
    rwa [hs.2, hs'.2] at this
  · intro s hs t ht
    rw [mem_spinConfigs] at hs ht
    have := z2_connected s t ((bin_iff s).mpr hs.1) ((bin_iff t).mpr ht.1) (hs.2.trans ht.2.symm)
    rwa [hs.2] at this

/-- **C75**, uniqueness for `propose_spin_flip_zeroMag` on the balanced configurations. -/
theorem c75_zeroMag_unique (L : ℕ) (hL : 2 ≤ L) (lw : List ℤ → ℝ) (μ : (Fin 1 → List ℤ) → ℝ)
    (hμ : ∀ s : Fin 1 → List ℤ, s 0 ∈ (spinConfigs L).filter (fun s => s.count 0 = s.count 1) →
      Spec.evolve (zeroMagDraws L)
        (metropolisStep (fun d => proposeSpinFlipZeroMag d.1 d.2.1 d.2.2) lw)
        ((spinConfigs L).filter fun s => s.count 0 = s.count 1) μ s = μ s)
    (hsum : ∑ s ∈ Fintype.piFinset
      (fun _ : Fin 1 => (spinConfigs L).filter fun s => s.count 0 = s.count 1), μ s = 1)
    (s : Fin 1 → List ℤ) (hs : s 0 ∈ (spinConfigs L).filter fun s => s.count 0 = s.count 1) :
    μ s = Spec.productDist ((spinConfigs L).filter fun s => s.count 0 = s.count 1)
      (fun x => Real.exp (lw x)) s := by
  have hmem : ∀ s, s ∈ (spinConfigs L).filter (fun s => s.count 0 = s.count 1)
      ↔ Spec.Balanced s ∧ s.length = L := by
    intro s
    rw [Finset.mem_filter, mem_spinConfigs, ← bin_iff]
    unfold Spec.Balanced Bin
    tauto
  apply c75_unique_stationary (zeroMagDraws L)
    (fun d => proposeSpinFlipZeroMag d.1 d.2.1 d.2.2) lw _ _ _ _ _ μ hμ hsum s hs
  · refine ⟨(1, 1, 0), ?_⟩
    simp only [zeroMagDraws, Finset.mem_product, Finset.mem_Icc, Finset.mem_range]
    omega
  · intro ω hω s hs
    rw [hmem] at hs ⊢
    rw [← hs.2] at hω
    have := c15_zeroMag_step s hs.1 ω hω
    exact ⟨this.1, this.2.trans hs.2⟩
  · intro s hs s' hs'
    rw [hmem] at hs hs'
    have := c14_spin_flip_zeroMag s s' hs.1 hs'.1 (hs.2.trans hs'.2.symm)
    rwa [hs.2, hs'.2] at this
  · intro s hs t ht
    rw [hmem] at hs ht
    have := zeroMag_connected s t hs.1 ht.1 (hs.2.trans ht.2.symm)
    rwa [hs.2] at this

/-! ### Where convergence fails -/

theorem spinFlip_parity (s : List ℤ) (hs : Bin s) (i : ℕ) (hi : i < s.length) :
    Even ((proposeSpinFlip i s).sum + 1 + s.sum) := by
  unfold proposeSpinFlip
  rw [List.sum_set', dif_pos hi, List.getD_eq_getElem _ _ hi]
  rcases hs _ (List.getElem_mem hi) with h | h <;> rw [h]
  · exact ⟨s.sum + 1, by norm_num; ring⟩
  · exact ⟨s.sum, by norm_num⟩

theorem z2_parity (s : List ℤ) (hs : Bin s) (i f : ℕ) (hi : i < s.length)
    (hL : Even s.length) : Even ((proposeSpinFlipZ2 i f s).sum + 1 + s.sum) := by
  have h := spinFlip_parity s hs i hi
  rw [z2_eq]
  unfold globalFlip
  split_ifs
  · rw [sum_compl]
    have hl : (proposeSpinFlip i s).length = s.length := by simp [proposeSpinFlip]
    rw [hl]
    obtain ⟨a, ha⟩ := h
    obtain ⟨b, hb⟩ := hL
    exact ⟨b + a - (proposeSpinFlip i s).sum, by rw [hb]; push_cast; linarith⟩
  · exact h

private theorem parity_run {P K : Type} (c : McConfig (List ℤ) P K) (params : P) (L : ℕ)
    (hmu : c.mu = 0) (hu : ∀ k i, c.rng.uniform k i < 1)
    (hprop : ∀ k s, Bin s → s.length = L →
      Bin (c.proposer k s) ∧ (c.proposer k s).length = L ∧ Even ((c.proposer k s).sum + 1 + s.sum))
    (n : ℕ) (d : ChainState (List ℤ) K) (hd : Coherent c params d)
    (hb : ∀ s ∈ d.states, Bin s ∧ s.length = L ∧ Even s.sum) :
    ∀ s ∈ ((performMcUpdate c params)^[n] d).states, Bin s ∧ s.length = L ∧ Even (s.sum + n) := by
  induction n with
  | zero => simpa using hb
  | succ n ih =>
    rw [Function.iterate_succ_apply']
    have hc := coherent_iterate c params n d hd
    rw [c16_update_is_metropolis c params _ hc]
    intro s hs
    obtain ⟨i, hi, rfl⟩ := List.mem_mapIdx.mp hs
    obtain ⟨h1, h2, h3⟩ := ih _ (List.getElem_mem hi)
    unfold metropolisStep
    rw [if_pos]
    · obtain ⟨p1, p2, p3⟩ := hprop (c.rng.split ((performMcUpdate c params)^[n] d).key
        (((performMcUpdate c params)^[n] d).states.length + 1) i) _ h1 h2
      refine ⟨p1, p2, ?_⟩
      obtain ⟨a, ha⟩ := p3
      obtain ⟨b, hb⟩ := h3
      exact ⟨a + b - (((performMcUpdate c params)^[n] d).states[i]).sum, by push_cast; linarith⟩
    · rw [hmu]; simpa using hu _ _

/-- **C75 is violated** (convergence): sampling with `mu = 0` (the uniform distribution; likewise
for any `|ψ|` without amplitude variation) with `propose_spin_flip`, an even number of `sweepSteps`
(the default is 10) and the default initial state, returns only configurations with an even number
of ones, whatever the number of thermalisation sweeps, of samples, and the random numbers; half of
the configuration space is never sampled. -/
theorem c75_spin_flip_violated {P K : Type} (c : McConfig (List ℤ) P K) (params : P) (L N D : ℕ)
    (keys : List K) (hmu : c.mu = 0) (hu : ∀ k i, c.rng.uniform k i < 1)
    (hprop : ∀ k s, s.length = L → ∃ d ∈ spinFlipDraws L, c.proposer k s = proposeSpinFlip d s)
    (hsweep : Even c.sweepSteps) (s r m : ℕ) (devs' : List (ChainState (List ℤ) K))
    (samples : List (List (List ℤ)))
    (h : getSamplesMcmc c s r params N m (keys.map (chainInit c (List.replicate L 0)))
      = .ok (devs', samples, D)) :
    ∀ dev ∈ samples, ∀ x ∈ dev, Even x.sum := by
  have hrun : ∃ n, samples = (keys.map (chainInit c (List.replicate L 0))).map fun d =>
      (getSamples c params n (mcInit c params d)).2 := by
    unfold getSamplesMcmc at h
    dsimp only at h
    cases hds : distributeSampling s r N (some (keys.map
      (chainInit c (List.replicate L 0))).length) (Nat.lcm c.numChains m) with
    | error e => rw [hds] at h; exact absurd h (by change ¬ (Except.error _ = Except.ok _); simp)
    | ok v =>
      rw [hds] at h
      change Except.ok _ = Except.ok _ at h
      simp only [Except.ok.injEq, Prod.mk.injEq] at h
      refine ⟨v.1, ?_⟩
      rw [← h.2.1]
      simp [List.map_map, Function.comp_def]
  obtain ⟨n, rfl⟩ := hrun
  intro dev hdev x hx
  obtain ⟨d, hd, rfl⟩ := List.mem_map.mp hdev
  obtain ⟨k, hk, rfl⟩ := List.mem_map.mp hd
  rw [getSamples_snd] at hx
  obtain ⟨j, hj, hx⟩ := List.mem_flatMap.mp hx
  have := parity_run c params L hmu hu (fun k s hs hl => by
    obtain ⟨d, hd, he⟩ := hprop k s hl
    have hd' : d < s.length := by rw [hl]; simpa [spinFlipDraws] using hd
    rw [he]
    exact ⟨spinFlip_bin hs d, by simp [proposeSpinFlip, hl], spinFlip_parity s hs d hd'⟩)
    ((c.thermSweeps + j + 1) * c.sweepSteps)
    (mcInit c params (chainInit c (List.replicate L 0) k)) (coherent_mcInit _ _ _)
    (fun s hs => by
      have : s = List.replicate L 0 := List.eq_of_mem_replicate hs
      subst this
      refine ⟨?_, by simp, by simp⟩
      intro x hx
      left; exact List.eq_of_mem_replicate hx) x hx
  have he : Even (((c.thermSweeps + j + 1) * c.sweepSteps : ℕ) : ℤ) := by
    obtain ⟨q, hq⟩ := hsweep
    exact ⟨((c.thermSweeps + j + 1) * q : ℕ), by rw [hq]; push_cast; ring⟩
  have := this.2.2
  exact (Int.even_add.mp this).mpr he

/-- **C75 is violated** in the same way by `propose_spin_flip_Z2` on an even number of sites. -/
theorem c75_spin_flip_Z2_violated {P K : Type} (c : McConfig (List ℤ) P K) (params : P) (L n : ℕ)
    (hL : Even L) (key : K) (hmu : c.mu = 0) (hu : ∀ k i, c.rng.uniform k i < 1)
    (hprop : ∀ k s, s.length = L → ∃ d ∈ z2Draws L, c.proposer k s = proposeSpinFlipZ2 d.1 d.2 s)
    (hsweep : Even c.sweepSteps) :
    ∀ x ∈ (getSamples c params n
      (mcInit c params (chainInit c (List.replicate L 0) key))).2, Even x.sum := by
  intro x hx
  rw [getSamples_snd] at hx
  obtain ⟨j, hj, hx⟩ := List.mem_flatMap.mp hx
  have := parity_run c params L hmu hu (fun k s hs hl => by
    obtain ⟨d, hd, he⟩ := hprop k s hl
    have hd' : d.1 < s.length := by
      rw [hl]; exact Finset.mem_range.mp (Finset.mem_product.mp hd).1
    rw [he]
    refine ⟨(spinFlip_bin hs d.1).globalFlip d.2, ?_, z2_parity s hs d.1 d.2 hd' (hl ▸ hL)⟩
    unfold proposeSpinFlipZ2 globalFlip; split_ifs <;> simp [hl])
    ((c.thermSweeps + j + 1) * c.sweepSteps)
    (mcInit c params (chainInit c (List.replicate L 0) key)) (coherent_mcInit _ _ _)
    (fun s hs => by
      have : s = List.replicate L 0 := List.eq_of_mem_replicate hs
      subst this
      refine ⟨?_, by simp, by simp⟩
      intro x hx
      left; exact List.eq_of_mem_replicate hx) x hx
  have he : Even (((c.thermSweeps + j + 1) * c.sweepSteps : ℕ) : ℤ) := by
    obtain ⟨q, hq⟩ := hsweep
    exact ⟨((c.thermSweeps + j + 1) * q : ℕ), by rw [hq]; push_cast; ring⟩
  exact (Int.even_add.mp this.2.2).mpr he

/-- The moves of `propose_POVM_outcome`: exactly one outcome is increased by 0, 1 or 2. -/
theorem c75_povm_moves (s t : List ℤ) :
    (∃ d ∈ povmDraws s.length, proposePovmOutcome d.1 d.2 s = t) ↔
      ∃ i, ∃ hi : i < s.length, t = s ∨ t = s.set i (s[i] + 1) ∨ t = s.set i (s[i] + 2) := by
  constructor
  · rintro ⟨⟨i, r⟩, hd, rfl⟩
    obtain ⟨hi, hr⟩ := Finset.mem_product.mp hd
    simp only [Finset.mem_range, Finset.mem_Ico] at hi hr
    refine ⟨i, hi, ?_⟩
    unfold proposePovmOutcome
    rw [List.getD_eq_getElem _ _ hi]
    obtain rfl | rfl | rfl : r = 0 ∨ r = 1 ∨ r = 2 := by omega
    · left; simp
    · right; left; rfl
    · right; right; rfl
  · rintro ⟨i, hi, h⟩
    have hmem : ∀ r : ℤ, 0 ≤ r → r < 3 → ((i, r) : ℕ × ℤ) ∈ povmDraws s.length := by
      intro r h0 h3
      simp only [povmDraws, Finset.mem_product, Finset.mem_range, Finset.mem_Ico]
      exact ⟨hi, h0, h3⟩
    rcases h with rfl | rfl | rfl
    · exact ⟨(i, 0), hmem 0 (by omega) (by omega), by
        simp [proposePovmOutcome, List.getElem?_eq_getElem hi]⟩
    · exact ⟨(i, 1), hmem 1 (by omega) (by omega), by
        simp [proposePovmOutcome, List.getElem?_eq_getElem hi]⟩
    · exact ⟨(i, 2), hmem 2 (by omega) (by omega), by
        simp [proposePovmOutcome, List.getElem?_eq_getElem hi]⟩

/-- **C75 is violated** by `propose_POVM_outcome`: no sequence of proposals ever lowers the sum of
the outcomes, so a configuration with a smaller sum is never visited again. -/
theorem c75_povm_violated (s t : List ℤ) (hlt : t.sum < s.sum) :
    ¬ ReflTransGen (fun a b => ∃ d ∈ povmDraws a.length, proposePovmOutcome d.1 d.2 a = b) s t := by
  intro h
  have : s.sum ≤ t.sum := by
    clear hlt
    induction h with
    | refl => exact le_rfl
    | tail _ hab ih =>
      refine ih.trans ?_
      obtain ⟨i, hi, h⟩ := (c75_povm_moves _ _).mp hab
      rcases h with rfl | rfl | rfl
      · exact le_rfl
      · rw [List.sum_set', dif_pos hi]; omega
      · rw [List.sum_set', dif_pos hi]; omega
  omega

/-- Non-vacuity: different spin and balanced configurations; a sampler configuration with `mu = 0`
meeting the hypotheses of the violation theorems (a deterministic "random" choice). -/
example : Spec.InSpace 2 [1, 0, 0, 1] ∧ Spec.Balanced [1, 0, 0, 1] ∧ Spec.Balanced [1, 1, 0, 0] := by
  unfold Spec.InSpace Spec.Balanced; decide

example : ∃ c : McConfig (List ℤ) Unit Key, c.mu = 0 ∧ (∀ k i, c.rng.uniform k i < 1) ∧
    (∀ k s, s.length = 4 → ∃ d ∈ spinFlipDraws 4, c.proposer k s = proposeSpinFlip d s) ∧
    Even c.sweepSteps ∧ c.numChains = 2 :=
  ⟨⟨⟨keySplit, fun _ _ => 1 / 2⟩, fun k => proposeSpinFlip (k.length % 4), fun _ _ => 0, 0, 10, 10,
    2⟩, rfl, fun _ _ => by norm_num, fun k s _ =>
      ⟨k.length % 4, by simp [spinFlipDraws]; omega, rfl⟩, ⟨5, rfl⟩, rfl⟩

end JVMC
