import Verif.Lemmas.Converge
import Verif.Props.Ergodic

/-! # Property C75, convergence

"The distribution of the chains approaches the target distribution from every initial state." -/

namespace JVMC

open Relation Filter Topology

private theorem evolve_eq_push {Ω S : Type*} {C : ℕ} (W : Finset Ω) (step : Ω → ℝ → S → S)
    (X : Finset S) : Spec.evolve (C := C) W step X
      = pushDist (Fintype.piFinset fun _ : Fin C => X) (Spec.transProb W step) := rfl

private theorem walk_foldl {Ω S : Type*} [DecidableEq S] (W : Finset Ω) (propose : Ω → S → S)
    (lw : S → ℝ) (ds : List Ω) (hds : ∀ d ∈ ds, d ∈ W) (s : S) :
    walk (fun a b => 0 < chainKernel W propose lw a b) ds.length s
      (ds.foldl (fun s d => propose d s) s) := by
  induction ds using List.reverseRecOn with
  | nil => rfl
  | append_singleton ds d ih =>
    rw [List.length_append, List.foldl_append]
    exact ⟨_, ih fun d hd => hds d (List.mem_append_left _ hd),
      chainKernel_pos W propose lw d (hds d (by simp)) _⟩

private theorem productDist_sum {S : Type*} [DecidableEq S] (X : Finset S) (w : S → ℝ)
    (hw : ∑ x ∈ X, w x ≠ 0) {C : ℕ} :
    ∑ s ∈ Fintype.piFinset (fun _ : Fin C => X), Spec.productDist X w s = 1 := by
  unfold Spec.productDist
  rw [← Finset.prod_univ_sum (fun _ : Fin C => X) fun _ x => w x / ∑ x ∈ X, w x]
  refine Finset.prod_eq_one fun i _ => ?_
  rw [← Finset.sum_div, div_self hw]

/-- **C75**, convergence: for every symmetric proposer whose moves connect the finite space `X`, and
every number `C` of chains, the distance of the distribution of the chains from the target
distribution falls geometrically in the number `n` of updates, at a rate `ρ < 1` that does not
depend on the initial distribution — provided that the target distribution is not uniform, or that
some odd number of moves leads back to its start. (`c75_uniform_periodic` shows that this proviso
is necessary.) -/
theorem c75_converges {Ω S : Type*} [DecidableEq S] (W : Finset Ω) (propose : Ω → S → S)
    (lw : S → ℝ) (hW : W.Nonempty) (X : Finset S)
    (hX : ∀ ω ∈ W, ∀ s ∈ X, propose ω s ∈ X)
    (hsym : ∀ s ∈ X, ∀ s' ∈ X, (W.filter fun ω => propose ω s = s').card
      = (W.filter fun ω => propose ω s' = s).card)
    (hirr : ∀ s ∈ X, ∀ t ∈ X, ReflTransGen (fun a b => ∃ ω ∈ W, propose ω a = b) s t)
    (hap : (∃ s ∈ X, ∃ t ∈ X, lw s ≠ lw t) ∨
      ∃ s ∈ X, ∃ ds : List Ω, (∀ d ∈ ds, d ∈ W) ∧ Odd ds.length ∧
        ds.foldl (fun s d => propose d s) s = s)
    (C : ℕ) :
    ∃ (ρ : ℝ) (N : ℕ), 0 ≤ ρ ∧ ρ < 1 ∧ 0 < N ∧ ∀ μ : (Fin C → S) → ℝ,
      ∑ s ∈ Fintype.piFinset (fun _ : Fin C => X), μ s = 1 → ∀ n : ℕ,
        ∑ s ∈ Fintype.piFinset (fun _ : Fin C => X),
          |(Spec.evolve W (metropolisStep propose lw) X)^[n] μ s
            - Spec.productDist X (fun x => Real.exp (lw x)) s|
        ≤ ρ ^ (n / N) * ∑ s ∈ Fintype.piFinset (fun _ : Fin C => X),
          |μ s - Spec.productDist X (fun x => Real.exp (lw x)) s| := by
  -- a configuration with a closed walk of odd length
  obtain ⟨s₀, hs₀, m, hm, hclosed⟩ : ∃ s₀ ∈ X, ∃ m, Odd m ∧
      walk (fun a b => 0 < chainKernel W propose lw a b) m s₀ s₀ := by
    rcases hap with ⟨s, hs, t, ht, hne⟩ | ⟨s, hs, ds, hds, hodd, hcl⟩
    · obtain ⟨a, ha, ω, hω, hlt⟩ := exists_rejection W propose lw X hX hirr s t hs ht hne
      exact ⟨a, ha, 1, odd_one, a, rfl, chainKernel_stay_pos W propose lw ω hω a hlt⟩
    · have := walk_foldl W propose lw ds hds s
      rw [hcl] at this
      exact ⟨s, hs, _, hodd, this⟩
  have h2 : walk (fun a b => 0 < chainKernel W propose lw a b) 2 s₀ s₀ := by
    obtain ⟨ω, hω⟩ := hW
    have hmem := hX ω hω s₀ hs₀
    have hcard : 0 < (W.filter fun ω' => propose ω' (propose ω s₀) = s₀).card := by
      rw [← hsym s₀ hs₀ _ hmem]
      exact Finset.card_pos.mpr ⟨ω, Finset.mem_filter.mpr ⟨hω, rfl⟩⟩
    obtain ⟨ω', hω'⟩ := Finset.card_pos.mp hcard
    rw [Finset.mem_filter] at hω'
    refine ⟨propose ω s₀, ⟨s₀, rfl, chainKernel_pos W propose lw ω hω s₀⟩, ?_⟩
    have := chainKernel_pos W propose lw ω' hω'.1 (propose ω s₀)
    rwa [hω'.2] at this
  have hreach : ∀ s ∈ X, ReflTransGen (fun a b => 0 < chainKernel W propose lw a b) s s₀ := by
    intro s hs
    refine (ReflTransGen.mono ?_) _ _ (hirr s hs s₀ hs₀)
    rintro a b ⟨ω, hω, rfl⟩
    exact chainKernel_pos W propose lw ω hω a
  obtain ⟨N, hN⟩ := walk_common X _ s₀ hreach h2 m hm hclosed
  -- one may take `N + m > 0` steps
  have hN' : ∀ s ∈ X, walk (fun a b => 0 < chainKernel W propose lw a b) (N + m) s s₀ :=
    fun s hs => walk_add _ _ _ _ _ _ (hN s hs) hclosed
  have hmpos : 0 < N + m := by rcases hm with ⟨k, rfl⟩; omega
  set Y := Fintype.piFinset (fun _ : Fin C => X) with hY
  obtain ⟨ρ, hρ0, hρ1, hgeo⟩ := pushDist_geometric Y
    (Spec.transProb W (metropolisStep propose lw))
    (fun s _ t _ => by
      rw [transProb_eq]
      exact Finset.prod_nonneg fun i _ => chainKernel_nonneg W propose lw _ _)
    (fun s hs => c16_transitions_normalised W propose lw hW X hX s
      (Fintype.mem_piFinset.mp hs))
    (N + m) (fun _ => s₀) (Fintype.mem_piFinset.mpr fun _ => hs₀)
    (fun s hs => kerPow_pos W propose lw X
      (fun s hs t h => chainKernel_mem W propose lw X hX s hs t h) _ s _
      (Fintype.mem_piFinset.mp hs) fun i => hN' _ (Fintype.mem_piFinset.mp hs i))
  refine ⟨ρ, N + m, hρ0, hρ1, hmpos, ?_⟩
  intro μ hμ n
  have hZ : ∑ x ∈ X, Real.exp (lw x) ≠ 0 :=
    (Finset.sum_pos (fun x _ => Real.exp_pos _) ⟨s₀, hs₀⟩).ne'
  have hstat := c16_stationary W propose lw hW X hX hsym (C := C) n
  have hsum := hgeo (fun s => μ s - Spec.productDist X (fun x => Real.exp (lw x)) s)
    (by rw [Finset.sum_sub_distrib, hμ, productDist_sum X _ hZ, sub_self]) n
  refine le_trans (le_of_eq ?_) hsum
  refine Finset.sum_congr rfl fun s hs => ?_
  congr 1
  rw [← hstat s (Fintype.mem_piFinset.mp hs), evolve_eq_push, ← hY,
    pushDist_iterate _ _ _ _ _ hs, pushDist_iterate _ _ _ _ _ hs, pushDist_iterate _ _ _ _ _ hs,
    ← Finset.sum_sub_distrib]
  exact Finset.sum_congr rfl fun s _ => by ring

/-- A particle that hops on a ring of three sites. -/
example (lw : ZMod 3 → ℝ) : ∃ (ρ : ℝ) (N : ℕ), 0 ≤ ρ ∧ ρ < 1 ∧ 0 < N ∧ ∀ μ : (Fin 2 → ZMod 3) → ℝ,
    ∑ s ∈ Fintype.piFinset (fun _ : Fin 2 => (Finset.univ : Finset (ZMod 3))), μ s = 1 → ∀ n : ℕ,
      ∑ s ∈ Fintype.piFinset (fun _ : Fin 2 => (Finset.univ : Finset (ZMod 3))),
        |(Spec.evolve {1, -1} (metropolisStep (fun (d s : ZMod 3) => s + d) lw) Finset.univ)^[n] μ s
          - Spec.productDist Finset.univ (fun x => Real.exp (lw x)) s|
      ≤ ρ ^ (n / N) * ∑ s ∈ Fintype.piFinset (fun _ : Fin 2 => (Finset.univ : Finset (ZMod 3))),
        |μ s - Spec.productDist Finset.univ (fun x => Real.exp (lw x)) s| := by
  refine c75_converges {1, -1} (fun d s => s + d) lw (by simp) Finset.univ (fun _ _ _ _ => Finset.mem_univ _) (by decide) ?_
    (.inr ⟨0, Finset.mem_univ _, [1, 1, 1], by simp, ⟨1, rfl⟩, by decide⟩) 2
  have h1 : ∀ s t : ZMod 3, s ≠ t → ∃ ω ∈ ({1, -1} : Finset (ZMod 3)), s + ω = t := by decide
  intro s _ t _
  by_cases h : s = t
  · rw [h]
  · exact Relation.ReflTransGen.single (h1 s t h)

/-- **C75**, convergence of every probability: see `c75_converges`. -/
theorem c75_converges_pointwise {Ω S : Type*} [DecidableEq S] (W : Finset Ω) (propose : Ω → S → S)
    (lw : S → ℝ) (hW : W.Nonempty) (X : Finset S)
    (hX : ∀ ω ∈ W, ∀ s ∈ X, propose ω s ∈ X)
    (hsym : ∀ s ∈ X, ∀ s' ∈ X, (W.filter fun ω => propose ω s = s').card
      = (W.filter fun ω => propose ω s' = s).card)
    (hirr : ∀ s ∈ X, ∀ t ∈ X, ReflTransGen (fun a b => ∃ ω ∈ W, propose ω a = b) s t)
    (hap : (∃ s ∈ X, ∃ t ∈ X, lw s ≠ lw t) ∨
      ∃ s ∈ X, ∃ ds : List Ω, (∀ d ∈ ds, d ∈ W) ∧ Odd ds.length ∧
        ds.foldl (fun s d => propose d s) s = s)
    {C : ℕ} (μ : (Fin C → S) → ℝ)
    (hμ : ∑ s ∈ Fintype.piFinset (fun _ : Fin C => X), μ s = 1)
    (s : Fin C → S) (hs : ∀ i, s i ∈ X) :
    Tendsto (fun n => (Spec.evolve W (metropolisStep propose lw) X)^[n] μ s) atTop
      (𝓝 (Spec.productDist X (fun x => Real.exp (lw x)) s)) := by
  obtain ⟨ρ, N, hρ0, hρ1, hN, h⟩ := c75_converges W propose lw hW X hX hsym hirr hap C
  rw [tendsto_iff_dist_tendsto_zero]
  have hlim : Tendsto (fun n => ρ ^ (n / N) * ∑ s ∈ Fintype.piFinset (fun _ : Fin C => X),
      |μ s - Spec.productDist X (fun x => Real.exp (lw x)) s|) atTop (𝓝 0) := by
    have h1 : Tendsto (fun n : ℕ => ρ ^ (n / N)) atTop (𝓝 0) :=
      (tendsto_pow_atTop_nhds_zero_of_lt_one hρ0 hρ1).comp (Nat.tendsto_div_const_atTop hN.ne')
    simpa using h1.mul_const _
  refine squeeze_zero (fun _ => dist_nonneg) (fun n => ?_) hlim
  refine le_trans ?_ (h μ hμ n)
  rw [Real.dist_eq]
  exact Finset.single_le_sum (f := fun s => |(Spec.evolve W (metropolisStep propose lw) X)^[n] μ s
    - Spec.productDist X (fun x => Real.exp (lw x)) s|) (fun _ _ => abs_nonneg _)
    (Fintype.mem_piFinset.mpr hs)

example (lw : ZMod 3 → ℝ) : Tendsto (fun n => (Spec.evolve {1, -1} (metropolisStep (fun (d s : ZMod 3) => s + d) lw)
      Finset.univ)^[n] (fun s => if s = fun _ => 0 then 1 else 0) (fun _ : Fin 2 => 1)) atTop
    (𝓝 (Spec.productDist Finset.univ (fun x => Real.exp (lw x)) fun _ : Fin 2 => 1)) := by
  refine c75_converges_pointwise {1, -1} (fun d s => s + d) lw (by simp) Finset.univ (fun _ _ _ _ => Finset.mem_univ _)
    (by decide) ?_ (.inr ⟨0, Finset.mem_univ _, [1, 1, 1], by simp, ⟨1, rfl⟩, by decide⟩) _ (by simp) _
    (fun _ => Finset.mem_univ _)
  have h1 : ∀ s t : ZMod 3, s ≠ t → ∃ ω ∈ ({1, -1} : Finset (ZMod 3)), s + ω = t := by decide
  intro s _ t _
  by_cases h : s = t
  · rw [h]
  · exact Relation.ReflTransGen.single (h1 s t h)

/-! ### The shipped proposers -/

/-- The moves of `propose_spin_flip` on `L` sites. -/
theorem spinFlip_moves (L : ℕ) (hL : 0 < L) : (spinFlipDraws L).Nonempty ∧
    (∀ ω ∈ spinFlipDraws L, ∀ s ∈ spinConfigs L, proposeSpinFlip ω s ∈ spinConfigs L) ∧
    (∀ s ∈ spinConfigs L, ∀ s' ∈ spinConfigs L, ((spinFlipDraws L).filter fun ω => proposeSpinFlip ω s = s').card
      = ((spinFlipDraws L).filter fun ω => proposeSpinFlip ω s' = s).card) ∧
    ∀ s ∈ spinConfigs L, ∀ t ∈ spinConfigs L,
      ReflTransGen (fun a b => ∃ ω ∈ spinFlipDraws L, proposeSpinFlip ω a = b) s t := by
  refine ⟨?_, ?_, ?_, ?_⟩
  · exact ⟨0, by simp [spinFlipDraws, hL]⟩
  · intro ω _ s hs
    rw [mem_spinConfigs] at hs ⊢
    have := c13_spin_flip s hs.1 ω
    exact ⟨this.1, this.2.trans hs.2⟩
  · intro s hs s' hs'
    rw [mem_spinConfigs] at hs hs'
    have := c14_spin_flip s s' hs.1 hs'.1 (hs.2.trans hs'.2.symm)
    rwa [hs.2, hs'.2] at this
  · intro s hs t ht
    rw [mem_spinConfigs] at hs ht
    have := spinFlip_connected s t ((bin_iff s).mpr hs.1) ((bin_iff t).mpr ht.1)
      (hs.2.trans ht.2.symm)
    rwa [hs.2] at this

/-- **C75**, convergence with `propose_spin_flip`: if `|ψ|^mu` is not the same for all
configurations, the distribution of any number of chains converges to the target distribution from
every initial distribution. -/
theorem c75_spin_flip_converges_partial (L : ℕ) (hL : 0 < L) (lw : List ℤ → ℝ)
    (hlw : ∃ s ∈ spinConfigs L, ∃ t ∈ spinConfigs L, lw s ≠ lw t)
    {C : ℕ} (μ : (Fin C → List ℤ) → ℝ)
    (hμ : ∑ s ∈ Fintype.piFinset (fun _ : Fin C => spinConfigs L), μ s = 1)
    (s : Fin C → List ℤ) (hs : ∀ i, s i ∈ spinConfigs L) :
    Tendsto (fun n => (Spec.evolve (spinFlipDraws L) (metropolisStep proposeSpinFlip lw)
        (spinConfigs L))^[n] μ s) atTop
      (𝓝 (Spec.productDist (spinConfigs L) (fun x => Real.exp (lw x)) s)) := by
  obtain ⟨h1, h2, h3, h4⟩ := spinFlip_moves L hL
  exact c75_converges_pointwise (spinFlipDraws L) proposeSpinFlip lw h1 _ h2 h3 h4 (Or.inl hlw) μ hμ s hs

/-- Two chains of three spins, both started with all spins down. -/
example : Tendsto (fun n => (Spec.evolve (spinFlipDraws 3) (metropolisStep proposeSpinFlip fun s => (s.sum : ℝ))
      (spinConfigs 3))^[n] (fun s => if s = fun _ => [0, 0, 0] then 1 else 0) (fun _ : Fin 2 => [0, 1, 1])) atTop
    (𝓝 (Spec.productDist (spinConfigs 3) (fun x => Real.exp (x.sum : ℝ)) fun _ : Fin 2 => [0, 1, 1])) := by
  have h0 : ([0, 0, 0] : List ℤ) ∈ spinConfigs 3 := by decide
  have h1 : ([0, 1, 1] : List ℤ) ∈ spinConfigs 3 := by decide
  refine c75_spin_flip_converges_partial 3 (by norm_num) (fun s => (s.sum : ℝ)) ⟨_, h0, _, h1, by norm_num⟩ _ ?_ _ fun _ => h1
  rw [Finset.sum_ite_eq', if_pos (Fintype.mem_piFinset.mpr fun _ => h0)]

private theorem draws_of_reach {Ω S : Type*} (W : Finset Ω) (propose : Ω → S → S) (s t : S)
    (h : ReflTransGen (fun a b => ∃ ω ∈ W, propose ω a = b) s t) :
    ∃ ds : List Ω, (∀ d ∈ ds, d ∈ W) ∧ ds.foldl (fun s d => propose d s) s = t := by
  induction h with
  | refl => exact ⟨[], by simp, rfl⟩
  | tail _ hab ih =>
    obtain ⟨ds, h1, h2⟩ := ih
    obtain ⟨ω, hω, rfl⟩ := hab
    refine ⟨ds ++ [ω], ?_, by rw [List.foldl_append, h2]; rfl⟩
    intro d hd
    rcases List.mem_append.mp hd with hd | hd
    · exact h1 d hd
    · rw [List.mem_singleton.mp hd]; exact hω

private theorem spinFlip_bin' (s : List ℤ) (hs : Bin s) (i : ℕ) : Bin (proposeSpinFlip i s) := by
  unfold proposeSpinFlip
  refine hs.set i ?_
  omega

private theorem spinFlip_foldl_parity (ds : List ℕ) (s : List ℤ) (hs : Bin s)
    (hds : ∀ d ∈ ds, d < s.length) :
    Even ((ds.foldl (fun s d => proposeSpinFlip d s) s).sum + ds.length + s.sum) := by
  induction ds generalizing s with
  | nil => exact ⟨s.sum, by simp⟩
  | cons d ds ih =>
    have hl : (proposeSpinFlip d s).length = s.length := by simp [proposeSpinFlip]
    have h1 := ih (proposeSpinFlip d s) (spinFlip_bin' s hs d) fun e he => by
      rw [hl]; exact hds e (by simp [he])
    have h2 := spinFlip_parity s hs d (hds d (by simp))
    obtain ⟨a, ha⟩ := h1
    obtain ⟨b, hb⟩ := h2
    exact ⟨a + b - (proposeSpinFlip d s).sum, by
      rw [List.foldl_cons, List.length_cons]; push_cast; linarith⟩

/-- The moves of `propose_spin_flip_Z2` on `L` sites. -/
theorem z2_moves (L : ℕ) (hL : 0 < L) : (z2Draws L).Nonempty ∧
    (∀ ω ∈ z2Draws L, ∀ s ∈ spinConfigs L, proposeSpinFlipZ2 ω.1 ω.2 s ∈ spinConfigs L) ∧
    (∀ s ∈ spinConfigs L, ∀ s' ∈ spinConfigs L, ((z2Draws L).filter fun ω => proposeSpinFlipZ2 ω.1 ω.2 s = s').card
      = ((z2Draws L).filter fun ω => proposeSpinFlipZ2 ω.1 ω.2 s' = s).card) ∧
    (∀ s ∈ spinConfigs L, ∀ t ∈ spinConfigs L,
      ReflTransGen (fun a b => ∃ ω ∈ z2Draws L, proposeSpinFlipZ2 ω.1 ω.2 a = b) s t) ∧
    (Odd L → ∃ s ∈ spinConfigs L, ∃ ds : List (ℕ × ℕ), (∀ d ∈ ds, d ∈ z2Draws L) ∧ Odd ds.length ∧
      ds.foldl (fun s d => proposeSpinFlipZ2 d.1 d.2 s) s = s) := by
  refine ⟨?_, ?_, ?_, ?_, ?_⟩
  · exact ⟨(0, 0), by simp [z2Draws, hL]⟩
  · intro ω _ s hs
    rw [mem_spinConfigs] at hs ⊢
    have := c13_spin_flip_Z2 s hs.1 ω.1 ω.2
    exact ⟨this.1, this.2.trans hs.2⟩
  · intro s hs s' hs'
    rw [mem_spinConfigs] at hs hs'
    have := c14_spin_flip_Z2 s s' hs.1 hs'.1 (hs.2.trans hs'.2.symm)
    rwa [hs.2, hs'.2] at this
  · intro s hs t ht
    rw [mem_spinConfigs] at hs ht
    have := z2_connected s t ((bin_iff s).mpr hs.1) ((bin_iff t).mpr ht.1) (hs.2.trans ht.2.symm)
    rwa [hs.2] at this
  · intro hodd
    -- flip one spin and then all, and undo it with single flips
    have hz : Bin (List.replicate L 0) := fun x hx => Or.inl (List.eq_of_mem_replicate hx)
    have h1 := spinFlip_bin' _ hz 0
    have hl1 : (proposeSpinFlip 0 (List.replicate L 0)).length = L := by simp [proposeSpinFlip]
    have hflip : proposeSpinFlipZ2 0 0 (List.replicate L 0)
        = (proposeSpinFlip 0 (List.replicate L 0)).map fun x => 1 - x := rfl
    obtain ⟨ds, hds, hfold⟩ := draws_of_reach _ _ _ _ (spinFlip_connected
      (proposeSpinFlipZ2 0 0 (List.replicate L 0)) (List.replicate L 0)
      (by rw [hflip]; exact h1.compl) hz (by rw [hflip]; simp [hl1]))
    have hlen : (proposeSpinFlipZ2 0 0 (List.replicate L 0)).length = L := by
      rw [hflip]; simp [hl1]
    have hpar := spinFlip_foldl_parity ds (proposeSpinFlipZ2 0 0 (List.replicate L 0))
      (by rw [hflip]; exact h1.compl) fun d hd => by
        have := hds d hd
        exact Finset.mem_range.mp this
    rw [hfold, hflip, sum_compl, hl1] at hpar
    have hpar0 := spinFlip_parity (List.replicate L 0) hz 0 (by simpa using hL)
    refine ⟨List.replicate L 0, ?_, (0, 0) :: ds.map fun d => (d, 1), ?_, ?_, ?_⟩
    · rw [mem_spinConfigs]; exact ⟨(bin_iff _).mp hz, by simp⟩
    · intro d hd
      rcases List.mem_cons.mp hd with rfl | hd
      · simp [z2Draws, hL]
      · obtain ⟨e, he, rfl⟩ := List.mem_map.mp hd
        have := hds e he
        rw [hlen] at this
        simp only [z2Draws, Finset.mem_product, Finset.mem_range]
        exact ⟨Finset.mem_range.mp this, by norm_num⟩
    · simp only [List.sum_replicate, smul_zero, add_zero, zero_add] at hpar hpar0
      rw [List.length_cons, List.length_map]
      obtain ⟨k, hk⟩ := hodd
      obtain ⟨a, ha⟩ := hpar
      obtain ⟨b, hb⟩ := hpar0
      have : Even ds.length := by
        rw [← Int.even_coe_nat]
        exact ⟨a - k - 1 + b, by rw [hk] at ha; push_cast at ha; rw [hk] at hb; linarith⟩
      exact this.add_one
    · rw [List.foldl_cons, List.foldl_map]
      exact hfold

/-- **C75**, convergence with `propose_spin_flip_Z2`: if `|ψ|^mu` is not the same for all
configurations, or the number of sites is odd. -/
theorem c75_spin_flip_Z2_converges_partial (L : ℕ) (hL : 0 < L) (lw : List ℤ → ℝ)
    (hlw : (∃ s ∈ spinConfigs L, ∃ t ∈ spinConfigs L, lw s ≠ lw t) ∨ Odd L)
    {C : ℕ} (μ : (Fin C → List ℤ) → ℝ)
    (hμ : ∑ s ∈ Fintype.piFinset (fun _ : Fin C => spinConfigs L), μ s = 1)
    (s : Fin C → List ℤ) (hs : ∀ i, s i ∈ spinConfigs L) :
    Tendsto (fun n => (Spec.evolve (z2Draws L)
        (metropolisStep (fun d => proposeSpinFlipZ2 d.1 d.2) lw) (spinConfigs L))^[n] μ s) atTop
      (𝓝 (Spec.productDist (spinConfigs L) (fun x => Real.exp (lw x)) s)) := by
  obtain ⟨h1, h2, h3, h4, h5⟩ := z2_moves L hL
  exact c75_converges_pointwise (z2Draws L) (fun d => proposeSpinFlipZ2 d.1 d.2) lw h1 _ h2 h3 h4
    (hlw.imp id h5) μ hμ s hs

/-- The uniform distribution on three spins. -/
example : Tendsto (fun n => (Spec.evolve (z2Draws 3) (metropolisStep (fun d => proposeSpinFlipZ2 d.1 d.2) fun _ => 0)
      (spinConfigs 3))^[n] (fun s => if s = fun _ => [0, 0, 0] then 1 else 0) (fun _ : Fin 2 => [0, 1, 1])) atTop
    (𝓝 (Spec.productDist (spinConfigs 3) (fun _ => Real.exp 0) fun _ : Fin 2 => [0, 1, 1])) := by
  have h0 : ([0, 0, 0] : List ℤ) ∈ spinConfigs 3 := by decide
  have h1 : ([0, 1, 1] : List ℤ) ∈ spinConfigs 3 := by decide
  refine c75_spin_flip_Z2_converges_partial 3 (by norm_num) (fun _ => 0) (.inr ⟨1, rfl⟩) _ ?_ _ fun _ => h1
  rw [Finset.sum_ite_eq', if_pos (Fintype.mem_piFinset.mpr fun _ => h0)]

/-- The exchange of a one at `i` and a zero at `j` is one of the moves of
`propose_spin_flip_zeroMag`. -/
private theorem zeroMag_move (s : List ℤ) (hs : Bin s) (hs2 : 2 * s.sum = s.length) (i j : ℕ)
    (hi : i < s.length) (hj : j < s.length) (hi1 : s[i] = 1) (hj0 : s[j] = 0) (f : ℕ) (hf : f < 5) :
    ∃ d ∈ zeroMagDraws s.length,
      proposeSpinFlipZeroMag d.1 d.2.1 d.2.2 s = globalFlip f (swapAt i j s) := by
  have r1 := rank_le s hs i hi hi1
  have r2 := rank_le (s.map fun x => 1 - x) hs.compl j (by simpa using hj) (by simp [hj0])
  have n1 := bin_sum_nonneg (hs.take i)
  have n2 := bin_sum_nonneg (hs.compl.take j)
  rw [sum_compl] at r2
  refine ⟨((s.take i).sum + 1, ((s.map fun x => 1 - x).take j).sum + 1, f), ?_,
    zeroMag_pos s hs f i j hi hj hi1 hj0⟩
  simp only [zeroMagDraws, Finset.mem_product, Finset.mem_Icc, Finset.mem_range]
  omega

/-- The moves of `propose_spin_flip_zeroMag` on `L` sites. -/
theorem zeroMag_moves (L : ℕ) (hL : 2 ≤ L) (hLe : Even L) : (zeroMagDraws L).Nonempty ∧
    (∀ ω ∈ zeroMagDraws L, ∀ s ∈ (spinConfigs L).filter fun s => s.count 0 = s.count 1,
      proposeSpinFlipZeroMag ω.1 ω.2.1 ω.2.2 s ∈ (spinConfigs L).filter fun s => s.count 0 = s.count 1) ∧
    (∀ s ∈ (spinConfigs L).filter fun s => s.count 0 = s.count 1,
      ∀ s' ∈ (spinConfigs L).filter fun s => s.count 0 = s.count 1,
      ((zeroMagDraws L).filter fun ω => proposeSpinFlipZeroMag ω.1 ω.2.1 ω.2.2 s = s').card
        = ((zeroMagDraws L).filter fun ω => proposeSpinFlipZeroMag ω.1 ω.2.1 ω.2.2 s' = s).card) ∧
    (∀ s ∈ (spinConfigs L).filter fun s => s.count 0 = s.count 1,
      ∀ t ∈ (spinConfigs L).filter fun s => s.count 0 = s.count 1,
      ReflTransGen (fun a b => ∃ ω ∈ zeroMagDraws L, proposeSpinFlipZeroMag ω.1 ω.2.1 ω.2.2 a = b) s t) ∧
    ∃ s ∈ (spinConfigs L).filter fun s => s.count 0 = s.count 1, ∃ ds : List (ℤ × ℤ × ℕ),
      (∀ d ∈ ds, d ∈ zeroMagDraws L) ∧ Odd ds.length ∧
      ds.foldl (fun s d => proposeSpinFlipZeroMag d.1 d.2.1 d.2.2 s) s = s := by
  have hmem : ∀ s, s ∈ (spinConfigs L).filter (fun s => s.count 0 = s.count 1)
      ↔ Spec.Balanced s ∧ s.length = L := by
    intro s
    rw [Finset.mem_filter, mem_spinConfigs, ← bin_iff]
    unfold Spec.Balanced Bin
    tauto
  refine ⟨?_, ?_, ?_, ?_, ?_⟩
  · refine ⟨(1, 1, 0), ?_⟩
    simp only [zeroMagDraws, Finset.mem_product, Finset.mem_Icc, Finset.mem_range]
    omega
  · intro ω hω s hs
    rw [hmem] at hs ⊢
    rw [← hs.2] at hω
    have := c15_zeroMag_step s hs.1 ω hω
    exact ⟨this.1, this.2.trans hs.2⟩
  · intro s hs s' hs'
    rw [hmem] at hs hs'
    have := c14_spin_flip_zeroMag s s' hs.1 hs'.1 (hs.2.trans hs'.2.symm)
    rwa [hs.2, hs'.2] at this
  · intro s hs t ht
    rw [hmem] at hs ht
    have := zeroMag_connected s t hs.1 ht.1 (hs.2.trans ht.2.symm)
    rwa [hs.2] at this
  · obtain ⟨k, rfl⟩ := hLe
    rcases Nat.lt_or_ge k 2 with hk | hk
    · -- two sites: exchange and global flip cancel
      obtain rfl : k = 1 := by omega
      have hb : Bin [1, 0] := by intro x hx; simp at hx; omega
      obtain ⟨d, hd, he⟩ := zeroMag_move [1, 0] hb (by norm_num) 0 1 (by simp) (by simp) rfl rfl 0
        (by norm_num)
      refine ⟨[1, 0], (hmem _).mpr ⟨(balanced_iff _).mpr ⟨hb, by norm_num⟩, rfl⟩, [d], ?_, odd_one, ?_⟩
      · intro e he; rw [List.mem_singleton.mp he]; exact hd
      · exact he
    · -- at least four sites: move a one around a triangle
      obtain ⟨m, rfl⟩ : ∃ m, k = m + 2 := ⟨k - 2, by omega⟩
      set r : List ℤ := List.replicate (m + 1) 1 ++ List.replicate m 0 with hr
      have hrb : Bin r := by
        intro x hx
        rcases List.mem_append.mp hx with hx | hx
        · exact Or.inr (List.eq_of_mem_replicate hx)
        · exact Or.inl (List.eq_of_mem_replicate hx)
      have hrl : r.length = 2 * m + 1 := by rw [hr]; simp; omega
      have hrs : r.sum = m + 1 := by rw [hr]; simp
      have hb : ∀ a b c : ℤ, (a = 0 ∨ a = 1) → (b = 0 ∨ b = 1) → (c = 0 ∨ c = 1) →
          Bin (a :: b :: c :: r) := by
        intro a b c ha hb hc x hx
        rcases List.mem_cons.mp hx with rfl | hx
        · exact ha
        rcases List.mem_cons.mp hx with rfl | hx
        · exact hb
        rcases List.mem_cons.mp hx with rfl | hx
        · exact hc
        · exact hrb x hx
      have hlen : ∀ a b c : ℤ, (a :: b :: c :: r).length = m + 2 + (m + 2) := by
        intro a b c; simp only [List.length_cons, hrl]; omega
      have hbal : ∀ a b c : ℤ, a + b + c = 1 →
          2 * (a :: b :: c :: r).sum = ((a :: b :: c :: r).length : ℤ) := by
        intro a b c h
        rw [hlen]
        simp only [List.sum_cons, hrs]
        push_cast
        linarith
      have l := hlen 1 0 0
      obtain ⟨d1, hd1, he1⟩ := zeroMag_move (1 :: 0 :: 0 :: r)
        (hb _ _ _ (Or.inr rfl) (Or.inl rfl) (Or.inl rfl)) (hbal _ _ _ (by norm_num)) 0 1
        (by simp) (by simp) rfl rfl 1 (by norm_num)
      obtain ⟨d2, hd2, he2⟩ := zeroMag_move (0 :: 1 :: 0 :: r)
        (hb _ _ _ (Or.inl rfl) (Or.inr rfl) (Or.inl rfl)) (hbal _ _ _ (by norm_num)) 1 2
        (by simp) (by simp) rfl rfl 1 (by norm_num)
      obtain ⟨d3, hd3, he3⟩ := zeroMag_move (0 :: 0 :: 1 :: r)
        (hb _ _ _ (Or.inl rfl) (Or.inl rfl) (Or.inr rfl)) (hbal _ _ _ (by norm_num)) 2 0
        (by simp) (by simp) rfl rfl 1 (by norm_num)
      rw [hlen] at hd1 hd2 hd3
      refine ⟨1 :: 0 :: 0 :: r, (hmem _).mpr ⟨(balanced_iff _).mpr
        ⟨hb _ _ _ (Or.inr rfl) (Or.inl rfl) (Or.inl rfl), hbal _ _ _ (by norm_num)⟩, hlen _ _ _⟩,
        [d1, d2, d3], ?_, ⟨1, rfl⟩, ?_⟩
      · intro e he
        simp only [List.mem_cons, List.not_mem_nil, or_false] at he
        rcases he with rfl | rfl | rfl <;> assumption
      · simp only [List.foldl_cons, List.foldl_nil]
        rw [he1]
        change proposeSpinFlipZeroMag d3.1 d3.2.1 d3.2.2
          (proposeSpinFlipZeroMag d2.1 d2.2.1 d2.2.2 (0 :: 1 :: 0 :: r)) = _
        rw [he2]
        change proposeSpinFlipZeroMag d3.1 d3.2.1 d3.2.2 (0 :: 0 :: 1 :: r) = _
        rw [he3]
        rfl

/-- **C75**, convergence with `propose_spin_flip_zeroMag`, for every wave function without zeros. -/
theorem c75_zeroMag_converges (L : ℕ) (hL : 2 ≤ L) (hLe : Even L) (lw : List ℤ → ℝ)
    {C : ℕ} (μ : (Fin C → List ℤ) → ℝ)
    (hμ : ∑ s ∈ Fintype.piFinset
      (fun _ : Fin C => (spinConfigs L).filter fun s => s.count 0 = s.count 1), μ s = 1)
    (s : Fin C → List ℤ)
    (hs : ∀ i, s i ∈ (spinConfigs L).filter fun s => s.count 0 = s.count 1) :
    Tendsto (fun n => (Spec.evolve (zeroMagDraws L)
        (metropolisStep (fun d => proposeSpinFlipZeroMag d.1 d.2.1 d.2.2) lw)
        ((spinConfigs L).filter fun s => s.count 0 = s.count 1))^[n] μ s) atTop
      (𝓝 (Spec.productDist ((spinConfigs L).filter fun s => s.count 0 = s.count 1)
        (fun x => Real.exp (lw x)) s)) := by
  obtain ⟨h1, h2, h3, h4, h5⟩ := zeroMag_moves L hL hLe
  exact c75_converges_pointwise (zeroMagDraws L) (fun d => proposeSpinFlipZeroMag d.1 d.2.1 d.2.2) lw h1 _ h2 h3 h4
    (Or.inr h5) μ hμ s hs

example (lw : List ℤ → ℝ) : Tendsto (fun n => (Spec.evolve (zeroMagDraws 4)
      (metropolisStep (fun d => proposeSpinFlipZeroMag d.1 d.2.1 d.2.2) lw)
      ((spinConfigs 4).filter fun s => s.count 0 = s.count 1))^[n] (fun s => if s = fun _ => [0, 0, 1, 1] then 1 else 0)
      (fun _ : Fin 2 => [0, 1, 1, 0])) atTop
    (𝓝 (Spec.productDist ((spinConfigs 4).filter fun s => s.count 0 = s.count 1) (fun x => Real.exp (lw x))
      fun _ : Fin 2 => [0, 1, 1, 0])) := by
  have h0 : ([0, 0, 1, 1] : List ℤ) ∈ (spinConfigs 4).filter fun s => s.count 0 = s.count 1 := by decide
  have h1 : ([0, 1, 1, 0] : List ℤ) ∈ (spinConfigs 4).filter fun s => s.count 0 = s.count 1 := by decide
  refine c75_zeroMag_converges 4 (by norm_num) ⟨2, rfl⟩ lw _ ?_ _ fun _ => h1
  rw [Finset.sum_ite_eq', if_pos (Fintype.mem_piFinset.mpr fun _ => h0)]

/-- **C75**, the proviso of `c75_spin_flip_converges_partial` is necessary: if `|ψ|^mu` is the same for all
configurations, the distribution of a chain that starts in the default initial state (all zeros)
does not converge to the target distribution: after an even number of updates all configurations
with an odd number of ones have probability zero, after an odd number those with an even number. -/
theorem c75_uniform_periodic (L : ℕ) (lw : List ℤ → ℝ) (c : ℝ)
    (hlw : ∀ s ∈ spinConfigs L, lw s = c) (s : List ℤ) (hs : s ∈ spinConfigs L) :
    (∀ n : ℕ, Odd (s.sum + n) → (Spec.evolve (C := 1) (spinFlipDraws L)
      (metropolisStep proposeSpinFlip lw) (spinConfigs L))^[n]
        (fun x => if x 0 = List.replicate L 0 then 1 else 0) (fun _ => s) = 0) ∧
    ¬ Tendsto (fun n => (Spec.evolve (C := 1) (spinFlipDraws L) (metropolisStep proposeSpinFlip lw)
        (spinConfigs L))^[n] (fun x => if x 0 = List.replicate L 0 then 1 else 0) (fun _ => s)) atTop
      (𝓝 (Spec.productDist (C := 1) (spinConfigs L) (fun x => Real.exp (lw x)) fun _ => s)) := by
  have hzero : ∀ (n : ℕ) (s : List ℤ), s ∈ spinConfigs L → Odd (s.sum + n) →
      (Spec.evolve (C := 1) (spinFlipDraws L) (metropolisStep proposeSpinFlip lw)
        (spinConfigs L))^[n] (fun x => if x 0 = List.replicate L 0 then 1 else 0)
        (fun _ => s) = 0 := by
    intro n
    induction n with
    | zero =>
      intro s hs hodd
      change (if s = List.replicate L 0 then (1 : ℝ) else 0) = 0
      rw [if_neg]
      rintro rfl
      simp at hodd
    | succ n ih =>
      intro s hs hodd
      rw [Function.iterate_succ_apply']
      unfold Spec.evolve
      rw [sum_piFinset_one]
      refine Finset.sum_eq_zero fun t ht => ?_
      rw [transProb_one]
      by_cases hk : 0 < chainKernel (spinFlipDraws L) proposeSpinFlip lw t s
      · -- the move has been proposed, hence the parity has changed
        have hprop : ∃ ω ∈ spinFlipDraws L, proposeSpinFlip ω t = s := by
          by_contra hc
          push Not at hc
          unfold chainKernel at hk
          rw [Finset.sum_eq_zero] at hk
          · simp at hk
          · intro ω hω
            have hm : proposeSpinFlip ω t ∈ spinConfigs L := by
              rw [mem_spinConfigs] at ht ⊢
              have := c13_spin_flip t ht.1 ω
              exact ⟨this.1, this.2.trans ht.2⟩
            rw [if_neg (hc ω hω), hlw _ hm, hlw _ ht, div_self (Real.exp_pos _).ne']
            simp
        obtain ⟨ω, hω, rfl⟩ := hprop
        have ht' := ht
        rw [mem_spinConfigs] at ht'
        have hp := spinFlip_parity t ((bin_iff t).mpr ht'.1) ω
          (by rw [ht'.2]; exact Finset.mem_range.mp hω)
        have := ih t ht (by
          obtain ⟨a, ha⟩ := hodd
          obtain ⟨b, hb⟩ := hp
          exact ⟨a + t.sum - b, by push_cast at ha; linarith⟩)
        change (Spec.evolve (C := 1) (spinFlipDraws L) (metropolisStep proposeSpinFlip lw)
          (spinConfigs L))^[n] _ _ * _ = 0
        rw [this, zero_mul]
      · have h0 : chainKernel (spinFlipDraws L) proposeSpinFlip lw t s = 0 :=
          le_antisymm (not_lt.mp hk) (chainKernel_nonneg _ _ _ _ _)
        rw [h0, mul_zero]
  refine ⟨fun n h => hzero n s hs h, fun hlim => ?_⟩
  have hsub : Tendsto (fun k : ℕ => (Spec.evolve (C := 1) (spinFlipDraws L)
      (metropolisStep proposeSpinFlip lw) (spinConfigs L))^[2 * k + (s.sum.toNat + 1)]
      (fun x => if x 0 = List.replicate L 0 then 1 else 0) (fun _ => s)) atTop
      (𝓝 (Spec.productDist (C := 1) (spinConfigs L) (fun x => Real.exp (lw x)) fun _ => s)) := by
    have hg : Tendsto (fun k : ℕ => 2 * k + (s.sum.toNat + 1)) atTop atTop :=
      tendsto_atTop_mono (fun k => by change k ≤ _; omega) tendsto_id
    exact hlim.comp hg
  have hnn : 0 ≤ s.sum := by
    have h := hs
    rw [mem_spinConfigs] at h
    exact bin_sum_nonneg ((bin_iff s).mpr h.1)
  have hall : ∀ k : ℕ, (Spec.evolve (C := 1) (spinFlipDraws L)
      (metropolisStep proposeSpinFlip lw) (spinConfigs L))^[2 * k + (s.sum.toNat + 1)]
      (fun x => if x 0 = List.replicate L 0 then 1 else 0) (fun _ => s) = 0 := by
    intro k
    refine hzero _ s hs ⟨s.sum + k, ?_⟩
    push_cast
    rw [Int.toNat_of_nonneg hnn]
    ring
  simp only [hall] at hsub
  have h0 := tendsto_nhds_unique hsub tendsto_const_nhds
  have hpos : 0 < Spec.productDist (C := 1) (spinConfigs L) (fun x => Real.exp (lw x)) fun _ => s := by
    unfold Spec.productDist
    refine Finset.prod_pos fun i _ => div_pos (Real.exp_pos _) ?_
    exact Finset.sum_pos (fun x _ => Real.exp_pos _) ⟨s, hs⟩
  exact hpos.ne' h0

example : ¬ Tendsto (fun n => (Spec.evolve (C := 1) (spinFlipDraws 3) (metropolisStep proposeSpinFlip fun _ => 0)
      (spinConfigs 3))^[n] (fun x => if x 0 = List.replicate 3 0 then 1 else 0) (fun _ => [0, 1, 1])) atTop
    (𝓝 (Spec.productDist (C := 1) (spinConfigs 3) (fun _ => Real.exp 0) fun _ => [0, 1, 1])) :=
  (c75_uniform_periodic 3 (fun _ => 0) 0 (fun _ _ => rfl) [0, 1, 1] (by decide)).2

/-- **C75**, expectation values converge: if the distribution of the chains converges pointwise, so
does the mean of every function `f` of the configurations of the chains. -/
theorem c75_expectations_converge (L : ℕ) (hL : 0 < L) (lw : List ℤ → ℝ)
    (hlw : ∃ s ∈ spinConfigs L, ∃ t ∈ spinConfigs L, lw s ≠ lw t)
    {C : ℕ} (μ : (Fin C → List ℤ) → ℝ)
    (hμ : ∑ s ∈ Fintype.piFinset (fun _ : Fin C => spinConfigs L), μ s = 1)
    (f : (Fin C → List ℤ) → ℝ) :
    Tendsto (fun n => ∑ s ∈ Fintype.piFinset (fun _ : Fin C => spinConfigs L),
        (Spec.evolve (spinFlipDraws L) (metropolisStep proposeSpinFlip lw)
          (spinConfigs L))^[n] μ s * f s) atTop
      (𝓝 (∑ s ∈ Fintype.piFinset (fun _ : Fin C => spinConfigs L),
        Spec.productDist (spinConfigs L) (fun x => Real.exp (lw x)) s * f s)) :=
  tendsto_finsetSum _ fun s hs => (c75_spin_flip_converges_partial L hL lw hlw μ hμ s
    (Fintype.mem_piFinset.mp hs)).mul_const _

/-- Non-vacuity: a wave function with amplitude variation on two sites, a point mass as initial
distribution of two chains. -/
example :
    (∃ s ∈ spinConfigs 2, ∃ t ∈ spinConfigs 2, (s.sum : ℝ) ≠ (t.sum : ℝ)) ∧
      ∑ s ∈ Fintype.piFinset (fun _ : Fin 2 => spinConfigs 2),
        (if s = fun _ => [0, 0] then (1 : ℝ) else 0) = 1 := by
  have h0 : ([0, 0] : List ℤ) ∈ spinConfigs 2 := by
    rw [mem_spinConfigs]; refine ⟨?_, rfl⟩; rw [← bin_iff]; intro x hx; simp at hx; omega
  have h1 : ([0, 1] : List ℤ) ∈ spinConfigs 2 := by
    rw [mem_spinConfigs]; refine ⟨?_, rfl⟩; rw [← bin_iff]; intro x hx; simp at hx; omega
  refine ⟨⟨_, h0, _, h1, by norm_num⟩, ?_⟩
  rw [Finset.sum_ite_eq', if_pos]
  exact Fintype.mem_piFinset.mpr fun _ => h0

end JVMC
