import Mathlib.Algebra.BigOperators.Ring.Finset
import Mathlib.Algebra.BigOperators.Field
import Mathlib.Tactic.FieldSimp
import Verif.Model.MCSampler
import Verif.Model.Proposers
import Verif.Spec.Markov
import Verif.Spec.Configs
import Verif.Lemmas.MCSampler
import Verif.Lemmas.Proposers
import Verif.Props.Proposers

/-! # Property C16: reversibility of the Markov chain -/

namespace JVMC

open MeasureTheory

/-- The textbook Metropolis update with log-weights `lw`: propose, accept iff `u` is below the
ratio of the weights. -/
noncomputable def metropolisStep {Ω S : Type*} (propose : Ω → S → S) (lw : S → ℝ) (ω : Ω) (u : ℝ)
    (s : S) : S :=
  if u < Real.exp (lw (propose ω s)) / Real.exp (lw s) then propose ω s else s

/-- **C16**, link to the code: in every update of a `sample` call (the cache is coherent by C17)
chain `i` performs one Metropolis update for the weights `exp(mu Re log ψ)`, with its own proposal
key and its own uniform number. -/
theorem c16_update_is_metropolis {S P K : Type} (c : McConfig S P K) (params : P)
    (d : ChainState S K)
    (h : d.logAccProb = d.states.map fun y => c.mu * c.netRe params y) :
    (performMcUpdate c params d).states = d.states.mapIdx fun i s =>
      metropolisStep c.proposer (fun y => c.mu * c.netRe params y)
        (c.rng.split d.key (d.states.length + 1) i)
        (c.rng.uniform (c.rng.split (c.rng.split d.key (d.states.length + 1) d.states.length) 2 0)
          i) s := by
  unfold performMcUpdate
  dsimp only
  rw [h]
  apply List.ext_getElem
  · simp
  · intro i h1 h2
    simp only [List.getElem_zipWith, List.getElem_zip, List.getElem_mapIdx, List.getElem_map]
    unfold metropolisStep
    rw [← Real.exp_sub]
    simp only [decide_eq_true_eq]

/-- Two chains of three spins with a constant amplitude. -/
example := c16_update_is_metropolis (S := List ℤ) (P := Unit) (K := ℕ)
  { rng := { split := fun k _ i => k + i, uniform := fun _ _ => 1 / 2 }, proposer := fun k => proposeSpinFlip k
    netRe := fun _ _ => 3, mu := 2, thermSweeps := 1, sweepSteps := 1, numChains := 2 } ()
  { states := [[0, 1, 0], [1, 1, 0]], logAccProb := [6, 6], key := 0, numProposed := 0, numAccepted := 0 } (by norm_num)

section Kernel

variable {Ω S : Type*} [DecidableEq S] (W : Finset Ω) (propose : Ω → S → S) (lw : S → ℝ)

private theorem vol_step (ω : Ω) (s s' : S) :
    (volume {u : ℝ | 0 ≤ u ∧ u < 1 ∧ metropolisStep propose lw ω u s = s'})
      = ENNReal.ofReal ((if propose ω s = s' then
            min 1 (Real.exp (lw (propose ω s)) / Real.exp (lw s)) else 0)
        + (if s = s' then 1 - min 1 (Real.exp (lw (propose ω s)) / Real.exp (lw s)) else 0)) := by
  set a := Real.exp (lw (propose ω s)) / Real.exp (lw s) with ha
  have hapos : 0 < a := by positivity
  have hset : {u : ℝ | 0 ≤ u ∧ u < 1 ∧ metropolisStep propose lw ω u s = s'}
      = {u : ℝ | 0 ≤ u ∧ u < 1 ∧ (if u < a then propose ω s else s) = s'} := rfl
  rw [hset]
  by_cases h1 : propose ω s = s' <;> by_cases h2 : s = s'
  · have : {u : ℝ | 0 ≤ u ∧ u < 1 ∧ (if u < a then propose ω s else s) = s'} = Set.Ico 0 1 := by
      ext u
      have : (if u < a then propose ω s else s) = s' := by rw [h1, h2, ite_self]
      simp [this]
    rw [this, Real.volume_Ico, if_pos h1, if_pos h2]
    congr 1; ring
  · have : {u : ℝ | 0 ≤ u ∧ u < 1 ∧ (if u < a then propose ω s else s) = s'}
        = Set.Ico 0 (min 1 a) := by
      ext u
      simp only [Set.mem_ofPred_eq, Set.mem_Ico, lt_min_iff]
      constructor
      · rintro ⟨h, h', h''⟩
        refine ⟨h, h', ?_⟩
        by_contra hc
        rw [if_neg hc] at h''
        exact h2 h''
      · rintro ⟨h, h', h''⟩
        exact ⟨h, h', by rw [if_pos h'']; exact h1⟩
    rw [this, Real.volume_Ico, if_pos h1, if_neg h2]
    congr 1; ring
  · have : {u : ℝ | 0 ≤ u ∧ u < 1 ∧ (if u < a then propose ω s else s) = s'}
        = Set.Ico (min 1 a) 1 := by
      ext u
      simp only [Set.mem_ofPred_eq, Set.mem_Ico]
      constructor
      · rintro ⟨h, h', h''⟩
        refine ⟨?_, h'⟩
        by_contra hc
        rw [not_le, lt_min_iff] at hc
        rw [if_pos hc.2] at h''
        exact h1 h''
      · rintro ⟨h, h'⟩
        have h0 : 0 ≤ min 1 a := le_min zero_le_one hapos.le
        refine ⟨h0.trans h, h', ?_⟩
        rw [if_neg]
        · exact h2
        · intro hc
          rcases min_le_iff.mp h with h | h
          · linarith
          · linarith
    rw [this, Real.volume_Ico, if_neg h1, if_pos h2]
    congr 1; ring
  · have : {u : ℝ | 0 ≤ u ∧ u < 1 ∧ (if u < a then propose ω s else s) = s'} = ∅ := by
      ext u
      simp only [Set.mem_ofPred_eq, Set.mem_empty_iff_false, iff_false]
      rintro ⟨_, _, h⟩
      split_ifs at h
      · exact h1 h
      · exact h2 h
    rw [this, if_neg h1, if_neg h2]
    simp

/-- Single-chain transition probability in closed form. -/
noncomputable def chainKernel (s s' : S) : ℝ :=
  (∑ ω ∈ W, ((if propose ω s = s' then
      min 1 (Real.exp (lw (propose ω s)) / Real.exp (lw s)) else 0)
    + (if s = s' then 1 - min 1 (Real.exp (lw (propose ω s)) / Real.exp (lw s)) else 0))) / W.card

theorem transProb_eq {C : ℕ} (s s' : Fin C → S) :
    Spec.transProb W (metropolisStep propose lw) s s' = ∏ i, chainKernel W propose lw (s i) (s' i) := by
  unfold Spec.transProb chainKernel
  rw [Finset.prod_div_distrib, Finset.prod_const, Finset.card_univ, Fintype.card_fin]
  congr 1
  rw [Finset.prod_univ_sum]
  apply Finset.sum_congr rfl
  intro ω _
  have hset : {u : Fin C → ℝ | ∀ i, 0 ≤ u i ∧ u i < 1 ∧
      metropolisStep propose lw (ω i) (u i) (s i) = s' i}
      = Set.univ.pi fun i => {u : ℝ | 0 ≤ u ∧ u < 1 ∧
        metropolisStep propose lw (ω i) u (s i) = s' i} := by
    ext u; simp
  rw [hset, volume_pi_pi, ENNReal.toReal_prod]
  apply Finset.prod_congr rfl
  intro i _
  rw [vol_step, ENNReal.toReal_ofReal]
  have h0 : (0 : ℝ) ≤ min 1 (Real.exp (lw (propose (ω i) (s i))) / Real.exp (lw (s i))) :=
    le_min zero_le_one (by positivity)
  have h1 : min 1 (Real.exp (lw (propose (ω i) (s i))) / Real.exp (lw (s i))) ≤ (1 : ℝ) :=
    min_le_left _ _
  split_ifs <;> linarith

theorem chainKernel_balance (s s' : S)
    (hsym : (W.filter fun ω => propose ω s = s').card = (W.filter fun ω => propose ω s' = s).card) :
    Real.exp (lw s) * chainKernel W propose lw s s' = Real.exp (lw s') * chainKernel W propose lw s' s := by
  by_cases h : s = s'
  · rw [h]
  · have key : ∀ s s' : S, s ≠ s' → Real.exp (lw s) * chainKernel W propose lw s s'
        = (W.filter fun ω => propose ω s = s').card
          * min (Real.exp (lw s)) (Real.exp (lw s')) / W.card := by
      intro s s' hne
      unfold chainKernel
      rw [← mul_div_assoc, Finset.mul_sum]
      congr 1
      rw [← nsmul_eq_mul, ← Finset.sum_const, Finset.sum_filter]
      apply Finset.sum_congr rfl
      intro ω _
      rw [if_neg hne, add_zero]
      split_ifs with hp
      · rw [hp]
        have hpos := Real.exp_pos (lw s)
        rw [mul_min_of_nonneg _ _ hpos.le, mul_one, mul_div_cancel₀ _ hpos.ne']
      · simp
    rw [key s s' h, key s' s (Ne.symm h), hsym, min_comm]

theorem chainKernel_rowSum (hW : W.Nonempty) (X : Finset S)
    (hX : ∀ ω ∈ W, ∀ s ∈ X, propose ω s ∈ X) (s : S) (hs : s ∈ X) :
    ∑ s' ∈ X, chainKernel W propose lw s s' = 1 := by
  unfold chainKernel
  rw [← Finset.sum_div, Finset.sum_comm]
  have hcard : (W.card : ℝ) ≠ 0 := by
    have := Finset.card_pos.mpr hW
    positivity
  rw [div_eq_one_iff_eq hcard]
  have : ∀ ω ∈ W, (∑ s' ∈ X, ((if propose ω s = s' then
      min 1 (Real.exp (lw (propose ω s)) / Real.exp (lw s)) else 0)
    + (if s = s' then 1 - min 1 (Real.exp (lw (propose ω s)) / Real.exp (lw s)) else 0)))
      = (1 : ℝ) := by
    intro ω hω
    rw [Finset.sum_add_distrib, Finset.sum_ite_eq, Finset.sum_ite_eq, if_pos (hX ω hω s hs),
      if_pos hs]
    ring
  rw [Finset.sum_congr rfl this]
  simp

/-- **C16**, detailed balance: for any number of chains, the probability flow between two vectors of
configurations under one update of all chains is the same in both directions, for the distribution
with weights `exp(lw)` (`lw = mu Re log ψ`) and every symmetric proposer. -/
theorem c16_detailed_balance {C : ℕ}
    (s s' : Fin C → S)
    (hsym : ∀ i, (W.filter fun ω => propose ω (s i) = s' i).card
      = (W.filter fun ω => propose ω (s' i) = s i).card) :
    (∏ i, Real.exp (lw (s i))) * Spec.transProb W (metropolisStep propose lw) s s'
      = (∏ i, Real.exp (lw (s' i))) * Spec.transProb W (metropolisStep propose lw) s' s := by
  rw [transProb_eq, transProb_eq, ← Finset.prod_mul_distrib, ← Finset.prod_mul_distrib]
  exact Finset.prod_congr rfl fun i _ => chainKernel_balance W propose lw _ _ (hsym i)

/-- Two particles that hop on a ring of five sites. -/
example (lw : ZMod 5 → ℝ) := c16_detailed_balance {1, -1} (fun (d s : ZMod 5) => s + d) lw ![0, 3] ![1, 2] (by decide)

/-- **C16**, probabilities: from every vector of configurations in `X` the transition probabilities
to the configurations in `X` add up to one. -/
theorem c16_transitions_normalised (hW : W.Nonempty) (X : Finset S)
    (hX : ∀ ω ∈ W, ∀ s ∈ X, propose ω s ∈ X) {C : ℕ} (s : Fin C → S) (hs : ∀ i, s i ∈ X) :
    ∑ s' ∈ Fintype.piFinset (fun _ : Fin C => X),
      Spec.transProb W (metropolisStep propose lw) s s' = 1 := by
  simp only [transProb_eq]
  rw [← Finset.prod_univ_sum]
  exact Finset.prod_eq_one fun i _ => chainKernel_rowSum W propose lw hW X hX _ (hs i)

example (lw : ZMod 5 → ℝ) := c16_transitions_normalised {1, -1} (fun (d s : ZMod 5) => s + d) lw (by simp) Finset.univ
  (fun _ _ _ _ => Finset.mem_univ _) ![0, 3] fun _ => Finset.mem_univ _

/-- **C16**, stationarity: for a proposer that is symmetric on the finite configuration space `X`
and stays in it, chains distributed independently with weights `exp(lw)` are so distributed after
every number `n` of updates. -/
theorem c16_stationary (hW : W.Nonempty) (X : Finset S)
    (hX : ∀ ω ∈ W, ∀ s ∈ X, propose ω s ∈ X)
    (hsym : ∀ s ∈ X, ∀ s' ∈ X, (W.filter fun ω => propose ω s = s').card
      = (W.filter fun ω => propose ω s' = s).card)
    {C : ℕ} (n : ℕ) (s : Fin C → S) (hs : ∀ i, s i ∈ X) :
    (Spec.evolve W (metropolisStep propose lw) X)^[n]
        (Spec.productDist X fun x => Real.exp (lw x)) s
      = Spec.productDist X (fun x => Real.exp (lw x)) s := by
  induction n generalizing s with
  | zero => rfl
  | succ n ih =>
    rw [Function.iterate_succ_apply', Spec.evolve]
    have h1 : ∀ t ∈ Fintype.piFinset (fun _ : Fin C => X),
        (Spec.evolve W (metropolisStep propose lw) X)^[n]
            (Spec.productDist X fun x => Real.exp (lw x)) t
          * Spec.transProb W (metropolisStep propose lw) t s
        = Spec.productDist X (fun x => Real.exp (lw x)) s
          * Spec.transProb W (metropolisStep propose lw) s t := by
      intro t ht
      rw [Fintype.mem_piFinset] at ht
      rw [ih t ht]
      unfold Spec.productDist
      rw [Finset.prod_div_distrib, Finset.prod_div_distrib, div_mul_eq_mul_div, div_mul_eq_mul_div]
      congr 1
      exact c16_detailed_balance W propose lw t s fun i => hsym _ (ht i) _ (hs i)
    rw [Finset.sum_congr rfl h1, ← Finset.mul_sum,
      c16_transitions_normalised W propose lw hW X hX s hs, mul_one]

example (lw : ZMod 5 → ℝ) := c16_stationary {1, -1} (fun (d s : ZMod 5) => s + d) lw (by simp) Finset.univ
  (fun _ _ _ _ => Finset.mem_univ _) (by decide) 7 ![0, 3] fun _ => Finset.mem_univ _

end Kernel

/-! ### Instances for the shipped proposers -/

/-- All spin configurations of `L` sites. -/
def spinConfigs (L : ℕ) : Finset (List ℤ) :=
  (Finset.univ : Finset (Fin L → Bool)).image fun b => List.ofFn fun i => if b i then 1 else 0

theorem mem_spinConfigs (L : ℕ) (s : List ℤ) :
    s ∈ spinConfigs L ↔ Spec.InSpace 2 s ∧ s.length = L := by
  unfold spinConfigs
  simp only [Finset.mem_image, Finset.mem_univ, true_and]
  constructor
  · rintro ⟨b, rfl⟩
    refine ⟨?_, by simp⟩
    intro x hx
    obtain ⟨i, rfl⟩ := (List.mem_ofFn' _ _).mp hx
    by_cases h : b i <;> simp [h]
  · rintro ⟨h, rfl⟩
    refine ⟨fun i => decide (s[i] = 1), ?_⟩
    apply List.ext_getElem (by simp)
    intro i h1 h2
    have := (bin_iff s).mpr h s[i] (List.getElem_mem h2)
    rcases this with h | h <;> simp [h]

/-- **C16** for `propose_spin_flip`: stationarity on all spin configurations of `L ≥ 1` sites. -/
theorem c16_spin_flip (L : ℕ) (hL : 0 < L) (lw : List ℤ → ℝ) {C : ℕ} (n : ℕ)
    (s : Fin C → List ℤ) (hs : ∀ i, s i ∈ spinConfigs L) :
    (Spec.evolve (spinFlipDraws L) (metropolisStep proposeSpinFlip lw) (spinConfigs L))^[n]
        (Spec.productDist (spinConfigs L) fun x => Real.exp (lw x)) s
      = Spec.productDist (spinConfigs L) (fun x => Real.exp (lw x)) s := by
  apply c16_stationary _ _ _ _ _ _ _ n s hs
  · exact ⟨0, by simp [spinFlipDraws, hL]⟩
  · intro ω _ s hs
    rw [mem_spinConfigs] at hs ⊢
    have := c13_spin_flip s hs.1 ω
    exact ⟨this.1, this.2.trans hs.2⟩
  · intro s hs s' hs'
    rw [mem_spinConfigs] at hs hs'
    have := c14_spin_flip s s' hs.1 hs'.1 (hs.2.trans hs'.2.symm)
    rwa [hs.2, hs'.2] at this

example (lw : List ℤ → ℝ) := c16_spin_flip 3 (by norm_num) lw 7 ![[1, 0, 0], [0, 1, 1]] (by decide)

/-- **C16** for `propose_spin_flip_Z2`. -/
theorem c16_spin_flip_Z2 (L : ℕ) (hL : 0 < L) (lw : List ℤ → ℝ) {C : ℕ} (n : ℕ)
    (s : Fin C → List ℤ) (hs : ∀ i, s i ∈ spinConfigs L) :
    (Spec.evolve (z2Draws L) (metropolisStep (fun d => proposeSpinFlipZ2 d.1 d.2) lw)
        (spinConfigs L))^[n]
        (Spec.productDist (spinConfigs L) fun x => Real.exp (lw x)) s
      = Spec.productDist (spinConfigs L) (fun x => Real.exp (lw x)) s := by
  apply c16_stationary _ _ _ _ _ _ _ n s hs
  · exact ⟨(0, 0), by simp [z2Draws, hL]⟩
  · intro ω _ s hs
    rw [mem_spinConfigs] at hs ⊢
    have := c13_spin_flip_Z2 s hs.1 ω.1 ω.2
    exact ⟨this.1, this.2.trans hs.2⟩
  · intro s hs s' hs'
    rw [mem_spinConfigs] at hs hs'
    have := c14_spin_flip_Z2 s s' hs.1 hs'.1 (hs.2.trans hs'.2.symm)
    rwa [hs.2, hs'.2] at this

example (lw : List ℤ → ℝ) := c16_spin_flip_Z2 3 (by norm_num) lw 7 ![[1, 0, 0], [0, 1, 1]] (by decide)

/-- **C16** for `propose_spin_flip_zeroMag`: stationarity on the balanced configurations of an even
number of sites. -/
theorem c16_spin_flip_zeroMag (L : ℕ) (hL : 2 ≤ L) (lw : List ℤ → ℝ) {C : ℕ} (n : ℕ)
    (s : Fin C → List ℤ)
    (hs : ∀ i, s i ∈ (spinConfigs L).filter fun s => s.count 0 = s.count 1) :
    (Spec.evolve (zeroMagDraws L)
        (metropolisStep (fun d => proposeSpinFlipZeroMag d.1 d.2.1 d.2.2) lw)
        ((spinConfigs L).filter fun s => s.count 0 = s.count 1))^[n]
        (Spec.productDist ((spinConfigs L).filter fun s => s.count 0 = s.count 1)
          fun x => Real.exp (lw x)) s
      = Spec.productDist ((spinConfigs L).filter fun s => s.count 0 = s.count 1)
          (fun x => Real.exp (lw x)) s := by
  have hmem : ∀ s, s ∈ (spinConfigs L).filter (fun s => s.count 0 = s.count 1)
      ↔ Spec.Balanced s ∧ s.length = L := by
    intro s
    rw [Finset.mem_filter, mem_spinConfigs, ← bin_iff]
    unfold Spec.Balanced Bin
    tauto
  apply c16_stationary _ _ _ _ _ _ _ n s hs
  · refine ⟨(1, 1, 0), ?_⟩
    simp only [zeroMagDraws, Finset.mem_product, Finset.mem_Icc, Finset.mem_range]
    omega
  · intro ω hω s hs
    rw [hmem] at hs ⊢
    rw [← hs.2] at hω
    have := c15_zeroMag_step s hs.1 ω hω
    exact ⟨this.1, this.2.trans hs.2⟩
  · intro s hs s' hs'
    rw [hmem] at hs hs'
    have := c14_spin_flip_zeroMag s s' hs.1 hs'.1 (hs.2.trans hs'.2.symm)
    rwa [hs.2, hs'.2] at this

/-- Non-vacuity: three chains of four-site balanced configurations. -/
example : ∀ i : Fin 3, (![[1, 0, 0, 1], [1, 1, 0, 0], [0, 1, 0, 1]] : Fin 3 → List ℤ) i
    ∈ (spinConfigs 4).filter fun s => s.count 0 = s.count 1 := by decide

end JVMC
