import Verif.Lemmas.ChainRounding
import Verif.Props.Converge

/-! # Property C134: rounding errors of Markov chains

"Markov chains whose acceptance decisions are made in floating point arithmetic sample a distribution close to the target
distribution, however long they run." -/

namespace JVMC

open MeasureTheory Relation Spec

/-! ### The code's update -/

/-- **C134**, link to the code: with a coherent cache (`c134_cache`) every chain performs one update `roundedStep`, with its own
proposal key and its own uniform number. -/
theorem c134_update_is_rounded {S P K : Type} (r : Rounding) (e : ℝ → ℝ) (c : McConfig S P K) (params : P) (d : ChainState S K)
    (h : d.logAccProb = d.states.map (logAccRnd r c params)) :
    (performMcUpdateRnd r e c params d).states = d.states.mapIdx fun i s =>
      roundedStep r e c.proposer (logAccRnd r c params)
        (c.rng.split d.key (d.states.length + 1) i)
        (c.rng.uniform (c.rng.split (c.rng.split d.key (d.states.length + 1) d.states.length) 2 0) i) s := by
  unfold performMcUpdateRnd
  dsimp only
  rw [h]
  apply List.ext_getElem
  · simp
  · intro i h1 h2
    simp only [List.getElem_zipWith, List.getElem_zip, List.getElem_mapIdx, List.getElem_map]
    unfold roundedStep
    simp only [decide_eq_true_eq]

/-- Two chains of three spins. -/
example := c134_update_is_rounded (S := List ℤ) (P := Unit) (K := ℕ) Rounding.double Real.exp
  { rng := { split := fun k _ i => k + i, uniform := fun _ _ => 1 / 2 }, proposer := fun k => proposeSpinFlip k
    netRe := fun _ s => s.sum / 10, mu := 2, thermSweeps := 1, sweepSteps := 1, numChains := 2 } ()
  { states := [[0, 1, 0], [1, 1, 0]], logAccProb := _, key := 0, numProposed := 0, numAccepted := 0 } rfl

/-- **C134**, the cache: after `_mc_init` and any number `k` of updates, the cached number of every chain is the number that the
machine computes for its configuration. The rounding errors of earlier updates do not accumulate. -/
theorem c134_cache {S P K : Type} (r : Rounding) (e : ℝ → ℝ) (c : McConfig S P K) (params : P) (d : ChainState S K) (k : ℕ) :
    ((performMcUpdateRnd r e c params)^[k] (mcInitRnd r c params d)).logAccProb
      = ((performMcUpdateRnd r e c params)^[k] (mcInitRnd r c params d)).states.map (logAccRnd r c params) := by
  induction k with
  | zero => rfl
  | succ k ih =>
    rw [Function.iterate_succ_apply']
    set d' := (performMcUpdateRnd r e c params)^[k] (mcInitRnd r c params d) with hd'
    unfold performMcUpdateRnd
    dsimp only
    rw [ih]
    apply List.ext_getElem
    · simp
    · intro i h1 h2
      simp only [List.getElem_zipWith, List.getElem_zip, List.getElem_mapIdx, List.getElem_map]
      split_ifs <;> rfl

/-- Three spins, after five updates of two chains. -/
example := c134_cache (S := List ℤ) (P := Unit) (K := ℕ) Rounding.double Real.exp
  { rng := { split := fun k _ i => k + i, uniform := fun _ _ => 1 / 2 }, proposer := fun k => proposeSpinFlip k
    netRe := fun _ s => s.sum / 10, mu := 2, thermSweeps := 1, sweepSteps := 1, numChains := 2 } ()
  { states := [[0, 1, 0], [1, 1, 0]], logAccProb := [6, 6], key := 0, numProposed := 0, numAccepted := 0 } 5

/-- **C134**, the numbers in the cache: if the computed values of the network err by at most `b` and are at most `M` in size, the
cached numbers approximate `mu Re log ψ` with an error of at most `|mu| (b + u M)`. -/
theorem c134_logs {S P K : Type} (r : Rounding) (c : McConfig S P K) (params : P) (X : Finset S) (net : S → ℝ) (b M : ℝ)
    (hb : ∀ s ∈ X, |c.netRe params s - net s| ≤ b) (hM : ∀ s ∈ X, |c.netRe params s| ≤ M) :
    LogsWithin X (fun s => c.mu * net s) (|c.mu| * (b + r.u * M)) (2 * ((1 + r.u) * (|c.mu| * M))) (logAccRnd r c params) := by
  have hsize : ∀ s ∈ X, |logAccRnd r c params s| ≤ (1 + r.u) * (|c.mu| * M) := by
    intro s hs
    unfold logAccRnd
    have h1 := r.err (c.mu * c.netRe params s)
    have h2 : |c.mu * c.netRe params s| ≤ |c.mu| * M := by
      rw [abs_mul]
      exact mul_le_mul_of_nonneg_left (hM s hs) (abs_nonneg _)
    have h3 := mul_le_mul_of_nonneg_left h2 r.u_nonneg
    have h4 : |r.rnd (c.mu * c.netRe params s)|
        ≤ |r.rnd (c.mu * c.netRe params s) - c.mu * c.netRe params s| + |c.mu * c.netRe params s| := by
      have := abs_add_le (r.rnd (c.mu * c.netRe params s) - c.mu * c.netRe params s) (c.mu * c.netRe params s)
      rwa [sub_add_cancel] at this
    linarith
  refine ⟨fun s hs => ?_, fun s hs t ht => ?_⟩
  · unfold logAccRnd
    have h1 := r.err (c.mu * c.netRe params s)
    have h2 : |c.mu * c.netRe params s| ≤ |c.mu| * M := by
      rw [abs_mul]
      exact mul_le_mul_of_nonneg_left (hM s hs) (abs_nonneg _)
    have h3 := mul_le_mul_of_nonneg_left h2 r.u_nonneg
    have h4 : |c.mu * c.netRe params s - c.mu * net s| ≤ |c.mu| * b := by
      rw [← mul_sub, abs_mul]
      exact mul_le_mul_of_nonneg_left (hb s hs) (abs_nonneg _)
    have h5 := abs_sub_le (r.rnd (c.mu * c.netRe params s)) (c.mu * c.netRe params s) (c.mu * net s)
    linarith
  · have h1 := abs_sub (logAccRnd r c params s) (logAccRnd r c params t)
    have h2 := hsize s hs
    have h3 := hsize t ht
    linarith

/-! ### Transition probabilities -/

section

variable {Ω S : Type*} [DecidableEq S] (W : Finset Ω) (propose : Ω → S → S) (lw : S → ℝ)

omit [DecidableEq S] in
private theorem rounded_eq (r : Rounding) (e : ℝ → ℝ) (l : S → ℝ) : roundedStep r e propose l
    = thresholdStep propose fun ω s => (⌈(2 : ℝ) ^ 52 * e (r.rnd (l (propose ω s) - l s))⌉ : ℝ) / 2 ^ 52 := by
  funext ω u s
  unfold roundedStep thresholdStep
  simp only [gridUniform_lt]

omit [DecidableEq S] in
private theorem metropolis_eq : metropolisStep propose lw
    = thresholdStep propose fun ω s => Real.exp (lw (propose ω s)) / Real.exp (lw s) := rfl

omit [DecidableEq S] in
private theorem thr_nonneg (r : Rounding) (e : ℝ → ℝ) (v : ℝ) (he : ExpWithin v e) (l : S → ℝ) (ω : Ω) (s : S) :
    0 ≤ (⌈(2 : ℝ) ^ 52 * e (r.rnd (l (propose ω s) - l s))⌉ : ℝ) / 2 ^ 52 := by
  have h := (he (r.rnd (l (propose ω s) - l s))).1
  have : (0 : ℤ) ≤ ⌈(2 : ℝ) ^ 52 * e (r.rnd (l (propose ω s) - l s))⌉ := Int.ceil_nonneg (by positivity)
  have h2 : (0 : ℝ) ≤ (⌈(2 : ℝ) ^ 52 * e (r.rnd (l (propose ω s) - l s))⌉ : ℝ) := by exact_mod_cast this
  positivity

omit [DecidableEq S] in
private theorem accept_near (r : Rounding) (e : ℝ → ℝ) (v : ℝ) (he : ExpWithin v e) (X : Finset S) (a R : ℝ) (l : S → ℝ)
    (hl : LogsWithin X lw a R l) (ω : Ω) (s : S) (hs : s ∈ X) (hp : propose ω s ∈ X) :
    |min 1 ((⌈(2 : ℝ) ^ 52 * e (r.rnd (l (propose ω s) - l s))⌉ : ℝ) / 2 ^ 52)
      - min 1 (Real.exp (lw (propose ω s)) / Real.exp (lw s))| ≤ acceptError a R r.u v := by
  rw [← Real.exp_sub]
  set x := r.rnd (l (propose ω s) - l s) with hx
  have h1 := grid_accept (e x) (he x).1
  have h2 := (he x).2
  have h3 := min_exp_lipschitz x (lw (propose ω s) - lw s)
  have h4 := r.err (l (propose ω s) - l s)
  have h5 := mul_le_mul_of_nonneg_left (hl.2 _ hp s hs) r.u_nonneg
  have h6 := hl.1 _ hp
  have h7 := hl.1 s hs
  have h8 : |x - (lw (propose ω s) - lw s)| ≤ 2 * a + r.u * R := by
    rw [abs_le] at h4 h6 h7 ⊢
    constructor <;> linarith [h4.1, h4.2, h6.1, h6.2, h7.1, h7.2]
  unfold acceptError
  rw [abs_le] at h1 h2 h3 ⊢
  constructor <;> linarith [h1.1, h1.2, h2.1, h2.2, h3.1, h3.2]

/-- **C134**, acceptance: the probability that a proposal is accepted differs by at most `acceptError` from the probability of
exact arithmetic. -/
theorem c134_acceptance (r : Rounding) (e : ℝ → ℝ) (v : ℝ) (he : ExpWithin v e) (X : Finset S) (a R : ℝ) (l : S → ℝ)
    (hl : LogsWithin X lw a R l) (ω : Ω) (s : S) (hs : s ∈ X) (hp : propose ω s ∈ X) (hne : propose ω s ≠ s) :
    |(volume {u : ℝ | 0 ≤ u ∧ u < 1 ∧ roundedStep r e propose l ω u s = propose ω s}).toReal
      - (volume {u : ℝ | 0 ≤ u ∧ u < 1 ∧ metropolisStep propose lw ω u s = propose ω s}).toReal| ≤ acceptError a R r.u v := by
  have h0 := thr_nonneg propose r e v he l ω s
  have hr := vol_threshold propose (fun ω s => (⌈(2 : ℝ) ^ 52 * e (r.rnd (l (propose ω s) - l s))⌉ : ℝ) / 2 ^ 52) ω s (propose ω s) h0
  have hm := vol_threshold propose (fun ω s => Real.exp (lw (propose ω s)) / Real.exp (lw s)) ω s (propose ω s) (by positivity)
  rw [rounded_eq, metropolis_eq, hr, hm]
  simp only [if_true, if_neg (Ne.symm hne), add_zero]
  rw [ENNReal.toReal_ofReal (le_min zero_le_one h0), ENNReal.toReal_ofReal (le_min zero_le_one (by positivity))]
  exact accept_near propose lw r e v he X a R l hl ω s hs hp

/-- A flip between two configurations whose logarithmic weights are known up to 1/1000. -/
example := c134_acceptance (fun (_ : Unit) b => !b) (fun b => if b then -1 else 0) Rounding.double Real.exp 0
  (fun x => ⟨(Real.exp_pos x).le, by simp⟩) Finset.univ (1 / 1000) 2 (fun b => if b then -1 + 1 / 1000 else 0)
  ⟨by norm_num, by norm_num⟩ () false (Finset.mem_univ _) (Finset.mem_univ _) (by decide)

private theorem rounded_kernel (r : Rounding) (e : ℝ → ℝ) (v : ℝ) (he : ExpWithin v e) (hW : W.Nonempty) (X : Finset S)
    (hX : ∀ ω ∈ W, ∀ s ∈ X, propose ω s ∈ X) (l : S → ℝ) {C : ℕ} :
    (∀ s s' : Fin C → S, 0 ≤ Spec.transProb W (roundedStep r e propose l) s s') ∧
      ∀ s : Fin C → S, (∀ i, s i ∈ X) →
        ∑ s' ∈ Fintype.piFinset (fun _ : Fin C => X), Spec.transProb W (roundedStep r e propose l) s s' = 1 := by
  constructor
  · intro s s'
    rw [rounded_eq, transProb_threshold _ _ _ (fun ω s => thr_nonneg propose r e v he l ω s)]
    exact Finset.prod_nonneg fun i _ => accKernel_nonneg W propose _
      (fun ω s => le_min zero_le_one (thr_nonneg propose r e v he l ω s)) (fun ω s => min_le_left _ _) _ _
  · intro s hs
    simp only [rounded_eq, transProb_threshold _ _ _ (fun ω s => thr_nonneg propose r e v he l ω s)]
    rw [← Finset.prod_univ_sum]
    exact Finset.prod_eq_one fun i _ => accKernel_rowSum W propose _ hW X hX _ (hs i)

/-- **C134**, one update of all `C` chains: from every vector of configurations, the transition probabilities of the rounded
update add up to one, and differ in sum by at most `2 C acceptError` from those of exact arithmetic. -/
theorem c134_transitions (r : Rounding) (e : ℝ → ℝ) (v : ℝ) (he : ExpWithin v e) (hW : W.Nonempty) (X : Finset S)
    (hX : ∀ ω ∈ W, ∀ s ∈ X, propose ω s ∈ X) (a R : ℝ) (l : S → ℝ) (hl : LogsWithin X lw a R l)
    {C : ℕ} (s : Fin C → S) (hs : ∀ i, s i ∈ X) :
    ∑ s' ∈ Fintype.piFinset (fun _ : Fin C => X), Spec.transProb W (roundedStep r e propose l) s s' = 1 ∧
      ∑ s' ∈ Fintype.piFinset (fun _ : Fin C => X), |Spec.transProb W (roundedStep r e propose l) s s'
        - Spec.transProb W (metropolisStep propose lw) s s'| ≤ C * (2 * acceptError a R r.u v) := by
  refine ⟨(rounded_kernel W propose r e v he hW X hX l).2 s hs, ?_⟩
  simp only [rounded_eq, metropolis_eq, transProb_threshold _ _ _ (fun ω s => thr_nonneg propose r e v he l ω s),
    transProb_threshold _ _ (fun ω s => Real.exp (lw (propose ω s)) / Real.exp (lw s)) (fun ω s => by positivity)]
  refine prod_kernel_diff X _ _ (fun i x _ => ?_) (fun i x _ => ?_) (fun i => ?_) (fun i => ?_) _ fun i => ?_
  · exact accKernel_nonneg W propose _ (fun ω s => le_min zero_le_one (thr_nonneg propose r e v he l ω s))
      (fun ω s => min_le_left _ _) _ _
  · exact accKernel_nonneg W propose _ (fun ω s => le_min zero_le_one (by positivity)) (fun ω s => min_le_left _ _) _ _
  · exact accKernel_rowSum W propose _ hW X hX _ (hs i)
  · exact accKernel_rowSum W propose _ hW X hX _ (hs i)
  · exact accKernel_diff W propose _ _ X hW hX _ _ (hs i) fun ω hω =>
      accept_near propose lw r e v he X a R l hl ω _ (hs i) (hX ω hω _ (hs i))

/-- Two particles that hop on a ring of five sites, one of which is less likely; the logarithm of its weight has an error. -/
example := c134_transitions {1, -1} (fun (d s : ZMod 5) => s + d) (fun s => if s = 0 then -1 else 0) Rounding.double Real.exp 0
  (fun x => ⟨(Real.exp_pos x).le, by simp⟩) (by simp) Finset.univ (fun _ _ _ _ => Finset.mem_univ _) (1 / 1000) 2
  (fun s => if s = 0 then -1 + 1 / 1000 else 0)
  ⟨fun s _ => by dsimp only; split_ifs <;> norm_num, fun s _ t _ => by dsimp only; split_ifs <;> norm_num⟩ ![0, 3] fun _ => Finset.mem_univ _

/-- **C134**, short times: after `n` updates of `C` chains the distribution of the chains differs by at most
`2 n C acceptError` from that of exact arithmetic, for every proposer. -/
theorem c134_drift (r : Rounding) (e : ℝ → ℝ) (v : ℝ) (he : ExpWithin v e) (hW : W.Nonempty) (X : Finset S)
    (hX : ∀ ω ∈ W, ∀ s ∈ X, propose ω s ∈ X) (a R : ℝ) (l : S → ℝ) (hl : LogsWithin X lw a R l)
    {C : ℕ} (μ : (Fin C → S) → ℝ) (hμ : IsDist (Fintype.piFinset fun _ : Fin C => X) μ) (n : ℕ) :
    ∑ s ∈ Fintype.piFinset (fun _ : Fin C => X), |(Spec.evolve W (roundedStep r e propose l) X)^[n] μ s
      - (Spec.evolve W (metropolisStep propose lw) X)^[n] μ s| ≤ n * (C * (2 * acceptError a R r.u v)) := by
  refine push_drift (Fintype.piFinset fun _ : Fin C => X) (Spec.transProb W (metropolisStep propose lw))
    (Spec.transProb W (roundedStep r e propose l)) ?_ ?_ ?_ ?_ _ ?_ μ hμ n
  · intro s _ t _
    rw [transProb_eq]
    exact Finset.prod_nonneg fun i _ => chainKernel_nonneg W propose lw _ _
  · exact fun s hs => c16_transitions_normalised W propose lw hW X hX s (Fintype.mem_piFinset.mp hs)
  · exact fun s _ t _ => (rounded_kernel W propose r e v he hW X hX l).1 s t
  · exact fun s hs => (rounded_kernel W propose r e v he hW X hX l).2 s (Fintype.mem_piFinset.mp hs)
  · exact fun s hs => (c134_transitions W propose lw r e v he hW X hX a R l hl s (Fintype.mem_piFinset.mp hs)).2

example := c134_drift {1, -1} (fun (d s : ZMod 5) => s + d) (fun s => if s = 0 then -1 else 0) Rounding.double Real.exp 0
  (fun x => ⟨(Real.exp_pos x).le, by simp⟩) (by simp) Finset.univ (fun _ _ _ _ => Finset.mem_univ _) (1 / 1000) 2
  (fun s => if s = 0 then -1 + 1 / 1000 else 0)
  ⟨fun s _ => by dsimp only; split_ifs <;> norm_num, fun s _ t _ => by dsimp only; split_ifs <;> norm_num⟩ (fun s : Fin 2 → ZMod 5 => if s = fun _ => 0 then 1 else 0)
  ⟨fun s _ => by dsimp only; split_ifs <;> norm_num, by rw [Finset.sum_ite_eq', if_pos (by simp)]⟩ 1000

/-- **C134**: for every symmetric proposer whose moves connect the finite space `X` (and which is not periodic, see
`c75_converges`) there are `ρ < 1` and `N` such that for every floating point arithmetic, every initial distribution and every
number `n` of updates, the distance of the distribution of the chains from the target distribution is at most what
`c75_converges` gives for exact arithmetic, plus a multiple of the error `acceptError` of one acceptance probability. The
multiple does not grow with the number of updates. -/
theorem c134_close (hW : W.Nonempty) (X : Finset S)
    (hX : ∀ ω ∈ W, ∀ s ∈ X, propose ω s ∈ X)
    (hsym : ∀ s ∈ X, ∀ s' ∈ X, (W.filter fun ω => propose ω s = s').card
      = (W.filter fun ω => propose ω s' = s).card)
    (hirr : ∀ s ∈ X, ∀ t ∈ X, ReflTransGen (fun a b => ∃ ω ∈ W, propose ω a = b) s t)
    (hap : (∃ s ∈ X, ∃ t ∈ X, lw s ≠ lw t) ∨
      ∃ s ∈ X, ∃ ds : List Ω, (∀ d ∈ ds, d ∈ W) ∧ Odd ds.length ∧
        ds.foldl (fun s d => propose d s) s = s)
    (C : ℕ) :
    ∃ (ρ : ℝ) (N : ℕ), 0 ≤ ρ ∧ ρ < 1 ∧ 0 < N ∧
      ∀ (r : Rounding) (e : ℝ → ℝ) (v a R : ℝ) (l : S → ℝ), ExpWithin v e → LogsWithin X lw a R l →
        ∀ μ : (Fin C → S) → ℝ, IsDist (Fintype.piFinset fun _ : Fin C => X) μ → ∀ n : ℕ,
        ∑ s ∈ Fintype.piFinset (fun _ : Fin C => X),
          |(Spec.evolve W (roundedStep r e propose l) X)^[n] μ s
            - Spec.productDist X (fun x => Real.exp (lw x)) s|
        ≤ ρ ^ (n / N) * ∑ s ∈ Fintype.piFinset (fun _ : Fin C => X),
            |μ s - Spec.productDist X (fun x => Real.exp (lw x)) s|
          + 2 * N * (C * (2 * acceptError a R r.u v)) / (1 - ρ) := by
  obtain ⟨ρ, N, h0, h1, hN, hgeo⟩ := c75_converges W propose lw hW X hX hsym hirr hap C
  refine ⟨ρ, N, h0, h1, hN, ?_⟩
  intro r e v a R l he hl μ hμ n
  have hX0 : X.Nonempty := by
    rcases hap with ⟨s, hs, _⟩ | ⟨s, hs, _⟩ <;> exact ⟨s, hs⟩
  obtain ⟨s₀, hs₀⟩ := hX0
  have ha : 0 ≤ a := (abs_nonneg _).trans (hl.1 s₀ hs₀)
  have hR : 0 ≤ R := (abs_nonneg _).trans (hl.2 s₀ hs₀ s₀ hs₀)
  have hv : 0 ≤ v := (abs_nonneg _).trans (he 0).2
  have hη : 0 ≤ acceptError a R r.u v := by
    unfold acceptError
    have := mul_nonneg r.u_nonneg hR
    positivity
  refine push_uniform (Fintype.piFinset fun _ : Fin C => X) (Spec.transProb W (metropolisStep propose lw))
    (Spec.transProb W (roundedStep r e propose l)) ?_ ?_ ?_ ?_ _ (by positivity) ?_ _ ρ N h0 h1 hN hgeo μ hμ n
  · intro s _ t _
    rw [transProb_eq]
    exact Finset.prod_nonneg fun i _ => chainKernel_nonneg W propose lw _ _
  · exact fun s hs => c16_transitions_normalised W propose lw hW X hX s (Fintype.mem_piFinset.mp hs)
  · exact fun s _ t _ => (rounded_kernel W propose r e v he hW X hX l).1 s t
  · exact fun s hs => (rounded_kernel W propose r e v he hW X hX l).2 s (Fintype.mem_piFinset.mp hs)
  · exact fun s hs => (c134_transitions W propose lw r e v he hW X hX a R l hl s (Fintype.mem_piFinset.mp hs)).2

end

/-! ### Cases -/

/-- The exact exponential function is within every error bound. -/
theorem expWithin_exp (v : ℝ) (hv : 0 ≤ v) : ExpWithin v Real.exp := fun x => ⟨(Real.exp_pos x).le, by simpa using hv⟩

/-- A machine whose exponential function overflows to a large number above 700 and underflows to zero below -700. -/
example : ExpWithin (Real.exp (-700)) fun x => if 700 < x then 1000 else if x < -700 then 0 else Real.exp x := by
  intro x
  have h0 := Real.exp_pos (-700)
  dsimp only
  split_ifs with h1 h2
  · refine ⟨by norm_num, ?_⟩
    rw [min_eq_left (by norm_num), min_eq_left (Real.one_le_exp (by linarith)), sub_self, abs_zero]
    exact h0.le
  · refine ⟨le_rfl, ?_⟩
    rw [min_eq_right (by norm_num : (0 : ℝ) ≤ 1), min_eq_right (Real.exp_le_one_iff.mpr (by linarith)), zero_sub, abs_neg,
      abs_of_pos (Real.exp_pos x)]
    exact Real.exp_le_exp.mpr h2.le
  · refine ⟨(Real.exp_pos x).le, ?_⟩
    rw [sub_self, abs_zero]
    exact h0.le

/-- **C134**, chains of spins with `propose_spin_flip`: see `c134_close`. As in exact arithmetic (C75), `|ψ|^mu` must not be the
same for all configurations. -/
theorem c134_spin_flip_partial (L : ℕ) (hL : 0 < L) (lw : List ℤ → ℝ)
    (hlw : ∃ s ∈ spinConfigs L, ∃ t ∈ spinConfigs L, lw s ≠ lw t) (C : ℕ) :
    ∃ (ρ : ℝ) (N : ℕ), 0 ≤ ρ ∧ ρ < 1 ∧ 0 < N ∧
      ∀ (r : Rounding) (e : ℝ → ℝ) (v a R : ℝ) (l : List ℤ → ℝ), ExpWithin v e → LogsWithin (spinConfigs L) lw a R l →
        ∀ μ : (Fin C → List ℤ) → ℝ, IsDist (Fintype.piFinset fun _ : Fin C => spinConfigs L) μ → ∀ n : ℕ,
        ∑ s ∈ Fintype.piFinset (fun _ : Fin C => spinConfigs L),
          |(Spec.evolve (spinFlipDraws L) (roundedStep r e proposeSpinFlip l) (spinConfigs L))^[n] μ s
            - Spec.productDist (spinConfigs L) (fun x => Real.exp (lw x)) s|
        ≤ ρ ^ (n / N) * ∑ s ∈ Fintype.piFinset (fun _ : Fin C => spinConfigs L),
            |μ s - Spec.productDist (spinConfigs L) (fun x => Real.exp (lw x)) s|
          + 2 * N * (C * (2 * acceptError a R r.u v)) / (1 - ρ) := by
  obtain ⟨h1, h2, h3, h4⟩ := spinFlip_moves L hL
  exact c134_close (spinFlipDraws L) proposeSpinFlip lw h1 _ h2 h3 h4 (Or.inl hlw) C

/-- **C134**, chains of spins with `propose_spin_flip_zeroMag`: see `c134_close`. -/
theorem c134_zeroMag (L : ℕ) (hL : 2 ≤ L) (hLe : Even L) (lw : List ℤ → ℝ) (C : ℕ) :
    ∃ (ρ : ℝ) (N : ℕ), 0 ≤ ρ ∧ ρ < 1 ∧ 0 < N ∧
      ∀ (r : Rounding) (e : ℝ → ℝ) (v a R : ℝ) (l : List ℤ → ℝ), ExpWithin v e →
        LogsWithin ((spinConfigs L).filter fun s => s.count 0 = s.count 1) lw a R l →
        ∀ μ : (Fin C → List ℤ) → ℝ,
        IsDist (Fintype.piFinset fun _ : Fin C => (spinConfigs L).filter fun s => s.count 0 = s.count 1) μ → ∀ n : ℕ,
        ∑ s ∈ Fintype.piFinset (fun _ : Fin C => (spinConfigs L).filter fun s => s.count 0 = s.count 1),
          |(Spec.evolve (zeroMagDraws L) (roundedStep r e (fun d => proposeSpinFlipZeroMag d.1 d.2.1 d.2.2) l)
              ((spinConfigs L).filter fun s => s.count 0 = s.count 1))^[n] μ s
            - Spec.productDist ((spinConfigs L).filter fun s => s.count 0 = s.count 1) (fun x => Real.exp (lw x)) s|
        ≤ ρ ^ (n / N) * ∑ s ∈ Fintype.piFinset (fun _ : Fin C => (spinConfigs L).filter fun s => s.count 0 = s.count 1),
            |μ s - Spec.productDist ((spinConfigs L).filter fun s => s.count 0 = s.count 1) (fun x => Real.exp (lw x)) s|
          + 2 * N * (C * (2 * acceptError a R r.u v)) / (1 - ρ) := by
  obtain ⟨h1, h2, h3, h4, h5⟩ := zeroMag_moves L hL hLe
  exact c134_close (zeroMagDraws L) (fun d => proposeSpinFlipZeroMag d.1 d.2.1 d.2.2) lw h1 _ h2 h3 h4 (Or.inr h5) C

example (lw : List ℤ → ℝ) := c134_zeroMag 4 (by norm_num) ⟨2, rfl⟩ lw 2

/-- Two chains of three spins in double precision, both started with all spins down; `log|ψ|^2` is a multiple of the
magnetisation that no floating point number equals. -/
example : ∃ (ρ : ℝ) (N : ℕ), 0 ≤ ρ ∧ ρ < 1 ∧ 0 < N ∧ ∀ n : ℕ,
    ∑ s ∈ Fintype.piFinset (fun _ : Fin 2 => spinConfigs 3),
      |(Spec.evolve (spinFlipDraws 3) (roundedStep Rounding.double Real.exp proposeSpinFlip
            (fun s => Rounding.double.rnd (2 * (s.sum / 10)))) (spinConfigs 3))^[n]
          (fun s => if s = fun _ => [0, 0, 0] then 1 else 0) s
        - Spec.productDist (spinConfigs 3) (fun x => Real.exp (2 * (x.sum / 10))) s|
    ≤ ρ ^ (n / N) * ∑ s ∈ Fintype.piFinset (fun _ : Fin 2 => spinConfigs 3),
        |(if s = fun _ => [0, 0, 0] then 1 else 0) - Spec.productDist (spinConfigs 3) (fun x => Real.exp (2 * (x.sum / 10))) s|
      + 2 * N * (2 * (2 * acceptError (|(2 : ℝ)| * (0 + Rounding.double.u * 1))
          (2 * ((1 + Rounding.double.u) * (|(2 : ℝ)| * 1))) Rounding.double.u 0)) / (1 - ρ) := by
  have h0 : ([0, 0, 0] : List ℤ) ∈ spinConfigs 3 := by decide
  have h1 : ([0, 1, 1] : List ℤ) ∈ spinConfigs 3 := by decide
  obtain ⟨ρ, N, hρ0, hρ1, hN, h⟩ := c134_spin_flip_partial 3 (by norm_num) (fun s => 2 * ((s.sum : ℝ) / 10))
    ⟨_, h0, _, h1, by norm_num⟩ 2
  refine ⟨ρ, N, hρ0, hρ1, hN, fun n => ?_⟩
  have hlogs := c134_logs (S := List ℤ) (P := Unit) (K := ℕ) Rounding.double
    { rng := { split := fun k _ i => k + i, uniform := fun _ _ => 1 / 2 }, proposer := fun k => proposeSpinFlip k
      netRe := fun _ s => s.sum / 10, mu := 2, thermSweeps := 1, sweepSteps := 1, numChains := 2 } () (spinConfigs 3)
    (fun s => s.sum / 10) 0 1 (fun s _ => by simp) (by
      have hall : ∀ s ∈ spinConfigs 3, 0 ≤ s.sum ∧ s.sum ≤ 3 := by decide
      intro s hs
      obtain ⟨ha, hb⟩ := hall s hs
      have ha' : (0 : ℝ) ≤ s.sum := by exact_mod_cast ha
      have hb' : (s.sum : ℝ) ≤ 3 := by exact_mod_cast hb
      dsimp only
      rw [abs_of_nonneg (by positivity)]
      linarith)
  refine h Rounding.double Real.exp 0 _ _ _ (expWithin_exp 0 le_rfl) hlogs _ ⟨fun s _ => ?_, ?_⟩ n
  · split_ifs <;> norm_num
  · rw [Finset.sum_ite_eq', if_pos (Fintype.mem_piFinset.mpr fun _ => h0)]

/-- **C134**, mean values: a bound on the distance of two distributions bounds the difference of the mean values of every
bounded function. -/
theorem c134_means {T : Type*} (Y : Finset T) (μ π f : T → ℝ) (g b : ℝ) (hf : ∀ s ∈ Y, |f s| ≤ g)
    (h : ∑ s ∈ Y, |μ s - π s| ≤ b) (hg : 0 ≤ g) : |∑ s ∈ Y, μ s * f s - ∑ s ∈ Y, π s * f s| ≤ b * g := by
  rw [← Finset.sum_sub_distrib]
  calc |∑ s ∈ Y, (μ s * f s - π s * f s)| ≤ ∑ s ∈ Y, |μ s - π s| * g := by
        refine (Finset.abs_sum_le_sum_abs _ _).trans (Finset.sum_le_sum fun s hs => ?_)
        rw [← sub_mul, abs_mul]
        exact mul_le_mul_of_nonneg_left (hf s hs) (abs_nonneg _)
    _ ≤ b * g := by
        rw [← Finset.sum_mul]
        exact mul_le_mul_of_nonneg_right h hg

example := c134_means (Finset.univ : Finset (Fin 2)) ![1 / 2, 1 / 2] ![1 / 4, 3 / 4] ![0, 4] 4 (1 / 2)
  (by intro s _; fin_cases s <;> norm_num) (by norm_num [Fin.sum_univ_two, abs_of_pos, abs_of_neg]) (by norm_num)

/-- **C134**, rare configurations: a proposal with a positive acceptance number, however small, is accepted with a probability
of at least `2^-52`, because the uniform number is zero that often. So the probabilities of configurations whose weight is
below `2^-52` of that of their neighbours have no relative accuracy. -/
theorem c134_rare_violated {Ω S : Type*} (r : Rounding) (e : ℝ → ℝ) (propose : Ω → S → S) (l : S → ℝ) (ω : Ω) (s : S)
    (hpos : 0 < e (r.rnd (l (propose ω s) - l s))) :
    ENNReal.ofReal ((2 : ℝ)⁻¹ ^ 52) ≤ volume {u : ℝ | 0 ≤ u ∧ u < 1 ∧ roundedStep r e propose l ω u s = propose ω s} := by
  have hsub : Set.Ico (0 : ℝ) ((2 : ℝ)⁻¹ ^ 52) ⊆ {u : ℝ | 0 ≤ u ∧ u < 1 ∧ roundedStep r e propose l ω u s = propose ω s} := by
    rintro u ⟨h1, h2⟩
    have h3 : (2 : ℝ)⁻¹ ^ 52 < 1 := pow_lt_one₀ (by norm_num) (by norm_num) (by norm_num)
    refine ⟨h1, h2.trans h3, ?_⟩
    unfold roundedStep
    rw [if_pos]
    have h4 : (2 : ℝ) ^ 52 * (2 : ℝ)⁻¹ ^ 52 = 1 := by rw [inv_pow]; exact mul_inv_cancel₀ (by positivity)
    have h5 : (2 : ℝ) ^ 52 * u < 1 := by
      rw [← h4]
      exact mul_lt_mul_of_pos_left h2 (by positivity)
    have h6 : 0 ≤ (2 : ℝ) ^ 52 * u := mul_nonneg (pow_nonneg (by norm_num) _) h1
    have hfl : ⌊(2 : ℝ) ^ 52 * u⌋ = 0 := Int.floor_eq_zero_iff.mpr ⟨h6, h5⟩
    unfold gridUniform
    rw [hfl]
    simpa using hpos
  calc ENNReal.ofReal ((2 : ℝ)⁻¹ ^ 52) = volume (Set.Ico (0 : ℝ) ((2 : ℝ)⁻¹ ^ 52)) := by rw [Real.volume_Ico, sub_zero]
    _ ≤ _ := measure_mono hsub

/-- A flip to a configuration of weight `e^-100 < 2^-52`. -/
example : ENNReal.ofReal ((2 : ℝ)⁻¹ ^ 52) ≤ volume {u : ℝ | 0 ≤ u ∧ u < 1 ∧
      roundedStep Rounding.double Real.exp (fun (_ : Unit) b => !b) (fun b => if b then -100 else 0) () u false = true} ∧
    Real.exp (-100) < (2 : ℝ)⁻¹ ^ 52 := by
  refine ⟨c134_rare_violated Rounding.double Real.exp (fun (_ : Unit) b => !b) _ () false (Real.exp_pos _), ?_⟩
  have h2 : (2 : ℝ) < Real.exp 1 := by linarith [Real.add_one_lt_exp (one_ne_zero (α := ℝ))]
  have h3 : (2 : ℝ) ^ 100 ≤ Real.exp 100 := by
    rw [show (100 : ℝ) = (100 : ℕ) * 1 by norm_num, Real.exp_nat_mul]
    exact pow_le_pow_left₀ (by norm_num) h2.le 100
  rw [Real.exp_neg, inv_pow]
  refine inv_strictAnti₀ (by positivity) (lt_of_lt_of_le ?_ h3)
  norm_num

end JVMC
