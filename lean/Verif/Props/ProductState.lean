import Verif.Lemmas.ProductNet
import Verif.Props.MasterTdvp
import Verif.Props.Measure

/-!
# C116: preparing product states
-/

namespace JVMC

open Spec Matrix ParamTree

/-- What `init_net` creates for a recurrent network for measurement outcomes: the output layer has a real kernel `W` and
a bias with three entries. -/
structure OutputLayer {H : ℕ} (params : ParamTree Dbl) (W : Fin H → Fin 3 → ℝ) : Prop where
  keys : UniqueKeys params
  kernel : params.at ["net", "outputDense", "kernel"] = some (kernelArray W)
  bias : ∃ b, params.at ["net", "outputDense", "bias"] = some b ∧ b.length = 3

/-- The preparation changes the output layer only. -/
theorem prepared {H : ℕ} {params : ParamTree Dbl} {W : Fin H → Fin 3 → ℝ} (h : OutputLayer params W) (p : Fin 4 → ℝ) :
    ∃ params', prepareParams ["net", "outputDense"] (productBiases p) params = .ok params' ∧
      cellParams params' = cellParams params ∧
      (∀ q, q ≠ ["net", "outputDense", "bias"] → q ≠ ["net", "outputDense", "kernel"] → params'.at q = params.at q) ∧
      denseOf (H := H) 3 params'
        = denseD 3 ((kernelArray W).map fun x => (Dbl.fin 1e-15).mul x) (productBiases p) := by
  obtain ⟨b, hb, hl⟩ := h.bias
  obtain ⟨params', h1, _, h3, h4, h5⟩ := prepareParams_ok ["net", "outputDense"] (productBiases p) params h.keys b
    (kernelArray W) hb h.kernel (by simp [productBiases, hl])
  refine ⟨params', h1, ?_, h5, ?_⟩
  · funext q
    cases q with
    | nil => rfl
    | cons k ks =>
      by_cases hk : k = "outputDense"
      · simp [cellParams, hk]
      · change (if k = "outputDense" then none else params'.at ("net" :: k :: ks))
          = if k = "outputDense" then none else params.at ("net" :: k :: ks)
        rw [if_neg hk, if_neg hk, h5 _ (by simp [hk]) (by simp [hk])]
  · have h3' : params'.at ["net", "outputDense", "bias"] = some (productBiases p) := h3
    have h4' : params'.at ["net", "outputDense", "kernel"] = some _ := h4
    unfold denseOf
    rw [h3', h4']
    rfl

theorem log_product {V : Type} [Fintype V] [DecidableEq V] (θ φ : ℝ) (v : Fin 3 → ℝ)
    (hp : ∀ a, 0 < (1 + ∑ k, povmVectors θ φ a k * v k) / 4) (s : V → Fin 4) :
    Real.log (outcomeProb (productPovm fun a => blochElement (povmVectors θ φ a)) (productState V v) s).re
      = ∑ i, Real.log ((1 + ∑ k, povmVectors θ φ (s i) k * v k) / 4) := by
  rw [outcomeProb_product]
  simp only [prob_bloch]
  rw [← Complex.ofReal_prod, Complex.ofReal_re, Real.log_prod fun i _ => (hp (s i)).ne']

theorem prob_positive (θ φ : ℝ) (state : String) (v : Fin 3 → ℝ) (h : (state, v) ∈ blochOf)
    (M : Fin 4 → Matrix (Fin 2) (Fin 2) ℂ) (hM : getM θ φ "SIC" = .ok M) (hne : ∀ a, outcomeProb M (oneSpin v) a ≠ 0)
    (a : Fin 4) : 0 < (1 + ∑ k, povmVectors θ φ a k * v k) / 4 := by
  obtain ⟨M', p, hM', hd, h0, _⟩ := c66_named_states θ φ state v h
  rw [getM_sic] at hM hM'
  cases hM
  cases hM'
  rw [particleDistribution θ φ state v h] at hd
  cases hd
  refine lt_of_le_of_ne (h0 a) fun h => hne a ?_
  rw [prob_bloch, ← h, Complex.ofReal_zero]

theorem near_div {x κ y η : ℝ} (hκ : 0 < κ) (h : |x - κ * y| ≤ κ * η) : |x / κ - y| ≤ η := by
  have : x / κ - y = (x - κ * y) / κ := by field_simp
  rw [this, abs_div, abs_of_pos hκ, div_le_iff₀ hκ, mul_comm η]
  exact h

/-- C116 for chains: for every named state all of whose outcomes have non-zero probability, the procedure changes only the
output layer, and the logarithmic probabilities of the network (symmetrised with translations and reflections or not) agree
with those of the product state up to `2e-15 B` per site, where `B` bounds what the kernel makes of the outputs of the
cells. Missing: outcomes with probability zero (see `c116_other_outcome_chain` and `c116_first_outcome_violated`). -/
theorem c116_chain_partial {C : Type} {H L : ℕ} (hL : 0 < L) (θ φ : ℝ) (M : Fin 4 → Matrix (Fin 2) (Fin 2) ℂ)
    (hM : getM θ φ "SIC" = .ok M) (state : String) (v : Fin 3 → ℝ) (hv : (state, v) ∈ blochOf)
    (hne : ∀ a, outcomeProb M (oneSpin v) a ≠ 0) (κ : ℝ) (hκ : 0 < κ) (translation reflection : Bool) (tf rf sf : ℂ)
    (cells : (List String → Option (List Dbl)) → C → (ℕ → ℝ) → C × (Fin H → ℝ)) (zeroCarry : C)
    (params : ParamTree Dbl) (W : Fin H → Fin 3 → ℝ) (hW : OutputLayer params W) (B : ℝ)
    (hB : ∀ s : Fin L → Fin 4, ∀ o ∈ cellOutputs (cells (cellParams params)) (zeroCarry, fun _ => 0)
      (List.ofFn fun i => oneHot 4 (s i : ℤ)), ∀ j, |∑ i, o i * W i j| ≤ B) :
    ∃ p params', get1ParticleDistributions state M = .ok p ∧
      prepareParams ["net", "outputDense"] (productBiases p) params = .ok params' ∧
      (∀ q, q ≠ ["net", "outputDense", "bias"] → q ≠ ["net", "outputDense", "kernel"] → params'.at q = params.at q) ∧
      ∀ s : Fin L → Fin 4,
        let psi := povmRnn1D κ cells zeroCarry (getOrbit1D L translation reflection false tf rf sf) params' s
        psi.im = 0 ∧
          |psi.re / κ - Real.log (outcomeProb (productPovm M) (productState (Fin L) v) s).re| ≤ L * (2e-15 * B) := by
  have : NeZero L := ⟨hL.ne'⟩
  have hp := prob_positive θ φ state v hv M hM hne
  rw [getM_sic] at hM
  cases hM
  obtain ⟨params', h1, h2, h3, h4⟩ := prepared hW fun a => (1 + ∑ k, povmVectors θ φ a k * v k) / 4
  refine ⟨_, params', particleDistribution θ φ state v hv, h1, h3, fun s => ?_⟩
  have hg := group1D L translation reflection false tf rf sf
  have key := symmetrised_near hg (ones_1d L hL translation reflection)
    (fun x => rnn1dD 4 κ (denseOf 3 params') (cells (cellParams params')) zeroCarry (listConfig x))
    (fun a => κ * Real.log ((1 + ∑ k, povmVectors θ φ a k * v k) / 4)) (κ * (L * (2e-15 * B))) (fun t => by
      rw [chain_sum, h4, h2]
      have hs : (((List.ofFn fun i => (t i : ℤ)).map fun x =>
          κ * Real.log ((1 + ∑ k, povmVectors θ φ (Fin.ofNat 4 x.toNat) k * v k) / 4)).sum)
          = ∑ i, κ * Real.log ((1 + ∑ k, povmVectors θ φ (t i) k * v k) / 4) := by
        rw [List.map_ofFn, List.sum_ofFn]
        exact Finset.sum_congr rfl fun i _ => by rw [Function.comp_apply, ofNat_val]
      rw [← hs]
      refine (sum_near _ _ (κ * (2 * (1e-15 * B))) _ _ (by rw [cellOutputs_length]; simp) ?_).trans (le_of_eq ?_)
      · intro o ho x hx
        obtain ⟨i, rfl⟩ := (List.mem_ofFn' _ _).mp hx
        refine site_prepared κ hκ.le W _ hp (particleDistribution_total θ φ v) o B (hB t o ?_) _
          ⟨Int.natCast_nonneg _, Int.ofNat_lt.mpr (t i).isLt⟩
        rw [List.map_ofFn] at ho
        exact ho
      · rw [List.length_ofFn]
        ring) (getOrbit1D L translation reflection false tf rf sf).factor s
  refine ⟨key.1, near_div hκ ?_⟩
  rw [log_product θ φ v hp, Finset.mul_sum]
  exact key.2

/-- C116 for square lattices. -/
theorem c116_lattice_partial {C : Type} {H L : ℕ} (hL : 0 < L) (θ φ : ℝ) (M : Fin 4 → Matrix (Fin 2) (Fin 2) ℂ)
    (hM : getM θ φ "SIC" = .ok M) (state : String) (v : Fin 3 → ℝ) (hv : (state, v) ∈ blochOf)
    (hne : ∀ a, outcomeProb M (oneSpin v) a ≠ 0) (κ : ℝ) (hκ : 0 < κ) (translation reflection rotation : Bool)
    (tf rf qf sf : ℂ)
    (cells : (List String → Option (List Dbl)) → C → C → (ℕ → ℝ) → (ℕ → ℝ) → C × (Fin H → ℝ)) (zeroCarry : ℕ → C)
    (params : ParamTree Dbl) (W : Fin H → Fin 3 → ℝ) (hW : OutputLayer params W) (B : ℝ)
    (hB : ∀ s : Fin (L * L) → Fin 4, ∀ o ∈ latticeOutputs (cells (cellParams params)) zeroCarry L
      (rowsConfig fun i => (s i : ℤ)), ∀ j, |∑ i, o i * W i j| ≤ B) :
    ∃ p params', get1ParticleDistributions state M = .ok p ∧
      prepareParams ["net", "outputDense"] (productBiases p) params = .ok params' ∧
      (∀ q, q ≠ ["net", "outputDense", "bias"] → q ≠ ["net", "outputDense", "kernel"] → params'.at q = params.at q) ∧
      ∀ s : Fin (L * L) → Fin 4,
        let psi := povmRnn2D κ cells zeroCarry (getOrbit2D L translation reflection rotation false tf rf qf sf) params' s
        psi.im = 0 ∧
          |psi.re / κ - Real.log (outcomeProb (productPovm M) (productState (Fin (L * L)) v) s).re|
            ≤ (L * L : ℕ) * (2e-15 * B) := by
  have : NeZero L := ⟨hL.ne'⟩
  have hp := prob_positive θ φ state v hv M hM hne
  rw [getM_sic] at hM
  cases hM
  obtain ⟨params', h1, h2, h3, h4⟩ := prepared hW fun a => (1 + ∑ k, povmVectors θ φ a k * v k) / 4
  refine ⟨_, params', particleDistribution θ φ state v hv, h1, h3, fun s => ?_⟩
  have hg := group2D L translation reflection rotation false tf rf qf sf
  have key := symmetrised_near hg (ones_2d L hL translation reflection rotation)
    (fun x => rnn2dD 4 κ (denseOf 3 params') (cells (cellParams params')) zeroCarry L (rowsConfig x))
    (fun a => κ * Real.log ((1 + ∑ k, povmVectors θ φ a k * v k) / 4)) (κ * ((L * L : ℕ) * (2e-15 * B))) (fun t => by
      rw [lattice_sum, h4, h2]
      have hs : (((List.ofFn fun i => (t i : ℤ)).map fun x =>
          κ * Real.log ((1 + ∑ k, povmVectors θ φ (Fin.ofNat 4 x.toNat) k * v k) / 4)).sum)
          = ∑ i, κ * Real.log ((1 + ∑ k, povmVectors θ φ (t i) k * v k) / 4) := by
        rw [List.map_ofFn, List.sum_ofFn]
        exact Finset.sum_congr rfl fun i _ => by rw [Function.comp_apply, ofNat_val]
      rw [← hs]
      refine (sum_near _ _ (κ * (2 * (1e-15 * B))) _ _ (by rw [latticeOutputs_length]; simp) ?_).trans (le_of_eq ?_)
      · intro o ho x hx
        obtain ⟨i, rfl⟩ := (List.mem_ofFn' _ _).mp hx
        exact site_prepared κ hκ.le W _ hp (particleDistribution_total θ φ v) o B (hB t o ho) _
          ⟨Int.natCast_nonneg _, Int.ofNat_lt.mpr (t i).isLt⟩
      · rw [List.length_ofFn]
        ring) (getOrbit2D L translation reflection rotation false tf rf qf sf).factor s
  refine ⟨key.1, near_div hκ ?_⟩
  rw [log_product θ φ v hp, Finset.mul_sum]
  exact key.2

/-! ## Which states -/

/-- C116: with the default angles every outcome has non-zero probability in all named states but `z_down`. -/
theorem c116_default_angles (M : Fin 4 → Matrix (Fin 2) (Fin 2) ℂ) (hM : getM 0 0 "SIC" = .ok M) (state : String)
    (v : Fin 3 → ℝ) (hv : (state, v) ∈ blochOf) :
    (∀ a, outcomeProb M (oneSpin v) a ≠ 0) ↔ state ≠ "z_down" := by
  rw [getM_sic] at hM
  cases hM
  have h2 : Real.sqrt 2 * Real.sqrt 2 = 2 := Real.mul_self_sqrt (by norm_num)
  have h23 : Real.sqrt (2 / 3) * Real.sqrt (2 / 3) = 2 / 3 := Real.mul_self_sqrt (by norm_num)
  have p2 := Real.sqrt_nonneg 2
  have p23 := Real.sqrt_nonneg (2 / 3)
  have b2 : Real.sqrt 2 < 3 / 2 := by nlinarith
  have b23 : Real.sqrt (2 / 3) < 1 := by nlinarith
  have q23 : Real.sqrt 2 / Real.sqrt 3 = Real.sqrt (2 / 3) := (Real.sqrt_div (by norm_num) 3).symm
  simp only [prob_bloch, povmVectors_zero, ne_eq, Complex.ofReal_eq_zero, Fin.sum_univ_three]
  simp only [blochOf, List.mem_cons, Prod.mk.injEq, List.not_mem_nil, or_false] at hv
  rcases hv with ⟨rfl, rfl⟩ | ⟨rfl, rfl⟩ | ⟨rfl, rfl⟩ | ⟨rfl, rfl⟩ | ⟨rfl, rfl⟩ | ⟨rfl, rfl⟩
  case inr.inr.inr.inr.inr =>
    simp only [not_true_eq_false, iff_false, not_forall, not_not]
    exact ⟨0, by simp [sicVectors]⟩
  all_goals
    simp only [String.reduceEq, not_false_eq_true, iff_true]
    intro a
    fin_cases a <;> simp [sicVectors] <;> intro h <;> nlinarith

/-! ## Measurements in the prepared state -/

theorem trace_oneSpin (v : Fin 3 → ℝ) : (oneSpin v).trace = 1 := by
  simp [oneSpin, Matrix.trace, Fin.sum_univ_two]; ring

theorem trace_oneSpin_pauli (v : Fin 3 → ℝ) (k : Fin 3) : (oneSpin v * getPaulis k).trace = ((v k : ℝ) : ℂ) := by
  fin_cases k
  · simp [oneSpin, getPaulis, Matrix.trace, Fin.sum_univ_two]; ring
  · simp [oneSpin, getPaulis, Matrix.trace, Fin.sum_univ_two]
    linear_combination (-(v 1 : ℂ)) * Complex.I_mul_I
  · simp [oneSpin, getPaulis, Matrix.trace, Fin.sum_univ_two]; ring

theorem pauli_hermitian (k : Fin 3) : (getPaulis k).IsHermitian := by
  ext i j
  fin_cases k <;> fin_cases i <;> fin_cases j <;> simp [getPaulis]

theorem product_one {V : Type} [Fintype V] [DecidableEq V] (v : Fin 3 → ℝ) (k : Fin 3) (i : V) :
    (productState V v * oneSite (getPaulis k) i).trace = ((v k : ℝ) : ℂ) := by
  unfold productState oneSite
  rw [siteMat_mul, siteMat_trace, Finset.prod_eq_single i]
  · rw [if_pos rfl, trace_oneSpin_pauli]
  · intro j _ hj
    rw [if_neg hj, Matrix.mul_one, trace_oneSpin]
  · simp

theorem product_two {V : Type} [Fintype V] [DecidableEq V] (v : Fin 3 → ℝ) (k : Fin 3) (i j : V) (hij : i ≠ j) :
    (productState V v * (oneSite (getPaulis k) i * oneSite (getPaulis k) j)).trace = ((v k ^ 2 : ℝ) : ℂ) := by
  unfold productState oneSite
  rw [siteMat_mul, siteMat_mul, siteMat_trace, Finset.prod_eq_mul i j hij]
  · rw [if_pos rfl, if_pos rfl, if_neg hij, if_neg hij.symm, Matrix.mul_one, Matrix.one_mul, trace_oneSpin_pauli]
    push_cast
    ring
  · intro l _ hl
    rw [if_neg hl.1, if_neg hl.2, Matrix.mul_one, Matrix.mul_one, trace_oneSpin]
  · simp
  · simp

theorem observable_bound (θ φ : ℝ) (k : Fin 3) (a : Fin 4) :
    |matrixToPovmObs (getPaulis k) (fun a => blochElement (povmVectors θ φ a))
      (povmTInv fun a => blochElement (povmVectors θ φ a)) a| ≤ 3 := by
  obtain ⟨M, hM, _, _, _, hT⟩ := sic_hypotheses θ φ
  rw [getM_sic] at hM
  cases hM
  rw [sic_observable θ φ k _ hT]
  have h := povm_gram θ φ a a
  rw [if_pos rfl] at h
  have h2 : povmVectors θ φ a k * povmVectors θ φ a k ≤ 1 := by
    rw [← h]
    exact Finset.single_le_sum (f := fun k => povmVectors θ φ a k * povmVectors θ φ a k)
      (fun j _ => mul_self_nonneg _) (Finset.mem_univ k)
  rw [abs_le]
  constructor <;> nlinarith

/-- The observable and its correlators, sample by sample, with the weights of the samples. -/
noncomputable def observedWorld {S : Type} (O : S → ℝ) (w : World (S × ℂ × ℝ)) : World (ℝ × (Fin 1 → ℂ)) :=
  World.map (fun x => (x.2.2, fun _ => ((O x.1 : ℝ) : ℂ))) w

theorem observed_mean {S : Type} [Fintype S] [DecidableEq S] (p O : S → ℝ) (w : World (S × ℂ × ℝ))
    (h : ExactWeights p (weighted w)) : (wMean (allSamples (observedWorld O w)) 0).re = outcomeMean p O := by
  unfold observedWorld
  rw [allSamples_wmap]
  unfold wMean outcomeMean
  have : ∀ l : List (S × ℂ × ℝ),
      (((l.map fun x => ((x.2.2, fun _ => ((O x.1 : ℝ) : ℂ)) : ℝ × (Fin 1 → ℂ))).map fun s => s.1 • s.2).sum 0).re
        = ((l.map fun x => (x.2.2, x.1)).map fun x => x.1 * O x.2).sum := by
    intro l
    induction l with
    | nil => rfl
    | cons x l ih =>
      simp only [List.map_cons, List.sum_cons, Pi.add_apply, Complex.add_re, ih]
      congr 1
      simp
  rw [this]
  have h2 := sum_weighted_real (weighted w) O
  unfold weighted at h2
  rw [h2]
  exact Finset.sum_congr rfl fun s _ => by rw [← h.exact s]; rfl

theorem observed_devices {S : Type} (O : S → ℝ) (w : World (S × ℂ × ℝ)) (h : ∀ r ∈ w, r.length = 1) :
    ∀ r ∈ observedWorld O w, r.length = 1 := by
  intro r hr
  obtain ⟨d, hd, rfl⟩ := List.mem_map.mp hr
  rw [List.length_map]
  exact h d hd

/-- C116: measurements of the prepared network with exact weights. If the logarithmic probabilities agree with those of
the product state up to `η` (see `c116_chain_partial`), `measure_povm` reports every component of the Bloch vector up to
`3 (e^(2η) - 1)` and vanishing connected correlations at every non-zero distance up to `21 (e^(2η) - 1)`. Missing: several
devices per rank; distance zero (see `c69_zero_distance_violated`). -/
theorem c116_measured_partial {L : ℕ} [NeZero L] (θ φ : ℝ) (M : Fin 4 → Matrix (Fin 2) (Fin 2) ℂ)
    (hM : getM θ φ "SIC" = .ok M) (state : String) (v : Fin 3 → ℝ) (hv : (state, v) ∈ blochOf)
    (hne : ∀ a, outcomeProb M (oneSpin v) a ≠ 0) (logP : (Fin L → Fin 4) → ℝ) (η : ℝ)
    (hη : ∀ s, |logP s - Real.log (outcomeProb (productPovm M) (productState (Fin L) v) s).re| ≤ η)
    (w : World ((Fin L → Fin 4) × ℂ × ℝ)) (hdev : ∀ r ∈ w, r.length = 1)
    (hw : ExactWeights (distribution logP) (weighted w)) (n : Option ℕ) (k : Fin 3) :
    let o := matrixToPovmObs (getPaulis k) M (povmTInv M)
    ∃ res cs, measurePovm n (observedWorld (fun s => (evaluateObservable1D o s).1) w)
        (List.ofFn fun d : Fin L => observedWorld (fun s => (evaluateObservable1D o s).2 d) w) = .ok (res, cs) ∧
      res.length = List.length w ∧ (∀ r ∈ res, |r.mean - v k| ≤ 3 * (Real.exp (2 * η) - 1)) ∧
      cs.length = L ∧ ∀ d : Fin L, d ≠ 0 → ∀ c, cs[d.val]? = some c →
        ∀ r ∈ c, |r.mean| ≤ 21 * (Real.exp (2 * η) - 1) := by
  intro o
  have hp := prob_positive θ φ state v hv M hM hne
  obtain ⟨M', hM', hP, hH, hc, hT⟩ := sic_hypotheses θ φ
  obtain rfl := Except.ok.inj (hM'.symm.trans hM)
  have hMe : M' = fun a => blochElement (povmVectors θ φ a) := by
    rw [getM_sic] at hM; exact (Except.ok.inj hM).symm
  have ho : ∀ a, |o a| ≤ 3 := by
    intro a
    have := observable_bound θ φ k a
    rw [← hMe] at this
    exact this
  have hLpos : (0 : ℝ) < L := by exact_mod_cast Nat.pos_of_ne_zero (NeZero.ne L)
  have hLc : (L : ℂ) ≠ 0 := by exact_mod_cast NeZero.ne L
  -- the probabilities of the product state
  set Q : (Fin L → Fin 4) → ℝ := fun s => ∏ i, (1 + ∑ k, povmVectors θ φ (s i) k * v k) / 4 with hQ
  have hQc : ∀ s, outcomeProb (productPovm M') (productState (Fin L) v) s = ((Q s : ℝ) : ℂ) := by
    intro s
    rw [hMe, outcomeProb_product]
    simp only [prob_bloch, hQ]
    rw [Complex.ofReal_prod]
  have hQpos : ∀ s, 0 < Q s := fun s => Finset.prod_pos fun i _ => hp (s i)
  have hQ1 : ∑ s, Q s = 1 := by
    rw [hQ]
    have := (Finset.prod_univ_sum (fun _ : Fin L => (Finset.univ : Finset (Fin 4)))
      fun _ a => (1 + ∑ k, povmVectors θ φ a k * v k) / 4).symm
    rw [Fintype.piFinset_univ] at this
    rw [this]
    simp only [particleDistribution_total, Finset.prod_const_one]
  have hf : ∀ s, |logP s - Real.log (Q s)| ≤ η := by
    intro s
    have := hη s
    rw [hQc, Complex.ofReal_re] at this
    exact this
  have hη0 : 0 ≤ η := (abs_nonneg _).trans (hf fun _ => 0)
  have hE : 0 ≤ Real.exp (2 * η) - 1 := by linarith [Real.one_le_exp (by positivity : 0 ≤ 2 * η)]
  -- averages in the product state
  have m1 : ∑ s, Q s * (evaluateObservable1D o s).1 = v k := by
    have := c69_mean M' hP hc _ hT (getPaulis k) (pauli_hermitian k) (productState (Fin L) v)
    simp only [product_one, hQc, Finset.sum_const, Finset.card_univ, Fintype.card_fin, nsmul_eq_mul] at this
    rw [mul_div_cancel_left₀ _ hLc] at this
    have h' : ((∑ s, Q s * (evaluateObservable1D o s).1 : ℝ) : ℂ) = ((v k : ℝ) : ℂ) := by
      rw [← this]
      push_cast
      exact Finset.sum_congr rfl fun s _ => mul_comm _ _
    exact_mod_cast h'
  have m2 : ∀ d : Fin L, d ≠ 0 → ∑ s, Q s * (evaluateObservable1D o s).2 d = v k ^ 2 := by
    intro d hd
    have := c69_correlator_partial M' hP hc _ hT (getPaulis k) (pauli_hermitian k) (productState (Fin L) v) d hd
    have e : ∀ i : Fin L, (productState (Fin L) v * (oneSite (getPaulis k) i * oneSite (getPaulis k) (i - d))).trace
        = ((v k ^ 2 : ℝ) : ℂ) := fun i => product_two v k i (i - d) fun h => hd (sub_eq_self.mp h.symm)
    simp only [e, hQc, Finset.sum_const, Finset.card_univ, Fintype.card_fin, nsmul_eq_mul] at this
    rw [mul_div_cancel_left₀ _ hLc] at this
    have h' : ((∑ s, Q s * (evaluateObservable1D o s).2 d : ℝ) : ℂ) = ((v k ^ 2 : ℝ) : ℂ) := by
      rw [← this]
      push_cast
      exact Finset.sum_congr rfl fun s _ => mul_comm _ _
    exact_mod_cast h'
  -- bounds
  have b1 : ∀ s : Fin L → Fin 4, |(evaluateObservable1D o s).1| ≤ 3 := by
    intro s
    change |(∑ i, o (s i)) / (L : ℝ)| ≤ 3
    rw [abs_div, abs_of_pos hLpos, div_le_iff₀ hLpos]
    refine (Finset.abs_sum_le_sum_abs _ _).trans ((Finset.sum_le_sum fun i _ => ho (s i)).trans (le_of_eq ?_))
    simp [mul_comm]
  have b2 : ∀ (d : Fin L) (s : Fin L → Fin 4), |(evaluateObservable1D o s).2 d| ≤ 9 := by
    intro d s
    change |(∑ i : Fin L, o (s i) * o (s (i - d))) / (L : ℝ)| ≤ 9
    rw [abs_div, abs_of_pos hLpos, div_le_iff₀ hLpos]
    refine (Finset.abs_sum_le_sum_abs _ _).trans ((Finset.sum_le_sum (g := fun _ => (9 : ℝ)) fun i _ => ?_).trans
      (le_of_eq ?_))
    · rw [abs_mul]
      have := mul_le_mul (ho (s i)) (ho (s (i - d))) (abs_nonneg _) (by norm_num)
      linarith
    · simp [mul_comm]
  have n1 := mean_near logP Q _ hQpos hQ1 η hf 3 b1
  rw [m1] at n1
  set m := outcomeMean (distribution logP) fun s => (evaluateObservable1D o s).1 with hm
  have hmb : |m| ≤ 3 := by
    have hne : Nonempty (Fin L → Fin 4) := ⟨fun _ => 0⟩
    rw [hm, outcomeMean]
    refine (Finset.abs_sum_le_sum_abs _ _).trans ?_
    calc ∑ s, |distribution logP s * (evaluateObservable1D o s).1| ≤ ∑ s, distribution logP s * 3 := by
          refine Finset.sum_le_sum fun s _ => ?_
          rw [abs_mul, abs_of_pos (distribution_pos _ _)]
          exact mul_le_mul_of_nonneg_left (b1 s) (distribution_pos _ _).le
      _ = 3 := by rw [← Finset.sum_mul, distribution_total, one_mul]
  have hvb : |v k| ≤ 1 := by
    simp only [blochOf, List.mem_cons, Prod.mk.injEq, List.not_mem_nil, or_false] at hv
    rcases hv with ⟨_, rfl⟩ | ⟨_, rfl⟩ | ⟨_, rfl⟩ | ⟨_, rfl⟩ | ⟨_, rfl⟩ | ⟨_, rfl⟩ <;> fin_cases k <;> simp
  obtain ⟨res, cs, hr, hlen, hres, hcs⟩ := c62_povm_moments_partial n
    (observedWorld (fun s => (evaluateObservable1D o s).1) w)
    (List.ofFn fun d : Fin L => observedWorld (fun s => (evaluateObservable1D o s).2 d) w)
    (observed_devices _ w hdev) (by
      intro w' hw'
      obtain ⟨d, rfl⟩ := (List.mem_ofFn' _ _).mp hw'
      exact ⟨by simp [observedWorld, World.map], observed_devices _ w hdev⟩)
  refine ⟨res, cs, hr, by rw [hlen]; simp [observedWorld, World.map], ?_, ?_, ?_⟩
  · intro r hr'
    rw [(hres r hr').1, observed_mean _ _ w hw]
    exact n1
  · rw [← hcs.length_eq, List.length_ofFn]
  · intro d hd c hc' r hr'
    obtain ⟨hlt, rfl⟩ := List.getElem?_eq_some_iff.mp hc'
    have := (List.forall₂_iff_get.mp hcs).2 d.val (by simp) hlt
    rw [List.get_ofFn] at this
    have := (this.2 r (by simpa using hr')).1
    rw [this, observed_mean _ _ w hw, observed_mean _ _ w hw]
    have n2 := mean_near logP Q _ hQpos hQ1 η hf 9 (b2 d)
    rw [m2 d hd] at n2
    have e : ∀ c : ℝ, c - m ^ 2 = (c - v k ^ 2) - (m - v k) * (m + v k) := fun c => by ring
    change |outcomeMean (distribution logP) (fun s => (evaluateObservable1D o s).2 d) - m ^ 2| ≤ _
    rw [e]
    refine (abs_sub _ _).trans ?_
    rw [abs_mul]
    have h4 : |m + v k| ≤ 4 := (abs_add_le _ _).trans (by linarith)
    have := mul_le_mul n1 h4 (abs_nonneg _) (by positivity)
    linarith

/-- C116 for a whole run on a chain, on any number of ranks with one device each: prepare the network, sample with the
exact sampler for `logProbFactor=1`, measure. The reported component of the Bloch vector and the connected correlations at
non-zero distance are right up to `3 (e^(2η) - 1)` and `21 (e^(2η) - 1)`, where `η = 2e-15 L B`. -/
theorem c116_run_partial {C : Type} {H L : ℕ} [NeZero L] (θ φ : ℝ) (M : Fin 4 → Matrix (Fin 2) (Fin 2) ℂ)
    (hM : getM θ φ "SIC" = .ok M) (state : String) (v : Fin 3 → ℝ) (hv : (state, v) ∈ blochOf)
    (hne : ∀ a, outcomeProb M (oneSpin v) a ≠ 0) (translation reflection : Bool) (tf rf sf : ℂ)
    (cells : (List String → Option (List Dbl)) → C → (ℕ → ℝ) → C × (Fin H → ℝ)) (zeroCarry : C)
    (params : ParamTree Dbl) (W : Fin H → Fin 3 → ℝ) (hW : OutputLayer params W) (B : ℝ)
    (hB : ∀ s : Fin L → Fin 4, ∀ o ∈ cellOutputs (cells (cellParams params)) (zeroCarry, fun _ => 0)
      (List.ofFn fun i => oneHot 4 (s i : ℤ)), ∀ j, |∑ i, o i * W i j| ≤ B)
    (ranks : ℕ) (hr : 0 < ranks) (hbig : ranks ≤ 4 ^ L) (lastNorm : ℝ) (n : Option ℕ) (k : Fin 3) :
    let o := matrixToPovmObs (getPaulis k) M (povmTInv M)
    let E := Real.exp (2 * (L * (2e-15 * B))) - 1
    ∃ p params' ln w res cs, get1ParticleDistributions state M = .ok p ∧
      prepareParams ["net", "outputDense"] (productBiases p) params = .ok params' ∧
      exactSampleWorld 4 L 1 ranks (toConfig L 4) 1 lastNorm
        (povmRnn1D 1 cells zeroCarry (getOrbit1D L translation reflection false tf rf sf) params') = .ok (ln, w) ∧
      measurePovm n (observedWorld (fun s => (evaluateObservable1D o s).1) w)
        (List.ofFn fun d : Fin L => observedWorld (fun s => (evaluateObservable1D o s).2 d) w) = .ok (res, cs) ∧
      res.length = ranks ∧ (∀ r ∈ res, |r.mean - v k| ≤ 3 * E) ∧
      cs.length = L ∧ ∀ d : Fin L, d ≠ 0 → ∀ c, cs[d.val]? = some c → ∀ r ∈ c, |r.mean| ≤ 21 * E := by
  intro o E
  obtain ⟨p, params', h1, h2, _, h4⟩ := c116_chain_partial (Nat.pos_of_ne_zero (NeZero.ne L)) θ φ M hM state v hv hne 1
    one_pos translation reflection tf rf sf cells zeroCarry params W hW B hB
  set psi := povmRnn1D 1 cells zeroCarry (getOrbit1D L translation reflection false tf rf sf) params' with hpsi
  have hre : psi = fun c => (((psi c).re : ℝ) : ℂ) := funext fun c => Complex.ext rfl (h4 c).1
  obtain ⟨ln, w, hw, hlen, _, hex⟩ := c101_exact_sampler 4 L 1 ranks (by norm_num) one_pos hr hbig
    (fun _ _ n _ _ => one_dvd n) lastNorm fun c => (psi c).re
  have hdev : ∀ r ∈ w, r.length = 1 := by
    obtain ⟨W', basis, ln', _, _, hd, _, _, hw'⟩ := exactSampleWorld_eq 4 L 1 ranks (by norm_num) one_pos hr (toConfig L 4) 1
      lastNorm (by norm_num) fun c => (((psi c).re : ℝ) : ℂ)
    rw [hw] at hw'
    have e := (Prod.mk.inj (Except.ok.inj hw')).2
    intro r hr'
    rw [e] at hr'
    obtain ⟨d, hd', rfl⟩ := List.mem_map.mp hr'
    rw [List.length_map]
    exact hd d hd'
  obtain ⟨res, cs, m1, m2, m3, m4, m5⟩ := c116_measured_partial θ φ M hM state v hv hne (fun c => (psi c).re)
    (L * (2e-15 * B)) (fun s => by have := (h4 s).2; rw [div_one] at this; exact this) w hdev hex n k
  refine ⟨p, params', ln, w, res, cs, h1, h2, ?_, m1, m2.trans hlen, m3, m4, m5⟩
  rw [← hpsi]
  exact (congrArg _ hre).trans hw

/-! ## Outcomes with probability zero -/

/-- The state is opposite to outcome `c`: the other outcomes are equally likely. -/
theorem opposite_outcome (θ φ : ℝ) (state : String) (v : Fin 3 → ℝ) (hv : (state, v) ∈ blochOf) (c : Fin 4)
    (h0 : (1 + ∑ k, povmVectors θ φ c k * v k) / 4 = 0) (b : Fin 4) :
    (1 + ∑ k, povmVectors θ φ b k * v k) / 4 = if b = c then 0 else 1 / 3 := by
  have hunit : ∑ k, v k * v k = 1 := by
    simp only [blochOf, List.mem_cons, Prod.mk.injEq, List.not_mem_nil, or_false] at hv
    rcases hv with ⟨_, rfl⟩ | ⟨_, rfl⟩ | ⟨_, rfl⟩ | ⟨_, rfl⟩ | ⟨_, rfl⟩ | ⟨_, rfl⟩ <;> simp [Fin.sum_univ_three]
  have hopp : ∀ k, v k = -povmVectors θ φ c k := by
    have hg := povm_gram θ φ c c
    rw [if_pos rfl] at hg
    have hz : ∑ k, (v k + povmVectors θ φ c k) ^ 2 = 0 := by
      have : ∑ k, (v k + povmVectors θ φ c k) ^ 2 = ∑ k, v k * v k + 2 * ∑ k, povmVectors θ φ c k * v k
          + ∑ k, povmVectors θ φ c k * povmVectors θ φ c k := by
        simp only [Fin.sum_univ_three]; ring
      rw [this, hunit, hg]
      linarith
    intro k
    have := (Finset.sum_eq_zero_iff_of_nonneg fun k _ => sq_nonneg _).mp hz k (Finset.mem_univ k)
    have := pow_eq_zero_iff (two_ne_zero) |>.mp this
    linarith
  split
  · rename_i h
    rw [h]
    exact h0
  · rename_i h
    have hg := povm_gram θ φ b c
    rw [if_neg h] at hg
    simp only [hopp, mul_neg, Finset.sum_neg_distrib, hg]
    norm_num

/-- A network that returns `-35` for each site, but `-dblMax` for one outcome. -/
theorem without_outcome {V : Type} [Fintype V] [DecidableEq V] (κ : ℝ) (c : Fin 4) (psi : (V → Fin 4) → ℝ)
    (hpsi : ∀ s, psi s = ∑ i, if s i = c then -dblMax else -35) :
    ∑ s, |distribution (fun s => psi s / κ) s - ∏ i, if s i = c then (0 : ℝ) else 1 / 3|
      ≤ Fintype.card V * Real.exp (-(dblMax - 35) / κ) := by
  set q := Real.exp (-(dblMax - 35) / κ)
  have hq : 0 < q := Real.exp_pos _
  have hprod : ∀ f : Fin 4 → ℝ, ∑ s : V → Fin 4, ∏ i, f (s i) = (∑ b, f b) ^ Fintype.card V := by
    intro f
    rw [← Fintype.piFinset_univ, ← Finset.prod_univ_sum, Finset.prod_const, Finset.card_univ]
  have hsum4 : ∀ x y : ℝ, ∑ b : Fin 4, (if b = c then x else y) = 3 * y + x := by
    intro x y
    rw [Finset.sum_ite, Finset.filter_eq' Finset.univ c, if_pos (Finset.mem_univ c), Finset.sum_const, Finset.sum_const,
      Finset.filter_ne', Finset.card_erase_of_mem (Finset.mem_univ c)]
    simp
    ring
  have hexp : ∀ s, Real.exp (psi s / κ) = Real.exp (-35 / κ) ^ Fintype.card V * ∏ i, if s i = c then q else 1 := by
    intro s
    rw [hpsi, Finset.sum_div, Real.exp_sum, ← Finset.card_univ, ← Finset.prod_const, ← Finset.prod_mul_distrib]
    apply Finset.prod_congr rfl
    intro i _
    split
    · rw [← Real.exp_add]
      congr 1
      ring
    · rw [mul_one]
  have hP : ∀ s, distribution (fun s => psi s / κ) s = ∏ i, if s i = c then q / (3 + q) else 1 / (3 + q) := by
    intro s
    unfold distribution
    simp only [hexp]
    rw [← Finset.mul_sum, hprod fun b => if b = c then q else 1, hsum4, mul_one,
      mul_div_mul_left _ _ (pow_ne_zero _ (Real.exp_ne_zero _)), ← Finset.card_univ, ← Finset.prod_const, ← Finset.prod_div_distrib]
    apply Finset.prod_congr rfl
    intro i _
    split <;> rfl
  have habs : ∀ s : V → Fin 4, |distribution (fun s => psi s / κ) s - ∏ i, if s i = c then (0 : ℝ) else 1 / 3|
      = (∏ i, if s i = c then q / (3 + q) else 1 / (3 + q)) + (∏ i, if s i = c then (0 : ℝ) else 1 / 3)
        - 2 * ∏ i, if s i = c then (0 : ℝ) else 1 / (3 + q) := by
    intro s
    rw [hP]
    by_cases h : ∃ i, s i = c
    · obtain ⟨i, hi⟩ := h
      rw [Finset.prod_eq_zero (f := fun i => if s i = c then (0 : ℝ) else 1 / 3) (Finset.mem_univ i) (if_pos hi),
        Finset.prod_eq_zero (f := fun i => if s i = c then (0 : ℝ) else 1 / (3 + q)) (Finset.mem_univ i) (if_pos hi),
        sub_zero, add_zero, mul_zero, sub_zero, abs_of_nonneg]
      exact Finset.prod_nonneg fun i _ => by split <;> positivity
    · push Not at h
      simp only [if_neg (h _)]
      rw [abs_of_nonpos]
      · ring
      · rw [sub_nonpos]
        apply Finset.prod_le_prod
        · intro i _; positivity
        · intro i _
          exact one_div_le_one_div_of_le (by norm_num) (by linarith)
  simp only [habs]
  rw [Finset.sum_sub_distrib, Finset.sum_add_distrib, ← Finset.mul_sum, hprod fun b => if b = c then q / (3 + q) else 1 / (3 + q),
    hprod fun b => if b = c then (0 : ℝ) else 1 / 3, hprod fun b => if b = c then (0 : ℝ) else 1 / (3 + q), hsum4, hsum4, hsum4]
  have e1 : 3 * (1 / (3 + q)) + q / (3 + q) = 1 := by field_simp
  have e2 : 3 * (1 / (3 + q)) + 0 = 1 + -(q / (3 + q)) := by field_simp; ring
  have e3 : (3 : ℝ) * (1 / 3) + 0 = 1 := by norm_num
  rw [e1, e2, e3, one_pow]
  have hle : q / (3 + q) ≤ q / 2 := div_le_div_of_nonneg_left hq.le (by norm_num) (by linarith)
  have hle1 : q / (3 + q) ≤ 1 := by rw [div_le_one (by linarith)]; linarith
  have hb := one_add_mul_le_pow (a := -(q / (3 + q))) (by linarith) (Fintype.card V)
  have hc : (0 : ℝ) ≤ Fintype.card V := Nat.cast_nonneg _
  nlinarith

theorem prod_probs {V : Type} [Fintype V] [DecidableEq V] (θ φ : ℝ) (state : String) (v : Fin 3 → ℝ)
    (hv : (state, v) ∈ blochOf) (c : Fin 4) (h0 : (1 + ∑ k, povmVectors θ φ c k * v k) / 4 = 0) (s : V → Fin 4) :
    (outcomeProb (productPovm fun a => blochElement (povmVectors θ φ a)) (productState V v) s).re
      = ∏ i, if s i = c then (0 : ℝ) else 1 / 3 := by
  rw [outcomeProb_product]
  simp only [prob_bloch, opposite_outcome θ φ state v hv c h0]
  rw [← Complex.ofReal_prod, Complex.ofReal_re]

/-- C116 for chains, if an outcome other than the first has probability zero in the state (with other than the default angles):
the network is not normalised and returns `-35` per site, or the most negative number for that outcome, but its distribution
is that of the product state up to `exp(-(1.79e308 - 35) / logProbFactor)` per site. -/
theorem c116_other_outcome_chain {C : Type} {H L : ℕ} (hL : 0 < L) (θ φ : ℝ) (M : Fin 4 → Matrix (Fin 2) (Fin 2) ℂ)
    (hM : getM θ φ "SIC" = .ok M) (state : String) (v : Fin 3 → ℝ) (hv : (state, v) ∈ blochOf)
    (a : Fin 4) (ha : a ≠ 0) (h0 : outcomeProb M (oneSpin v) a = 0) (κ : ℝ) (hκ : 0 < κ) (translation reflection : Bool)
    (tf rf sf : ℂ) (cells : (List String → Option (List Dbl)) → C → (ℕ → ℝ) → C × (Fin H → ℝ)) (zeroCarry : C)
    (params : ParamTree Dbl) (W : Fin H → Fin 3 → ℝ) (hW : OutputLayer params W) :
    ∃ p params', get1ParticleDistributions state M = .ok p ∧
      prepareParams ["net", "outputDense"] (productBiases p) params = .ok params' ∧
      ∑ s : Fin L → Fin 4, |distribution (fun s => (povmRnn1D κ cells zeroCarry
          (getOrbit1D L translation reflection false tf rf sf) params' s).re / κ) s
        - (outcomeProb (productPovm M) (productState (Fin L) v) s).re| ≤ L * Real.exp (-(dblMax - 35) / κ) := by
  have : NeZero L := ⟨hL.ne'⟩
  rw [getM_sic] at hM
  cases hM
  have h0' : (1 + ∑ k, povmVectors θ φ a k * v k) / 4 = 0 := by
    rw [prob_bloch] at h0
    exact_mod_cast h0
  have hp := opposite_outcome θ φ state v hv a h0'
  obtain ⟨a, rfl⟩ := Fin.exists_succ_eq.mpr ha
  obtain ⟨params', h1, h2, h3, h4⟩ := prepared hW fun a => (1 + ∑ k, povmVectors θ φ a k * v k) / 4
  refine ⟨_, params', particleDistribution θ φ state v hv, h1, ?_⟩
  have hpsi : ∀ s : Fin L → Fin 4, (povmRnn1D κ cells zeroCarry (getOrbit1D L translation reflection false tf rf sf) params' s).re
      = ∑ i, if s i = a.succ then -dblMax else -35 := by
    intro s
    have key := symmetrised_near (group1D L translation reflection false tf rf sf) (ones_1d L hL translation reflection)
      (fun x => rnn1dD 4 κ (denseOf 3 params') (cells (cellParams params')) zeroCarry (listConfig x))
      (fun b => if b = a.succ then -dblMax else -35) 0 (fun t => by
        rw [chain_sum, h4, h2]
        have hs : (((List.ofFn fun i => (t i : ℤ)).map fun x =>
            if Fin.ofNat 4 x.toNat = a.succ then -dblMax else -35).sum)
            = ∑ i, if t i = a.succ then -dblMax else -35 := by
          rw [List.map_ofFn, List.sum_ofFn]
          exact Finset.sum_congr rfl fun i _ => by rw [Function.comp_apply, ofNat_val]
        rw [← hs]
        refine (sum_near _ _ 0 _ _ (by rw [cellOutputs_length]; simp) ?_).trans (le_of_eq (mul_zero _))
        intro o ho x hx
        obtain ⟨i, rfl⟩ := (List.mem_ofFn' _ _).mp hx
        rw [site_other_zero κ hκ W _ (by rw [hp, if_neg (Fin.succ_ne_zero a).symm]; norm_num) a (by rw [hp, if_pos rfl])
          (fun j hj => by rw [hp, if_neg (fun h => hj (Fin.succ_inj.mp h))]; norm_num), ofNat_val, sub_self, abs_zero])
      (getOrbit1D L translation reflection false tf rf sf).factor s
    have hre := abs_nonpos_iff.mp key.2
    exact sub_eq_zero.mp hre
  have := without_outcome κ a.succ _ hpsi
  rw [Fintype.card_fin] at this
  simp only [prod_probs θ φ state v hv a.succ h0']
  exact this

/-- C116 for square lattices, if an outcome other than the first has probability zero in the state. -/
theorem c116_other_outcome_lattice {C : Type} {H L : ℕ} (hL : 0 < L) (θ φ : ℝ) (M : Fin 4 → Matrix (Fin 2) (Fin 2) ℂ)
    (hM : getM θ φ "SIC" = .ok M) (state : String) (v : Fin 3 → ℝ) (hv : (state, v) ∈ blochOf)
    (a : Fin 4) (ha : a ≠ 0) (h0 : outcomeProb M (oneSpin v) a = 0) (κ : ℝ) (hκ : 0 < κ)
    (translation reflection rotation : Bool) (tf rf qf sf : ℂ)
    (cells : (List String → Option (List Dbl)) → C → C → (ℕ → ℝ) → (ℕ → ℝ) → C × (Fin H → ℝ)) (zeroCarry : ℕ → C)
    (params : ParamTree Dbl) (W : Fin H → Fin 3 → ℝ) (hW : OutputLayer params W) :
    ∃ p params', get1ParticleDistributions state M = .ok p ∧
      prepareParams ["net", "outputDense"] (productBiases p) params = .ok params' ∧
      ∑ s : Fin (L * L) → Fin 4, |distribution (fun s => (povmRnn2D κ cells zeroCarry
          (getOrbit2D L translation reflection rotation false tf rf qf sf) params' s).re / κ) s
        - (outcomeProb (productPovm M) (productState (Fin (L * L)) v) s).re| ≤ (L * L : ℕ) * Real.exp (-(dblMax - 35) / κ) := by
  have : NeZero L := ⟨hL.ne'⟩
  rw [getM_sic] at hM
  cases hM
  have h0' : (1 + ∑ k, povmVectors θ φ a k * v k) / 4 = 0 := by
    rw [prob_bloch] at h0
    exact_mod_cast h0
  have hp := opposite_outcome θ φ state v hv a h0'
  obtain ⟨a, rfl⟩ := Fin.exists_succ_eq.mpr ha
  obtain ⟨params', h1, h2, h3, h4⟩ := prepared hW fun a => (1 + ∑ k, povmVectors θ φ a k * v k) / 4
  refine ⟨_, params', particleDistribution θ φ state v hv, h1, ?_⟩
  have hpsi : ∀ s : Fin (L * L) → Fin 4, (povmRnn2D κ cells zeroCarry
      (getOrbit2D L translation reflection rotation false tf rf qf sf) params' s).re
      = ∑ i, if s i = a.succ then -dblMax else -35 := by
    intro s
    have key := symmetrised_near (group2D L translation reflection rotation false tf rf qf sf)
      (ones_2d L hL translation reflection rotation)
      (fun x => rnn2dD 4 κ (denseOf 3 params') (cells (cellParams params')) zeroCarry L (rowsConfig x))
      (fun b => if b = a.succ then -dblMax else -35) 0 (fun t => by
        rw [lattice_sum, h4, h2]
        have hs : (((List.ofFn fun i => (t i : ℤ)).map fun x =>
            if Fin.ofNat 4 x.toNat = a.succ then -dblMax else -35).sum)
            = ∑ i, if t i = a.succ then -dblMax else -35 := by
          rw [List.map_ofFn, List.sum_ofFn]
          exact Finset.sum_congr rfl fun i _ => by rw [Function.comp_apply, ofNat_val]
        rw [← hs]
        refine (sum_near _ _ 0 _ _ (by rw [latticeOutputs_length]; simp) ?_).trans (le_of_eq (mul_zero _))
        intro o ho x hx
        obtain ⟨i, rfl⟩ := (List.mem_ofFn' _ _).mp hx
        rw [site_other_zero κ hκ W _ (by rw [hp, if_neg (Fin.succ_ne_zero a).symm]; norm_num) a (by rw [hp, if_pos rfl])
          (fun j hj => by rw [hp, if_neg (fun h => hj (Fin.succ_inj.mp h))]; norm_num), ofNat_val, sub_self, abs_zero])
      (getOrbit2D L translation reflection rotation false tf rf qf sf).factor s
    have hre := abs_nonpos_iff.mp key.2
    exact sub_eq_zero.mp hre
  have := without_outcome κ a.succ _ hpsi
  rw [Fintype.card_fin] at this
  simp only [prod_probs θ φ state v hv a.succ h0']
  exact this

/-! ## Violations -/

/-- C116 is violated if the first outcome has probability zero in the state: whatever the network, after the preparation
it returns `-35 L` for every configuration. All outcomes are equally likely, and the measured value of every component of
the Bloch vector is zero. -/
theorem c116_first_outcome_violated {C : Type} {H L : ℕ} [NeZero L] (θ φ : ℝ)
    (M : Fin 4 → Matrix (Fin 2) (Fin 2) ℂ) (hM : getM θ φ "SIC" = .ok M) (state : String) (v : Fin 3 → ℝ)
    (hv : (state, v) ∈ blochOf) (h0 : outcomeProb M (oneSpin v) 0 = 0) (κ : ℝ) (translation reflection : Bool)
    (tf rf sf : ℂ) (cells : (List String → Option (List Dbl)) → C → (ℕ → ℝ) → C × (Fin H → ℝ)) (zeroCarry : C)
    (params : ParamTree Dbl) (W : Fin H → Fin 3 → ℝ) (hW : OutputLayer params W) :
    ∃ p params', get1ParticleDistributions state M = .ok p ∧
      prepareParams ["net", "outputDense"] (productBiases p) params = .ok params' ∧
      (∀ s : Fin L → Fin 4,
        povmRnn1D κ cells zeroCarry (getOrbit1D L translation reflection false tf rf sf) params' s = -35 * L) ∧
      ∀ k, outcomeMean (distribution fun s : Fin L → Fin 4 =>
          (povmRnn1D κ cells zeroCarry (getOrbit1D L translation reflection false tf rf sf) params' s).re / κ)
        (fun s => (evaluateObservable1D (matrixToPovmObs (getPaulis k) M (povmTInv M)) s).1) = 0 := by
  have hL : 0 < L := Nat.pos_of_ne_zero (NeZero.ne L)
  obtain ⟨M', hM', hP, hH, hc, hT⟩ := sic_hypotheses θ φ
  obtain rfl := Except.ok.inj (hM'.symm.trans hM)
  rw [getM_sic] at hM
  cases hM
  have h0' : (1 + ∑ k, povmVectors θ φ 0 k * v k) / 4 = 0 := by
    rw [prob_bloch] at h0
    exact_mod_cast h0
  -- the state is opposite to the first outcome
  have hunit : ∑ k, v k * v k = 1 := by
    simp only [blochOf, List.mem_cons, Prod.mk.injEq, List.not_mem_nil, or_false] at hv
    rcases hv with ⟨_, rfl⟩ | ⟨_, rfl⟩ | ⟨_, rfl⟩ | ⟨_, rfl⟩ | ⟨_, rfl⟩ | ⟨_, rfl⟩ <;> simp [Fin.sum_univ_three]
  have hopp : ∀ k, v k = -povmVectors θ φ 0 k := by
    have hg := povm_gram θ φ 0 0
    rw [if_pos rfl] at hg
    have hz : ∑ k, (v k + povmVectors θ φ 0 k) ^ 2 = 0 := by
      have : ∑ k, (v k + povmVectors θ φ 0 k) ^ 2 = ∑ k, v k * v k + 2 * ∑ k, povmVectors θ φ 0 k * v k
          + ∑ k, povmVectors θ φ 0 k * povmVectors θ φ 0 k := by
        simp only [Fin.sum_univ_three]; ring
      rw [this, hunit, hg]
      linarith
    intro k
    have := (Finset.sum_eq_zero_iff_of_nonneg fun k _ => sq_nonneg _).mp hz k (Finset.mem_univ k)
    have := pow_eq_zero_iff (two_ne_zero) |>.mp this
    linarith
  have hpos : ∀ j : Fin 3, 0 < (1 + ∑ k, povmVectors θ φ j.succ k * v k) / 4 := by
    intro j
    have hg := povm_gram θ φ j.succ 0
    rw [if_neg (Fin.succ_ne_zero j)] at hg
    simp only [hopp, mul_neg, Finset.sum_neg_distrib, hg]
    norm_num
  obtain ⟨params', h1, h2, h3, h4⟩ := prepared hW fun a => (1 + ∑ k, povmVectors θ φ a k * v k) / 4
  have hpsi : ∀ s : Fin L → Fin 4,
      povmRnn1D κ cells zeroCarry (getOrbit1D L translation reflection false tf rf sf) params' s = -35 * L := by
    intro s
    have key := symmetrised_near (group1D L translation reflection false tf rf sf)
      (ones_1d L hL translation reflection)
      (fun x => rnn1dD 4 κ (denseOf 3 params') (cells (cellParams params')) zeroCarry (listConfig x))
      (fun _ => -35) 0 (fun t => by
        rw [chain_sum, h4]
        simp only [site_zero κ W (fun a => (1 + ∑ k, povmVectors θ φ a k * v k) / 4) h0' hpos]
        rw [zipWith_const _ _ _ (by rw [cellOutputs_length]; simp)]
        simp) (getOrbit1D L translation reflection false tf rf sf).factor s
    have hre := abs_nonpos_iff.mp key.2
    apply Complex.ext
    · rw [Finset.sum_const, Finset.card_univ, Fintype.card_fin, nsmul_eq_mul] at hre
      simp only [Complex.mul_re, Complex.neg_re, Complex.neg_im, Complex.natCast_re, Complex.natCast_im, mul_zero,
        sub_zero]
      change (povmRnn1D κ cells zeroCarry (getOrbit1D L translation reflection false tf rf sf) params' s).re
        - (L : ℝ) * (-35) = 0 at hre
      norm_num
      linarith
    · refine key.1.trans ?_
      simp
  refine ⟨_, params', particleDistribution θ φ state v hv, h1, hpsi, fun k => ?_⟩
  simp only [hpsi]
  unfold outcomeMean distribution
  rw [← Finset.mul_sum]
  refine mul_eq_zero_of_right _ ?_
  change ∑ s : Fin L → Fin 4, (∑ i, matrixToPovmObs (getPaulis k) _ _ (s i)) / (L : ℝ) = 0
  rw [← Finset.sum_div, Finset.sum_comm]
  have hz : ∀ i : Fin L, ∑ s : Fin L → Fin 4, matrixToPovmObs (getPaulis k) (fun a => blochElement (povmVectors θ φ a))
      (povmTInv fun a => blochElement (povmVectors θ φ a)) (s i) = 0 := by
    intro i
    simp only [sic_observable θ φ k _ hT]
    rw [← Finset.mul_sum, ← (Equiv.funSplitAt i (Fin 4)).symm.sum_comp, Fintype.sum_prod_type]
    simp only [Equiv.funSplitAt_symm_apply, dif_pos, Finset.sum_const, nsmul_eq_mul]
    rw [← Finset.mul_sum, povm_sum, mul_zero, mul_zero]
  simp [hz]

/-- C116 is violated with the default angles for `z_down`: the measured `Z` is 0, not -1. -/
theorem c116_z_down_violated {C : Type} {H L : ℕ} [NeZero L] (M : Fin 4 → Matrix (Fin 2) (Fin 2) ℂ)
    (hM : getM 0 0 "SIC" = .ok M) (κ : ℝ) (translation reflection : Bool) (tf rf sf : ℂ)
    (cells : (List String → Option (List Dbl)) → C → (ℕ → ℝ) → C × (Fin H → ℝ)) (zeroCarry : C)
    (params : ParamTree Dbl) (W : Fin H → Fin 3 → ℝ) (hW : OutputLayer params W) :
    ("z_down", ![0, 0, -1]) ∈ blochOf ∧ ∃ p params', get1ParticleDistributions "z_down" M = .ok p ∧
      prepareParams ["net", "outputDense"] (productBiases p) params = .ok params' ∧
      outcomeMean (distribution fun s : Fin L → Fin 4 =>
          (povmRnn1D κ cells zeroCarry (getOrbit1D L translation reflection false tf rf sf) params' s).re / κ)
        (fun s => (evaluateObservable1D (matrixToPovmObs (getPaulis 2) M (povmTInv M)) s).1) = 0 := by
  have hmem : ("z_down", ![0, 0, -1]) ∈ blochOf := by simp [blochOf]
  have h0 : outcomeProb M (oneSpin ![0, 0, -1]) 0 = 0 := by
    rw [getM_sic] at hM
    cases hM
    rw [prob_bloch]
    simp [povmVectors_zero, Fin.sum_univ_three, sicVectors]
  obtain ⟨p, params', h1, h2, _, h4⟩ := c116_first_outcome_violated (L := L) 0 0 M hM "z_down" _ hmem h0 κ translation
    reflection tf rf sf cells zeroCarry params W hW
  exact ⟨hmem, p, params', h1, h2, h4 2⟩

/-- C116 is violated by the examples: they look for the output layer at the top level of the parameters of a network from
`init_net`, where there is only the key `net` of the wrapper, so the preparation ends with a `KeyError`. -/
theorem c116_examples_violated (biases : List Dbl) (net : ParamTree Dbl) (h : UniqueKeys net) :
    prepareParams ["outputDense"] biases (.dict [("net", net)]) = .error .keyError :=
  prepareParams_missing "outputDense" [] biases [("net", net)] (by simp [UniqueKeys, UniqueKeysAll, h]) (by simp)

/-! ## Cases -/

/-- The parameters of a network with one hidden unit. -/
noncomputable def tinyParams : ParamTree Dbl :=
  .dict [("net", .dict [("outputDense", .dict [("kernel", .arr [.fin 1, .fin (-1), .fin (1 / 2)]),
    ("bias", .arr [.fin 0, .fin 0, .fin 0])]), ("cell", .arr [.fin 3])])]

theorem tiny_layer : OutputLayer (H := 1) tinyParams fun _ => ![1, -1, 1 / 2] := by
  refine ⟨by simp [tinyParams, UniqueKeys, UniqueKeysAll], ?_, ?_⟩
  · simp [tinyParams, ParamTree.at, PyDict.get?, kernelArray, List.ofFn_succ]
    exact ⟨rfl, rfl, rfl⟩
  · exact ⟨_, by simp [tinyParams, ParamTree.at, PyDict.get?]; rfl, rfl⟩

/-- The cell returns the last input for outcome 0. -/
def tinyCells : (List String → Option (List Dbl)) → Unit → (ℕ → ℝ) → Unit × (Fin 1 → ℝ) := fun _ _ x => ((), fun _ => x 0)

theorem tiny_outputs (xs : List ℤ) : ∀ (x0 : ℕ → ℝ), |x0 0| ≤ 1 →
    ∀ o ∈ cellOutputs (tinyCells (cellParams tinyParams)) ((), x0) (xs.map (oneHot 4)), |o 0| ≤ 1 := by
  induction xs with
  | nil => intro x0 _ o ho; simp [cellOutputs] at ho
  | cons x xs ih =>
    intro x0 h0 o ho
    rw [List.map_cons, cellOutputs] at ho
    rcases List.mem_cons.mp ho with rfl | ho
    · exact h0
    · refine ih (oneHot 4 x) ?_ o ho
      unfold oneHot
      split <;> simp

/-- The cells of the examples. -/
theorem tiny_bound {L : ℕ} (s : Fin L → Fin 4) : ∀ o ∈ cellOutputs (tinyCells (cellParams tinyParams)) ((), fun _ => 0)
    (List.ofFn fun i => oneHot 4 (s i : ℤ)), ∀ j, |∑ i : Fin 1, o i * (![1, -1, 1 / 2] : Fin 3 → ℝ) j| ≤ 1 := by
  intro o ho j
  have := tiny_outputs (List.ofFn fun i => (s i : ℤ)) (fun _ => 0) (by simp) o (by rw [List.map_ofFn]; exact ho)
  rw [Fin.sum_univ_one, abs_mul]
  have hj : |(![1, -1, 1 / 2] : Fin 3 → ℝ) j| ≤ 1 := by fin_cases j <;> norm_num [abs_le]
  calc |o 0| * |(![1, -1, 1 / 2] : Fin 3 → ℝ) j| ≤ 1 * 1 := mul_le_mul this hj (abs_nonneg _) (by norm_num)
    _ = 1 := one_mul 1

/-- Case of `c116_chain_partial`: four spins, translation invariant, state `y_up`; the error is at most `8e-15`. -/
example : ∃ M, getM 0 0 "SIC" = .ok M ∧ ("y_up", ![0, 1, 0]) ∈ blochOf ∧ (∀ a, outcomeProb M (oneSpin ![0, 1, 0]) a ≠ 0) ∧
    ∃ p params', get1ParticleDistributions "y_up" M = .ok p ∧
      prepareParams ["net", "outputDense"] (productBiases p) tinyParams = .ok params' ∧
      ∀ s : Fin 4 → Fin 4,
        |(povmRnn1D 1 tinyCells () (getOrbit1D 4 true false false 1 1 1) params' s).re
          - Real.log (outcomeProb (productPovm M) (productState (Fin 4) ![0, 1, 0]) s).re| ≤ 8e-15 := by
  have hmem : ("y_up", ![0, 1, 0]) ∈ blochOf := by simp [blochOf]
  obtain ⟨M, hM, _⟩ := sic_hypotheses 0 0
  have hne := (c116_default_angles M hM "y_up" _ hmem).mpr (by decide)
  obtain ⟨p, params', h1, h2, _, h4⟩ := c116_chain_partial (L := 4) (by norm_num) 0 0 M hM "y_up" _ hmem hne 1 one_pos true
    false 1 1 1 tinyCells () tinyParams _ tiny_layer 1 tiny_bound
  refine ⟨M, hM, hmem, hne, p, params', h1, h2, fun s => ?_⟩
  have := (h4 s).2
  rw [div_one] at this
  refine this.trans ?_
  norm_num

/-- Case of `c116_run_partial` and `c116_measured_partial`: four spins in the state `y_up` on three ranks. -/
example : ∃ M, getM 0 0 "SIC" = .ok M ∧ ∃ p params' ln w res cs, get1ParticleDistributions "y_up" M = .ok p ∧
    prepareParams ["net", "outputDense"] (productBiases p) tinyParams = .ok params' ∧
    exactSampleWorld 4 4 1 3 (toConfig 4 4) 1 0 (povmRnn1D 1 tinyCells () (getOrbit1D 4 true false false 1 1 1) params')
      = .ok (ln, w) ∧
    measurePovm none
      (observedWorld (fun s => (evaluateObservable1D (matrixToPovmObs (getPaulis 1) M (povmTInv M)) s).1) w)
      (List.ofFn fun d : Fin 4 =>
        observedWorld (fun s => (evaluateObservable1D (matrixToPovmObs (getPaulis 1) M (povmTInv M)) s).2 d) w)
      = .ok (res, cs) ∧ res.length = 3 ∧ ∀ r ∈ res, |r.mean - 1| ≤ 3 * (Real.exp 1.6e-14 - 1) := by
  have hmem : ("y_up", ![0, 1, 0]) ∈ blochOf := by simp [blochOf]
  obtain ⟨M, hM, _⟩ := sic_hypotheses 0 0
  have hne := (c116_default_angles M hM "y_up" _ hmem).mpr (by decide)
  obtain ⟨p, params', ln, w, res, cs, h1, h2, h3, h4, h5, h6, _⟩ := c116_run_partial (L := 4) 0 0 M hM "y_up" _ hmem hne
    true false 1 1 1 tinyCells () tinyParams _ tiny_layer 1 tiny_bound 3 (by norm_num) (by norm_num) 0 none 1
  refine ⟨M, hM, p, params', ln, w, res, cs, h1, h2, h3, h4, h5, fun r hr => ?_⟩
  have := h6 r hr
  norm_num at this ⊢
  exact this

/-- A cell of a square lattice that ignores its inputs. -/
def constantCells : (List String → Option (List Dbl)) → Unit → Unit → (ℕ → ℝ) → (ℕ → ℝ) → Unit × (Fin 1 → ℝ) :=
  fun _ _ _ _ _ => ((), fun _ => 1)

theorem mem_reverseLine {A : Type} (a : A) (l : List A) (b : Bool) : a ∈ reverseLine l b ↔ a ∈ l := by
  cases b <;> simp [reverseLine]

theorem constant_outputs (xs : List (List (ℕ → ℝ))) : ∀ (r : ℕ) (carry : List Unit × List (ℕ → ℝ)),
    ∀ os ∈ cellRows (constantCells (cellParams tinyParams)) (fun _ => ()) r carry xs, ∀ o ∈ os, o = fun _ => 1 := by
  have hscan : ∀ (ys : List (Unit × (ℕ → ℝ) × (ℕ → ℝ))) (c : Unit),
      ∀ x ∈ cellScanH (constantCells (cellParams tinyParams)) c ys, x.2 = fun _ => 1 := by
    intro ys
    induction ys with
    | nil => intro c x hx; simp [cellScanH] at hx
    | cons y ys ih =>
      intro c x hx
      rw [cellScanH] at hx
      rcases List.mem_cons.mp hx with rfl | hx
      · rfl
      · exact ih _ x hx
  induction xs with
  | nil => intro r carry os hos; simp [cellRows] at hos
  | cons x xs ih =>
    intro r carry os hos o ho
    rw [cellRows] at hos
    rcases List.mem_cons.mp hos with rfl | hos
    · rw [mem_reverseLine] at ho
      obtain ⟨y, hy, rfl⟩ := List.mem_map.mp ho
      exact hscan _ _ y hy
    · exact ih _ _ os hos o ho

/-- Case of `c116_lattice_partial`: nine spins, all symmetries, state `x_down`. -/
example : ∃ M, getM 0 0 "SIC" = .ok M ∧ ∃ p params', get1ParticleDistributions "x_down" M = .ok p ∧
    prepareParams ["net", "outputDense"] (productBiases p) tinyParams = .ok params' ∧
    ∀ s : Fin (3 * 3) → Fin 4,
      |(povmRnn2D (L := 3) 1 constantCells (fun _ => ()) (getOrbit2D 3 true true true false 1 1 1 1) params' s).re
        - Real.log (outcomeProb (productPovm M) (productState (Fin (3 * 3)) ![-1, 0, 0]) s).re| ≤ 1.8e-14 := by
  have hmem : ("x_down", ![-1, 0, 0]) ∈ blochOf := by simp [blochOf]
  obtain ⟨M, hM, _⟩ := sic_hypotheses 0 0
  have hne := (c116_default_angles M hM "x_down" _ hmem).mpr (by decide)
  obtain ⟨p, params', h1, h2, _, h4⟩ := c116_lattice_partial (L := 3) (by norm_num) 0 0 M hM "x_down" _ hmem hne 1 one_pos
    true true true 1 1 1 1 constantCells (fun _ => ()) tinyParams _ tiny_layer 1 (by
      intro s o ho j
      obtain ⟨os, hos, ho'⟩ := List.mem_flatten.mp ho
      rw [constant_outputs _ _ _ os hos o ho', Fin.sum_univ_one, one_mul]
      fin_cases j <;> norm_num [abs_le])
  refine ⟨M, hM, p, params', h1, h2, fun s => ?_⟩
  have := (h4 s).2
  rw [div_one] at this
  refine this.trans ?_
  norm_num

/-- Case of `c116_z_down_violated`. -/
example : ∃ M, getM 0 0 "SIC" = .ok M ∧ OutputLayer (H := 1) tinyParams fun _ => ![1, -1, 1 / 2] :=
  ⟨_, rfl, tiny_layer⟩

/-- Case of `c116_examples_violated`. -/
example : prepareParams ["outputDense"] (productBiases fun _ => 1 / 4) tinyParams = .error .keyError :=
  c116_examples_violated _ _ (by simp [UniqueKeys, UniqueKeysAll])

/-- With `theta = -arccos(-1/3)` outcome 1 has probability zero in the state `z_down`. -/
theorem tilted_outcome (M : Fin 4 → Matrix (Fin 2) (Fin 2) ℂ) (hM : getM (-Real.arccos (-1 / 3)) 0 "SIC" = .ok M) :
    outcomeProb M (oneSpin ![0, 0, -1]) 1 = 0 := by
  rw [getM_sic] at hM
  cases hM
  have hphi : rotatorPhi 0 = 1 := by
    ext i j; fin_cases i <;> fin_cases j <;> simp [rotatorPhi]
  have hcos : Real.cos (-Real.arccos (-1 / 3)) = -1 / 3 := by
    rw [Real.cos_neg, Real.cos_arccos (by norm_num) (by norm_num)]
  have hsin : Real.sin (-Real.arccos (-1 / 3)) = -(2 * Real.sqrt 2 / 3) := by
    rw [Real.sin_neg, Real.sin_arccos, show (1 - (-1 / 3) ^ 2 : ℝ) = (2 * Real.sqrt 2 / 3) ^ 2 by
      rw [div_pow (2 * _), mul_pow, Real.sq_sqrt (by norm_num)]; norm_num, Real.sqrt_sq (by positivity)]
  have h2 := Real.mul_self_sqrt (show (0 : ℝ) ≤ 2 by norm_num)
  have : povmVectors (-Real.arccos (-1 / 3)) 0 1 2 = 1 := by
    unfold povmVectors
    rw [hphi, Matrix.transpose_one, Matrix.mul_one, Matrix.mul_apply, Fin.sum_univ_three]
    have e : (2 * Real.sqrt 2 / 3) * -(-(2 * Real.sqrt 2 / 3)) + 0 * 0 + -1 / 3 * (-1 / 3) = 1 := by nlinarith
    simp only [rotatorTheta, hcos, hsin]
    exact e
  rw [prob_bloch]
  simp [Fin.sum_univ_three, this]

/-- Case of `c116_other_outcome_chain`: four spins, state `z_down`, `theta = -arccos(-1/3)`. -/
example : ∃ M, getM (-Real.arccos (-1 / 3)) 0 "SIC" = .ok M ∧ ∃ p params', get1ParticleDistributions "z_down" M = .ok p ∧
    prepareParams ["net", "outputDense"] (productBiases p) tinyParams = .ok params' ∧
    ∑ s : Fin 4 → Fin 4, |distribution (fun s =>
        (povmRnn1D 1 tinyCells () (getOrbit1D 4 true false false 1 1 1) params' s).re / 1) s
      - (outcomeProb (productPovm M) (productState (Fin 4) ![0, 0, -1]) s).re|
      ≤ (4 : ℕ) * Real.exp (-(dblMax - 35) / 1) := by
  obtain ⟨M, hM, _⟩ := sic_hypotheses (-Real.arccos (-1 / 3)) 0
  exact ⟨M, hM, c116_other_outcome_chain (L := 4) (by norm_num) _ 0 M hM "z_down" _ (by simp [blochOf]) 1 (by decide)
    (tilted_outcome M hM) 1 one_pos true false 1 1 1 tinyCells () tinyParams _ tiny_layer⟩

/-- Case of `c116_other_outcome_lattice`: nine spins, state `z_down`, `theta = -arccos(-1/3)`. -/
example : ∃ M, getM (-Real.arccos (-1 / 3)) 0 "SIC" = .ok M ∧ ∃ p params', get1ParticleDistributions "z_down" M = .ok p ∧
    prepareParams ["net", "outputDense"] (productBiases p) tinyParams = .ok params' ∧
    ∑ s : Fin (3 * 3) → Fin 4, |distribution (fun s => (povmRnn2D (L := 3) 1 constantCells (fun _ => ())
        (getOrbit2D 3 true true true false 1 1 1 1) params' s).re / 1) s
      - (outcomeProb (productPovm M) (productState (Fin (3 * 3)) ![0, 0, -1]) s).re|
      ≤ (3 * 3 : ℕ) * Real.exp (-(dblMax - 35) / 1) := by
  obtain ⟨M, hM, _⟩ := sic_hypotheses (-Real.arccos (-1 / 3)) 0
  exact ⟨M, hM, c116_other_outcome_lattice (L := 3) (by norm_num) _ 0 M hM "z_down" _ (by simp [blochOf]) 1 (by decide)
    (tilted_outcome M hM) 1 one_pos true true true 1 1 1 1 constantCells (fun _ => ()) tinyParams _ tiny_layer⟩

end JVMC
