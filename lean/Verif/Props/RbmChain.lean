import Verif.Props.RbmRounding
import Verif.Props.ChainRounding

/-!
# C145 — Markov chains of a Boltzmann machine with rounding errors
-/

namespace JVMC

open Spec

/-- The coefficients of a Boltzmann machine are not negative and not larger than the sizes of its parameters. -/
theorem realRbm_range {n m : ℕ} (kernel : Fin n → Fin m → ℝ) (bias : Option (Fin m → ℝ)) (s : Fin n → ℤ)
    (hs : ∀ i, s i = 0 ∨ s i = 1) : 0 ≤ realRbm kernel bias s ∧ realRbm kernel bias s ≤ ∑ j, unitSize kernel bias j := by
  have hx : ∀ i, |(((2 * s i - 1 : ℤ) : ℝ))| = 1 := by
    intro i
    rcases hs i with h | h <;> rw [h] <;> norm_num
  unfold realRbm
  constructor
  · exact Finset.sum_nonneg fun j _ => (logcosh_range _).1
  · exact Finset.sum_le_sum fun j _ => (logcosh_range _).2.trans (dense_le kernel bias _ hx j)

/-- C145: the numbers which the sampler stores for the configurations of its chains, `mu` times the coefficient that the machine
computes, differ from the exact ones by at most `|mu|` times the error of the network and of one more product. -/
theorem c145_logs {r : Rounding} {F : ElemFuns} {v : ℝ} (hF : Accurate F v) (hv0 : 0 ≤ v) (hv : v ≤ 1 / 2) {n m : ℕ}
    (hn : (n + 2) * r.u ≤ 1 / 2) (hm : m * r.u ≤ 1 / 2) (kernel : Fin n → Fin m → ℝ) (bias : Option (Fin m → ℝ)) {P K : Type}
    (c : McConfig (Fin n → ℤ) P K) (params : P) (X : Finset (Fin n → ℤ)) (hX : ∀ s ∈ X, ∀ i, s i = 0 ∨ s i = 1)
    (hnet : ∀ s ∈ X, RealRbmR r F kernel bias s (c.netRe params s)) :
    LogsWithin X (fun s => c.mu * realRbm kernel bias s)
      (|c.mu| * (rbmError r.u v kernel bias + r.u * (rbmError r.u v kernel bias + ∑ j, unitSize kernel bias j)))
      (2 * ((1 + r.u) * (|c.mu| * (rbmError r.u v kernel bias + ∑ j, unitSize kernel bias j)))) (logAccRnd r c params) := by
  have hb : ∀ s ∈ X, |c.netRe params s - realRbm kernel bias s| ≤ rbmError r.u v kernel bias := fun s hs =>
    c145_rbm hF hv0 hv hn hm kernel bias s (hX s hs) _ (hnet s hs)
  refine c134_logs r c params X _ _ _ hb fun s hs => ?_
  obtain ⟨h1, h2⟩ := realRbm_range kernel bias s (hX s hs)
  have h3 := abs_add_le (c.netRe params s - realRbm kernel bias s) (realRbm kernel bias s)
  rw [sub_add_cancel, abs_of_nonneg h1] at h3
  have := hb s hs
  linarith

/-- C145: Markov chains whose Boltzmann machine and whose acceptance decisions are computed with rounding errors. After `k` updates
of `C` chains their distribution differs from the one of exact arithmetic by at most `2 k C` times the error of one acceptance
probability, which is given by the sizes of the parameters and the precision of the machine alone. -/
theorem c145_chains {r : Rounding} {F : ElemFuns} {v : ℝ} (hF : Accurate F v) (hv0 : 0 ≤ v) (hv : v ≤ 1 / 2) {n m : ℕ}
    (hn : (n + 2) * r.u ≤ 1 / 2) (hm : m * r.u ≤ 1 / 2) (kernel : Fin n → Fin m → ℝ) (bias : Option (Fin m → ℝ)) {P K : Type}
    (c : McConfig (Fin n → ℤ) P K) (params : P) (X : Finset (Fin n → ℤ)) (hX : ∀ s ∈ X, ∀ i, s i = 0 ∨ s i = 1)
    (hnet : ∀ s ∈ X, RealRbmR r F kernel bias s (c.netRe params s)) (e : ℝ → ℝ) (w : ℝ) (he : ExpWithin w e) (W : Finset K)
    (hW : W.Nonempty) (hprop : ∀ ω ∈ W, ∀ s ∈ X, c.proposer ω s ∈ X) {C : ℕ} (μ : (Fin C → Fin n → ℤ) → ℝ)
    (hμ : IsDist (Fintype.piFinset fun _ : Fin C => X) μ) (k : ℕ) :
    ∑ s ∈ Fintype.piFinset (fun _ : Fin C => X),
        |(Spec.evolve W (roundedStep r e c.proposer (logAccRnd r c params)) X)^[k] μ s
          - (Spec.evolve W (metropolisStep c.proposer fun s => c.mu * realRbm kernel bias s) X)^[k] μ s|
      ≤ k * (C * (2 * acceptError
          (|c.mu| * (rbmError r.u v kernel bias + r.u * (rbmError r.u v kernel bias + ∑ j, unitSize kernel bias j)))
          (2 * ((1 + r.u) * (|c.mu| * (rbmError r.u v kernel bias + ∑ j, unitSize kernel bias j)))) r.u w)) :=
  c134_drift W c.proposer _ r e w he hW X hprop _ _ _ (c145_logs hF hv0 hv hn hm kernel bias c params X hX hnet) μ hμ k

/-- Two chains of two spins with one hidden unit in double precision: one of the spins is flipped, and the coefficients are
any ones which the machine can compute. -/
example : ∃ net : Unit → (Fin 2 → ℤ) → ℝ, (∀ s, RealRbmR Rounding.double (roundedFuns Rounding.double)
    (fun (i : Fin 2) (_ : Fin 1) => if i = 0 then 1 / 2 else -1) (some fun _ => 1 / 4) s (net () s)) ∧
    (∑ s ∈ Fintype.piFinset (fun _ : Fin 2 => Fintype.piFinset fun _ : Fin 2 => ({0, 1} : Finset ℤ)),
      |(Spec.evolve Finset.univ (roundedStep Rounding.double Real.exp (fun (ω : Fin 2) s => Function.update s ω (1 - s ω))
            (logAccRnd Rounding.double (K := Fin 2) { rng := { split := fun k _ _ => k, uniform := fun _ _ => 1 / 2 }
                                                      proposer := fun ω s => Function.update s ω (1 - s ω)
                                                      netRe := net, mu := 2, thermSweeps := 1, sweepSteps := 1, numChains := 2 } ()))
          (Fintype.piFinset fun _ : Fin 2 => ({0, 1} : Finset ℤ)))^[1000] (fun s => if s = 0 then 1 else 0) s
        - (Spec.evolve Finset.univ (metropolisStep (fun (ω : Fin 2) s => Function.update s ω (1 - s ω)) fun s => 2 * realRbm
            (fun (i : Fin 2) (_ : Fin 1) => if i = 0 then 1 / 2 else -1) (some fun _ => 1 / 4) s)
          (Fintype.piFinset fun _ : Fin 2 => ({0, 1} : Finset ℤ)))^[1000] (fun s => if s = 0 then 1 else 0) s|)
      ≤ 1 / 10 ^ 8 := by
  choose net hnet using c145_exists Rounding.double (roundedFuns Rounding.double)
    (fun (i : Fin 2) (_ : Fin 1) => if i = 0 then (1 / 2 : ℝ) else -1) (some fun _ => 1 / 4)
  refine ⟨fun _ => net, hnet, ?_⟩
  have hu : Rounding.double.u = (2 : ℝ) ^ (-53 : ℤ) := rfl
  have h := c145_chains (roundedFuns_accurate Rounding.double) Rounding.double.u_nonneg (by rw [hu]; norm_num) (n := 2) (m := 1)
    (by rw [hu]; norm_num) (by rw [hu]; norm_num) (fun (i : Fin 2) (_ : Fin 1) => if i = 0 then (1 / 2 : ℝ) else -1)
    (some fun _ => 1 / 4) (P := Unit) (K := Fin 2) { rng := { split := fun k _ _ => k, uniform := fun _ _ => 1 / 2 }
                                                     proposer := fun ω s => Function.update s ω (1 - s ω)
                                                     netRe := fun _ => net, mu := 2, thermSweeps := 1, sweepSteps := 1, numChains := 2 } ()
    (Fintype.piFinset fun _ : Fin 2 => ({0, 1} : Finset ℤ)) (fun s hs i => by simpa using Fintype.mem_piFinset.mp hs i)
    (fun s _ => hnet s) Real.exp 0 (expWithin_exp 0 le_rfl) Finset.univ (by simp) (fun ω _ s hs => by
      rw [Fintype.mem_piFinset] at hs ⊢
      intro i
      by_cases hi : i = ω
      · subst hi
        have := hs i
        simp only [Finset.mem_insert, Finset.mem_singleton] at this
        rcases this with h | h <;> simp [h]
      · simpa [Function.update_of_ne hi] using hs i) (C := 2) (fun s => if s = 0 then 1 else 0)
    ⟨fun s _ => by dsimp only; split_ifs <;> norm_num, by rw [Finset.sum_ite_eq', if_pos (by simp)]⟩ 1000
  refine h.trans ?_
  unfold acceptError rbmError unitSize
  rw [hu]
  simp [Fin.sum_univ_two, abs_of_pos]
  norm_num

/-! ### Long times -/

/-- The configuration `s` with the spin at the site `i` flipped. -/
theorem flip_involution {n : ℕ} (i : Fin n) (s : Fin n → ℤ) :
    Function.update (Function.update s i (1 - s i)) i (1 - Function.update s i (1 - s i) i) = s := by
  funext j
  by_cases hj : j = i
  · subst hj; simp
  · simp [Function.update_of_ne hj]

theorem flip_mem {n : ℕ} (i : Fin n) (s : Fin n → ℤ) (hs : s ∈ Fintype.piFinset fun _ : Fin n => ({0, 1} : Finset ℤ)) :
    Function.update s i (1 - s i) ∈ Fintype.piFinset fun _ : Fin n => ({0, 1} : Finset ℤ) := by
  rw [Fintype.mem_piFinset] at hs ⊢
  intro j
  by_cases hj : j = i
  · subst hj
    have := hs j
    simp only [Finset.mem_insert, Finset.mem_singleton] at this
    rcases this with h | h <;> simp [h]
  · simpa [Function.update_of_ne hj] using hs j

theorem flip_connects {n : ℕ} (t : Fin n → ℤ) (ht : t ∈ Fintype.piFinset fun _ : Fin n => ({0, 1} : Finset ℤ)) (k : ℕ) :
    ∀ s ∈ Fintype.piFinset (fun _ : Fin n => ({0, 1} : Finset ℤ)), (Finset.univ.filter fun i => s i ≠ t i).card = k →
      Relation.ReflTransGen (fun a b : Fin n → ℤ => ∃ ω ∈ (Finset.univ : Finset (Fin n)), Function.update a ω (1 - a ω) = b) s t := by
  induction k with
  | zero =>
    intro s _ h
    have : s = t := by
      funext i
      by_contra hc
      have : i ∈ Finset.univ.filter fun i => s i ≠ t i := by simpa using hc
      rw [Finset.card_eq_zero.mp h] at this
      simp at this
    rw [this]
  | succ k ih =>
    intro s hs h
    obtain ⟨i, hi⟩ := Finset.card_pos.mp (by rw [h]; omega : 0 < (Finset.univ.filter fun i => s i ≠ t i).card)
    have hne : s i ≠ t i := by simpa using hi
    refine Relation.ReflTransGen.head ⟨i, Finset.mem_univ _, rfl⟩ (ih _ (flip_mem i s hs) ?_)
    have hflip : 1 - s i = t i := by
      have h1 := Fintype.mem_piFinset.mp hs i
      have h2 := Fintype.mem_piFinset.mp ht i
      simp only [Finset.mem_insert, Finset.mem_singleton] at h1 h2
      omega
    have : (Finset.univ.filter fun j => Function.update s i (1 - s i) j ≠ t j) = (Finset.univ.filter fun j => s j ≠ t j).erase i := by
      ext j
      by_cases hj : j = i
      · subst hj; simp [hflip]
      · simp [hj]
    rw [this, Finset.card_erase_of_mem hi, h]
    rfl

/-- C145: chains of spins which are flipped one at a time, with a Boltzmann machine that does not have the same modulus for all
configurations. There are `ρ < 1` and `N`, given by the exact network alone, such that for every floating point arithmetic, every
way to compute the coefficients with it and every number `k` of updates, the distance of the distribution of the chains from
`|ψ|^mu` is at most an exponentially decreasing term plus a multiple of the error of one acceptance probability. -/
theorem c145_spin_flips {n m : ℕ} (hn0 : 0 < n) (kernel : Fin n → Fin m → ℝ) (bias : Option (Fin m → ℝ)) (mu : ℝ)
    (hdiff : ∃ s ∈ Fintype.piFinset (fun _ : Fin n => ({0, 1} : Finset ℤ)),
      ∃ t ∈ Fintype.piFinset (fun _ : Fin n => ({0, 1} : Finset ℤ)), mu * realRbm kernel bias s ≠ mu * realRbm kernel bias t) (C : ℕ) :
    ∃ (ρ : ℝ) (N : ℕ), 0 ≤ ρ ∧ ρ < 1 ∧ 0 < N ∧
      ∀ (r : Rounding) (F : ElemFuns) (v : ℝ), Accurate F v → 0 ≤ v → v ≤ 1 / 2 → (n + 2) * r.u ≤ 1 / 2 → m * r.u ≤ 1 / 2 →
        ∀ (c : McConfig (Fin n → ℤ) Unit (Fin n)), c.mu = mu → (∀ ω s, c.proposer ω s = Function.update s ω (1 - s ω)) →
        (∀ s, RealRbmR r F kernel bias s (c.netRe () s)) → ∀ (e : ℝ → ℝ) (w : ℝ), ExpWithin w e →
        ∀ μ : (Fin C → Fin n → ℤ) → ℝ,
          IsDist (Fintype.piFinset fun _ : Fin C => Fintype.piFinset fun _ : Fin n => ({0, 1} : Finset ℤ)) μ → ∀ k : ℕ,
        ∑ s ∈ Fintype.piFinset (fun _ : Fin C => Fintype.piFinset fun _ : Fin n => ({0, 1} : Finset ℤ)),
          |(Spec.evolve Finset.univ (roundedStep r e c.proposer (logAccRnd r c ()))
              (Fintype.piFinset fun _ : Fin n => ({0, 1} : Finset ℤ)))^[k] μ s
            - Spec.productDist (Fintype.piFinset fun _ : Fin n => ({0, 1} : Finset ℤ))
                (fun x => Real.exp (mu * realRbm kernel bias x)) s|
        ≤ ρ ^ (k / N) * ∑ s ∈ Fintype.piFinset (fun _ : Fin C => Fintype.piFinset fun _ : Fin n => ({0, 1} : Finset ℤ)),
            |μ s - Spec.productDist (Fintype.piFinset fun _ : Fin n => ({0, 1} : Finset ℤ))
                (fun x => Real.exp (mu * realRbm kernel bias x)) s|
          + 2 * N * (C * (2 * acceptError
              (|mu| * (rbmError r.u v kernel bias + r.u * (rbmError r.u v kernel bias + ∑ j, unitSize kernel bias j)))
              (2 * ((1 + r.u) * (|mu| * (rbmError r.u v kernel bias + ∑ j, unitSize kernel bias j)))) r.u w)) / (1 - ρ) := by
  have : Nonempty (Fin n) := ⟨⟨0, hn0⟩⟩
  obtain ⟨ρ, N, h0, h1, hN, h⟩ := c134_close (Finset.univ : Finset (Fin n)) (fun ω s => Function.update s ω (1 - s ω))
    (fun s => mu * realRbm kernel bias s) Finset.univ_nonempty (Fintype.piFinset fun _ : Fin n => ({0, 1} : Finset ℤ))
    (fun ω _ s hs => flip_mem ω s hs)
    (fun s _ s' _ => by
      congr 1
      ext ω
      simp only [Finset.mem_filter, Finset.mem_univ, true_and]
      constructor
      · rintro rfl; exact flip_involution ω s
      · rintro rfl; exact flip_involution ω s')
    (fun s hs t ht => flip_connects t ht _ s hs rfl) (Or.inl hdiff) C
  refine ⟨ρ, N, h0, h1, hN, ?_⟩
  intro r F v hF hv0 hv hn hm c hmu hprop hnet e w he μ hμ k
  have hp : c.proposer = fun ω s => Function.update s ω (1 - s ω) := by funext ω s; exact hprop ω s
  have hl := c145_logs hF hv0 hv hn hm kernel bias c () (Fintype.piFinset fun _ : Fin n => ({0, 1} : Finset ℤ))
    (fun s hs i => by simpa using Fintype.mem_piFinset.mp hs i) (fun s _ => hnet s)
  rw [hmu] at hl
  rw [hp]
  exact h r e w _ _ _ he hl μ hμ k

/-- Two spins and one hidden unit: the configurations (1, 1) and (1, 0) have different coefficients. -/
example := c145_spin_flips (n := 2) (m := 1) (by norm_num) (fun (_ : Fin 2) (_ : Fin 1) => (1 : ℝ)) none 2
  ⟨![1, 1], by decide, ![1, 0], by decide, by
    unfold realRbm dense
    have h1 : (1 : ℝ) < Real.cosh 2 := Real.one_lt_cosh.mpr (by norm_num)
    have h2 := Real.log_pos h1
    simp [Fin.sum_univ_two]
    exact ⟨by linarith, by linarith, by linarith⟩⟩ 3

end JVMC
