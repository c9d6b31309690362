import Verif.Props.SymRbm

/-!
# C147 — Markov chains of a symmetrised Boltzmann machine with rounding errors
-/

namespace JVMC

open Spec

/-- The logarithm of a weighted sum of amplitudes is no larger than their logarithms and those of the weights. -/
theorem logSum_abs_le {K : ℕ} (hK : 0 < K) {c b : Fin K → ℝ} {M Λ : ℝ} (hM : ∀ k, |c k| ≤ M) (hb : WeightsWithin b Λ) :
    |logSum c b| ≤ Λ + M := by
  have : Nonempty (Fin K) := ⟨⟨0, hK⟩⟩
  have hbpos : ∀ k, 0 < b k := fun k => (Real.exp_pos _).trans_le (hb.1 k)
  have hpos : 0 < ∑ k, b k * Real.exp (c k) := Finset.sum_pos (fun k _ => mul_pos (hbpos k) (Real.exp_pos _)) Finset.univ_nonempty
  unfold logSum
  rw [abs_le]
  constructor
  · rw [Real.le_log_iff_exp_le hpos, neg_add, Real.exp_add]
    refine le_trans ?_ (Finset.single_le_sum (f := fun k => b k * Real.exp (c k)) (fun k _ => (mul_pos (hbpos k) (Real.exp_pos _)).le)
      (Finset.mem_univ ⟨0, hK⟩))
    exact mul_le_mul (hb.1 _) (Real.exp_le_exp.mpr (abs_le.mp (hM _)).1) (Real.exp_pos _).le (hbpos _).le
  · rw [Real.log_le_iff_le_exp hpos, Real.exp_add]
    refine le_trans (Finset.sum_le_sum fun k _ => mul_le_mul_of_nonneg_left (Real.exp_le_exp.mpr (abs_le.mp (hM k)).2) (hbpos k).le) ?_
    rw [← Finset.sum_mul]
    exact mul_le_mul_of_nonneg_right hb.2 (Real.exp_pos _).le

/-- C147: Markov chains whose symmetrised Boltzmann machine and whose acceptance decisions are computed with rounding errors. After
`k` updates of `C` chains their distribution differs from the one of exact arithmetic by at most `2 k C` times the error of one
acceptance probability, where `E` is the bound of `c147_rbm` and `B` the size of the coefficients. -/
theorem c147_chains {r : Rounding} {F : ElemFuns} {v : ℝ} (hF : Accurate F v) (hv0 : 0 ≤ v) (hv : v ≤ 1 / 2) {n m K : ℕ}
    (hn : (n + 2) * r.u ≤ 1 / 2) (hm : m * r.u ≤ 1 / 2) (hK : 0 < K) (kernel : Fin n → Fin m → ℝ) (bias : Option (Fin m → ℝ))
    (orbit : Fin K → Matrix (Fin n) (Fin n) ℤ) {b : Fin K → ℝ} {Λ : ℝ} (hb : WeightsWithin b Λ) {P Key : Type}
    (c : McConfig (Fin n → ℤ) P Key) (params : P) (X : Finset (Fin n → ℤ))
    (hX : ∀ s ∈ X, ∀ k i, spinImage (orbit k) s i = 0 ∨ spinImage (orbit k) s i = 1)
    (hnet : ∀ s ∈ X, SymNetR (RealRbmR r F kernel bias) (fun c => LogSumExpR r F c b) orbit s (c.netRe params s))
    (e : ℝ → ℝ) (w : ℝ) (he : ExpWithin w e) (W : Finset Key) (hW : W.Nonempty) (hprop : ∀ ω ∈ W, ∀ s ∈ X, c.proposer ω s ∈ X)
    {C : ℕ} (μ : (Fin C → Fin n → ℤ) → ℝ) (hμ : IsDist (Fintype.piFinset fun _ : Fin C => X) μ) (k : ℕ) (E B : ℝ)
    (hE : E = rbmError r.u v kernel bias + symError r.u v (rbmError r.u v kernel bias + ∑ j, unitSize kernel bias j) Λ K)
    (hB : B = E + (Λ + ∑ j, unitSize kernel bias j)) :
    ∑ s ∈ Fintype.piFinset (fun _ : Fin C => X),
        |(Spec.evolve W (roundedStep r e c.proposer (logAccRnd r c params)) X)^[k] μ s
          - (Spec.evolve W (metropolisStep c.proposer fun s =>
              c.mu * Real.log (∑ k, b k * Real.exp (realRbm kernel bias (spinImage (orbit k) s)))) X)^[k] μ s|
      ≤ k * (C * (2 * acceptError (|c.mu| * (E + r.u * B)) (2 * ((1 + r.u) * (|c.mu| * B))) r.u w)) := by
  have h1 : ∀ s ∈ X, |c.netRe params s - Real.log (∑ k, b k * Real.exp (realRbm kernel bias (spinImage (orbit k) s)))| ≤ E := by
    intro s hs
    rw [hE]
    exact c147_rbm hF hv0 hv hn hm hK kernel bias orbit s (hX s hs) hb _ (hnet s hs)
  refine c134_drift W c.proposer _ r e w he hW X hprop _ _ _ (c134_logs r c params X _ E B h1 fun s hs => ?_) μ hμ k
  have h2 := logSum_abs_le hK (c := fun k => realRbm kernel bias (spinImage (orbit k) s)) (M := ∑ j, unitSize kernel bias j)
    (fun k => by
      obtain ⟨g1, g2⟩ := realRbm_range kernel bias _ (hX s hs k)
      rw [abs_of_nonneg g1]
      exact g2) hb
  unfold logSum at h2
  have h3 := abs_add_le (c.netRe params s - Real.log (∑ k, b k * Real.exp (realRbm kernel bias (spinImage (orbit k) s))))
    (Real.log (∑ k, b k * Real.exp (realRbm kernel bias (spinImage (orbit k) s))))
  rw [sub_add_cancel] at h3
  have := h1 s hs
  rw [hB]
  linarith

/-- Two chains of two spins that can be exchanged, with one hidden unit in double precision: one of the spins is flipped, and the
coefficients are any ones which the machine can compute. -/
example : ∃ net : Unit → (Fin 2 → ℤ) → ℝ, ∃ ε : ℝ, ε ≤ 1 / 10 ^ 8 ∧
    (∑ s ∈ Fintype.piFinset (fun _ : Fin 2 => Fintype.piFinset fun _ : Fin 2 => ({0, 1} : Finset ℤ)),
      |(Spec.evolve Finset.univ (roundedStep Rounding.double Real.exp (fun (ω : Fin 2) s => Function.update s ω (1 - s ω))
            (logAccRnd Rounding.double (K := Fin 2) { rng := { split := fun k _ _ => k, uniform := fun _ _ => 1 / 2 }
                                                      proposer := fun ω s => Function.update s ω (1 - s ω)
                                                      netRe := net, mu := 2, thermSweeps := 1, sweepSteps := 1, numChains := 2 } ()))
          (Fintype.piFinset fun _ : Fin 2 => ({0, 1} : Finset ℤ)))^[1000] (fun s => if s = 0 then 1 else 0) s
        - (Spec.evolve Finset.univ (metropolisStep (fun (ω : Fin 2) s => Function.update s ω (1 - s ω)) fun s =>
            2 * Real.log (∑ k : Fin 2, 1 * Real.exp (realRbm (fun (i : Fin 2) (_ : Fin 1) => if i = 0 then 1 / 2 else -1) (some fun _ => 1 / 4)
              (spinImage ((![!![1, 0; 0, 1], !![0, 1; 1, 0]] : Fin 2 → Matrix (Fin 2) (Fin 2) ℤ) k) s))))
          (Fintype.piFinset fun _ : Fin 2 => ({0, 1} : Finset ℤ)))^[1000] (fun s => if s = 0 then 1 else 0) s|) ≤ ε := by
  have hN := fun s => (c147_exists Rounding.double (roundedFuns Rounding.double) (K := 2) (by norm_num)
    (RealRbmR Rounding.double (roundedFuns Rounding.double) (fun (i : Fin 2) (_ : Fin 1) => if i = 0 then (1 / 2 : ℝ) else -1)
      (some fun _ => 1 / 4)) (fun s => c145_exists _ _ _ _ s) ![!![1, 0; 0, 1], !![0, 1; 1, 0]] (fun _ => 1) s).1
  choose net hnet using hN
  have hu : Rounding.double.u = (2 : ℝ) ^ (-53 : ℤ) := rfl
  have h := c147_chains (roundedFuns_accurate Rounding.double) Rounding.double.u_nonneg (by rw [hu]; norm_num) (n := 2) (m := 1)
    (by rw [hu]; norm_num) (by rw [hu]; norm_num) (by norm_num) (fun (i : Fin 2) (_ : Fin 1) => if i = 0 then (1 / 2 : ℝ) else -1)
    (some fun _ => 1 / 4) ![!![1, 0; 0, 1], !![0, 1; 1, 0]] (b := fun _ => 1) (Λ := 1)
    ⟨fun _ => Real.exp_le_one_iff.mpr (by norm_num), by
      have := Real.add_one_le_exp (1 : ℝ)
      simp
      linarith⟩
    (P := Unit) (Key := Fin 2) { rng := { split := fun k _ _ => k, uniform := fun _ _ => 1 / 2 }
                                 proposer := fun ω s => Function.update s ω (1 - s ω)
                                 netRe := fun _ => net, mu := 2, thermSweeps := 1, sweepSteps := 1, numChains := 2 } ()
    (Fintype.piFinset fun _ : Fin 2 => ({0, 1} : Finset ℤ)) (by decide)
    (fun s _ => hnet s) Real.exp 0 (expWithin_exp 0 le_rfl) Finset.univ (by simp) (fun ω _ s hs => flip_mem ω s hs)
    (C := 2) (fun s => if s = 0 then 1 else 0)
    ⟨fun s _ => by dsimp only; split_ifs <;> norm_num, by rw [Finset.sum_ite_eq', if_pos (by simp)]⟩ 1000 _ _ rfl rfl
  refine ⟨fun _ => net, _, ?_, h⟩
  unfold acceptError symError ampSumError rbmError unitSize
  rw [hu]
  simp [Fin.sum_univ_two, abs_of_pos]
  norm_num

end JVMC
