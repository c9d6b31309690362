import Mathlib.Algebra.Field.GeomSum
import Mathlib.Tactic.LinearCombination
import Mathlib.Tactic.Linarith
import Verif.Model.Measure
import Verif.Props.Povm
import Verif.Spec.Povm

/-!
# C69: POVM observables and correlators are quantum expectation values
-/

namespace JVMC

open Spec Matrix

section sites

variable {ι n V : Type} [Fintype ι] [Fintype n] [DecidableEq n] [Fintype V] [DecidableEq V]

omit [DecidableEq n] in
theorem siteMat_mul (A B : V → Matrix n n ℂ) :
    siteMat A * siteMat B = siteMat fun k => A k * B k := by
  ext s t
  simp only [siteMat, Matrix.mul_apply, Matrix.of_apply, ← Finset.prod_mul_distrib]
  rw [Finset.prod_univ_sum]
  simp [Fintype.piFinset_univ]

omit [DecidableEq n] in
theorem siteMat_trace (A : V → Matrix n n ℂ) : (siteMat A).trace = ∏ k, (A k).trace := by
  simp only [siteMat, Matrix.trace, Matrix.diag_apply, Matrix.of_apply]
  rw [Finset.prod_univ_sum]
  simp [Fintype.piFinset_univ]

omit [Fintype n] [DecidableEq n] in
theorem siteMat_sum (c : V → ι → ℂ) (M : ι → Matrix n n ℂ) :
    ∑ a : V → ι, (∏ k, c k (a k)) • productPovm M a = siteMat fun k => ∑ b, c k b • M b := by
  ext s t
  simp only [siteMat, productPovm, Matrix.sum_apply, Matrix.smul_apply, Matrix.of_apply, smul_eq_mul,
    ← Finset.prod_mul_distrib]
  rw [Finset.prod_univ_sum]
  simp [Fintype.piFinset_univ]

omit [DecidableEq n] in
/-- The average of a product of one-site functions over the outcome distribution. -/
theorem outcome_average (c : V → ι → ℂ) (M : ι → Matrix n n ℂ) (ρ : Matrix (V → n) (V → n) ℂ) :
    ∑ a : V → ι, (∏ k, c k (a k)) * outcomeProb (productPovm M) ρ a
      = (ρ * siteMat fun k => ∑ b, c k b • M b).trace := by
  rw [← siteMat_sum, Matrix.mul_sum, Matrix.trace_sum]
  refine Finset.sum_congr rfl fun a _ => ?_
  rw [outcomeProb, Matrix.mul_smul, Matrix.trace_smul, smul_eq_mul]

theorem eq_of_trace (X Y : Matrix n n ℂ) (h : ∀ ρ : Matrix n n ℂ, (ρ * X).trace = (ρ * Y).trace) :
    X = Y := by
  ext i j
  have := h (Matrix.single j i 1)
  simpa [Matrix.trace_single_mul] using this

/-- The numbers `o` reproduce the observable: `∑ o_a M_a = A`. -/
theorem obs_decomposition [DecidableEq ι] (M : ι → Matrix n n ℂ) (hM : ∀ a, (M a).IsHermitian)
    (hc : InfComplete M) (Tinv : Matrix ι ι ℂ) (hT : povmOverlap M * Tinv = 1) (A : Matrix n n ℂ)
    (hA : A.IsHermitian) : ∑ a, ((matrixToPovmObs A M Tinv a : ℝ) : ℂ) • M a = A := by
  apply eq_of_trace
  intro ρ
  rw [← c38_observable M hM hc Tinv hT A hA ρ, Matrix.mul_sum, Matrix.trace_sum]
  refine Finset.sum_congr rfl fun a _ => ?_
  rw [outcomeProb, Matrix.mul_smul, Matrix.trace_smul, smul_eq_mul]

theorem one_average (o : ι → ℝ) (M : ι → Matrix n n ℂ) (h1 : ∑ a, M a = 1) (A : Matrix n n ℂ)
    (ho : ∑ a, ((o a : ℝ) : ℂ) • M a = A) (ρ : Matrix (V → n) (V → n) ℂ) (i : V) :
    ∑ a : V → ι, ((o (a i) : ℝ) : ℂ) * outcomeProb (productPovm M) ρ a
      = (ρ * oneSite A i).trace := by
  have := outcome_average (fun k b => if k = i then ((o b : ℝ) : ℂ) else 1) M ρ
  simp only [Finset.prod_ite_eq', Finset.mem_univ, if_true] at this
  rw [this]
  congr 2
  unfold oneSite
  congr 1
  funext k
  split
  · exact ho
  · simpa using h1

theorem two_average (o : ι → ℝ) (M : ι → Matrix n n ℂ) (h1 : ∑ a, M a = 1) (A : Matrix n n ℂ)
    (ho : ∑ a, ((o a : ℝ) : ℂ) • M a = A) (ρ : Matrix (V → n) (V → n) ℂ) (i j : V) (hij : i ≠ j) :
    ∑ a : V → ι, ((o (a i) * o (a j) : ℝ) : ℂ) * outcomeProb (productPovm M) ρ a
      = (ρ * (oneSite A i * oneSite A j)).trace := by
  have := outcome_average (fun k b => (if k = i then ((o b : ℝ) : ℂ) else 1)
    * (if k = j then ((o b : ℝ) : ℂ) else 1)) M ρ
  simp only [Finset.prod_mul_distrib, Finset.prod_ite_eq', Finset.mem_univ, if_true] at this
  push_cast
  rw [this]
  congr 2
  unfold oneSite
  rw [siteMat_mul]
  congr 1
  funext k
  by_cases hi : k = i
  · have hj : k ≠ j := fun h => hij (hi.symm.trans h)
    simp only [if_pos hi, if_neg hj, mul_one]
    exact ho
  · by_cases hj : k = j
    · simp only [if_pos hj, if_neg hi, one_mul]
      exact ho
    · simp only [if_neg hj, if_neg hi, one_mul, one_smul]
      exact h1

omit [DecidableEq V] in
theorem avg_swap {W : Type} [Fintype W] (f : V → W → ℝ) (N : ℕ) (P : W → ℂ) :
    ∑ a, (((∑ i, f i a) / N : ℝ) : ℂ) * P a = (∑ i, ∑ a, ((f i a : ℝ) : ℂ) * P a) / N := by
  rw [Finset.sum_comm, Finset.sum_div]
  refine Finset.sum_congr rfl fun a _ => ?_
  push_cast
  rw [div_mul_eq_mul_div, Finset.sum_mul]

end sites

section chain

variable {L : ℕ} [NeZero L]

/-- C69: the average of the reported observable over the outcome distribution of any state is the site
average of its quantum expectation values. -/
theorem c69_mean (M : Fin 4 → Matrix (Fin 2) (Fin 2) ℂ) (hP : IsPovm M) (hc : InfComplete M)
    (Tinv : Matrix (Fin 4) (Fin 4) ℂ) (hT : povmOverlap M * Tinv = 1)
    (A : Matrix (Fin 2) (Fin 2) ℂ) (hA : A.IsHermitian)
    (ρ : Matrix (Fin L → Fin 2) (Fin L → Fin 2) ℂ) :
    ∑ a, (((evaluateObservable1D (matrixToPovmObs A M Tinv) a).1 : ℝ) : ℂ)
        * outcomeProb (productPovm M) ρ a
      = (∑ i, (ρ * oneSite A i).trace) / L := by
  have ho := obs_decomposition M (hermitian_of_isPovm hP) hc Tinv hT A hA
  refine (avg_swap _ L _).trans ?_
  congr 1
  exact Finset.sum_congr rfl fun i _ => one_average _ M hP.2 A ho ρ i

/-- C69: for every non-zero distance `k`, the average of the reported correlator is the site average of
the quantum expectation values of the products. Missing: distance 0
(`c69_zero_distance_violated`). -/
theorem c69_correlator_partial (M : Fin 4 → Matrix (Fin 2) (Fin 2) ℂ) (hP : IsPovm M)
    (hc : InfComplete M) (Tinv : Matrix (Fin 4) (Fin 4) ℂ) (hT : povmOverlap M * Tinv = 1)
    (A : Matrix (Fin 2) (Fin 2) ℂ) (hA : A.IsHermitian)
    (ρ : Matrix (Fin L → Fin 2) (Fin L → Fin 2) ℂ) (k : Fin L) (hk : k ≠ 0) :
    ∑ a, (((evaluateObservable1D (matrixToPovmObs A M Tinv) a).2 k : ℝ) : ℂ)
        * outcomeProb (productPovm M) ρ a
      = (∑ i, (ρ * (oneSite A i * oneSite A (i - k))).trace) / L := by
  have ho := obs_decomposition M (hermitian_of_isPovm hP) hc Tinv hT A hA
  refine (avg_swap (fun i (a : Fin L → Fin 4) => matrixToPovmObs A M Tinv (a i)
    * matrixToPovmObs A M Tinv (a (i - k))) L _).trans ?_
  congr 1
  exact Finset.sum_congr rfl fun i _ => two_average _ M hP.2 A ho ρ i (i - k)
    fun h => hk (sub_eq_self.mp h.symm)

/-- C69 on the square lattice: site average of the observable, and correlators along the first axis. -/
theorem c69_square_partial (M : Fin 4 → Matrix (Fin 2) (Fin 2) ℂ) (hP : IsPovm M)
    (hc : InfComplete M) (Tinv : Matrix (Fin 4) (Fin 4) ℂ) (hT : povmOverlap M * Tinv = 1)
    (A : Matrix (Fin 2) (Fin 2) ℂ) (hA : A.IsHermitian)
    (ρ : Matrix (Fin L × Fin L → Fin 2) (Fin L × Fin L → Fin 2) ℂ) :
    ∑ a, (((evaluateObservable2D (matrixToPovmObs A M Tinv) a).1 : ℝ) : ℂ)
        * outcomeProb (productPovm M) ρ a
      = (∑ i, (ρ * oneSite A i).trace) / (L * L : ℕ) ∧
    ∀ k, k ≠ 0 →
      ∑ a, (((evaluateObservable2D (matrixToPovmObs A M Tinv) a).2 k : ℝ) : ℂ)
          * outcomeProb (productPovm M) ρ a
        = (∑ i : Fin L × Fin L, (ρ * (oneSite A i * oneSite A (i.1 - k, i.2))).trace)
          / (L * L : ℕ) := by
  have ho := obs_decomposition M (hermitian_of_isPovm hP) hc Tinv hT A hA
  constructor
  · refine (avg_swap _ (L * L) _).trans ?_
    congr 1
    exact Finset.sum_congr rfl fun i _ => one_average _ M hP.2 A ho ρ i
  · intro k hk
    refine (avg_swap (fun (i : Fin L × Fin L) (a : Fin L × Fin L → Fin 4) =>
      matrixToPovmObs A M Tinv (a i) * matrixToPovmObs A M Tinv (a (i.1 - k, i.2))) (L * L) _).trans ?_
    congr 1
    exact Finset.sum_congr rfl fun i _ => two_average _ M hP.2 A ho ρ i (i.1 - k, i.2)
      fun h => hk (sub_eq_self.mp (congrArg Prod.fst h).symm)

/-- Non-vacuity: the SIC measurement at any angles, every Pauli observable. -/
example (θ φ : ℝ) (k : Fin 3) : ∃ M, getM θ φ "SIC" = .ok M ∧ IsPovm M ∧ InfComplete M ∧
    povmOverlap M * povmTInv M = 1 ∧ (getPaulis k).IsHermitian := by
  obtain ⟨M, h1, h2, _, h3, h4⟩ := sic_hypotheses θ φ
  refine ⟨M, h1, h2, h3, h4, ?_⟩
  ext i j
  fin_cases k <;> fin_cases i <;> fin_cases j <;> simp [getPaulis]

/-! At distance 0 the reported number is the average of `o(a_i)²`, which is not `Tr(ρ A²)`. -/

theorem sic_columns : sicVectorsᵀ * sicVectors = (4 / 3 : ℝ) • (1 : Matrix (Fin 3) (Fin 3) ℝ) := by
  have h2 : Real.sqrt 2 * Real.sqrt 2 = 2 := Real.mul_self_sqrt (by norm_num)
  have h3 : Real.sqrt (2 / 3) * Real.sqrt (2 / 3) = 2 / 3 := Real.mul_self_sqrt (by norm_num)
  generalize hx : Real.sqrt 2 = x at h2
  generalize hy : Real.sqrt (2 / 3) = y at h3
  ext i j
  fin_cases i <;> fin_cases j <;>
    simp [sicVectors, Matrix.mul_apply, Fin.sum_univ_four, hx, hy] <;> nlinarith

theorem povm_columns (θ φ : ℝ) (k : Fin 3) :
    ∑ a, povmVectors θ φ a k * povmVectors θ φ a k = 4 / 3 := by
  have h : (povmVectors θ φ)ᵀ * povmVectors θ φ = (4 / 3 : ℝ) • (1 : Matrix (Fin 3) (Fin 3) ℝ) := by
    unfold povmVectors
    rw [Matrix.transpose_mul, Matrix.mul_assoc, ← Matrix.mul_assoc (sicVectorsᵀ), sic_columns,
      Matrix.smul_mul, Matrix.one_mul, Matrix.mul_smul, mul_eq_one_comm.mp (rot_orthogonal θ φ)]
  have := congrFun (congrFun h k) k
  simpa [Matrix.mul_apply] using this

theorem trace_bloch_pauli (v : Fin 3 → ℝ) (k : Fin 3) :
    (blochElement v * getPaulis k).trace = ((v k / 2 : ℝ) : ℂ) := by
  rw [blochElement_entries]
  fin_cases k
  · simp [getPaulis, Matrix.trace, Fin.sum_univ_two]; ring
  · simp [getPaulis, Matrix.trace, Fin.sum_univ_two]
    linear_combination (-(v 1 : ℂ) / 2) * Complex.I_mul_I
  · simp [getPaulis, Matrix.trace, Fin.sum_univ_two]; ring

/-- The values of the Pauli observables: three times the Bloch vectors of the outcomes. -/
theorem sic_observable (θ φ : ℝ) (k : Fin 3) (Tinv : Matrix (Fin 4) (Fin 4) ℂ)
    (hT : povmOverlap (fun a => blochElement (povmVectors θ φ a)) * Tinv = 1) (a : Fin 4) :
    matrixToPovmObs (getPaulis k) (fun a => blochElement (povmVectors θ φ a)) Tinv a
      = 3 * povmVectors θ φ a k := by
  set M : Fin 4 → Matrix (Fin 2) (Fin 2) ℂ := fun a => blochElement (povmVectors θ φ a) with hM
  set v := povmVectors θ φ with hv
  have ht : (fun b => (M b * getPaulis k).trace)
      = povmOverlap M *ᵥ (fun b => ((3 * v b k : ℝ) : ℂ)) := by
    funext b
    have e : ∀ c, povmOverlap M b c = ((1 + (if b = c then 1 else -1 / 3) : ℝ) : ℂ) / 8 := by
      intro c
      rw [povmOverlap_eq_trace, hM]
      simp only
      rw [trace_blochElements, povm_gram]
    simp only [Matrix.mulVec, dotProduct, e]
    rw [hM]
    simp only
    rw [trace_bloch_pauli]
    have hs := povm_sum θ φ k
    rw [← hv, Fin.sum_univ_four] at hs
    have hr : v b k / 2 = ∑ c, (1 + (if b = c then 1 else -1 / 3 : ℝ)) / 8 * (3 * v c k) := by
      fin_cases b <;> simp [Fin.sum_univ_four] <;> linarith
    rw [hr]
    push_cast
    rfl
  rw [matrixToPovmObs_eq]
  have h2 : (∑ b, Tinv a b * (M b * getPaulis k).trace)
      = (Tinv *ᵥ (fun b => (M b * getPaulis k).trace)) a := rfl
  rw [h2, ht, Matrix.mulVec_mulVec, mul_eq_one_comm.mp hT, Matrix.one_mulVec]
  exact Complex.ofReal_re _

theorem trace_bloch (v : Fin 3 → ℝ) : (blochElement v).trace = 1 / 2 := by
  rw [blochElement_entries]
  simp [Matrix.trace, Fin.sum_univ_two]; ring

/-- The maximally mixed state of the chain. -/
noncomputable def mixedState (L : ℕ) : Matrix (Fin L → Fin 2) (Fin L → Fin 2) ℂ :=
  siteMat fun _ => (1 / 2 : ℂ) • 1

/-- C69 is violated at distance 0: for the SIC measurement at any angles, every Pauli matrix and every
chain length, the average of the correlator `L0` in the maximally mixed state is 3 instead of 1. -/
theorem c69_zero_distance_violated (θ φ : ℝ) (k : Fin 3) : ∃ M, getM θ φ "SIC" = .ok M ∧
    ∑ a, (((evaluateObservable1D (matrixToPovmObs (getPaulis k) M (povmTInv M)) a).2 0 : ℝ) : ℂ)
        * outcomeProb (productPovm M) (mixedState L) a = 3 ∧
    (∑ i : Fin L, (mixedState L * (oneSite (getPaulis k) i * oneSite (getPaulis k) i)).trace) / L
      = 1 := by
  obtain ⟨M, hM, hP, _, hc, hT⟩ := sic_hypotheses θ φ
  have hL : (L : ℂ) ≠ 0 := by exact_mod_cast NeZero.ne L
  have hMe : M = fun a => blochElement (povmVectors θ φ a) := by
    rw [getM_sic] at hM
    exact (Except.ok.inj hM).symm
  have hhalf : ∀ k : Fin L, ((1 / 2 : ℂ) • (1 : Matrix (Fin 2) (Fin 2) ℂ)).trace = 1 := by
    intro _; simp [Matrix.trace_smul]
  refine ⟨M, hM, ?_, ?_⟩
  · refine (avg_swap (fun i (a : Fin L → Fin 4) => matrixToPovmObs (getPaulis k) M (povmTInv M) (a i)
      * matrixToPovmObs (getPaulis k) M (povmTInv M) (a (i - 0))) L _).trans ?_
    have key : ∀ i : Fin L, ∑ a : Fin L → Fin 4,
        ((matrixToPovmObs (getPaulis k) M (povmTInv M) (a i)
          * matrixToPovmObs (getPaulis k) M (povmTInv M) (a (i - 0)) : ℝ) : ℂ)
        * outcomeProb (productPovm M) (mixedState L) a = 3 := by
      intro i
      have := outcome_average (fun l b => if l = i then
        (((matrixToPovmObs (getPaulis k) M (povmTInv M) b) ^ 2 : ℝ) : ℂ) else 1) M (mixedState L)
      simp only [Finset.prod_ite_eq', Finset.mem_univ, if_true] at this
      simp only [sub_zero, ← pow_two]
      rw [this, mixedState, siteMat_mul, siteMat_trace, Finset.prod_eq_single i]
      · simp only [if_true, Matrix.smul_mul, Matrix.one_mul, Matrix.trace_smul, Matrix.trace_sum,
          smul_eq_mul]
        have ht : ∀ b, (M b).trace = 1 / 2 := by
          intro b; rw [hMe]; exact trace_bloch _
        have ho : ∀ b, matrixToPovmObs (getPaulis k) M (povmTInv M) b = 3 * povmVectors θ φ b k := by
          intro b
          subst hMe
          exact sic_observable θ φ k _ hT b
        simp only [ht, ho]
        have hr : (1 / 2 : ℝ) * ∑ b, (3 * povmVectors θ φ b k) ^ 2 * (1 / 2) = 3 := by
          have := povm_columns θ φ k
          rw [← Finset.sum_mul]
          have e : ∑ b, (3 * povmVectors θ φ b k) ^ 2
              = 9 * ∑ b, povmVectors θ φ b k * povmVectors θ φ b k := by
            rw [Finset.mul_sum]
            exact Finset.sum_congr rfl fun b _ => by ring
          rw [e, this]; norm_num
        have := congrArg (fun x : ℝ => (x : ℂ)) hr
        push_cast at this ⊢
        exact this
      · intro l _ hl
        simp only [if_neg hl, one_smul, hP.2, Matrix.mul_one]
        exact hhalf l
      · intro h; exact absurd (Finset.mem_univ i) h
    rw [Finset.sum_congr rfl fun i _ => key i]
    simp [hL]
  · have key : ∀ i : Fin L,
        (mixedState L * (oneSite (getPaulis k) i * oneSite (getPaulis k) i)).trace = 1 := by
      intro i
      have hsq : getPaulis k * getPaulis k = 1 := by
        ext i j
        fin_cases k <;> fin_cases i <;> fin_cases j <;> simp [getPaulis]
      unfold oneSite
      rw [siteMat_mul, mixedState, siteMat_mul, siteMat_trace]
      apply Finset.prod_eq_one
      intro l _
      by_cases hl : l = i
      · simp only [if_pos hl, hsq, Matrix.mul_one]; exact hhalf l
      · simp only [if_neg hl, Matrix.mul_one]; exact hhalf l
    rw [Finset.sum_congr rfl fun i _ => key i]
    simp [hL]

end chain

end JVMC
