import Verif.Model.Povm
import Verif.Spec.Povm
import Mathlib.LinearAlgebra.FiniteDimensional.Lemmas
import Mathlib.LinearAlgebra.Dimension.Constructions
import Mathlib.LinearAlgebra.Matrix.Basis
import Mathlib.Tactic.Ring
import Mathlib.Tactic.Linarith
import Mathlib.Tactic.FinCases
import Mathlib.Tactic.NormNum
import Mathlib.Tactic.LinearCombination
import Mathlib.Tactic.FieldSimp

/-!
# Lemmas about the POVM matrices
-/

namespace JVMC

open Matrix Spec

variable {ι n : Type} [Fintype ι] [Fintype n]

omit [Fintype ι] in
theorem povmOverlap_eq_trace (M : ι → Matrix n n ℂ) (a b : ι) :
    povmOverlap M a b = (M a * M b).trace := by
  simp [povmOverlap, Matrix.trace, Matrix.mul_apply]

omit [Fintype ι] in
theorem povmOverlap_comm (M : ι → Matrix n n ℂ) (a b : ι) :
    povmOverlap M a b = povmOverlap M b a := by
  rw [povmOverlap_eq_trace, povmOverlap_eq_trace, Matrix.trace_mul_comm]

theorem einsum_one (A : Matrix n n ℂ) (t : ι → ℂ) (M : ι → Matrix n n ℂ) (B : Matrix n n ℂ) :
    (∑ i, ∑ j, ∑ c, ∑ k, A i j * t c * M c j k * B k i)
      = ∑ c, t c * (A * M c * B).trace := by
  have h : ∀ c, t c * (A * M c * B).trace
      = ∑ i, ∑ j, ∑ k, A i j * t c * M c j k * B k i := by
    intro c
    simp only [Matrix.trace, Matrix.diag_apply, Matrix.mul_apply, Finset.mul_sum, Finset.sum_mul]
    refine Finset.sum_congr rfl fun i _ => ?_
    rw [Finset.sum_comm]
    refine Finset.sum_congr rfl fun j _ => Finset.sum_congr rfl fun k _ => ?_
    ring
  simp only [h]
  symm
  rw [Finset.sum_comm]
  refine Finset.sum_congr rfl fun i _ => ?_
  rw [Finset.sum_comm]

theorem einsum_two (A : Matrix n n ℂ) (t : ι → ℂ) (M : ι → Matrix n n ℂ) (B : Matrix n n ℂ) :
    (∑ i, ∑ j, ∑ k, ∑ c, A i j * B j k * t c * M c k i)
      = ∑ c, t c * (A * B * M c).trace := by
  have h : ∀ c, t c * (A * B * M c).trace
      = ∑ i, ∑ j, ∑ k, A i j * B j k * t c * M c k i := by
    intro c
    simp only [Matrix.trace, Matrix.diag_apply, Matrix.mul_apply, Finset.mul_sum, Finset.sum_mul]
    refine Finset.sum_congr rfl fun i _ => ?_
    rw [Finset.sum_comm]
    refine Finset.sum_congr rfl fun j _ => Finset.sum_congr rfl fun k _ => ?_
    ring
  simp only [h]
  symm
  rw [Finset.sum_comm]
  refine Finset.sum_congr rfl fun i _ => ?_
  rw [Finset.sum_comm]
  refine Finset.sum_congr rfl fun j _ => ?_
  rw [Finset.sum_comm]

theorem einsum_three (A : Matrix n n ℂ) (t : ι → ℂ) (M : ι → Matrix n n ℂ) (B C : Matrix n n ℂ) :
    (∑ i, ∑ j, ∑ c, ∑ k, ∑ l, A i j * t c * M c j k * B k l * C l i)
      = ∑ c, t c * (A * M c * B * C).trace := by
  simp only [Matrix.mul_assoc _ B C]
  rw [← einsum_one A t M (B * C)]
  refine Finset.sum_congr rfl fun i _ => Finset.sum_congr rfl fun j _ =>
    Finset.sum_congr rfl fun c _ => Finset.sum_congr rfl fun k _ => ?_
  rw [Matrix.mul_apply, Finset.mul_sum]
  refine Finset.sum_congr rfl fun l _ => ?_
  ring

theorem einsum_four (A B : Matrix n n ℂ) (t : ι → ℂ) (M : ι → Matrix n n ℂ) (C : Matrix n n ℂ) :
    (∑ i, ∑ j, ∑ k, ∑ c, ∑ l, A i j * B j k * t c * M c k l * C l i)
      = ∑ c, t c * (A * B * M c * C).trace := by
  rw [← einsum_one (A * B) t M C]
  refine Finset.sum_congr rfl fun i _ => ?_
  rw [Finset.sum_comm]
  refine Finset.sum_congr rfl fun k _ => ?_
  rw [Finset.sum_comm]
  refine Finset.sum_congr rfl fun c _ => ?_
  rw [Finset.sum_comm]
  refine Finset.sum_congr rfl fun l _ => ?_
  rw [Matrix.mul_apply]
  simp only [Finset.sum_mul]

theorem einsum_five (A B C : Matrix n n ℂ) (t : ι → ℂ) (M : ι → Matrix n n ℂ) :
    (∑ i, ∑ j, ∑ k, ∑ l, ∑ c, A i j * B j k * C k l * t c * M c l i)
      = ∑ c, t c * (A * B * C * M c).trace := by
  rw [← einsum_two (A * B) t M C]
  refine Finset.sum_congr rfl fun i _ => ?_
  rw [Finset.sum_comm]
  refine Finset.sum_congr rfl fun k _ => ?_
  rw [Finset.sum_comm]
  refine Finset.sum_congr rfl fun l _ => ?_
  rw [Finset.sum_comm]
  refine Finset.sum_congr rfl fun c _ => ?_
  rw [Matrix.mul_apply]
  simp only [Finset.sum_mul]

theorem einsum_obs (t : ι → ℂ) (M : ι → Matrix n n ℂ) (A : Matrix n n ℂ) :
    (∑ b, ∑ i, ∑ j, t b * M b i j * A j i) = ∑ b, t b * (M b * A).trace := by
  refine Finset.sum_congr rfl fun b _ => ?_
  simp only [Matrix.trace, Matrix.diag_apply, Matrix.mul_apply, Finset.mul_sum]
  refine Finset.sum_congr rfl fun i _ => Finset.sum_congr rfl fun j _ => ?_
  ring

/-- The complex number whose real part is the entry of `matrixToPovmUni`. -/
theorem matrixToPovmUni_eq (A : Matrix n n ℂ) (M : ι → Matrix n n ℂ) (Tinv : Matrix ι ι ℂ)
    (a b : ι) :
    matrixToPovmUni A M Tinv a b
      = (∑ c, Tinv b c * (-Complex.I * ((A * M c * M a).trace - (A * M a * M c).trace))).re := by
  unfold matrixToPovmUni
  rw [einsum_one A (fun c => Tinv b c) M (M a), einsum_two A (fun c => Tinv b c) M (M a),
    Finset.mul_sum, Finset.mul_sum, ← Finset.sum_add_distrib]
  congr 1
  refine Finset.sum_congr rfl fun c _ => ?_
  ring

theorem matrixToPovmImag_eq (A : Matrix n n ℂ) (M : ι → Matrix n n ℂ) (Tinv : Matrix ι ι ℂ)
    (a b : ι) :
    matrixToPovmImag A M Tinv a b
      = (∑ c, Tinv b c * (-((A * M c * M a).trace + (A * M a * M c).trace))).re := by
  unfold matrixToPovmImag
  rw [einsum_one A (fun c => Tinv b c) M (M a), einsum_two A (fun c => Tinv b c) M (M a),
    ← Finset.sum_neg_distrib, ← Finset.sum_sub_distrib]
  congr 1
  refine Finset.sum_congr rfl fun c _ => ?_
  ring

theorem matrixToPovmDis_eq (A : Matrix n n ℂ) (M : ι → Matrix n n ℂ) (Tinv : Matrix ι ι ℂ)
    (a b : ι) :
    matrixToPovmDis A M Tinv a b
      = (∑ c, Tinv b c * ((A * M c * Aᴴ * M a).trace
          - (1 / 2) * ((Aᴴ * A * M c * M a).trace + (Aᴴ * A * M a * M c).trace))).re := by
  unfold matrixToPovmDis
  rw [einsum_three A (fun c => Tinv b c) M Aᴴ (M a), einsum_four Aᴴ A (fun c => Tinv b c) M (M a),
    einsum_five Aᴴ A (M a) (fun c => Tinv b c) M,
    Finset.mul_sum, Finset.mul_sum, ← Finset.sum_sub_distrib, ← Finset.sum_sub_distrib]
  congr 1
  refine Finset.sum_congr rfl fun c _ => ?_
  ring

theorem matrixToPovmObs_eq (A : Matrix n n ℂ) (M : ι → Matrix n n ℂ) (Tinv : Matrix ι ι ℂ)
    (a : ι) :
    matrixToPovmObs A M Tinv a = (∑ b, Tinv a b * (M b * A).trace).re := by
  unfold matrixToPovmObs
  rw [einsum_obs]

/-! ## Reality -/

omit [Fintype ι] in
theorem conj_trace (X : Matrix n n ℂ) : (starRingEnd ℂ) X.trace = Xᴴ.trace := by
  rw [Matrix.trace_conjTranspose]; rfl

theorem ofReal_re_of_conj {z : ℂ} (h : (starRingEnd ℂ) z = z) : ((z.re : ℝ) : ℂ) = z :=
  Complex.conj_eq_iff_re.mp h

omit [Fintype ι] in
theorem povmOverlap_real (M : ι → Matrix n n ℂ) (hM : ∀ a, (M a).IsHermitian) (a b : ι) :
    (starRingEnd ℂ) (povmOverlap M a b) = povmOverlap M a b := by
  rw [povmOverlap_eq_trace, conj_trace, Matrix.conjTranspose_mul, (hM a).eq, (hM b).eq,
    Matrix.trace_mul_comm]

variable [DecidableEq ι]

theorem tinv_real (M : ι → Matrix n n ℂ) (hM : ∀ a, (M a).IsHermitian) (Tinv : Matrix ι ι ℂ)
    (hT : povmOverlap M * Tinv = 1) (a b : ι) : (starRingEnd ℂ) (Tinv a b) = Tinv a b := by
  have h1 : povmOverlap M * Tinv.map (starRingEnd ℂ) = 1 := by
    have hTr : (povmOverlap M).map (starRingEnd ℂ) = povmOverlap M := by
      ext a b; exact povmOverlap_real M hM a b
    calc povmOverlap M * Tinv.map (starRingEnd ℂ)
        = (povmOverlap M).map (starRingEnd ℂ) * Tinv.map (starRingEnd ℂ) := by rw [hTr]
      _ = (povmOverlap M * Tinv).map (starRingEnd ℂ) := (Matrix.map_mul).symm
      _ = 1 := by rw [hT]; simp
  have h2 : Tinv * povmOverlap M = 1 := mul_eq_one_comm.mp hT
  have h3 : Tinv.map (starRingEnd ℂ) = Tinv := by
    calc Tinv.map (starRingEnd ℂ) = (Tinv * povmOverlap M) * Tinv.map (starRingEnd ℂ) := by
          rw [h2, Matrix.one_mul]
      _ = Tinv := by rw [Matrix.mul_assoc, h1, Matrix.mul_one]
  exact congrFun (congrFun h3 a) b

/-! ## Reconstruction of the state -/

theorem reconstruct [DecidableEq n] (M : ι → Matrix n n ℂ) (hc : InfComplete M)
    (Tinv : Matrix ι ι ℂ) (hT : povmOverlap M * Tinv = 1) (ρ : Matrix n n ℂ) :
    ρ = ∑ b, ∑ c, (outcomeProb M ρ b * Tinv b c) • M c := by
  apply hc
  funext a
  have h2 : Tinv * povmOverlap M = 1 := mul_eq_one_comm.mp hT
  have : outcomeProb M (∑ b, ∑ c, (outcomeProb M ρ b * Tinv b c) • M c) a
      = ∑ b, outcomeProb M ρ b * (Tinv * povmOverlap M) b a := by
    conv_lhs => unfold outcomeProb
    simp only [Finset.sum_mul, Matrix.trace_sum, Matrix.smul_mul, Matrix.trace_smul, smul_eq_mul]
    refine Finset.sum_congr rfl fun b _ => ?_
    rw [Matrix.mul_apply, Finset.mul_sum]
    refine Finset.sum_congr rfl fun c _ => ?_
    rw [povmOverlap_eq_trace]
    unfold outcomeProb
    ring
  rw [this, h2]
  simp [Matrix.one_apply]

/-- A linear functional of the state, expressed through the outcome probabilities. -/
theorem functional_eq [DecidableEq n] (M : ι → Matrix n n ℂ) (hc : InfComplete M)
    (Tinv : Matrix ι ι ℂ) (hT : povmOverlap M * Tinv = 1) (ρ : Matrix n n ℂ)
    (φ : Matrix n n ℂ →ₗ[ℂ] ℂ) :
    φ ρ = ∑ b, (∑ c, Tinv b c * φ (M c)) * outcomeProb M ρ b := by
  conv_lhs => rw [reconstruct M hc Tinv hT ρ]
  simp only [map_sum, map_smul, smul_eq_mul, Finset.sum_mul]
  refine Finset.sum_congr rfl fun b _ => Finset.sum_congr rfl fun c _ => ?_
  ring

/-- Linearly independent outcomes in the right number determine the state. -/
theorem infComplete_of_card [DecidableEq n] (M : ι → Matrix n n ℂ)
    (Tinv : Matrix ι ι ℂ) (hT : povmOverlap M * Tinv = 1)
    (hcard : Fintype.card ι = Fintype.card n * Fintype.card n) : InfComplete M := by
  have hli : LinearIndependent ℂ M := by
    rw [Fintype.linearIndependent_iff]
    intro g hg
    have h1 : Matrix.vecMul g (povmOverlap M) = 0 := by
      funext b
      have : (∑ a, g a • M a) * M b = 0 := by rw [hg, Matrix.zero_mul]
      have h := congrArg Matrix.trace this
      simp only [Finset.sum_mul, Matrix.trace_sum, Matrix.smul_mul, Matrix.trace_smul,
        smul_eq_mul, Matrix.trace_zero] at h
      simp only [Matrix.vecMul, dotProduct, Pi.zero_apply]
      rw [← h]
      exact Finset.sum_congr rfl fun a _ => by rw [povmOverlap_eq_trace]
    have h2 : g = 0 := by
      have := congrArg (fun v => Matrix.vecMul v Tinv) h1
      simpa [Matrix.vecMul_vecMul, hT] using this
    intro a; rw [h2]; rfl
  have hspan : Submodule.span ℂ (Set.range M) = ⊤ :=
    hli.span_eq_top_of_card_eq_finrank' (by rw [Module.finrank_matrix, hcard]; simp)
  intro ρ ρ' h
  let φ : Matrix n n ℂ →ₗ[ℂ] ℂ := Matrix.traceLinearMap n ℂ ℂ ∘ₗ LinearMap.mulLeft ℂ (ρ - ρ')
  have hφ : ∀ X, φ X = ((ρ - ρ') * X).trace := fun X => rfl
  have h0 : φ = 0 := by
    apply LinearMap.ext_on_range hspan
    intro a
    have := congrFun h a
    unfold outcomeProb at this
    rw [hφ, Matrix.sub_mul, Matrix.trace_sub, this, sub_self]; rfl
  have hz : ρ - ρ' = 0 := by
    ext i j
    have := congrArg (fun f => f (Matrix.single j i 1)) h0
    simp only [hφ, LinearMap.zero_apply] at this
    rw [Matrix.trace_mul_comm] at this
    simpa [Matrix.trace_single_mul] using this
  exact sub_eq_zero.mp hz

end JVMC
