import Verif.Lemmas.PovmSic
import Mathlib.Analysis.Matrix.Order

/-!
# POVM matrices: C36, C37, C38, C66
-/

namespace JVMC

open Matrix Spec
open scoped ComplexOrder

variable {ι n : Type} [Fintype ι] [Fintype n]

/-! ## C36 — the elements form an informationally complete measurement -/

/-- **C36**: for all rotation angles the elements returned by `get_M` are positive and sum to the
identity. -/
theorem c36_is_povm (θ φ : ℝ) : ∃ M, getM θ φ "SIC" = .ok M ∧ IsPovm M := by
  refine ⟨_, getM_sic θ φ, ?_, ?_⟩
  · intro a
    have h := blochElement_sq (povmVectors θ φ a) (by rw [povm_gram, if_pos rfl])
    have hp := Matrix.posSemidef_conjTranspose_mul_self (blochElement (povmVectors θ φ a))
    rw [(blochElement_hermitian _).eq] at hp
    change (blochElement (povmVectors θ φ a)).PosSemidef
    rw [h]
    exact hp.smul (by norm_num)
  · ext i j
    have h : ∀ k : Fin 3, ∑ a, ((povmVectors θ φ a k : ℝ) : ℂ) = 0 := fun k => by
      exact_mod_cast congrArg (fun x : ℝ => (x : ℂ)) (povm_sum θ φ k)
    simp only [blochElement_entries]
    have h0 := h 0
    have h1 := h 1
    have h2 := h 2
    rw [Fin.sum_univ_four] at h0 h1 h2
    fin_cases i <;> fin_cases j <;> simp [Fin.sum_univ_four, Matrix.add_apply]
    · linear_combination (1 / 4 : ℂ) * h2
    · linear_combination (1 / 4 : ℂ) * h0 - (Complex.I / 4 : ℂ) * h1
    · linear_combination (1 / 4 : ℂ) * h0 + (Complex.I / 4 : ℂ) * h1
    · linear_combination (-1 / 4 : ℂ) * h2

theorem sic_overlap (θ φ : ℝ) (a b : Fin 4) :
    povmOverlap (fun a => blochElement (povmVectors θ φ a)) a b
      = if a = b then 1 / 4 else 1 / 12 := by
  rw [povmOverlap_eq_trace, trace_blochElements, povm_gram]
  split <;> push_cast <;> norm_num

/-- **C36**: the overlap matrix of `get_M` does not depend on the angles and is invertible, so
`jnp.linalg.inv` returns its inverse: `6` on the diagonal minus one everywhere. -/
theorem c36_overlap_invertible (θ φ : ℝ) : ∃ M, getM θ φ "SIC" = .ok M ∧
    povmOverlap M = Matrix.of (fun a b => if a = b then 1 / 4 else 1 / 12) ∧
    povmTInv M = Matrix.of (fun a b => if a = b then 5 else -1) ∧
    povmOverlap M * povmTInv M = 1 := by
  refine ⟨_, getM_sic θ φ, ?_, ?_⟩
  · ext a b; exact sic_overlap θ φ a b
  · have h : povmOverlap (fun a => blochElement (povmVectors θ φ a))
        * Matrix.of (fun a b : Fin 4 => if a = b then (5 : ℂ) else -1) = 1 := by
      ext a b
      rw [Matrix.mul_apply]
      simp only [sic_overlap]
      fin_cases a <;> fin_cases b <;> simp [Fin.sum_univ_four] <;> norm_num
    have h' := Matrix.inv_eq_right_inv h
    unfold povmTInv
    rw [h']
    exact ⟨rfl, h⟩

/-- **C36**: the outcome probabilities of `get_M` determine the state, for all angles. -/
theorem c36_informationally_complete (θ φ : ℝ) :
    ∃ M, getM θ φ "SIC" = .ok M ∧ InfComplete M := by
  obtain ⟨M, hM, _, _, hT⟩ := c36_overlap_invertible θ φ
  exact ⟨M, hM, infComplete_of_card M _ hT (by simp)⟩

/-- **C36**: other names are rejected. -/
theorem c36_unknown_name (θ φ : ℝ) (name : String) (h : name ≠ "SIC") :
    getM θ φ name = .error .valueError := if_neg h

omit [Fintype ι] in
/-- The two-body elements used for interactions. -/
theorem overlap_2body (M : ι → Matrix n n ℂ) :
    povmOverlap (povmM2Body M) = kroneckerMap (· * ·) (povmOverlap M) (povmOverlap M) := by
  ext ⟨a, a'⟩ ⟨b, b'⟩
  rw [povmOverlap_eq_trace, Matrix.kroneckerMap_apply, povmOverlap_eq_trace, povmOverlap_eq_trace]
  unfold povmM2Body
  have := Matrix.mul_kronecker_mul (M a) (M b) (M a') (M b')
  rw [show kroneckerMap (fun x1 x2 : ℂ => x1 * x2) (M a) (M a')
      * kroneckerMap (fun x1 x2 : ℂ => x1 * x2) (M b) (M b')
      = kroneckerMap (fun x1 x2 : ℂ => x1 * x2) (M a * M b) (M a' * M b') from this.symm]
  exact Matrix.trace_kronecker _ _

/-- **C36** for two bodies: if the elements form a POVM so do the two-body elements, and the
Kronecker square of the inverse overlap matrix inverts the two-body overlap matrix. -/
theorem c36_two_body [DecidableEq n] [DecidableEq ι] (M : ι → Matrix n n ℂ) (hM : IsPovm M)
    (Tinv : Matrix ι ι ℂ) (hT : povmOverlap M * Tinv = 1) :
    IsPovm (povmM2Body M) ∧ povmOverlap (povmM2Body M) * povmTInv2Body Tinv = 1 := by
  refine ⟨⟨fun ab => Matrix.PosSemidef.kronecker (hM.1 ab.1) (hM.1 ab.2), ?_⟩, ?_⟩
  · have h := hM.2
    ext ⟨i, i'⟩ ⟨j, j'⟩
    rw [Matrix.sum_apply, Fintype.sum_prod_type]
    simp only [povmM2Body, Matrix.kroneckerMap_apply]
    have h1 : ∀ i j, ∑ a, M a i j = (1 : Matrix n n ℂ) i j := fun i j => by
      rw [← h, Matrix.sum_apply]
    simp only [← Finset.mul_sum, ← Finset.sum_mul, h1]
    simp only [Matrix.one_apply, Prod.mk.injEq, mul_ite, mul_one, mul_zero]
    by_cases h1 : i = j <;> by_cases h2 : i' = j' <;> simp [h1, h2]
  · rw [overlap_2body]
    unfold povmTInv2Body
    have := Matrix.mul_kronecker_mul (povmOverlap M) Tinv (povmOverlap M) Tinv
    rw [hT] at this
    exact this.symm.trans (by simp)

/-! ## C37 — conservation of probability -/

theorem sum_traces_right (M : ι → Matrix n n ℂ) (X : Matrix n n ℂ) [DecidableEq n]
    (h1 : ∑ a, M a = 1) : ∑ a, (X * M a).trace = X.trace := by
  rw [← Matrix.trace_sum, ← Finset.mul_sum, h1, Matrix.mul_one]

/-- **C37**, unitary mode: every column of the operator sums to zero. No assumption on `A` or on the
inverse overlap matrix is needed. -/
theorem c37_unitary [DecidableEq n] (A : Matrix n n ℂ) (M : ι → Matrix n n ℂ) (Tinv : Matrix ι ι ℂ)
    (h1 : ∑ a, M a = 1) (b : ι) : ∑ a, matrixToPovmUni A M Tinv a b = 0 := by
  simp only [matrixToPovmUni_eq]
  rw [← Complex.re_sum, Finset.sum_comm]
  simp only [← Finset.mul_sum, Finset.sum_sub_distrib]
  have h : ∀ c, ∑ a, (A * M a * M c).trace = (A * M c).trace := fun c => by
    have : ∀ a, (A * M a * M c).trace = (M c * A * M a).trace := fun a => by
      rw [Matrix.trace_mul_comm, ← Matrix.mul_assoc]
    simp only [this, sum_traces_right M _ h1]
    rw [Matrix.trace_mul_comm]
  simp only [sum_traces_right M _ h1, h, sub_self, mul_zero, Finset.sum_const_zero, Complex.zero_re]

/-- **C37**, dissipative mode. -/
theorem c37_dissipative [DecidableEq n] (A : Matrix n n ℂ) (M : ι → Matrix n n ℂ)
    (Tinv : Matrix ι ι ℂ) (h1 : ∑ a, M a = 1) (b : ι) : ∑ a, matrixToPovmDis A M Tinv a b = 0 := by
  simp only [matrixToPovmDis_eq]
  rw [← Complex.re_sum, Finset.sum_comm]
  simp only [← Finset.mul_sum, Finset.sum_sub_distrib, Finset.sum_add_distrib]
  have h : ∀ c, ∑ a, (Aᴴ * A * M a * M c).trace = (Aᴴ * A * M c).trace := fun c => by
    have : ∀ a, (Aᴴ * A * M a * M c).trace = (M c * (Aᴴ * A) * M a).trace := fun a => by
      rw [Matrix.trace_mul_comm, ← Matrix.mul_assoc]
    simp only [this, sum_traces_right M _ h1]
    rw [Matrix.trace_mul_comm]
  have h' : ∀ c, (A * M c * Aᴴ).trace = (Aᴴ * A * M c).trace := fun c => by
    rw [Matrix.trace_mul_comm, ← Matrix.mul_assoc]
  simp only [sum_traces_right M _ h1, h, h']
  have : ∀ c, Tinv b c * ((Aᴴ * A * M c).trace
      - 1 / 2 * ((Aᴴ * A * M c).trace + (Aᴴ * A * M c).trace)) = 0 := fun c => by ring
  simp only [this, Finset.sum_const_zero, Complex.zero_re]

/-- **C37** in terms of the API: with the modes 'unitary' and 'dissipative' (and their short names)
the operator exists and does not change the total of any vector of outcome probabilities. -/
theorem c37_total_probability [DecidableEq n] (A : Matrix n n ℂ) (M : ι → Matrix n n ℂ)
    (Tinv : Matrix ι ι ℂ) (h1 : ∑ a, M a = 1) (mode : String)
    (hm : mode ∈ ["unitary", "uni", "dissipative", "dis"]) :
    ∃ Ω, matrixToPovm A M Tinv mode = .ok (.mat Ω) ∧ ∀ P : ι → ℝ, ∑ a, (Ω *ᵥ P) a = 0 := by
  have key : ∀ Ω : Matrix ι ι ℝ, (∀ b, ∑ a, Ω a b = 0) → ∀ P : ι → ℝ, ∑ a, (Ω *ᵥ P) a = 0 := by
    intro Ω h P
    simp only [Matrix.mulVec, dotProduct]
    rw [Finset.sum_comm]
    simp only [← Finset.sum_mul, h, zero_mul, Finset.sum_const_zero]
  simp only [List.mem_cons, List.not_mem_nil, or_false] at hm
  rcases hm with rfl | rfl | rfl | rfl
  · exact ⟨_, rfl, key _ (c37_unitary A M Tinv h1)⟩
  · exact ⟨_, rfl, key _ (c37_unitary A M Tinv h1)⟩
  · exact ⟨_, rfl, key _ (c37_dissipative A M Tinv h1)⟩
  · exact ⟨_, rfl, key _ (c37_dissipative A M Tinv h1)⟩

/-- Non-vacuity of C37: the SIC elements at arbitrary angles. -/
example (θ φ : ℝ) : ∃ M, getM θ φ "SIC" = .ok M ∧ ∑ a, M a = 1 := by
  obtain ⟨M, h, h'⟩ := c36_is_povm θ φ; exact ⟨M, h, h'.2⟩

/-! ## C38 — dynamics and expectation values of the density matrix -/

variable [DecidableEq ι] [DecidableEq n]

omit [Fintype ι] [DecidableEq ι] [DecidableEq n] in
/-- **C38**, outcome probabilities of a Hermitian state are real. -/
theorem c38_prob_real (M : ι → Matrix n n ℂ) (hM : ∀ a, (M a).IsHermitian) (ρ : Matrix n n ℂ)
    (hρ : ρ.IsHermitian) (a : ι) : (outcomeProb M ρ a).im = 0 := by
  unfold outcomeProb
  rw [← Complex.conj_eq_iff_im, conj_trace, Matrix.conjTranspose_mul, hρ.eq, (hM a).eq,
    Matrix.trace_mul_comm]

omit [DecidableEq ι] in
theorem sum_re_mul (t : ι → ℂ) (x : ι → ℂ) (ht : ∀ c, (starRingEnd ℂ) (t c) = t c)
    (hx : ∀ c, (starRingEnd ℂ) (x c) = x c) :
    (((∑ c, t c * x c).re : ℝ) : ℂ) = ∑ c, t c * x c :=
  ofReal_re_of_conj (by simp [map_sum, ht, hx])

/-- **C38**, unitary mode: for a Hermitian `H` and every matrix `ρ` the operator maps the outcome
probabilities of `ρ` to those of `-i[H, ρ]`. -/
theorem c38_unitary (M : ι → Matrix n n ℂ) (hM : ∀ a, (M a).IsHermitian) (hc : InfComplete M)
    (Tinv : Matrix ι ι ℂ) (hT : povmOverlap M * Tinv = 1) (H : Matrix n n ℂ) (hH : H.IsHermitian)
    (ρ : Matrix n n ℂ) (a : ι) :
    ∑ b, ((matrixToPovmUni H M Tinv a b : ℝ) : ℂ) * outcomeProb M ρ b
      = outcomeProb M (vonNeumann H ρ) a := by
  let φ : Matrix n n ℂ →ₗ[ℂ] ℂ :=
    (-Complex.I) • ((Matrix.traceLinearMap n ℂ ℂ) ∘ₗ (LinearMap.mulRight ℂ (M a))
      ∘ₗ (LinearMap.mulLeft ℂ H - LinearMap.mulRight ℂ H))
  have hφ : ∀ X, φ X = -Complex.I * ((H * X - X * H) * M a).trace := fun X => rfl
  have hφ' : ∀ X, φ X = -Complex.I * ((H * X * M a).trace - (H * M a * X).trace) := fun X => by
    rw [hφ, Matrix.sub_mul, Matrix.trace_sub]
    congr 2
    rw [Matrix.mul_assoc, Matrix.trace_mul_comm]
  have e : outcomeProb M (vonNeumann H ρ) a = φ ρ := by
    unfold outcomeProb vonNeumann
    rw [hφ, Matrix.smul_mul, Matrix.trace_smul, smul_eq_mul]
  rw [e, functional_eq M hc Tinv hT ρ φ]
  refine Finset.sum_congr rfl fun b _ => ?_
  rw [matrixToPovmUni_eq]
  simp only [hφ']
  rw [sum_re_mul _ _ (tinv_real M hM Tinv hT b)]
  intro c
  have h1 : (starRingEnd ℂ) (H * M c * M a).trace = (H * M a * M c).trace := by
    rw [conj_trace, Matrix.conjTranspose_mul, Matrix.conjTranspose_mul, hH.eq, (hM a).eq, (hM c).eq,
      ← Matrix.mul_assoc, Matrix.trace_mul_comm, ← Matrix.mul_assoc]
  have h2 : (starRingEnd ℂ) (H * M a * M c).trace = (H * M c * M a).trace := by
    rw [← h1, Complex.conj_conj]
  rw [map_mul, map_neg, Complex.conj_I, map_sub, h1, h2]
  ring

/-- **C38**, dissipative mode: for every matrix `L` the operator maps the outcome probabilities of
`ρ` to those of `L ρ L† - ½ {L† L, ρ}`. -/
theorem c38_dissipative (M : ι → Matrix n n ℂ) (hM : ∀ a, (M a).IsHermitian) (hc : InfComplete M)
    (Tinv : Matrix ι ι ℂ) (hT : povmOverlap M * Tinv = 1) (L : Matrix n n ℂ)
    (ρ : Matrix n n ℂ) (a : ι) :
    ∑ b, ((matrixToPovmDis L M Tinv a b : ℝ) : ℂ) * outcomeProb M ρ b
      = outcomeProb M (lindblad L ρ) a := by
  let φ : Matrix n n ℂ →ₗ[ℂ] ℂ :=
    (Matrix.traceLinearMap n ℂ ℂ) ∘ₗ (LinearMap.mulRight ℂ (M a))
      ∘ₗ (LinearMap.mulLeft ℂ L ∘ₗ LinearMap.mulRight ℂ Lᴴ
        - (1 / 2 : ℂ) • (LinearMap.mulLeft ℂ (Lᴴ * L) + LinearMap.mulRight ℂ (Lᴴ * L)))
  have hφ : ∀ X, φ X = ((L * (X * Lᴴ) - (1 / 2 : ℂ) • (Lᴴ * L * X + X * (Lᴴ * L))) * M a).trace :=
    fun X => rfl
  have hφ' : ∀ X, φ X = (L * X * Lᴴ * M a).trace
      - (1 / 2) * ((Lᴴ * L * X * M a).trace + (Lᴴ * L * M a * X).trace) := fun X => by
    rw [hφ, Matrix.sub_mul, Matrix.trace_sub, Matrix.smul_mul, Matrix.trace_smul, Matrix.add_mul,
      Matrix.trace_add, smul_eq_mul, ← Matrix.mul_assoc L X]
    congr 3
    rw [Matrix.mul_assoc, Matrix.trace_mul_comm]
  have e : outcomeProb M (lindblad L ρ) a = φ ρ := by
    unfold outcomeProb lindblad
    rw [hφ, Matrix.mul_assoc L ρ]
  rw [e, functional_eq M hc Tinv hT ρ φ]
  refine Finset.sum_congr rfl fun b _ => ?_
  rw [matrixToPovmDis_eq]
  simp only [hφ']
  rw [sum_re_mul _ _ (tinv_real M hM Tinv hT b)]
  intro c
  have h0 : (starRingEnd ℂ) (L * M c * Lᴴ * M a).trace = (L * M c * Lᴴ * M a).trace := by
    rw [conj_trace]
    simp only [Matrix.conjTranspose_mul, Matrix.conjTranspose_conjTranspose, (hM a).eq, (hM c).eq]
    rw [Matrix.trace_mul_comm, ← Matrix.mul_assoc]
  have h1 : (starRingEnd ℂ) (Lᴴ * L * M c * M a).trace = (Lᴴ * L * M a * M c).trace := by
    rw [conj_trace]
    simp only [Matrix.conjTranspose_mul, Matrix.conjTranspose_conjTranspose, (hM a).eq, (hM c).eq]
    rw [← Matrix.mul_assoc, Matrix.trace_mul_comm, ← Matrix.mul_assoc]
  have h2 : (starRingEnd ℂ) (Lᴴ * L * M a * M c).trace = (Lᴴ * L * M c * M a).trace := by
    rw [← h1, Complex.conj_conj]
  have h3 : (starRingEnd ℂ) (1 / 2) = 1 / 2 := by
    rw [show (1 / 2 : ℂ) = ((1 / 2 : ℝ) : ℂ) by push_cast; rfl, Complex.conj_ofReal]
  rw [map_sub, map_mul, map_add, h0, h1, h2, h3]
  ring

/-- **C38**, imaginary time mode: `-{H, ρ}` for Hermitian `H`. -/
theorem c38_imaginary (M : ι → Matrix n n ℂ) (hM : ∀ a, (M a).IsHermitian) (hc : InfComplete M)
    (Tinv : Matrix ι ι ℂ) (hT : povmOverlap M * Tinv = 1) (H : Matrix n n ℂ) (hH : H.IsHermitian)
    (ρ : Matrix n n ℂ) (a : ι) :
    ∑ b, ((matrixToPovmImag H M Tinv a b : ℝ) : ℂ) * outcomeProb M ρ b
      = outcomeProb M (imaginaryTime H ρ) a := by
  let φ : Matrix n n ℂ →ₗ[ℂ] ℂ :=
    -((Matrix.traceLinearMap n ℂ ℂ) ∘ₗ (LinearMap.mulRight ℂ (M a))
      ∘ₗ (LinearMap.mulLeft ℂ H + LinearMap.mulRight ℂ H))
  have hφ : ∀ X, φ X = -((H * X + X * H) * M a).trace := fun X => rfl
  have hφ' : ∀ X, φ X = -((H * X * M a).trace + (H * M a * X).trace) := fun X => by
    rw [hφ, Matrix.add_mul, Matrix.trace_add]
    congr 2
    rw [Matrix.mul_assoc, Matrix.trace_mul_comm]
  have e : outcomeProb M (imaginaryTime H ρ) a = φ ρ := by
    unfold outcomeProb imaginaryTime
    rw [hφ, Matrix.neg_mul, Matrix.trace_neg]
  rw [e, functional_eq M hc Tinv hT ρ φ]
  refine Finset.sum_congr rfl fun b _ => ?_
  rw [matrixToPovmImag_eq]
  simp only [hφ']
  rw [sum_re_mul _ _ (tinv_real M hM Tinv hT b)]
  intro c
  have h1 : (starRingEnd ℂ) (H * M c * M a).trace = (H * M a * M c).trace := by
    rw [conj_trace, Matrix.conjTranspose_mul, Matrix.conjTranspose_mul, hH.eq, (hM a).eq, (hM c).eq,
      ← Matrix.mul_assoc, Matrix.trace_mul_comm, ← Matrix.mul_assoc]
  have h2 : (starRingEnd ℂ) (H * M a * M c).trace = (H * M c * M a).trace := by
    rw [← h1, Complex.conj_conj]
  rw [map_neg, map_add, h1, h2]
  ring

/-- **C38**, observables: for Hermitian `A` and every matrix `ρ`, the average of the observable over
the outcome probabilities is `Tr(ρ A)`. -/
theorem c38_observable (M : ι → Matrix n n ℂ) (hM : ∀ a, (M a).IsHermitian) (hc : InfComplete M)
    (Tinv : Matrix ι ι ℂ) (hT : povmOverlap M * Tinv = 1) (A : Matrix n n ℂ) (hA : A.IsHermitian)
    (ρ : Matrix n n ℂ) :
    ∑ a, ((matrixToPovmObs A M Tinv a : ℝ) : ℂ) * outcomeProb M ρ a = (ρ * A).trace := by
  let φ : Matrix n n ℂ →ₗ[ℂ] ℂ := (Matrix.traceLinearMap n ℂ ℂ) ∘ₗ (LinearMap.mulRight ℂ A)
  have hφ : ∀ X, φ X = (X * A).trace := fun X => rfl
  rw [← hφ, functional_eq M hc Tinv hT ρ φ]
  refine Finset.sum_congr rfl fun b _ => ?_
  rw [matrixToPovmObs_eq]
  simp only [hφ]
  rw [sum_re_mul _ _ (tinv_real M hM Tinv hT b)]
  intro c
  rw [conj_trace, Matrix.conjTranspose_mul, hA.eq, (hM c).eq, Matrix.trace_mul_comm]

omit [Fintype n] [DecidableEq ι] in
theorem hermitian_of_isPovm {M : ι → Matrix n n ℂ} (h : IsPovm M) (a : ι) : (M a).IsHermitian :=
  (h.1 a).isHermitian

/-- Non-vacuity of C38: the SIC elements satisfy all hypotheses, at all angles. -/
theorem sic_hypotheses (θ φ : ℝ) : ∃ M, getM θ φ "SIC" = .ok M ∧ IsPovm M ∧
    (∀ a, (M a).IsHermitian) ∧ InfComplete M ∧ povmOverlap M * povmTInv M = 1 := by
  obtain ⟨M, hM, h1⟩ := c36_is_povm θ φ
  obtain ⟨M', hM', _, _, hT⟩ := c36_overlap_invertible θ φ
  obtain ⟨M'', hM'', hc⟩ := c36_informationally_complete θ φ
  rw [hM] at hM' hM''
  cases hM'; cases hM''
  exact ⟨M, hM, h1, fun a => (h1.1 a).isHermitian, hc, hT⟩

/-- **C38** for the predefined one-body operators of `get_unitaries`, `get_dissipators` and
`get_observables`: with the SIC elements at any angles, each entry of the dictionaries implements the
von Neumann / Lindblad generator or the expectation value of the matrix it is named after. -/
theorem c38_predefined (θ φ : ℝ) : ∃ M, getM θ φ "SIC" = .ok M ∧
    (∀ H Ω name, (name, H) ∈ unitariesDM1 → (name, Ω) ∈ getUnitaries1 M (povmTInv M) →
      ∀ ρ a, ∑ b, ((Ω a b : ℝ) : ℂ) * outcomeProb M ρ b = outcomeProb M (vonNeumann H ρ) a) ∧
    (∀ H Ω name, (name, H) ∈ unitariesDM2 → (name, Ω) ∈ getUnitaries2 M (povmTInv M) →
      ∀ ρ a, ∑ b, ((Ω a b : ℝ) : ℂ) * outcomeProb (povmM2Body M) ρ b
        = outcomeProb (povmM2Body M) (vonNeumann H ρ) a) ∧
    (∀ L Ω name, (name, L) ∈ dissipatorsDM → (name, Ω) ∈ getDissipators M (povmTInv M) →
      ∀ ρ a, ∑ b, ((Ω a b : ℝ) : ℂ) * outcomeProb M ρ b = outcomeProb M (lindblad L ρ) a) ∧
    (∀ A O name, (name, A) ∈ unitariesDM1 → (name, O) ∈ getObservables M (povmTInv M) →
      ∀ ρ, ∑ a, ((O a : ℝ) : ℂ) * outcomeProb M ρ a = (ρ * A).trace) := by
  obtain ⟨M, hM, h1, hH, hc, hT⟩ := sic_hypotheses θ φ
  have hP : ∀ k, (getPaulis k).IsHermitian := by
    intro k
    ext i j
    fin_cases k <;> fin_cases i <;> fin_cases j <;> simp [getPaulis]
  have hu1 : ∀ name H, (name, H) ∈ unitariesDM1 → H.IsHermitian := by
    intro name H h
    simp only [unitariesDM1, List.mem_cons, Prod.mk.injEq, List.not_mem_nil, or_false] at h
    rcases h with ⟨-, rfl⟩ | ⟨-, rfl⟩ | ⟨-, rfl⟩ <;> exact hP _
  have h2 := c36_two_body M h1 _ hT
  have hc2 : InfComplete (povmM2Body M) := infComplete_of_card _ _ h2.2 (by simp)
  have hu2 : ∀ name H, (name, H) ∈ unitariesDM2 → H.IsHermitian := by
    intro name H h
    have hk : ∀ k, (kroneckerMap (· * ·) (getPaulis k) (getPaulis k)).IsHermitian := fun k => by
      have := Matrix.conjTranspose_kronecker (getPaulis k) (getPaulis k)
      rw [(hP k).eq] at this
      exact this
    simp only [unitariesDM2, List.mem_cons, Prod.mk.injEq, List.not_mem_nil, or_false] at h
    rcases h with ⟨-, rfl⟩ | ⟨-, rfl⟩ | ⟨-, rfl⟩ <;> exact hk _
  refine ⟨M, hM, ?_, ?_, ?_, ?_⟩
  · intro H Ω name h h' ρ a
    have hΩ : Ω = matrixToPovmUni H M (povmTInv M) := by
      simp only [getUnitaries1, unitariesDM1, List.map_cons, List.map_nil, List.mem_cons,
        Prod.mk.injEq, List.not_mem_nil, or_false] at h h'
      rcases h with ⟨rfl, rfl⟩ | ⟨rfl, rfl⟩ | ⟨rfl, rfl⟩ <;> simpa using h'
    rw [hΩ]
    exact c38_unitary M hH hc _ hT H (hu1 name H h) ρ a
  · intro H Ω name h h' ρ a
    have hΩ : Ω = matrixToPovmUni H (povmM2Body M) (povmTInv2Body (povmTInv M)) := by
      simp only [getUnitaries2, unitariesDM2, List.map_cons, List.map_nil, List.mem_cons,
        Prod.mk.injEq, List.not_mem_nil, or_false] at h h'
      rcases h with ⟨rfl, rfl⟩ | ⟨rfl, rfl⟩ | ⟨rfl, rfl⟩ <;> simpa using h'
    rw [hΩ]
    exact c38_unitary _ (fun a => hermitian_of_isPovm h2.1 a) hc2 _ h2.2 H (hu2 name H h) ρ a
  · intro L Ω name h h' ρ a
    have hΩ : Ω = matrixToPovmDis L M (povmTInv M) := by
      simp only [getDissipators, dissipatorsDM, List.map_cons, List.map_nil, List.mem_cons,
        Prod.mk.injEq, List.not_mem_nil, or_false] at h h'
      rcases h with ⟨rfl, rfl⟩ | ⟨rfl, rfl⟩ | ⟨rfl, rfl⟩ <;> simpa using h'
    rw [hΩ]
    exact c38_dissipative M hH hc _ hT L ρ a
  · intro A O name h h' ρ
    have hO : O = matrixToPovmObs A M (povmTInv M) := by
      simp only [getObservables, unitariesDM1, List.map_cons, List.map_nil, List.mem_cons,
        Prod.mk.injEq, List.not_mem_nil, or_false] at h h'
      rcases h with ⟨rfl, rfl⟩ | ⟨rfl, rfl⟩ | ⟨rfl, rfl⟩ <;> simpa using h'
    rw [hO]
    exact c38_observable M hH hc _ hT A (hu1 name A h) ρ

/-- **C38**: the dictionaries contain exactly the documented names, and each entry implements the
dynamics or the expectation value of the matrix that its name stands for (`namedMatrix`). -/
theorem c38_named (θ φ : ℝ) : ∃ M, getM θ φ "SIC" = .ok M ∧
    (getUnitaries1 M (povmTInv M)).map Prod.fst = ["X", "Y", "Z"] ∧
    (getUnitaries2 M (povmTInv M)).map Prod.fst = ["XX", "YY", "ZZ"] ∧
    (getDissipators M (povmTInv M)).map Prod.fst = ["decayup", "decaydown", "dephasing"] ∧
    (getObservables M (povmTInv M)).map Prod.fst = ["X", "Y", "Z"] ∧
    (∀ H Ω name, (name, H) ∈ namedMatrix → (name, Ω) ∈ getUnitaries1 M (povmTInv M) →
      ∀ ρ a, ∑ b, ((Ω a b : ℝ) : ℂ) * outcomeProb M ρ b = outcomeProb M (vonNeumann H ρ) a) ∧
    (∀ H Ω name, (name, H) ∈ namedMatrix → (name ++ name, Ω) ∈ getUnitaries2 M (povmTInv M) →
      ∀ ρ a, ∑ b, ((Ω a b : ℝ) : ℂ) * outcomeProb (fun c => onTwoSites (M c.1) (M c.2)) ρ b
        = outcomeProb (fun c => onTwoSites (M c.1) (M c.2)) (vonNeumann (onTwoSites H H) ρ) a) ∧
    (∀ L Ω name, (name, L) ∈ namedMatrix → (name, Ω) ∈ getDissipators M (povmTInv M) →
      ∀ ρ a, ∑ b, ((Ω a b : ℝ) : ℂ) * outcomeProb M ρ b = outcomeProb M (lindblad L ρ) a) ∧
    (∀ A O name, (name, A) ∈ namedMatrix → (name, O) ∈ getObservables M (povmTInv M) →
      ∀ ρ, ∑ a, ((O a : ℝ) : ℂ) * outcomeProb M ρ a = (ρ * A).trace) := by
  obtain ⟨M, hM, h1, h2, h3, h4⟩ := c38_predefined θ φ
  have e2 : ∀ A B : Matrix (Fin 2) (Fin 2) ℂ, onTwoSites A B = kroneckerMap (· * ·) A B := fun _ _ => rfl
  refine ⟨M, hM, rfl, rfl, rfl, rfl, ?_, ?_, ?_, ?_⟩
  · intro H Ω name h h'
    refine h1 H Ω name ?_ h'
    simp only [getUnitaries1, unitariesDM1, namedMatrix, List.map_cons, List.map_nil, List.mem_cons,
      Prod.mk.injEq, List.not_mem_nil, or_false] at h h' ⊢
    rcases h with ⟨rfl, rfl⟩ | ⟨rfl, rfl⟩ | ⟨rfl, rfl⟩ | ⟨rfl, rfl⟩ | ⟨rfl, rfl⟩ | ⟨rfl, rfl⟩ <;>
      simp [getPaulis] at h' ⊢
  · intro H Ω name h h'
    refine h2 (onTwoSites H H) Ω (name ++ name) ?_ h'
    simp only [getUnitaries2, unitariesDM2, namedMatrix, List.map_cons, List.map_nil, List.mem_cons,
      Prod.mk.injEq, List.not_mem_nil, or_false] at h h' ⊢
    rcases h with ⟨rfl, rfl⟩ | ⟨rfl, rfl⟩ | ⟨rfl, rfl⟩ | ⟨rfl, rfl⟩ | ⟨rfl, rfl⟩ | ⟨rfl, rfl⟩ <;>
      simp [getPaulis, e2] at h' ⊢
  · intro L Ω name h h'
    refine h3 L Ω name ?_ h'
    have hup : (1 / 2 : ℂ) • (getPaulis 0 + Complex.I • getPaulis 1) = !![0, 1; 0, 0] := by
      ext i j
      fin_cases i <;> fin_cases j <;> simp [getPaulis] <;> norm_num
    have hdn : (1 / 2 : ℂ) • (getPaulis 0 - Complex.I • getPaulis 1) = !![0, 0; 1, 0] := by
      ext i j
      fin_cases i <;> fin_cases j <;> simp [getPaulis] <;> norm_num
    simp only [getDissipators, dissipatorsDM, namedMatrix, List.map_cons, List.map_nil, List.mem_cons,
      Prod.mk.injEq, List.not_mem_nil, or_false, hup, hdn] at h h' ⊢
    rcases h with ⟨rfl, rfl⟩ | ⟨rfl, rfl⟩ | ⟨rfl, rfl⟩ | ⟨rfl, rfl⟩ | ⟨rfl, rfl⟩ | ⟨rfl, rfl⟩ <;>
      simp [getPaulis] at h' ⊢
  · intro A O name h h'
    refine h4 A O name ?_ h'
    simp only [getObservables, unitariesDM1, namedMatrix, List.map_cons, List.map_nil, List.mem_cons,
      Prod.mk.injEq, List.not_mem_nil, or_false] at h h' ⊢
    rcases h with ⟨rfl, rfl⟩ | ⟨rfl, rfl⟩ | ⟨rfl, rfl⟩ | ⟨rfl, rfl⟩ | ⟨rfl, rfl⟩ | ⟨rfl, rfl⟩ <;>
      simp [getPaulis] at h' ⊢

/-! ## C66 — named initial states -/

/-- The distribution of a pure state. -/
theorem distribution_eq (M : Fin 4 → Matrix (Fin 2) (Fin 2) ℂ) (s : Fin 2 → ℂ) (a : Fin 4) :
    ∑ i, (starRingEnd ℂ) (s i) * ∑ j, M a i j * s j
      = outcomeProb M (vecMulVec s (star s)) a := by
  unfold outcomeProb
  simp only [Matrix.trace, Matrix.diag_apply, Matrix.mul_apply, vecMulVec_apply, Fin.sum_univ_two,
    Pi.star_apply, RCLike.star_def]
  ring

theorem povmState_norm (state : String) (s : Fin 2 → ℂ) (h : povmState state = .ok s) :
    ∑ i, s i * (starRingEnd ℂ) (s i) = 1 := by
  have h2 : ((Real.sqrt 2 : ℝ) : ℂ) * (Real.sqrt 2 : ℝ) = 2 := by
    rw [← Complex.ofReal_mul, Real.mul_self_sqrt (by norm_num)]; norm_num
  have h0 : ((Real.sqrt 2 : ℝ) : ℂ) ≠ 0 := by
    intro h; rw [h] at h2; norm_num at h2
  have hI := Complex.I_mul_I
  unfold povmState at h
  split_ifs at h <;> cases h <;>
    simp only [Fin.sum_univ_two, Matrix.cons_val_zero, Matrix.cons_val_one, map_div₀, map_one, map_neg,
      Complex.conj_ofReal, Complex.conj_I, map_zero] <;> field_simp <;>
    first
      | ring1
      | linear_combination -h2
      | linear_combination -h2 - hI

/-- The Bloch vector of a named state. -/
theorem povmState_bloch (state : String) (v : Fin 3 → ℝ) (h : (state, v) ∈ blochOf) :
    ∃ s, povmState state = .ok s ∧
      ∀ k, (vecMulVec s (star s) * getPaulis k).trace = ((v k : ℝ) : ℂ) := by
  have h2 : ((Real.sqrt 2 : ℝ) : ℂ) * (Real.sqrt 2 : ℝ) = 2 := by
    rw [← Complex.ofReal_mul, Real.mul_self_sqrt (by norm_num)]; norm_num
  have h0 : ((Real.sqrt 2 : ℝ) : ℂ) ≠ 0 := by
    intro h; rw [h] at h2; norm_num at h2
  have hI := Complex.I_mul_I
  simp only [blochOf, List.mem_cons, Prod.mk.injEq, List.not_mem_nil, or_false] at h
  rcases h with ⟨rfl, rfl⟩ | ⟨rfl, rfl⟩ | ⟨rfl, rfl⟩ | ⟨rfl, rfl⟩ | ⟨rfl, rfl⟩ | ⟨rfl, rfl⟩ <;>
  refine ⟨_, rfl, ?_⟩ <;> intro k <;>
  simp only [Matrix.trace, Matrix.diag_apply, Matrix.mul_apply, vecMulVec_apply, Fin.sum_univ_two,
    Pi.star_apply] <;> fin_cases k <;>
  simp [getPaulis] <;>
  field_simp <;>
  first
    | ring1
    | linear_combination -h2
    | linear_combination h2
    | linear_combination -h2 - hI
    | linear_combination h2 + hI
    | linear_combination hI
    | linear_combination h2 + 2 * hI
    | linear_combination -h2 - 2 * hI

/-- **C66**: for all angles and all six named states `get_1_particle_distributions` returns a
probability distribution, and averaging the predefined observables X, Y, Z over it gives the Bloch
vector the name promises. -/
theorem c66_named_states (θ φ : ℝ) (state : String) (v : Fin 3 → ℝ) (h : (state, v) ∈ blochOf) :
    ∃ M p, getM θ φ "SIC" = .ok M ∧ get1ParticleDistributions state M = .ok p ∧
      (∀ a, 0 ≤ p a) ∧ ∑ a, p a = 1 ∧
      ∀ name O k, (name, O) ∈ getObservables M (povmTInv M) → (name, k) ∈ [("X", 0), ("Y", 1), ("Z", 2)] →
        ∑ a, O a * p a = v k := by
  obtain ⟨M, hM, h1, hH, hc, hT⟩ := sic_hypotheses θ φ
  obtain ⟨s, hs, hb⟩ := povmState_bloch state v h
  have hρ : (vecMulVec s (star s)).IsHermitian := by
    ext i j; simp [vecMulVec_apply, mul_comm]
  have hp : ∀ a, (((∑ i, (starRingEnd ℂ) (s i) * ∑ j, M a i j * s j).re : ℝ) : ℂ)
      = outcomeProb M (vecMulVec s (star s)) a := fun a => by
    rw [distribution_eq, Complex.ext_iff]
    exact ⟨rfl, (c38_prob_real M hH _ hρ a).symm⟩
  refine ⟨M, fun a => (∑ i, (starRingEnd ℂ) (s i) * ∑ j, M a i j * s j).re, hM, ?_, ?_, ?_, ?_⟩
  · unfold get1ParticleDistributions; rw [hs]; rfl
  · intro a
    have := (h1.1 a).dotProduct_mulVec_nonneg s
    have := (Complex.le_def.mp this).1
    simpa [dotProduct, mulVec] using this
  · have : ((∑ a, (∑ i, (starRingEnd ℂ) (s i) * ∑ j, M a i j * s j).re : ℝ) : ℂ) = 1 := by
      rw [Complex.ofReal_sum]
      simp only [hp]
      unfold outcomeProb
      rw [sum_traces_right M _ h1.2, ← povmState_norm state s hs]
      simp [Matrix.trace, vecMulVec_apply]
    exact_mod_cast this
  · intro name O k hO hk
    have key : ∀ k, ∑ a, matrixToPovmObs (getPaulis k) M (povmTInv M) a
        * (∑ i, (starRingEnd ℂ) (s i) * ∑ j, M a i j * s j).re = v k := by
      intro k
      have hP : (getPaulis k).IsHermitian := by
        ext i j
        fin_cases k <;> fin_cases i <;> fin_cases j <;> simp [getPaulis]
      have := c38_observable M hH hc _ hT (getPaulis k) hP (vecMulVec s (star s))
      rw [hb k] at this
      have h' : ((∑ a, matrixToPovmObs (getPaulis k) M (povmTInv M) a
        * (∑ i, (starRingEnd ℂ) (s i) * ∑ j, M a i j * s j).re : ℝ) : ℂ) = ((v k : ℝ) : ℂ) := by
        rw [← this, Complex.ofReal_sum]
        refine Finset.sum_congr rfl fun a _ => ?_
        rw [Complex.ofReal_mul, hp]
      exact_mod_cast h'
    simp only [getObservables, List.map_cons, List.map_nil, List.mem_cons, Prod.mk.injEq,
      List.not_mem_nil, or_false] at hO hk
    rcases hk with ⟨rfl, rfl⟩ | ⟨rfl, rfl⟩ | ⟨rfl, rfl⟩ <;> simp at hO <;> rw [hO] <;> exact key _

/-- **C66**: any other state name is rejected. -/
theorem c66_unknown_state (M : Fin 4 → Matrix (Fin 2) (Fin 2) ℂ) (state : String)
    (h : state ∉ blochOf.map Prod.fst) : get1ParticleDistributions state M = .error .valueError := by
  simp only [blochOf, List.map_cons, List.map_nil, List.mem_cons, List.not_mem_nil, or_false,
    not_or] at h
  unfold get1ParticleDistributions povmState
  simp only [h, if_false]
  rfl

end JVMC
