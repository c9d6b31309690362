import Verif.Lemmas.Fermions
import Verif.Props.Variational

/-!
# Fermionic operators: C117

`letterOp` is the dictionary: `creation(j)`, `annihilation(j)` and `number(j)` for `c†_j`, `c_j` and `c†_j c_j`.
-/

namespace JVMC

open Matrix Spec

variable {N : ℕ}

/-- What the code computes for any sum of products of fermionic operators: for the configuration `s` the elements
`⟨s'|O|s⟩`, in the documented convention up to the signs `(-1)^(n (n - 1) / 2)` of the two configurations. -/
theorem c117_elements [NeZero N] (terms : List (ℂ × List (Letter N))) (s s' : Config N 2) :
    elementOf (branchFreeKernel (terms.map fun t => t.2.map letterOp) (terms.map Prod.fst) s) s'
      = (-1) ^ (particles s').choose 2 * (-1) ^ (particles s).choose 2 * fermionOperator terms s' s := by
  rw [c26_ket_convention _ _ (by simp) (fun _ _ _ _ _ => rfl) (letter_fermionic_ok terms), conj_sum]
  unfold reversal
  rw [mul_diagonal, diagonal_mul]
  unfold reversalSign
  ring

/-- Without the signs if every product conserves the number of particles. -/
theorem c117_conserving [NeZero N] (terms : List (ℂ × List (Letter N))) (hc : Conserving terms) (s s' : Config N 2) :
    elementOf (branchFreeKernel (terms.map fun t => t.2.map letterOp) (terms.map Prod.fst) s) s'
      = fermionOperator terms s' s := by
  rw [c117_elements]
  by_cases h : fermionOperator terms s' s = 0
  · rw [h, mul_zero]
  · obtain ⟨t, ht, e⟩ := operator_charge (fun _ => 1) terms s' s h
    have hz := hc t ht
    rw [chargeOf_one, chargeOf_one, show (letterCharge fun _ => 1 : Letter N → ℤ) = Letter.charge from
      funext letterCharge_one, hz, add_zero] at e
    have e' : particles s' = particles s := by exact_mod_cast e
    rw [e', ← mul_pow]
    simp

example := c117_conserving [((2 : ℂ), [Letter.create (0 : Fin 3), .annihilate 1]), (-4, [.number 2])]
  (by simp [Conserving, Letter.charge])

theorem expect_transpose_real {C : Type} [Fintype C] (O : Matrix C C ℂ)
    (hr : ∀ s s', (starRingEnd ℂ) (O s s') = O s s') (ψ : C → ℂ) :
    Spec.expect Oᵀ ψ = (starRingEnd ℂ) (Spec.expect O ψ) := by
  unfold Spec.expect
  rw [map_div₀, Complex.conj_ofReal, map_sum]
  congr 1
  simp only [mulVec, dotProduct, transpose_apply, map_mul, map_sum, Complex.conj_conj, hr, Finset.mul_sum]
  rw [Finset.sum_comm]
  apply Finset.sum_congr rfl
  intro s _
  apply Finset.sum_congr rfl
  intro s' _
  ring

theorem measured_as [NeZero N] (terms : List (ℂ × List (Letter N))) (O : Matrix (Config N 2) (Config N 2) ℂ)
    (hO : ∀ s s', elementOf (branchFreeKernel (terms.map fun t => t.2.map letterOp) (terms.map Prod.fst) s) s' = O s s')
    (c : ℂ) (hc : (1e-6 : ℝ) < ‖c‖) (hm : ∀ t ∈ terms, ∃ k : ℤ, t.1 = k * c)
    (D ranks : ℕ) (hD : 0 < D) (hs : 0 < ranks) (hbig : ranks ≤ 2 ^ N)
    (hdiv : ∀ r < ranks, ∀ n g, distributeSampling ranks r (2 ^ N) none 1 = .ok (n, g) → D ∣ n)
    (lastNorm : ℝ) (logPsi : Config N 2 → ℂ) (zeroCfg : Config N 2) (b : ℤ) :
    ∃ ln' w res, exactSampleWorld 2 N D ranks (toConfig N 2) (1 / 2) lastNorm logPsi = .ok (ln', w) ∧
      measureOp (branchFreeKernel (terms.map fun t => t.2.map letterOp) (terms.map Prod.fst)) ⟨logPsi, true⟩ zeroCfg b
        none w = .ok res ∧ res.length = ranks ∧
      ∀ r ∈ res, r.mean = (Spec.expect O fun s => Complex.exp (logPsi s)).re := by
  obtain ⟨ln', w, res, h1, h2, h3, h4⟩ := c77_exact_measurement (terms.map fun t => t.2.map letterOp)
    (terms.map Prod.fst) (by simp) (fun _ _ _ _ _ => rfl) (letter_fermionic_ok terms)
    (above_of_multiples terms c hc hm) D ranks le_rfl hD hs hbig hdiv lastNorm logPsi zeroCfg b
  refine ⟨ln', w, res, h1, h2, h3, fun r hr => ?_⟩
  rw [h4 r hr]
  congr 2
  ext s s'
  rw [← hO, c26_reversed_product _ _ (by simp) (fun _ _ _ _ _ => rfl) (letter_fermionic_ok terms)]

/-- C117: with exact sampling, `measure` reports the expectation value of the fermionic operator, if all products conserve
the number of particles and the coefficients are real. The coefficients are integer multiples of some number above the threshold
`1e-6` (other ones: C28). Missing: complex coefficients and products which change the number of particles, see
`c117_current_violated` and `c117_pairing_violated`. -/
theorem c117_measured_partial [NeZero N] (terms : List (ℂ × List (Letter N))) (hcons : Conserving terms)
    (c : ℝ) (hc : (1e-6 : ℝ) < |c|) (hm : ∀ t ∈ terms, ∃ k : ℤ, t.1 = k * (c : ℂ))
    (D ranks : ℕ) (hD : 0 < D) (hs : 0 < ranks) (hbig : ranks ≤ 2 ^ N)
    (hdiv : ∀ r < ranks, ∀ n g, distributeSampling ranks r (2 ^ N) none 1 = .ok (n, g) → D ∣ n)
    (lastNorm : ℝ) (logPsi : Config N 2 → ℂ) (zeroCfg : Config N 2) (b : ℤ) :
    ∃ ln' w res, exactSampleWorld 2 N D ranks (toConfig N 2) (1 / 2) lastNorm logPsi = .ok (ln', w) ∧
      measureOp (branchFreeKernel (terms.map fun t => t.2.map letterOp) (terms.map Prod.fst)) ⟨logPsi, true⟩ zeroCfg b
        none w = .ok res ∧ res.length = ranks ∧
      ∀ r ∈ res, r.mean = (Spec.expect (fermionOperator terms) fun s => Complex.exp (logPsi s)).re := by
  obtain ⟨ln', w, res, h1, h2, h3, h4⟩ := measured_as terms (fermionOperator terms)ᵀ
    (fun s s' => c117_conserving terms hcons s s') (c : ℂ) (by simpa using hc) hm D ranks hD hs hbig hdiv lastNorm
    logPsi zeroCfg b
  refine ⟨ln', w, res, h1, h2, h3, fun r hr => ?_⟩
  rw [h4 r hr, expect_transpose_real _ (operator_real terms ?_), Complex.conj_re]
  intro t ht
  obtain ⟨k, hk⟩ := hm t ht
  rw [hk]
  simp

example (logPsi : Config 3 2 → ℂ) := c117_measured_partial [((2 : ℂ), [Letter.create (0 : Fin 3), .annihilate 1]), (-4, [.number 2])]
  (by simp [Conserving, Letter.charge]) 2 (by norm_num)
  (by simp only [List.mem_cons, List.not_mem_nil, or_false, forall_eq_or_imp, forall_eq]
      exact ⟨⟨1, by norm_num⟩, ⟨-2, by norm_num⟩⟩)
  1 2 (by norm_num) (by norm_num) (by norm_num) (fun _ _ n _ _ => one_dvd n) 0 logPsi ![0, 0, 0] 3

/-! ## The Hubbard model -/

/-- The terms of the Hubbard model at one site, as the example adds them. -/
noncomputable def hubbardTerms (L : ℕ) (t mu V : ℂ) (i : Fin L) : List (ℂ × List (Letter (2 * L))) :=
  [(V, [.number (modeUp L i), .number (modeDown L i)]), (mu, [.number (modeUp L i)]), (mu, [.number (modeDown L i)])] ++
    if h : (i : ℕ) + 1 < L then
      [(t, [.create (modeUp L ⟨i + 1, h⟩), .annihilate (modeUp L i)]),
        (t, [.create (modeUp L i), .annihilate (modeUp L ⟨i + 1, h⟩)]),
        (t, [.create (modeDown L ⟨i + 1, h⟩), .annihilate (modeDown L i)]),
        (t, [.create (modeDown L i), .annihilate (modeDown L ⟨i + 1, h⟩)])] else []

/-- All terms. -/
noncomputable def hubbardAll (L : ℕ) (t mu V : ℂ) : List (ℂ × List (Letter (2 * L))) :=
  (List.finRange L).flatMap (hubbardTerms L t mu V)

theorem hubbardSite_eq (L : ℕ) (t mu V : ℂ) (i : Fin L) :
    hubbardSite L t mu V i = (hubbardTerms L t mu V i).map fun p => (p.1, p.2.map letterOp) := by
  unfold hubbardSite hubbardTerms
  have e1 : (⟨0 + i, by omega⟩ : Fin (2 * L)) = modeUp L i := by
    apply Fin.ext; simp [modeUp]
  have e2 : (⟨2 * L - 1 - i, by omega⟩ : Fin (2 * L)) = modeDown L i := rfl
  by_cases h : (i : ℕ) + 1 < L
  · have hL : ¬ (i : ℕ) = L - 1 := by omega
    have e3 : (⟨0 + i + 1, by omega⟩ : Fin (2 * L)) = modeUp L ⟨i + 1, h⟩ := by
      apply Fin.ext; simp [modeUp]
    have e4 : (⟨2 * L - 1 - i - 1, by omega⟩ : Fin (2 * L)) = modeDown L ⟨i + 1, h⟩ := by
      apply Fin.ext; simp [modeDown]; omega
    simp only [dif_neg hL, dif_pos h, e1, e2, e3, e4]
    rfl
  · have hL : (i : ℕ) = L - 1 := by have := i.2; omega
    simp only [dif_pos hL, dif_neg h, e1, e2]
    rfl

/-- The string with a constant prefactor. -/
noncomputable def scaled (p : ℂ × List (LocalOp N 2)) : OpStr ℂ N 2 := .fn (.const p.1) :: p.2.map .op

theorem strings_mapM (l : List (ℂ × List (LocalOp N 2))) (hne : ∀ p ∈ l, p.2 ≠ []) :
    (l.mapM fun p => scalOpstr (Arg := ℂ) (.const p.1) (p.2.map .op)) = .ok (l.map scaled) := by
  have hnew : ∀ (f : List (PreFun ℂ)) (ops : List (LocalOp N 2)),
      strFactors ((f.map fun g => StrArg.item (StrItem.fn g)) ++ ops.map fun o => StrArg.item (StrItem.op o)) = f ∧
      strOps ((f.map fun g => StrArg.item (StrItem.fn g)) ++ ops.map fun o => StrArg.item (StrItem.op (Arg := ℂ) o)) = ops := by
    intro f ops
    induction f with
    | nil =>
      induction ops with
      | nil => exact ⟨rfl, rfl⟩
      | cons o ops ih =>
        simp only [List.map_nil, List.nil_append, List.map_cons] at ih ⊢
        exact ⟨ih.1, by rw [strOps, ih.2]⟩
    | cons g f ih =>
      simp only [List.map_cons, List.cons_append]
      exact ⟨by rw [strFactors, ih.1], by rw [strOps]; exact ih.2; simp⟩
  induction l with
  | nil => rfl
  | cons p l ih =>
    rw [List.mapM_cons, ih fun q hq => hne q (List.mem_cons_of_mem _ hq)]
    obtain ⟨a, ops⟩ := p
    cases ops with
    | nil => exact absurd rfl (hne (a, []) List.mem_cons_self)
    | cons o ops =>
      have h0 := hnew [] (o :: ops)
      have h1 := hnew [.const a] (o :: ops)
      have e : scalOpstr (Arg := ℂ) (.const a) ((o :: ops).map .op) = .ok (scaled (a, o :: ops)) := by
        unfold scalOpstr OpStr.new
        simp only [List.map_map, List.map_nil, List.nil_append, Function.comp_def] at h0 ⊢
        rw [h0.1, h0.2]
        simp only [List.map_cons, OpStr.rmul]
        unfold OpStr.new
        simp only [List.map_cons, List.map_nil, List.cons_append, List.nil_append, List.map_map,
          Function.comp_def] at h1 ⊢
        rw [h1.1, h1.2]
        rfl
      rw [e]
      rfl

theorem operator_flatMap {A : Type} (l : List A) (f : A → List (ℂ × List (Letter N))) :
    fermionOperator (l.flatMap f) = (l.map fun a => fermionOperator (f a)).sum := by
  induction l with
  | nil => simp [fermionOperator]
  | cons a l ih =>
    rw [List.flatMap_cons, List.map_cons, List.sum_cons, ← ih]
    simp [fermionOperator]

theorem hopping_eq {L : ℕ} (mode : Fin L → Fin N) : hopping mode = ∑ i : Fin L, if h : (i : ℕ) + 1 < L then
    creator (mode ⟨i + 1, h⟩) * annihilator (mode i) + creator (mode i) * annihilator (mode ⟨i + 1, h⟩) else 0 := by
  unfold hopping
  apply Finset.sum_congr rfl
  intro i _
  by_cases h : (i : ℕ) + 1 < L
  · rw [dif_pos h, Finset.sum_eq_single (⟨i + 1, h⟩ : Fin L)]
    · simp
    · intro j _ hj
      rw [if_neg]
      intro e
      exact hj (Fin.ext e)
    · simp
  · rw [dif_neg h]
    apply Finset.sum_eq_zero
    intro j _
    rw [if_neg]
    have := j.2
    omega

theorem hubbard_terms (L : ℕ) (t mu V : ℂ) : fermionOperator (hubbardAll L t mu V) = hubbard L t mu V := by
  unfold hubbardAll
  rw [operator_flatMap, ← List.ofFn_eq_map, List.sum_ofFn]
  unfold hubbard totalNumber
  rw [hopping_eq, hopping_eq, ← Finset.sum_add_distrib, ← Finset.sum_add_distrib, Finset.smul_sum, Finset.smul_sum,
    Finset.smul_sum, ← Finset.sum_add_distrib, ← Finset.sum_add_distrib]
  apply Finset.sum_congr rfl
  intro i _
  unfold hubbardTerms
  by_cases h : (i : ℕ) + 1 < L
  · simp only [dif_pos h, fermionOperator, Letter.matrix, List.cons_append, List.nil_append, List.map_cons, List.map_nil,
      List.prod_cons, List.prod_nil, List.sum_cons, List.sum_nil, Matrix.mul_one, smul_add]
    abel
  · simp only [dif_neg h, fermionOperator, Letter.matrix, List.append_nil, List.map_cons, List.map_nil,
      List.prod_cons, List.prod_nil, List.sum_cons, List.sum_nil, Matrix.mul_one, smul_add, smul_zero]
    abel

theorem hubbard_conserving (L : ℕ) (t mu V : ℂ) : Conserving (hubbardAll L t mu V) := by
  intro p hp
  obtain ⟨i, -, hi⟩ := List.mem_flatMap.mp hp
  unfold hubbardTerms at hi
  by_cases h : (i : ℕ) + 1 < L
  · rw [dif_pos h] at hi
    simp only [List.cons_append, List.nil_append, List.mem_cons, List.not_mem_nil, or_false] at hi
    rcases hi with rfl | rfl | rfl | rfl | rfl | rfl | rfl <;> simp [Letter.charge]
  · rw [dif_neg h] at hi
    simp only [List.cons_append, List.nil_append, List.mem_cons, List.not_mem_nil, or_false] at hi
    rcases hi with rfl | rfl | rfl <;> simp [Letter.charge]

theorem number_transpose (j : Fin N) : (creator j * annihilator j)ᵀ = creator j * annihilator j := by
  rw [transpose_mul, creator_transpose, ← creator_transpose j, transpose_transpose]

theorem hop_transpose (i j : Fin N) : (creator i * annihilator j)ᵀ = creator j * annihilator i := by
  rw [transpose_mul, creator_transpose, ← creator_transpose j, transpose_transpose]

theorem number_commute (i j : Fin N) :
    creator i * annihilator i * (creator j * annihilator j) = creator j * annihilator j * (creator i * annihilator i) := by
  have hd : ∀ k : Fin N, creator k * annihilator k = Matrix.diagonal fun s : Config N 2 => ((s k : ℕ) : ℂ) := by
    intro k
    ext s s'
    rw [number_entry, diagonal_apply]
  rw [hd, hd, diagonal_mul_diagonal, diagonal_mul_diagonal]
  congr 1
  funext s
  ring

theorem hopping_transpose {L : ℕ} (mode : Fin L → Fin N) : (hopping mode)ᵀ = hopping mode := by
  unfold hopping
  rw [transpose_sum]
  apply Finset.sum_congr rfl
  intro i _
  rw [transpose_sum]
  apply Finset.sum_congr rfl
  intro j _
  split
  · rw [transpose_add, hop_transpose, hop_transpose, add_comm]
  · simp

theorem totalNumber_transpose {L : ℕ} (mode : Fin L → Fin N) : (totalNumber mode)ᵀ = totalNumber mode := by
  unfold totalNumber
  rw [transpose_sum]
  exact Finset.sum_congr rfl fun i _ => number_transpose _

theorem hubbard_transpose (L : ℕ) (t mu V : ℂ) : (hubbard L t mu V)ᵀ = hubbard L t mu V := by
  unfold hubbard
  rw [transpose_add, transpose_add, transpose_smul, transpose_smul, transpose_smul, transpose_add, transpose_add,
    hopping_transpose, hopping_transpose, totalNumber_transpose, totalNumber_transpose, transpose_sum]
  congr 3
  apply Finset.sum_congr rfl
  intro i _
  rw [transpose_mul, number_transpose, number_transpose, number_commute]

theorem hubbardAll_ops (L : ℕ) (t mu V : ℂ) : (List.finRange L).flatMap (hubbardSite L t mu V)
    = (hubbardAll L t mu V).map fun p => (p.1, p.2.map letterOp) := by
  unfold hubbardAll
  rw [List.map_flatMap]
  congr 1
  funext i
  exact hubbardSite_eq L t mu V i

theorem hubbardAll_ne (L : ℕ) (t mu V : ℂ) : ∀ p ∈ hubbardAll L t mu V, p.2 ≠ [] := by
  intro p hp
  obtain ⟨i, -, hi⟩ := List.mem_flatMap.mp hp
  unfold hubbardTerms at hi
  by_cases h : (i : ℕ) + 1 < L
  · rw [dif_pos h] at hi
    simp only [List.cons_append, List.nil_append, List.mem_cons, List.not_mem_nil, or_false] at hi
    rcases hi with rfl | rfl | rfl | rfl | rfl | rfl | rfl <;> simp
  · rw [dif_neg h] at hi
    simp only [List.cons_append, List.nil_append, List.mem_cons, List.not_mem_nil, or_false] at hi
    rcases hi with rfl | rfl | rfl <;> simp

theorem hubbardAll_length (L : ℕ) (t mu V : ℂ) : (hubbardAll L t mu V).length = 3 * L + 4 * (L - 1) := by
  unfold hubbardAll
  rw [List.length_flatMap, ← List.ofFn_eq_map, List.sum_ofFn]
  have h : ∀ i : Fin L, (hubbardTerms L t mu V i).length = 3 + 4 * if (i : ℕ) + 1 < L then 1 else 0 := by
    intro i
    unfold hubbardTerms
    by_cases h : (i : ℕ) + 1 < L <;> simp [h]
  rw [Finset.sum_congr rfl fun i _ => h i, Finset.sum_add_distrib, ← Finset.mul_sum]
  have h2 : ∑ i : Fin L, (if (i : ℕ) + 1 < L then 1 else 0) = L - 1 := by
    rw [Fin.sum_univ_eq_sum_range (fun i => if i + 1 < L then 1 else 0) L]
    cases L with
    | zero => simp
    | succ n =>
      rw [Finset.sum_range_succ]
      simp only [lt_irrefl, if_false, Nat.add_lt_add_iff_right]
      rw [Finset.sum_congr rfl fun i hi => if_pos (Finset.mem_range.mp hi)]
      simp
  rw [h2]
  simp
  ring

theorem hubbardStrings_eq (L : ℕ) (t mu V : ℂ) : hubbardStrings L t mu V
    = .ok (((hubbardAll L t mu V).map fun p => (p.1, p.2.map letterOp)).map scaled) := by
  unfold hubbardStrings
  rw [hubbardAll_ops]
  apply strings_mapM
  intro p hp
  obtain ⟨q, hq, rfl⟩ := List.mem_map.mp hp
  intro h
  exact hubbardAll_ne L t mu V q hq (List.map_eq_nil_iff.mp h)

/-- C117: the Hamiltonian of the example is the Hubbard model on an open chain, for every length and all parameters, on one
rank or with fewer than eight sites. -/
theorem c117_hubbard (L : ℕ) [NeZero (2 * L)] (t mu V : ℂ) : ∃ strs, hubbardStrings L t mu V = .ok strs ∧
    ∀ (args : List ℂ) (commSize : ℕ), (L < 8 ∨ commSize = 1) → ∀ s : Config (2 * L) 2,
      ∃ l, branchFreeElements strs args commSize s = .ok l ∧ ∀ s', elementOf l s' = hubbard L t mu V s s' := by
  refine ⟨_, hubbardStrings_eq L t mu V, ?_⟩
  · intro args commSize hr s
    have hlocal : (((hubbardAll L t mu V).map fun p => (p.1, p.2.map letterOp)).map scaled).map OpStr.localOps
        = (hubbardAll L t mu V).map fun p => p.2.map letterOp := by
      rw [List.map_map, List.map_map]
      apply List.map_congr_left
      intro p _
      simp only [Function.comp, scaled, OpStr.localOps, List.filterMap_cons, List.filterMap_map]
      induction p.2 with
      | nil => rfl
      | cons o l ih => rw [List.filterMap_cons, ih]; rfl
    obtain ⟨pre, h1, h2⟩ := prefactors_evaluated
      (((hubbardAll L t mu V).map fun p => (p.1, p.2.map letterOp)).map scaled) args commSize
      ((hubbardAll L t mu V).map Prod.fst)
      (by intro x hx; obtain ⟨p, -, rfl⟩ := List.mem_map.mp hx; simp [scaled])
      (by
        rw [List.map_map, List.map_map, List.map_map]
        apply List.map_congr_left
        intro p _
        rfl)
      (by
        rcases hr with hr | hr
        · left; rw [List.length_map, List.length_map, hubbardAll_length]; omega
        · exact .inr hr)
    refine ⟨branchFreeKernel ((hubbardAll L t mu V).map fun p => p.2.map letterOp)
      ((hubbardAll L t mu V).map Prod.fst) s, ?_, ?_⟩
    · unfold branchFreeElements
      rw [h1]
      change (do let vec ← argFun pre _ commSize; pure _) = _
      rw [h2, hlocal]
      rfl
    · intro s'
      rw [c117_conserving _ (hubbard_conserving L t mu V), hubbard_terms]
      exact congrFun (congrFun (hubbard_transpose L t mu V) s) s'

/-- With eight or more sites the example cannot be run on two or more ranks: evaluating the Hamiltonian raises an
`IndexError`. -/
theorem c117_ranks_violated (L : ℕ) [NeZero (2 * L)] (t mu V : ℂ) (hL : 8 ≤ L) : ∃ strs, hubbardStrings L t mu V = .ok strs ∧
    ∀ (args : List ℂ) (commSize : ℕ), 2 ≤ commSize → ∀ s : Config (2 * L) 2,
      branchFreeElements strs args commSize s = .error .indexError := by
  refine ⟨_, hubbardStrings_eq L t mu V, ?_⟩
  intro args commSize hr s
  have hpre : ∀ (l : List (ℂ × List (LocalOp (2 * L) 2))) (o : ℕ), evalPrefactors args o (l.map scaled)
      = .ok ((List.range' o l.length).zip (l.map Prod.fst)) := by
    intro l
    induction l with
    | nil => intro o; rfl
    | cons p l ih =>
      intro o
      rw [List.map_cons, scaled, evalPrefactors, ih (o + 1)]
      rfl
  unfold branchFreeElements
  rw [hpre, List.length_map, ← List.range_eq_range', List.map_map]
  have h := (c32_violated ((hubbardAll L t mu V).map Prod.fst) (List.replicate (hubbardAll L t mu V).length (1 : ℂ)) commSize
    (by rw [List.length_map, hubbardAll_length]; omega) (by simp) hr).1
  rw [List.length_map] at h
  simp only [List.length_map]
  change (do let vec ← argFun _ _ commSize; pure _) = _
  rw [show (Prod.fst ∘ fun p : ℂ × List (Letter (2 * L)) => (p.1, p.2.map letterOp)) = Prod.fst from rfl, h]
  rfl

/-! ## Conservation laws -/

theorem hubbard_weights (L : ℕ) (t mu V : ℂ) (w : Fin (2 * L) → ℤ)
    (hu : ∀ i j, w (modeUp L i) = w (modeUp L j)) (hd : ∀ i j, w (modeDown L i) = w (modeDown L j))
    (s' s : Config (2 * L) 2) (h : hubbard L t mu V s' s ≠ 0) : chargeOf w s' = chargeOf w s := by
  rw [← hubbard_terms] at h
  obtain ⟨p, hp, e⟩ := operator_charge w _ s' s h
  rw [e]
  obtain ⟨i, -, hi⟩ := List.mem_flatMap.mp hp
  unfold hubbardTerms at hi
  by_cases h : (i : ℕ) + 1 < L
  · rw [dif_pos h] at hi
    simp only [List.cons_append, List.nil_append, List.mem_cons, List.not_mem_nil, or_false] at hi
    have h1 := hu i ⟨i + 1, h⟩
    have h2 := hd i ⟨i + 1, h⟩
    rcases hi with rfl | rfl | rfl | rfl | rfl | rfl | rfl <;> simp [letterCharge, h1, h2]
  · rw [dif_neg h] at hi
    simp only [List.cons_append, List.nil_append, List.mem_cons, List.not_mem_nil, or_false] at hi
    rcases hi with rfl | rfl | rfl <;> simp [letterCharge]

theorem totalNumber_diagonal {L : ℕ} (mode : Fin L → Fin N) :
    totalNumber mode = Matrix.diagonal fun s : Config N 2 => ∑ i, ((s (mode i) : ℕ) : ℂ) := by
  unfold totalNumber
  ext s s'
  rw [Matrix.sum_apply, diagonal_apply]
  simp only [number_entry]
  by_cases h : s = s' <;> simp [h]

theorem commute_diagonal (A : Matrix (Config N 2) (Config N 2) ℂ) (d : Config N 2 → ℂ)
    (h : ∀ s' s, A s' s ≠ 0 → d s' = d s) : Commute A (Matrix.diagonal d) := by
  change A * _ = _ * A
  ext s' s
  rw [mul_diagonal, diagonal_mul]
  by_cases h0 : A s' s = 0
  · rw [h0]; ring
  · rw [h s' s h0]; ring

theorem charge_modes {L : ℕ} (mode : Fin L → Fin N) (hinj : Function.Injective mode) (s : Config N 2) :
    chargeOf (fun k => if k ∈ Set.range mode then 1 else 0) s = ∑ i, ((s (mode i) : ℕ) : ℤ) := by
  classical
  unfold chargeOf
  rw [← Finset.sum_image (f := fun k => ((s k : ℕ) : ℤ)) (s := Finset.univ) (g := mode) (fun a _ b _ h => hinj h)]
  rw [← Finset.sum_filter_add_sum_filter_not Finset.univ (fun k => k ∈ Set.range mode)]
  rw [Finset.sum_eq_zero (s := Finset.univ.filter fun k => ¬ k ∈ Set.range mode), add_zero]
  · have : Finset.univ.filter (fun k => k ∈ Set.range mode) = Finset.univ.image mode := by
      ext k; simp
    rw [this]
    apply Finset.sum_congr rfl
    intro k hk
    obtain ⟨i, -, rfl⟩ := Finset.mem_image.mp hk
    simp
  · intro k hk
    simp only [if_neg (Finset.mem_filter.mp hk).2, zero_mul]

/-- C117: with real parameters the Hamiltonian is Hermitian, and for all parameters the numbers of particles with spin up and
with spin down are conserved. -/
theorem c117_conserved (L : ℕ) (t mu V : ℂ) :
    (∀ a b c : ℝ, (hubbard L a b c).IsHermitian) ∧ Commute (hubbard L t mu V) (totalNumber (modeUp L)) ∧
      Commute (hubbard L t mu V) (totalNumber (modeDown L)) := by
  classical
  have hud : ∀ i j : Fin L, modeUp L i ≠ modeDown L j := by
    intro i j h
    have := congrArg Fin.val h
    simp only [modeUp, modeDown] at this
    omega
  have iu : Function.Injective (modeUp L) := by
    intro i j h
    have := congrArg Fin.val h
    exact Fin.ext this
  have id' : Function.Injective (modeDown L) := by
    intro i j h
    have := congrArg Fin.val h
    simp only [modeDown] at this
    apply Fin.ext
    omega
  refine ⟨?_, ?_, ?_⟩
  · intro a b c
    ext s s'
    rw [conjTranspose_apply, ← hubbard_terms]
    have hr := operator_real (hubbardAll L (a : ℂ) b c) (by
      intro p hp
      obtain ⟨i, -, hi⟩ := List.mem_flatMap.mp hp
      unfold hubbardTerms at hi
      by_cases h : (i : ℕ) + 1 < L
      · rw [dif_pos h] at hi
        simp only [List.cons_append, List.nil_append, List.mem_cons, List.not_mem_nil, or_false] at hi
        rcases hi with rfl | rfl | rfl | rfl | rfl | rfl | rfl <;> simp
      · rw [dif_neg h] at hi
        simp only [List.cons_append, List.nil_append, List.mem_cons, List.not_mem_nil, or_false] at hi
        rcases hi with rfl | rfl | rfl <;> simp) s' s
    rw [hubbard_terms] at hr ⊢
    exact hr.trans (congrFun (congrFun (hubbard_transpose L a b c) s) s')
  · rw [totalNumber_diagonal]
    apply commute_diagonal
    intro s' s h
    have := hubbard_weights L t mu V (fun k => if k ∈ Set.range (modeUp L) then 1 else 0) (by simp)
      (by intro i j; simp [hud]) s' s h
    rw [charge_modes _ iu, charge_modes _ iu] at this
    exact_mod_cast this
  · rw [totalNumber_diagonal]
    apply commute_diagonal
    intro s' s h
    have := hubbard_weights L t mu V (fun k => if k ∈ Set.range (modeDown L) then 1 else 0)
      (by intro i j; simp [fun k l => (hud l k).symm]) (by simp) s' s h
    rw [charge_modes _ id', charge_modes _ id'] at this
    exact_mod_cast this

/-! ## Currents and pairing -/

theorem current_terms (i j : Fin N) : fermionOperator
    [(Complex.I, [.create j, .annihilate i]), (-Complex.I, [.create i, .annihilate j])] = current i j := by
  simp [fermionOperator, Letter.matrix, current, sub_eq_add_neg]

theorem current_transpose (i j : Fin N) : (current i j)ᵀ = -current i j := by
  unfold current
  rw [transpose_smul, transpose_sub, hop_transpose, hop_transpose, ← smul_neg, neg_sub]

theorem expect_neg' {C : Type} [Fintype C] (O : Matrix C C ℂ) (ψ : C → ℂ) : Spec.expect (-O) ψ = -Spec.expect O ψ := by
  unfold Spec.expect
  simp [neg_mulVec, neg_div]

/-- The current between two modes is a Hermitian operator which conserves the number of particles, but `measure` reports its
expectation value with the wrong sign, in every state. -/
theorem c117_current_violated [NeZero N] (i j : Fin N) (D ranks : ℕ) (hD : 0 < D) (hs : 0 < ranks) (hbig : ranks ≤ 2 ^ N)
    (hdiv : ∀ r < ranks, ∀ n g, distributeSampling ranks r (2 ^ N) none 1 = .ok (n, g) → D ∣ n)
    (lastNorm : ℝ) (logPsi : Config N 2 → ℂ) (zeroCfg : Config N 2) (b : ℤ) :
    (current i j).IsHermitian ∧
    ∃ ln' w res, exactSampleWorld 2 N D ranks (toConfig N 2) (1 / 2) lastNorm logPsi = .ok (ln', w) ∧
      measureOp (branchFreeKernel [[opCreation j, opAnnihilation i], [opCreation i, opAnnihilation j]]
        [Complex.I, -Complex.I]) ⟨logPsi, true⟩ zeroCfg b none w = .ok res ∧ res.length = ranks ∧
      ∀ r ∈ res, r.mean = -(Spec.expect (current i j) fun s => Complex.exp (logPsi s)).re := by
  constructor
  · unfold current
    change (_)ᴴ = _
    have h : ∀ k l : Fin N, (creator k * annihilator l)ᴴ = creator l * annihilator k := by
      intro k l
      rw [conjTranspose_mul, annihilator, annihilator, conjTranspose_conjTranspose]
    rw [conjTranspose_smul, conjTranspose_sub, h, h]
    simp only [Complex.star_def, Complex.conj_I, smul_sub, neg_smul]
    abel
  · obtain ⟨ln', w, res, h1, h2, h3, h4⟩ := measured_as
      [(Complex.I, [.create j, .annihilate i]), (-Complex.I, [.create i, .annihilate j])] (current i j)ᵀ
      (by
        intro s s'
        rw [c117_conserving, current_terms, transpose_apply]
        intro t ht
        simp only [List.mem_cons, List.not_mem_nil, or_false] at ht
        rcases ht with rfl | rfl <;> simp [Letter.charge])
      Complex.I (by simp; norm_num)
      (by
        intro t ht
        simp only [List.mem_cons, List.not_mem_nil, or_false] at ht
        rcases ht with rfl | rfl
        · exact ⟨1, by simp⟩
        · exact ⟨-1, by simp⟩)
      D ranks hD hs hbig hdiv lastNorm logPsi zeroCfg b
    refine ⟨ln', w, res, h1, h2, h3, fun r hr => ?_⟩
    rw [h4 r hr, current_transpose, expect_neg', Complex.neg_re]

theorem pairing_terms (i j : Fin N) : fermionOperator
    [(1, [.create i, .create j]), (1, [.annihilate j, .annihilate i])] = pairing i j := by
  simp [fermionOperator, Letter.matrix, pairing]

theorem pairing_transpose (i j : Fin N) : (pairing i j)ᵀ = pairing i j := by
  unfold pairing
  rw [transpose_add, transpose_mul, transpose_mul, creator_transpose, creator_transpose, ← creator_transpose i,
    ← creator_transpose j, transpose_transpose, transpose_transpose, add_comm]

/-- For the pairing of two modes `measure` reports minus the expectation value in the documented convention, in every state. -/
theorem c117_pairing_violated [NeZero N] (i j : Fin N) (D ranks : ℕ) (hD : 0 < D) (hs : 0 < ranks) (hbig : ranks ≤ 2 ^ N)
    (hdiv : ∀ r < ranks, ∀ n g, distributeSampling ranks r (2 ^ N) none 1 = .ok (n, g) → D ∣ n)
    (lastNorm : ℝ) (logPsi : Config N 2 → ℂ) (zeroCfg : Config N 2) (b : ℤ) :
    (pairing i j).IsHermitian ∧
    ∃ ln' w res, exactSampleWorld 2 N D ranks (toConfig N 2) (1 / 2) lastNorm logPsi = .ok (ln', w) ∧
      measureOp (branchFreeKernel [[opCreation i, opCreation j], [opAnnihilation j, opAnnihilation i]]
        [1, 1]) ⟨logPsi, true⟩ zeroCfg b none w = .ok res ∧ res.length = ranks ∧
      ∀ r ∈ res, r.mean = -(Spec.expect (pairing i j) fun s => Complex.exp (logPsi s)).re := by
  have hreal : ∀ s s', (starRingEnd ℂ) (pairing i j s s') = pairing i j s s' := by
    intro s s'
    rw [← pairing_terms]
    exact operator_real _ (by simp) s s'
  constructor
  · ext s s'
    rw [conjTranspose_apply]
    exact (hreal s' s).trans (congrFun (congrFun (pairing_transpose i j) s) s')
  · obtain ⟨ln', w, res, h1, h2, h3, h4⟩ := measured_as
      [(1, [.create i, .create j]), (1, [.annihilate j, .annihilate i])] (-pairing i j)
      (by
        intro s s'
        have ht : pairing i j s' s = pairing i j s s' := congrFun (congrFun (pairing_transpose i j) s) s'
        rw [c117_elements, pairing_terms, ht, Matrix.neg_apply]
        by_cases h : pairing i j s s' = 0
        · rw [h]; simp
        · rw [← pairing_terms] at h
          obtain ⟨t, ht, e⟩ := operator_charge (fun _ => 1) _ s s' h
          rw [chargeOf_one, chargeOf_one] at e
          have hch : ∀ n : ℕ, ((-1 : ℂ) ^ (n + 2).choose 2) * (-1) ^ n.choose 2 = -1 := by
            intro n
            have h2 : (n + 2).choose 2 = n.choose 2 + (2 * n + 1) := by
              rw [Nat.choose_succ_succ' (n + 1) 1, Nat.choose_succ_succ' n 1, Nat.choose_one_right, Nat.choose_one_right]
              ring
            rw [h2, pow_add, pow_succ _ (2 * n), pow_mul]
            have : ((-1 : ℂ) ^ n.choose 2) * (-1) ^ n.choose 2 = 1 := by rw [← mul_pow]; simp
            linear_combination (-1 : ℂ) * ((-1 : ℂ) ^ 2) ^ n * this + (by norm_num : ((-1 : ℂ) ^ 2) ^ n = 1) * (-1)
          simp only [List.mem_cons, List.not_mem_nil, or_false] at ht
          rcases ht with rfl | rfl
          · simp only [List.map_cons, List.map_nil, letterCharge, List.sum_cons, List.sum_nil] at e
            have e' : particles s = particles s' + 2 := by omega
            rw [e', mul_comm ((-1 : ℂ) ^ (particles s').choose 2), hch, neg_one_mul]
          · simp only [List.map_cons, List.map_nil, letterCharge, List.sum_cons, List.sum_nil] at e
            have e' : particles s' = particles s + 2 := by omega
            rw [e', hch, neg_one_mul])
      1 (by simp; norm_num)
      (by
        intro t ht
        simp only [List.mem_cons, List.not_mem_nil, or_false] at ht
        rcases ht with rfl | rfl <;> exact ⟨1, by simp⟩)
      D ranks hD hs hbig hdiv lastNorm logPsi zeroCfg b
    refine ⟨ln', w, res, h1, h2, h3, fun r hr => ?_⟩
    rw [h4 r hr, expect_neg', Complex.neg_re]

theorem creator_mulVec (j : Fin N) (ψ : Config N 2 → ℂ) (s : Config N 2) : (creator j *ᵥ ψ) s
    = if s j = 1 then (-1) ^ particlesBefore j s * ψ (Function.update s j 0) else 0 := by
  rw [mulVec, dotProduct]
  have hb : particlesBefore j (Function.update s j 0) = particlesBefore j s := by
    unfold particlesBefore
    apply Finset.sum_congr rfl
    intro i _
    split
    · rename_i h; rw [Function.update_of_ne h.ne]
    · rfl
  rw [Finset.sum_eq_single (Function.update s j 0)]
  · rw [creator_entry, hb]
    by_cases h : s j = 1
    · rw [if_pos ⟨by simp, by rw [Function.update_idem, ← h, Function.update_eq_self]⟩, if_pos h]
    · rw [if_neg, if_neg h, zero_mul]
      rintro ⟨-, h'⟩
      exact h (by rw [h']; simp)
  · intro u _ hu
    rw [creator_entry, if_neg, zero_mul]
    rintro ⟨h0, h1⟩
    exact hu (by rw [h1, Function.update_idem, ← h0, Function.update_eq_self])
  · simp

theorem annihilator_mulVec (j : Fin N) (ψ : Config N 2 → ℂ) (s : Config N 2) : (annihilator j *ᵥ ψ) s
    = if s j = 0 then (-1) ^ particlesBefore j s * ψ (Function.update s j 1) else 0 := by
  rw [mulVec, dotProduct, Finset.sum_eq_single (Function.update s j 1)]
  · rw [← creator_transpose, transpose_apply, creator_entry]
    by_cases h : s j = 0
    · rw [if_pos ⟨h, rfl⟩, if_pos h]
    · rw [if_neg (fun h' => h h'.1), if_neg h, zero_mul]
  · intro u _ hu
    rw [← creator_transpose, transpose_apply, creator_entry, if_neg (fun h' => hu h'.2), zero_mul]
  · simp

/-- Two modes with a phase difference of a quarter turn. -/
noncomputable def currentState : Config 2 2 → ℂ := fun s => if s 0 = 1 then Complex.I * (Real.pi / 2 : ℝ) else 0

/-- The current in this state is not zero. -/
theorem current_witness : (Spec.expect (current 0 1) fun s => Complex.exp (currentState s)).re = -1 / 2 := by
  unfold Spec.expect current
  have hI : Complex.exp (Complex.I * ((Real.pi / 2 : ℝ) : ℂ)) = Complex.I := by
    rw [mul_comm]
    push_cast
    exact Complex.exp_pi_div_two_mul_I
  have hψ : (fun s => Complex.exp (currentState s)) = fun s : Config 2 2 => if s 0 = 1 then Complex.I else 1 := by
    funext s
    unfold currentState
    split
    · exact hI
    · simp
  rw [hψ]
  have hn : norm2 (fun s : Config 2 2 => if s 0 = 1 then Complex.I else (1 : ℂ)) = 4 := by
    unfold norm2
    have : ∀ s : Config 2 2, Complex.normSq (if s 0 = 1 then Complex.I else (1 : ℂ)) = 1 := by
      intro s; split <;> simp
    simp [this]
  rw [hn]
  simp only [smul_mulVec, sub_mulVec, ← mulVec_mulVec, Pi.smul_apply, Pi.sub_apply, creator_mulVec, annihilator_mulVec]
  rw [← (finTwoArrowEquiv (Fin 2)).symm.sum_comp]
  simp [Fintype.sum_prod_type, particlesBefore, Fin.sum_univ_two, finTwoArrowEquiv]
  norm_num

/-- The reported and the true current of this state on one rank. -/
example : ∃ ln' w res, exactSampleWorld 2 2 1 1 (toConfig 2 2) (1 / 2) 0 currentState = .ok (ln', w) ∧
    measureOp (branchFreeKernel [[opCreation 1, opAnnihilation 0], [opCreation 0, opAnnihilation 1]]
      [Complex.I, -Complex.I]) ⟨currentState, true⟩ ![0, 0] 3 none w = .ok res ∧ res.length = 1 ∧
    ∀ r ∈ res, r.mean = 1 / 2 := by
  obtain ⟨-, ln', w, res, h1, h2, h3, h4⟩ := c117_current_violated (0 : Fin 2) 1 1 1 one_pos one_pos (by norm_num)
    (fun _ _ n _ _ => one_dvd n) 0 currentState ![0, 0] 3
  refine ⟨ln', w, res, h1, h2, h3, fun r hr => ?_⟩
  rw [h4 r hr, current_witness]
  norm_num

/-- In the uniform state of two modes the pairing is not zero. -/
theorem pairing_witness : (Spec.expect (pairing 0 1) fun _ : Config 2 2 => Complex.exp 0).re = 1 / 2 := by
  unfold Spec.expect pairing
  simp only [Complex.exp_zero, add_mulVec, ← mulVec_mulVec, Pi.add_apply, creator_mulVec, annihilator_mulVec]
  rw [← (finTwoArrowEquiv (Fin 2)).symm.sum_comp]
  simp [Fintype.sum_prod_type, particlesBefore, Fin.sum_univ_two, finTwoArrowEquiv, norm2]
  norm_num

/-! ## The network of the example -/

theorem targetIndex_succ {L : ℕ} (s : Config (L + 1) 2) :
    targetIndex s = targetIndex (fun k : Fin L => s k.castSucc) * 2 + (s (Fin.last L) : ℕ) := by
  unfold targetIndex
  rw [Fin.sum_univ_succ, Finset.sum_mul, add_comm]
  congr 1
  · apply Finset.sum_congr rfl
    intro k _
    rw [Fin.rev_succ, Fin.val_succ, pow_succ]
    ring
  · simp

/-- The amplitudes are numbered like binary numbers with the first mode as the highest digit: there is exactly one amplitude for
every configuration. -/
theorem c117_target_index {L : ℕ} : (∀ s : Config L 2, targetIndex s < 2 ^ L) ∧
    Function.Injective (targetIndex (L := L)) ∧
    ∀ (s : Config L 2) (k : Fin L), targetIndex s / 2 ^ (L - 1 - k) % 2 = s k := by
  induction L with
  | zero => exact ⟨fun s => by simp [targetIndex], fun s s' _ => funext fun k => k.elim0, fun _ k => k.elim0⟩
  | succ L ih =>
    refine ⟨?_, ?_, ?_⟩
    · intro s
      rw [targetIndex_succ, pow_succ]
      have h1 := ih.1 fun k : Fin L => s k.castSucc
      have h2 := (s (Fin.last L)).2
      omega
    · intro s s' h
      rw [targetIndex_succ, targetIndex_succ] at h
      have h1 := (s (Fin.last L)).2
      have h2 := (s' (Fin.last L)).2
      have h3 : (s (Fin.last L) : ℕ) = s' (Fin.last L) := by omega
      have h4 := ih.2.1 (a₁ := fun k : Fin L => s k.castSucc) (a₂ := fun k : Fin L => s' k.castSucc) (by omega)
      funext k
      refine Fin.lastCases ?_ (fun k => ?_) k
      · exact Fin.ext h3
      · exact congrFun h4 k
    · intro s k
      rw [targetIndex_succ]
      have h1 := (s (Fin.last L)).2
      refine Fin.lastCases ?_ (fun k => ?_) k
      · simp
        omega
      · have h2 := ih.2.2 (fun k : Fin L => s k.castSucc) k
        have h3 : L + 1 - 1 - (k.castSucc : ℕ) = (L - 1 - k) + 1 := by
          have := k.2
          simp only [Fin.val_castSucc]
          omega
        rw [h3, pow_succ', ← Nat.div_div_eq_div_mul, show (targetIndex (fun k : Fin L => s k.castSucc) * 2
          + (s (Fin.last L) : ℕ)) / 2 = targetIndex (fun k : Fin L => s k.castSucc) by omega]
        exact h2

/-- The amplitudes of the network are its parameters up to `1e-15`. A parameter `-1e-15` would give `log(0)`. -/
theorem c117_target {L : ℕ} (kernel : ℕ → ℝ) (s : Config L 2) (h0 : kernel (targetIndex s) ≠ -1e-15) :
    ‖Complex.exp (target kernel s) - (kernel (targetIndex s) : ℂ)‖ ≤ 1e-15 := by
  unfold target
  set k := kernel (targetIndex s)
  have hne : k + 1e-15 ≠ 0 := fun h => h0 (by linarith)
  rw [Complex.exp_add, ← Complex.ofReal_exp, Real.exp_log (abs_pos.mpr hne)]
  rcases lt_or_ge k 0 with h | h
  · rw [Complex.arg_ofReal_of_neg h, mul_comm Complex.I, Complex.exp_pi_mul_I, ← Complex.ofReal_one, ← Complex.ofReal_neg,
      ← Complex.ofReal_mul, ← Complex.ofReal_sub, Complex.norm_real, Real.norm_eq_abs, abs_le]
    rcases abs_cases (k + 1e-15) with ⟨e, h'⟩ | ⟨e, h'⟩ <;> rw [e] <;> constructor <;> linarith
  · rw [Complex.arg_ofReal_of_nonneg h, Complex.ofReal_zero, mul_zero, Complex.exp_zero, mul_one, ← Complex.ofReal_sub,
      Complex.norm_real, Real.norm_eq_abs, abs_of_nonneg (by positivity : (0 : ℝ) ≤ k + 1e-15)]
    rw [abs_le]
    constructor <;> linarith

example := c117_target (L := 3) (fun n => n) ![1, 0, 1] (by
  have := Nat.cast_nonneg (α := ℝ) (targetIndex ![(1 : Fin 2), 0, 1])
  intro h
  rw [h] at this
  norm_num at this)

/-- C117: the network of the example represents every real wave function up to `1e-15` in each amplitude. -/
theorem c117_target_universal {L : ℕ} (v : Config L 2 → ℝ) : ∃ kernel : ℕ → ℝ, ∀ s,
    kernel (targetIndex s) ≠ -1e-15 ∧ ‖Complex.exp (target kernel s) - (v s : ℂ)‖ ≤ 1e-15 := by
  classical
  let val : ℝ → ℝ := fun x => if x < 0 then x - 1e-15 else x
  refine ⟨fun n => if h : ∃ s, targetIndex (L := L) s = n then val (v h.choose) else 0, fun s => ?_⟩
  have e : (if h : ∃ s', targetIndex (L := L) s' = targetIndex s then val (v h.choose) else 0) = val (v s) := by
    have h : ∃ s', targetIndex (L := L) s' = targetIndex s := ⟨s, rfl⟩
    rw [dif_pos h, c117_target_index.2.1 h.choose_spec]
  by_cases h : v s < 0
  · have hv : val (v s) = v s - 1e-15 := if_pos h
    constructor
    · change (if h : ∃ s', targetIndex (L := L) s' = targetIndex s then val (v h.choose) else 0) ≠ _
      rw [e, hv]
      intro h'
      linarith
    · unfold target
      simp only
      rw [e, hv, sub_add_cancel, Complex.exp_add, ← Complex.ofReal_exp, Real.exp_log (abs_pos.mpr h.ne),
        Complex.arg_ofReal_of_neg (by linarith), mul_comm Complex.I, Complex.exp_pi_mul_I, abs_of_neg h]
      simp
      norm_num
  · have hv : val (v s) = v s := if_neg h
    have hk : (if h : ∃ s', targetIndex (L := L) s' = targetIndex s then val (v h.choose) else 0) ≠ (-1e-15 : ℝ) := by
      rw [e, hv]
      push Not at h
      intro h'
      linarith
    refine ⟨hk, ?_⟩
    have := c117_target (fun n => if h : ∃ s, targetIndex (L := L) s = n then val (v h.choose) else 0) s hk
    rw [e, hv] at this
    exact this

/-- The error of the energy is of second order in the error of an eigenvector. -/
theorem rayleigh_error {C : Type} [Fintype C] [DecidableEq C] (H : Matrix C C ℂ) (hH : H.IsHermitian) (E : ℝ) (v ψ : C → ℂ)
    (hv : H *ᵥ v = (E : ℂ) • v) (hn : norm2 v = 1) (ε : ℝ) (hε : ∀ s, ‖ψ s - v s‖ ≤ ε)
    (hsmall : (Fintype.card C : ℝ) * ε ^ 2 ≤ 1 / 4) :
    ‖Spec.expect H ψ - E‖ ≤ 4 * ε ^ 2 * ∑ s, ∑ s', ‖(H - (E : ℂ) • (1 : Matrix C C ℂ)) s s'‖ := by
  have hε0 : ∀ _ : C, 0 ≤ ε := fun s => (norm_nonneg _).trans (hε s)
  set A := H - (E : ℂ) • (1 : Matrix C C ℂ) with hA
  have hA0 : A *ᵥ v = 0 := by
    rw [hA, sub_mulVec, hv, smul_mulVec, one_mulVec, sub_self]
  have hAH : Aᴴ = A := by
    rw [hA, conjTranspose_sub, conjTranspose_smul, conjTranspose_one, hH]
    simp
  have hA1 : star v ᵥ* A = 0 := by
    have := congrArg star hA0
    rw [star_mulVec, hAH] at this
    simpa using this
  have hnorm : 1 / 4 ≤ norm2 ψ := by
    have h1 : norm2 v ≤ 2 * norm2 ψ + 2 * ∑ _s : C, ε ^ 2 := by
      unfold norm2
      rw [Finset.mul_sum, Finset.mul_sum, ← Finset.sum_add_distrib]
      apply Finset.sum_le_sum
      intro s _
      have h2 : Complex.normSq (ψ s - v s) ≤ ε ^ 2 := by
        rw [Complex.normSq_eq_norm_sq]
        exact pow_le_pow_left₀ (norm_nonneg _) (hε s) 2
      have h3 : Complex.normSq (v s) ≤ 2 * Complex.normSq (ψ s) + 2 * Complex.normSq (ψ s - v s) := by
        simp only [Complex.normSq_apply, Complex.sub_re, Complex.sub_im]
        nlinarith [sq_nonneg (2 * (ψ s).re - (v s).re), sq_nonneg (2 * (ψ s).im - (v s).im)]
      linarith
    rw [hn, Finset.sum_const, Finset.card_univ, nsmul_eq_mul] at h1
    linarith
  have hpos : 0 < norm2 ψ := by linarith
  have hself : ∑ s, (starRingEnd ℂ) (ψ s) * ψ s = (norm2 ψ : ℂ) := by
    unfold norm2
    push_cast
    apply Finset.sum_congr rfl
    intro s _
    rw [mul_comm, Complex.mul_conj]
  have e1 : Spec.expect H ψ - E = (star ψ ⬝ᵥ A *ᵥ ψ) / (norm2 ψ : ℂ) := by
    unfold Spec.expect
    rw [eq_div_iff (by exact_mod_cast hpos.ne'), sub_mul, div_mul_cancel₀ _ (by exact_mod_cast hpos.ne'), hA, sub_mulVec,
      smul_mulVec, one_mulVec, dotProduct_sub, dotProduct_smul, ← hself]
    rfl
  have e2 : star ψ ⬝ᵥ A *ᵥ ψ = star (ψ - v) ⬝ᵥ A *ᵥ (ψ - v) := by
    rw [mulVec_sub, hA0, sub_zero, star_sub, sub_dotProduct, dotProduct_mulVec (star v), hA1, zero_dotProduct, sub_zero]
  rw [e1, e2, norm_div, Complex.norm_real, Real.norm_of_nonneg hpos.le, div_le_iff₀ hpos]
  have h4 : ‖star (ψ - v) ⬝ᵥ A *ᵥ (ψ - v)‖ ≤ ε ^ 2 * ∑ s, ∑ s', ‖A s s'‖ := by
    rw [dotProduct, Finset.mul_sum]
    refine (norm_sum_le _ _).trans (Finset.sum_le_sum fun s _ => ?_)
    rw [norm_mul, mulVec, dotProduct]
    have h5 : ‖∑ s', A s s' * (ψ - v) s'‖ ≤ ε * ∑ s', ‖A s s'‖ := by
      rw [Finset.mul_sum]
      refine (norm_sum_le _ _).trans (Finset.sum_le_sum fun s' _ => ?_)
      rw [norm_mul, mul_comm]
      exact mul_le_mul_of_nonneg_right (hε s') (norm_nonneg _)
    have h6 : ‖star (ψ - v) s‖ ≤ ε := by
      rw [Pi.star_apply, norm_star]
      exact hε s
    calc _ ≤ ε * (ε * ∑ s', ‖A s s'‖) := mul_le_mul h6 h5 (norm_nonneg _) (hε0 s)
      _ = _ := by ring
  have h7 : 0 ≤ ε ^ 2 * ∑ s, ∑ s', ‖A s s'‖ := by positivity
  nlinarith

/-- C117: the comparison of the example. The parameters of the network are an eigenvector of the Hubbard model, shifted by `1e-14`;
the energy reported is the eigenvalue up to `5e-28` times the sum of the matrix elements of `H - E`. -/
theorem c117_eigenstate (L : ℕ) [NeZero (2 * L)] (c : ℝ) (hc : (1e-6 : ℝ) < |c|) (a b d : ℤ)
    (v : Config (2 * L) 2 → ℝ) (E : ℝ)
    (hv : hubbard L (a * c) (b * c) (d * c) *ᵥ (fun s => (v s : ℂ)) = (E : ℂ) • fun s => (v s : ℂ))
    (hn : norm2 (fun s => (v s : ℂ)) = 1) (kernel : ℕ → ℝ) (hk : ∀ s : Config (2 * L) 2, kernel (targetIndex s) = v s + 1e-14)
    (hlog : ∀ s, v s ≠ -1.1e-14) (hL : (2 : ℝ) ^ (2 * L) ≤ 1e27)
    (D ranks : ℕ) (hD : 0 < D) (hs : 0 < ranks) (hbig : ranks ≤ 2 ^ (2 * L))
    (hdiv : ∀ r < ranks, ∀ n g, distributeSampling ranks r (2 ^ (2 * L)) none 1 = .ok (n, g) → D ∣ n)
    (lastNorm : ℝ) (zeroCfg : Config (2 * L) 2) (batch : ℤ) :
    ∃ ln' w res, exactSampleWorld 2 (2 * L) D ranks (toConfig (2 * L) 2) (1 / 2) lastNorm (target kernel) = .ok (ln', w) ∧
      measureOp (branchFreeKernel ((hubbardAll L (a * c) (b * c) (d * c)).map fun t => t.2.map letterOp)
        ((hubbardAll L (a * c) (b * c) (d * c)).map Prod.fst)) ⟨target kernel, true⟩ zeroCfg batch none w = .ok res ∧
      res.length = ranks ∧
      ∀ r ∈ res, |r.mean - E| ≤ 5e-28 * ∑ s : Config (2 * L) 2, ∑ s' : Config (2 * L) 2,
        ‖(hubbard L (a * c) (b * c) (d * c) - (E : ℂ) • (1 : Matrix (Config (2 * L) 2) (Config (2 * L) 2) ℂ)) s s'‖ := by
  obtain ⟨ln', w, res, h1, h2, h3, h4⟩ := c117_measured_partial (hubbardAll L (a * c) (b * c) (d * c))
    (hubbard_conserving L _ _ _) c hc
    (by
      intro p hp
      obtain ⟨i, -, hi⟩ := List.mem_flatMap.mp hp
      unfold hubbardTerms at hi
      by_cases h : (i : ℕ) + 1 < L
      · rw [dif_pos h] at hi
        simp only [List.cons_append, List.nil_append, List.mem_cons, List.not_mem_nil, or_false] at hi
        rcases hi with rfl | rfl | rfl | rfl | rfl | rfl | rfl
        exacts [⟨d, rfl⟩, ⟨b, rfl⟩, ⟨b, rfl⟩, ⟨a, rfl⟩, ⟨a, rfl⟩, ⟨a, rfl⟩, ⟨a, rfl⟩]
      · rw [dif_neg h] at hi
        simp only [List.cons_append, List.nil_append, List.mem_cons, List.not_mem_nil, or_false] at hi
        rcases hi with rfl | rfl | rfl
        exacts [⟨d, rfl⟩, ⟨b, rfl⟩, ⟨b, rfl⟩])
    D ranks hD hs hbig hdiv lastNorm (target kernel) zeroCfg batch
  refine ⟨ln', w, res, h1, h2, h3, fun r hr => ?_⟩
  rw [h4 r hr, hubbard_terms]
  have hherm : (hubbard L (a * c : ℂ) (b * c) (d * c)).IsHermitian := by
    have := (c117_conserved L 0 0 0).1 (a * c) (b * c) (d * c)
    push_cast at this
    exact this
  have hbound : ∀ s : Config (2 * L) 2, ‖Complex.exp (target kernel s) - (v s : ℂ)‖ ≤ 1.1e-14 := by
    intro s
    have h5 := c117_target kernel s (by rw [hk]; intro h; exact hlog s (by linarith))
    rw [hk] at h5
    have h6 : Complex.exp (target kernel s) - (v s : ℂ)
        = (Complex.exp (target kernel s) - ((v s + 1e-14 : ℝ) : ℂ)) + ((1e-14 : ℝ) : ℂ) := by
      push_cast
      ring
    rw [h6]
    refine (norm_add_le _ _).trans ?_
    rw [Complex.norm_real, Real.norm_of_nonneg (by norm_num)]
    linarith
  have h7 := rayleigh_error _ hherm E (fun s => (v s : ℂ)) (fun s => Complex.exp (target kernel s)) hv hn 1.1e-14 hbound
    (by
      simp only [Fintype.card_pi, Fintype.card_fin, Finset.prod_const, Finset.card_univ]
      push_cast
      nlinarith)
  refine ((Complex.abs_re_le_norm _).trans' (le_of_eq ?_)).trans (h7.trans ?_)
  · simp
  · have : 0 ≤ ∑ s : Config (2 * L) 2, ∑ s' : Config (2 * L) 2,
        ‖(hubbard L (a * c) (b * c) (d * c) - (E : ℂ) • (1 : Matrix (Config (2 * L) 2) (Config (2 * L) 2) ℂ)) s s'‖ := by positivity
    nlinarith

/-- One site, one particle with spin up, the parameters of the example: the energy is the chemical potential. -/
example (batch : ℤ) : ∃ ln' w res, exactSampleWorld 2 2 1 2 (toConfig 2 2) (1 / 2) 0
      (target fun n => (if n = 2 then 1 else 0) + 1e-14) = .ok (ln', w) ∧
    measureOp (branchFreeKernel ((hubbardAll 1 (-1) (-2) 4).map fun t => t.2.map letterOp)
      ((hubbardAll 1 (-1) (-2) 4).map Prod.fst)) ⟨target fun n => (if n = 2 then 1 else 0) + 1e-14, true⟩ ![0, 0] batch none w
      = .ok res ∧ res.length = 2 ∧ ∀ r ∈ res, |r.mean - (-2)| ≤ 5e-28
        * ∑ s : Config 2 2, ∑ s' : Config 2 2,
          ‖(hubbard 1 (-1) (-2) 4 - ((-2 : ℝ) : ℂ) • (1 : Matrix (Config 2 2) (Config 2 2) ℂ)) s s'‖ := by
  have : NeZero (2 * 1) := ⟨by norm_num⟩
  have hidx : ∀ s : Config 2 2, targetIndex s = 2 * (s 0 : ℕ) + (s 1 : ℕ) := by
    intro s
    simp [targetIndex, Fin.sum_univ_two]
    omega
  have h := c117_eigenstate 1 1 (by norm_num) (-1) (-2) 4 (fun s : Config 2 2 => if targetIndex s = 2 then 1 else 0) (-2)
    ?_ ?_ (fun n => (if n = 2 then 1 else 0) + 1e-14) (fun s => rfl) ?_ (by norm_num) 1 2 one_pos two_pos (by norm_num)
    (fun _ _ n _ _ => one_dvd n) 0 ![0, 0] batch
  · simpa using h
  · funext s
    have hh : hopping (modeUp 1) = 0 ∧ hopping (modeDown 1) = 0 := by
      constructor <;> (rw [hopping_eq]; simp)
    unfold hubbard
    rw [hh.1, hh.2]
    simp only [totalNumber_diagonal, add_zero, smul_zero, Finset.univ_unique, Finset.sum_singleton, add_mulVec, smul_mulVec,
      ← mulVec_mulVec, creator_mulVec, annihilator_mulVec, Pi.add_apply, Pi.smul_apply, mulVec_diagonal, hidx]
    have h0 : modeUp 1 default = 0 := rfl
    have h1 : modeDown 1 default = 1 := rfl
    rw [h0, h1]
    obtain ⟨⟨x, y⟩, rfl⟩ := (finTwoArrowEquiv (Fin 2)).symm.surjective s
    fin_cases x <;> fin_cases y <;> simp [finTwoArrowEquiv]
  · unfold norm2
    simp only [hidx]
    rw [← (finTwoArrowEquiv (Fin 2)).symm.sum_comp]
    simp [Fintype.sum_prod_type, Fin.sum_univ_two, finTwoArrowEquiv]
  · intro s
    split <;> norm_num

end JVMC
