import Verif.Lemmas.LindbladEx

/-!
# C141: the Lindbladians of the example scripts

The operators that `ex5_dissipative_Lindblad.py` and `ex6_dissipative_Lindblad_2D.py` build generate the master equations
`dρ/dt = -i [H, ρ] + γ ∑ (Z ρ Z - ρ)` on a ring and on a torus.
-/

namespace JVMC

open Spec Matrix

variable {N : ℕ}

theorem built_complete (θ φ : ℝ) (terms : List (ℝ × MasterTerm N)) (hne : terms ≠ []) (hp : ∀ t ∈ terms, t.2.Proper)
    (hz : ∀ t ∈ terms, ∀ c i, t.2 = .loss c i → c = .dephasing) :
    ∃ M, povmInit θ φ "SIC" = .ok (M, standardReg M) ∧
      ∀ enum : List (List (Fin N)) → List (List (Fin N)), (∀ l x, x ∈ enum l ↔ x ∈ l) →
      ∃ c, compilePovm (standardReg M).operators.get? enum ((terms.foldl addMaster (PovmOps.fresh [])).dicts 0) = .ok c ∧
        Generates (productPovm M) (fun s s' => elementOf (povmKernel c s) s') (masterEquation terms) ∧
        (∀ ρ, ∑ s, ∑ s', elementOf (povmKernel c s) s' * outcomeProb (productPovm M) ρ s' = 0) ∧
        ∀ s, ∑ s', elementOf (povmKernel c s) s' = 0 := by
  have hM : povmInit θ φ "SIC" = .ok (fun a => blochElement (povmVectors θ φ a),
      standardReg fun a => blochElement (povmVectors θ φ a)) := by
    unfold povmInit
    rw [getM_sic]
    rfl
  have hP : IsPovm fun a => blochElement (povmVectors θ φ a) := by
    obtain ⟨M, h1, h2⟩ := c36_is_povm θ φ
    rw [getM_sic] at h1
    rw [Except.ok.inj h1]
    exact h2
  refine ⟨_, hM, fun enum henum => ?_⟩
  obtain ⟨c, h1, h2⟩ := built_generates _ θ φ hM enum henum terms hne hp
  refine ⟨c, h1, h2, fun ρ => c94_probability hP _ terms h2 ρ, fun s => ?_⟩
  have h := h2 1 s
  simp only [outcome_uniform, master_one hz] at h
  rw [← Finset.sum_mul] at h
  unfold outcomeProb at h
  rw [Matrix.zero_mul, Matrix.trace_zero] at h
  exact (mul_eq_zero.1 h).resolve_right (pow_ne_zero _ (by norm_num))

/-- C141: the operator of `ex5_dissipative_Lindblad.py`, on a chain of any length of at least two. For every direction of
the SIC-POVM and every order in which the set of site tuples is run through: the operator can be compiled, the matrix
elements it returns take the distribution of the outcomes in any state `ρ` to the time derivative of this distribution under
`dρ/dt = -i [∑_l (Z_l Z_{l+1} + 3 X_l), ρ] + ∑_l (Z_l ρ Z_l - ρ)` with periodic boundary conditions, the sum of the
probabilities does not change, and the local values of a constant network are zero (the uniform distribution of the outcomes
is stationary). -/
theorem c141_chain (L : ℕ) [NeZero L] (hL : 2 ≤ L) (θ φ : ℝ) :
    ∃ M, povmInit θ φ "SIC" = .ok (M, standardReg M) ∧
      ∀ enum : List (List (Fin L)) → List (List (Fin L)), (∀ l x, x ∈ enum l ↔ x ∈ l) →
      ∃ c, compilePovm (standardReg M).operators.get? enum ((chainLindbladian L).dicts 0) = .ok c ∧
        Generates (productPovm M) (fun s s' => elementOf (povmKernel c s) s') (chainMaster L) ∧
        (∀ ρ, ∑ s, ∑ s', elementOf (povmKernel c s) s' * outcomeProb (productPovm M) ρ s' = 0) ∧
        ∀ s, ∑ s', elementOf (povmKernel c s) s' = 0 := by
  rw [chainLindbladian_eq, ← chainMaster_eq]
  refine built_complete θ φ _ (range_flatMap_ne_nil L _ fun l => by simp [chainTerms]) (chainTerms_proper L hL) ?_
  intro t ht c i h
  obtain ⟨l, -, ht⟩ := List.mem_flatMap.1 ht
  simp only [chainTerms, List.mem_cons, List.not_mem_nil, or_false] at ht
  rcases ht with rfl | rfl | rfl <;> simp_all

/-- C141: the operator of `ex6_dissipative_Lindblad_2D.py`, on a square lattice of any width of at least two. As in
`c141_chain`, with the couplings to the right and upper neighbours on a torus, the field 3 and the rate one half. -/
theorem c141_square (L : ℕ) [NeZero L] (hL : 2 ≤ L) (θ φ : ℝ) :
    ∃ M, povmInit θ φ "SIC" = .ok (M, standardReg M) ∧
      ∀ enum : List (List (Fin (L * L))) → List (List (Fin (L * L))), (∀ l x, x ∈ enum l ↔ x ∈ l) →
      ∃ c, compilePovm (standardReg M).operators.get? enum ((squareLindbladian L).dicts 0) = .ok c ∧
        Generates (productPovm M) (fun s s' => elementOf (povmKernel c s) s') (squareMaster L) ∧
        (∀ ρ, ∑ s, ∑ s', elementOf (povmKernel c s) s' * outcomeProb (productPovm M) ρ s' = 0) ∧
        ∀ s, ∑ s', elementOf (povmKernel c s) s' = 0 := by
  rw [squareLindbladian_eq, ← squareMaster_eq]
  refine built_complete θ φ _ (range_flatMap_ne_nil L _ fun x => range_flatMap_ne_nil L _ fun y => by simp [squareTerms])
    (squareTerms_proper L hL) ?_
  intro t ht c i h
  obtain ⟨x, -, ht⟩ := List.mem_flatMap.1 ht
  obtain ⟨y, -, ht⟩ := List.mem_flatMap.1 ht
  simp only [squareTerms, List.mem_cons, List.not_mem_nil, or_false] at ht
  rcases ht with rfl | rfl | rfl | rfl <;> simp_all

/-- The four sites of ex5 and the lattice of ex6; the set of site tuples is run through in the order of insertion. -/
example : ∃ M, povmInit 0 0 "SIC" = .ok (M, standardReg M) ∧
    (∃ c, compilePovm (standardReg M).operators.get? id ((chainLindbladian 4).dicts 0) = .ok c) ∧
    ∃ c, compilePovm (standardReg M).operators.get? id ((squareLindbladian 2).dicts 0) = .ok c := by
  obtain ⟨M, hM, h⟩ := c141_chain 4 (by norm_num) 0 0
  obtain ⟨M', hM', h'⟩ := c141_square 2 (by norm_num) 0 0
  have e : M' = M := congrArg Prod.fst (Except.ok.inj (hM'.symm.trans hM))
  subst e
  obtain ⟨c, hc, -⟩ := h id fun _ _ => Iff.rfl
  obtain ⟨c', hc', -⟩ := h' id fun _ _ => Iff.rfl
  exact ⟨M', hM, ⟨c, hc⟩, ⟨c', hc'⟩⟩

/-- The operator of ex5 is not trivial: twelve terms on four sites. -/
example : ((chainLindbladian 4).dicts 0).length = 12 := by
  rw [chainLindbladian_eq, (foldl_addMaster _).1]
  rfl

end JVMC
