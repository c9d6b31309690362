import Verif.Lemmas.BranchFree
import Verif.Lemmas.BranchFreeArgs
import Mathlib.Tactic.NormNum
import Mathlib.LinearAlgebra.Matrix.ConjTranspose
import Mathlib.Tactic.LinearCombination

/-!
# Branch-free operators: C26, C27, C31, C32, C35, C65

`opMatrix op` (Lemmas/BranchFree) is the many-body matrix `⟨s|·|s'⟩` that a `LocalOp` dictionary
describes: `siteOperator i A` for the one-site matrix `A[a, map[a]] = matEls[a]`, with a
Jordan–Wigner string for fermionic operators.
-/

namespace JVMC

open Matrix Spec

variable {N d : ℕ}

/-! ## C26 — matrix elements -/

/-- What the code computes, for every operator: the elements returned for one `s` add up to the
matrix elements `⟨s|·|s'⟩` of the sum of the products **in reversed order**. -/
theorem c26_reversed_product [NeZero N] (strs : List (List (LocalOp N d))) (pfs : List ℂ)
    (hlen : pfs.length = strs.length)
    (hf : ∀ ops ∈ strs, ∀ o ∈ ops, o.fermionic = true → d = 2)
    (hd : ∀ ops ∈ strs, ∀ o ∈ ops, o.diag = true → o.map = id) (s s' : Config N d) :
    elementOf (branchFreeKernel strs pfs s) s'
      = sumOfProducts (pfs.zip (strs.map fun ops => (ops.map opMatrix).reverse)) s s' := by
  rw [elementOf_eq_applyTo, kernel_applyTo strs pfs hlen hf hd]
  simp

/-- Products of operators that do not commute, and fermions. -/
example (s s' : Config 2 2) :
    elementOf (branchFreeKernel [[opSx 0, opSy 0], [opCreation 1, opAnnihilation 0]] [2, Complex.I] s) s'
      = sumOfProducts [(2, [opMatrix (opSy 0), opMatrix (opSx 0)]),
          (Complex.I, [opMatrix (opAnnihilation 0), opMatrix (opCreation 1)])] s s' := by
  rw [c26_reversed_product _ _ rfl (fun _ _ _ _ _ => rfl) (by simp [opSx, opSy, opCreation, opAnnihilation])]
  rfl

/-- Equivalently, for every operator: `get_s_primes` returns the column `⟨s'|O|s⟩` of the ordered
product when each local dictionary is read as a ket map `|a⟩ ↦ matEls[a] |map[a]⟩`. -/
theorem c26_ket_convention [NeZero N] (strs : List (List (LocalOp N d))) (pfs : List ℂ)
    (hlen : pfs.length = strs.length)
    (hf : ∀ ops ∈ strs, ∀ o ∈ ops, o.fermionic = true → d = 2)
    (hd : ∀ ops ∈ strs, ∀ o ∈ ops, o.diag = true → o.map = id) (s s' : Config N d) :
    elementOf (branchFreeKernel strs pfs s) s'
      = sumOfProducts (pfs.zip (strs.map fun ops => ops.map fun o => (opMatrix o)ᵀ)) s' s := by
  rw [c26_reversed_product strs pfs hlen hf hd]
  have h : ∀ (p : List ℂ) (l : List (List (LocalOp N d))),
      sumOfProducts (p.zip (l.map fun ops => (ops.map opMatrix).reverse))
      = (sumOfProducts (p.zip (l.map fun ops => ops.map fun o => (opMatrix o)ᵀ)))ᵀ := by
    intro p
    induction p with
    | nil => intro l; simp [sumOfProducts]
    | cons a p ih =>
      intro l
      cases l with
      | nil => simp [sumOfProducts]
      | cons ops l =>
        have := ih l
        simp only [sumOfProducts, List.map_cons, List.zip_cons_cons, List.sum_cons,
          transpose_add, transpose_smul] at this ⊢
        rw [this, Matrix.transpose_list_prod]
        simp [Function.comp_def]
  rw [h]
  rfl

example (s s' : Config 2 2) :
    elementOf (branchFreeKernel [[opSx 0, opSy 0], [opCreation 1, opAnnihilation 0]] [2, Complex.I] s) s'
      = sumOfProducts [(2, [(opMatrix (opSx 0))ᵀ, (opMatrix (opSy 0))ᵀ]),
          (Complex.I, [(opMatrix (opCreation 1))ᵀ, (opMatrix (opAnnihilation 0))ᵀ])] s' s := by
  rw [c26_ket_convention _ _ rfl (fun _ _ _ _ _ => rfl) (by simp [opSx, opSy, opCreation, opAnnihilation])]
  rfl

/-- The documented statement `⟨s|O|s'⟩`, for operators whose strings consist of pairwise commuting
local operators. Missing from C26: strings with non-commuting factors, see `c26_violated`. -/
theorem c26_matrix_elements_partial [NeZero N] (strs : List (List (LocalOp N d))) (pfs : List ℂ)
    (hlen : pfs.length = strs.length)
    (hf : ∀ ops ∈ strs, ∀ o ∈ ops, o.fermionic = true → d = 2)
    (hd : ∀ ops ∈ strs, ∀ o ∈ ops, o.diag = true → o.map = id)
    (hcomm : ∀ ops ∈ strs, (ops.map opMatrix).Pairwise Commute) (s s' : Config N d) :
    elementOf (branchFreeKernel strs pfs s) s'
      = sumOfProducts (pfs.zip (strs.map fun ops => ops.map opMatrix)) s s' := by
  rw [c26_reversed_product strs pfs hlen hf hd]
  have h : ∀ (p : List ℂ) (l : List (List (LocalOp N d))),
      (∀ ops ∈ l, (ops.map opMatrix).Pairwise Commute) →
      sumOfProducts (p.zip (l.map fun ops => (ops.map opMatrix).reverse))
      = sumOfProducts (p.zip (l.map fun ops => ops.map opMatrix)) := by
    intro p
    induction p with
    | nil => intro l _; simp
    | cons a p ih =>
      intro l hl
      cases l with
      | nil => simp
      | cons ops l =>
        have h1 := ih l fun o h => hl o (List.mem_cons_of_mem _ h)
        simp only [sumOfProducts, List.map_cons, List.zip_cons_cons, List.sum_cons] at h1 ⊢
        rw [h1, (List.reverse_perm _).symm.prod_eq' (hl ops List.mem_cons_self)]
  rw [h pfs strs hcomm]

/-- The occupation of a mode times itself. -/
example (s s' : Config 2 2) : elementOf (branchFreeKernel [[opNumber 0, opNumber 0], [opCreation 1]] [3, 1] s) s'
    = sumOfProducts [(3, [opMatrix (opNumber 0), opMatrix (opNumber 0)]), (1, [opMatrix (opCreation 1)])] s s' := by
  rw [c26_matrix_elements_partial _ _ rfl (fun _ _ _ _ _ => rfl) (by
    have : arr2 (0 : Fin 2) 1 = id := by funext x; fin_cases x <;> rfl
    simp [opNumber, opCreation, this]) (by simp)]
  rfl

/-- Non-fermionic operators on pairwise different sites: the usual spin Hamiltonians. -/
theorem c26_distinct_sites_partial [NeZero N] (strs : List (List (LocalOp N d))) (pfs : List ℂ)
    (hlen : pfs.length = strs.length)
    (hb : ∀ ops ∈ strs, ∀ o ∈ ops, o.fermionic = false)
    (hd : ∀ ops ∈ strs, ∀ o ∈ ops, o.diag = true → o.map = id)
    (hdist : ∀ ops ∈ strs, ops.Pairwise fun a b => a.idx ≠ b.idx) (s s' : Config N d) :
    elementOf (branchFreeKernel strs pfs s) s'
      = sumOfProducts (pfs.zip (strs.map fun ops => ops.map fun o =>
          siteOperator o.idx (localMatrix o))) s s' := by
  rw [c26_matrix_elements_partial strs pfs hlen
    (fun ops h o ho hf => by rw [hb ops h o ho] at hf; cases hf) hd ?_ s s']
  · have : (strs.map fun ops => ops.map opMatrix)
        = strs.map fun ops => ops.map fun o => siteOperator o.idx (localMatrix o) := by
      apply List.map_congr_left
      intro ops h
      apply List.map_congr_left
      intro o ho
      simp [opMatrix, hb ops h o ho]
    rw [this]
  · intro ops h
    rw [List.pairwise_map]
    exact (hdist ops h).imp_of_mem fun ha hb' hne =>
      opMatrix_commute _ _ (hb ops h _ ha) (hb ops h _ hb') hne

theorem opSy_matrix (i : Fin N) : localMatrix (opSy i) = sigmaY := by
  ext a b; fin_cases a <;> fin_cases b <;> simp [localMatrix, opSy, arr2, sigmaY]

theorem opSx_matrix (i : Fin N) : localMatrix (opSx i) = sigmaX := by
  ext a b; fin_cases a <;> fin_cases b <;> simp [localMatrix, opSx, arr2, sigmaX]

theorem opSz_matrix (i : Fin N) : localMatrix (opSz i) = sigmaZ := by
  ext a b; fin_cases a <;> fin_cases b <;> simp [localMatrix, opSz, arr2, sigmaZ]

/-- C26 fails for `(Sx(0), Sy(0))`: the diagonal element in the state `↑` is returned as `-i`, but
`⟨↑|σ^x σ^y|↑⟩ = i`. -/
theorem c26_violated :
    ∃ (strs : List (List (LocalOp 1 2))) (s : Config 1 2),
      elementOf (branchFreeKernel strs [1] s) s ≠
        sumOfProducts (([1] : List ℂ).zip (strs.map fun ops => ops.map opMatrix)) s s ∧
      (strs.map fun ops => ops.map opMatrix)
        = [[siteOperator 0 sigmaX, siteOperator 0 sigmaY]] := by
  refine ⟨[[opSx 0, opSy 0]], fun _ => 1, ?_, ?_⟩
  · rw [elementOf_eq_applyTo, kernel_applyTo _ _ rfl (by simp [opSx, opSy]) (by simp [opSx, opSy])]
    have e : sumOfProducts (([1] : List ℂ).zip ([[opSx (0 : Fin 1), opSy 0]].map
        fun ops => ops.map opMatrix)) (fun _ => 1) (fun _ => 1)
        = (sumOfProducts (([1] : List ℂ).zip ([[opSx (0 : Fin 1), opSy 0]].map
        fun ops => ops.map opMatrix)) *ᵥ Pi.single (fun _ => 1) 1) (fun _ => 1) := by simp
    rw [e]
    simp only [sumOfProducts, List.map_cons, List.map_nil, List.reverse_cons, List.reverse_nil,
      List.nil_append, List.cons_append, List.zip_cons_cons, List.zip_nil_right, List.prod_cons,
      List.prod_nil, mul_one, one_smul, List.sum_cons, List.sum_nil, add_zero,
      ← mulVec_mulVec, opMatrix_mulVec]
    have hI : (Pi.single (fun _ : Fin 1 => (1 : Fin 2)) (1 : ℂ) : Config 1 2 → ℂ)
        (fun _ => 1) = 1 := by simp
    have hu : Function.update (Function.update (fun _ : Fin 1 => (1 : Fin 2)) 0 0) 0 1
        = fun _ => 1 := by
      funext j; simp [Subsingleton.elim j 0]
    simp [opSx, opSy, opSign, arr2, hu]
    intro h
    have := congrArg Complex.im h
    norm_num at this
  · simp [opMatrix, opSx_matrix, opSy_matrix]
    exact ⟨rfl, rfl⟩

/-- Non-vacuity: the transverse-field Ising string `Sz(0) Sz(1)` plus `Sx(0)` on two sites meets the
hypotheses of `c26_distinct_sites_partial`. -/
example (s s' : Config 2 2) :
    elementOf (branchFreeKernel [[opSz 0, opSz 1], [opSx 0]] [-1, 3] s) s'
      = sumOfProducts [(-1, [siteOperator 0 sigmaZ, siteOperator 1 sigmaZ]),
          (3, [siteOperator 0 sigmaX])] s s' := by
  rw [c26_distinct_sites_partial _ _ rfl]
  · simp [opSz_matrix, opSx_matrix]; rfl
  · simp [opSz, opSx]
  · have : arr2 (0 : Fin 2) 1 = id := by funext x; fin_cases x <;> rfl
    simp [opSz, opSx, this]
  · simp [opSz]

/-! ## C65 — the predefined spin operators -/

/-- The Pauli operators and the occupation number have the documented matrices `⟨s|·|s'⟩`. Missing
from C65: the ladder operators, see `c65_ladder_swapped`. -/
theorem c65_pauli_matrices_partial (i : Fin N) :
    opMatrix (opSx i) = siteOperator i sigmaX ∧ opMatrix (opSy i) = siteOperator i sigmaY ∧
      opMatrix (opSz i) = siteOperator i sigmaZ ∧
      opMatrix (opNumber i) = siteOperator i occupation := by
  refine ⟨?_, ?_, ?_, ?_⟩
  · rw [← opSx_matrix i]; rfl
  · rw [← opSy_matrix i]; rfl
  · rw [← opSz_matrix i]; rfl
  · have : localMatrix (opNumber i) = occupation := by
      ext a b; fin_cases a <;> fin_cases b <;> simp [localMatrix, opNumber, arr2, occupation]
    rw [← this]; rfl

/-- `Sp` has the matrix of `S^-` and `Sm` that of `S^+`: in `O_loc = ∑ ⟨s|O|s'⟩ ψ(s')/ψ(s)` the two
ladder operators are exchanged. -/
theorem c65_ladder_swapped (i : Fin N) :
    opMatrix (opSp i) = siteOperator i sigmaMinus ∧
      opMatrix (opSm i) = siteOperator i sigmaPlus := by
  have h1 : localMatrix (opSp i) = sigmaMinus := by
    ext a b; fin_cases a <;> fin_cases b <;> simp [localMatrix, opSp, arr2, sigmaMinus]
  have h2 : localMatrix (opSm i) = sigmaPlus := by
    ext a b; fin_cases a <;> fin_cases b <;> simp [localMatrix, opSm, arr2, sigmaPlus]
  exact ⟨by rw [← h1]; rfl, by rw [← h2]; rfl⟩

/-- The ladder operators fail `S^+ = (σ^x + i σ^y)/2`, which holds for the other one. -/
theorem c65_violated :
    localMatrix (opSp (0 : Fin 1)) ≠ (2⁻¹ : ℂ) • (localMatrix (opSx (0 : Fin 1))
        + Complex.I • localMatrix (opSy (0 : Fin 1))) ∧
    localMatrix (opSm (0 : Fin 1)) = (2⁻¹ : ℂ) • (localMatrix (opSx (0 : Fin 1))
        + Complex.I • localMatrix (opSy (0 : Fin 1))) := by
  constructor
  · intro h
    have := congrFun (congrFun h 0) 1
    simp [localMatrix, opSp, opSx, opSy, arr2] at this
  · ext a b
    fin_cases a <;> fin_cases b <;> simp [localMatrix, opSm, opSx, opSy, arr2]
    norm_num

/-- The ladder operators are each other's adjoint. -/
theorem c65_ladder_adjoint (i : Fin N) :
    (localMatrix (opSp i))ᴴ = localMatrix (opSm i) := by
  ext a b; fin_cases a <;> fin_cases b <;> simp [localMatrix, opSp, opSm, arr2]

/-! ## C27 — canonical anticommutation relations -/

theorem creation_flips (i : Fin N) (x : Fin 2) : (opCreation i).map x ≠ x := by
  fin_cases x <;> simp [opCreation, arr2]

theorem annihilation_flips (i : Fin N) (x : Fin 2) : (opAnnihilation i).map x ≠ x := by
  fin_cases x <;> simp [opAnnihilation, arr2]

private theorem same_site (a b : LocalOp N 2) (ha : a.fermionic = true) (hb : b.fermionic = true)
    (h : a.idx = b.idx) (ψ : Config N 2 → ℂ) (s : Config N 2) :
    ((opMatrix a * opMatrix b) *ᵥ ψ) s
      = a.matEls (s a.idx) * b.matEls (a.map (s a.idx))
        * ψ (Function.update s a.idx (b.map (a.map (s a.idx)))) := by
  rw [← mulVec_mulVec, opMatrix_mulVec, opMatrix_mulVec]
  simp only [opSign, ha, hb, if_true]
  rw [← h, jwSign_update_of_not_lt a.idx a.idx s _ (lt_irrefl _)]
  simp only [Function.update_self, Function.update_idem]
  linear_combination (a.matEls (s a.idx) * b.matEls (a.map (s a.idx))
    * ψ (Function.update s a.idx (b.map (a.map (s a.idx))))) * jwSign_sq a.idx s

theorem car_mixed (i j : Fin N) :
    opMatrix (opAnnihilation i) * opMatrix (opCreation j)
      + opMatrix (opCreation j) * opMatrix (opAnnihilation i) = if i = j then 1 else 0 := by
  by_cases h : i = j
  · subst h
    rw [if_pos rfl]
    apply eq_of_mulVec
    intro ψ s
    rw [add_mulVec, Pi.add_apply, same_site (opAnnihilation i) (opCreation i) rfl rfl rfl,
      same_site (opCreation i) (opAnnihilation i) rfl rfl rfl, one_mulVec]
    have hs : s i = 0 ∨ s i = 1 := by omega
    rcases hs with hs | hs
    · have : Function.update s i 0 = s := by rw [← hs]; simp
      simp [opAnnihilation, opCreation, arr2, hs, this]
    · have : Function.update s i 1 = s := by rw [← hs]; simp
      simp [opAnnihilation, opCreation, arr2, hs, this]
  · rw [if_neg h, opMatrix_anticommute _ _ rfl rfl (annihilation_flips i) (creation_flips j) h]
    simp

theorem car_annihilation (i j : Fin N) :
    opMatrix (opAnnihilation i) * opMatrix (opAnnihilation j)
      + opMatrix (opAnnihilation j) * opMatrix (opAnnihilation i) = 0 := by
  by_cases h : i = j
  · subst h
    apply eq_of_mulVec
    intro ψ s
    rw [add_mulVec, Pi.add_apply, same_site (opAnnihilation i) (opAnnihilation i) rfl rfl rfl]
    have hs : s i = 0 ∨ s i = 1 := by omega
    rcases hs with hs | hs <;> simp [opAnnihilation, arr2, hs]
  · rw [opMatrix_anticommute _ _ rfl rfl (annihilation_flips i) (annihilation_flips j) h]
    simp

theorem car_creation (i j : Fin N) :
    opMatrix (opCreation i) * opMatrix (opCreation j)
      + opMatrix (opCreation j) * opMatrix (opCreation i) = 0 := by
  by_cases h : i = j
  · subst h
    apply eq_of_mulVec
    intro ψ s
    rw [add_mulVec, Pi.add_apply, same_site (opCreation i) (opCreation i) rfl rfl rfl]
    have hs : s i = 0 ∨ s i = 1 := by omega
    rcases hs with hs | hs <;> simp [opCreation, arr2, hs]
  · rw [opMatrix_anticommute _ _ rfl rfl (creation_flips i) (creation_flips j) h]
    simp

/-- Two strings of two fermionic operators with prefactor 1, evaluated by the code. -/
private theorem two_strings [NeZero N] (a b : LocalOp N 2) (ha : a.diag = false)
    (hb : b.diag = false) (s s' : Config N 2) :
    elementOf (branchFreeKernel [[a, b], [b, a]] [1, 1] s) s'
      = (opMatrix b * opMatrix a + opMatrix a * opMatrix b) s s' := by
  rw [c26_reversed_product _ _ rfl (fun _ _ _ _ _ => rfl) (by simp [ha, hb])]
  simp [sumOfProducts]

/-- Evaluating the operator `c_i c_j† + c_j† c_i` on any configuration gives `δ_ij`. -/
theorem c27_mixed [NeZero N] (i j : Fin N) (s s' : Config N 2) :
    elementOf (branchFreeKernel [[opAnnihilation i, opCreation j], [opCreation j, opAnnihilation i]]
      [1, 1] s) s' = if i = j ∧ s = s' then 1 else 0 := by
  rw [two_strings _ _ rfl rfl, add_comm, car_mixed]
  by_cases h : i = j
  · simp [h, Matrix.one_apply]
  · simp [h]

/-- Evaluating `c_i c_j + c_j c_i` on any configuration gives zero. -/
theorem c27_annihilation [NeZero N] (i j : Fin N) (s s' : Config N 2) :
    elementOf (branchFreeKernel [[opAnnihilation i, opAnnihilation j],
      [opAnnihilation j, opAnnihilation i]] [1, 1] s) s' = 0 := by
  rw [two_strings _ _ rfl rfl, add_comm, car_annihilation]; rfl

/-- Evaluating `c_i† c_j† + c_j† c_i†` on any configuration gives zero. -/
theorem c27_creation [NeZero N] (i j : Fin N) (s s' : Config N 2) :
    elementOf (branchFreeKernel [[opCreation i, opCreation j], [opCreation j, opCreation i]]
      [1, 1] s) s' = 0 := by
  rw [two_strings _ _ rfl rfl, add_comm, car_creation]; rfl

/-- `number(i)` evaluates to the same as the string `creation(i) annihilation(i)`, and both are the
occupation of site `i`. -/
theorem c27_number [NeZero N] (i : Fin N) (s s' : Config N 2) :
    elementOf (branchFreeKernel [[opCreation i, opAnnihilation i]] [1] s) s'
        = (if s = s' then ((s i : ℕ) : ℂ) else 0) ∧
      elementOf (branchFreeKernel [[opNumber i]] [1] s) s'
        = if s = s' then ((s i : ℕ) : ℂ) else 0 := by
  have hid : arr2 (0 : Fin 2) 1 = id := by funext x; fin_cases x <;> rfl
  constructor
  · rw [elementOf_eq_applyTo, kernel_applyTo _ _ rfl (fun _ _ _ _ _ => rfl)
      (by simp [opCreation, opAnnihilation])]
    simp only [sumOfProducts, List.map_cons, List.map_nil, List.reverse_cons, List.reverse_nil,
      List.nil_append, List.cons_append, List.zip_cons_cons, List.zip_nil_right, List.prod_cons,
      List.prod_nil, mul_one, one_smul, List.sum_cons, List.sum_nil, add_zero]
    rw [same_site (opAnnihilation i) (opCreation i) rfl rfl rfl]
    have hs : s i = 0 ∨ s i = 1 := by omega
    rcases hs with hs | hs
    · simp [opCreation, opAnnihilation, arr2, hs]
    · have : Function.update s i 1 = s := by rw [← hs]; simp
      simp [opCreation, opAnnihilation, arr2, hs, this, Pi.single_apply]
  · rw [elementOf_eq_applyTo, kernel_applyTo _ _ rfl (fun _ _ _ _ _ => rfl)
      (by simp [opNumber, hid])]
    simp only [sumOfProducts, List.map_cons, List.map_nil, List.reverse_cons, List.reverse_nil,
      List.nil_append, List.zip_cons_cons, List.zip_nil_right, List.prod_cons,
      List.prod_nil, mul_one, one_smul, List.sum_cons, List.sum_nil, add_zero, opMatrix_mulVec]
    have hs : s i = 0 ∨ s i = 1 := by omega
    rcases hs with hs | hs
    · simp [opNumber, arr2, hs]
    · have : Function.update s i 1 = s := by rw [← hs]; simp
      simp [opNumber, opSign, arr2, hs, this, Pi.single_apply]

/-- Non-vacuity: on two occupied sites `c_0` picks up the sign of site 1. -/
example : elementOf (branchFreeKernel [[opAnnihilation (0 : Fin 2)]] [1] ![1, 1]) ![0, 1] = -1 := by
  rw [elementOf_eq_applyTo, kernel_applyTo _ _ rfl (fun _ _ _ _ _ => rfl)
      (by simp [opAnnihilation])]
  have h1 : Function.update ![(1 : Fin 2), 1] 0 0 = ![0, 1] := by decide
  simp [sumOfProducts, opMatrix_mulVec, opAnnihilation, arr2, opSign, jwSign, Fin.prod_univ_two, h1]

/-! ## C31 — algebra of operator strings -/

/-- The local operators of a string. -/
private theorem localOps_new {Arg : Type} (args : List (StrArg Arg N d)) :
    (OpStr.new args).localOps = strOps args := by
  have h : ∀ l : List (LocalOp N d),
      OpStr.localOps (l.map (StrItem.op : _ → StrItem Arg N d)) = l := by
    intro l
    induction l with
    | nil => rfl
    | cons o l ih => simp [OpStr.localOps] at ih ⊢
  unfold OpStr.new
  split
  · exact h _
  · have := h (strOps args)
    simp only [OpStr.localOps, List.filterMap_cons] at this ⊢
    exact this

private theorem strOps_item {Arg : Type} (l : OpStr Arg N d) :
    strOps (l.map .item) = l.localOps := by
  induction l with
  | nil => rfl
  | cons i l ih => cases i <;> simp [strOps, OpStr.localOps] at ih ⊢ <;> exact ih

private theorem localOps_append {Arg : Type} (l l' : OpStr Arg N d) :
    OpStr.localOps (l ++ l') = l.localOps ++ l'.localOps := by
  simp [OpStr.localOps]

private theorem localOps_fn {Arg : Type} (f : PreFun Arg) (l : OpStr Arg N d) :
    OpStr.localOps (.fn f :: l) = l.localOps := rfl

private theorem rmul_localOps {Arg : Type} (a : PreFun Arg) (x y : OpStr Arg N d)
    (h : OpStr.rmul a x = .ok y) : y.localOps = x.localOps := by
  unfold OpStr.rmul at h
  split at h
  · cases h
  · injection h with h; rw [← h, localOps_new, strOps_item]; rfl
  · injection h with h; rw [← h, localOps_new, strOps_item]; rfl

/-- Products concatenate the local operators in order, scaling leaves them alone. -/
theorem c31_operators_concatenate {Arg : Type} (x y z : OpStr Arg N d) (a : PreFun Arg) :
    (OpStr.mul x y = .ok z → z.localOps = x.localOps ++ y.localOps) ∧
      (OpStr.rmul a x = .ok z → z.localOps = x.localOps) ∧
      (scalOpstr a x = .ok z → z.localOps = x.localOps) := by
  refine ⟨?_, rmul_localOps a x z, ?_⟩
  · intro h
    unfold OpStr.mul at h
    split at h
    · cases h
    · rename_i f l
      cases hr : OpStr.rmul f x with
      | error e => rw [hr] at h; cases h
      | ok w =>
        rw [hr] at h
        have h : Except.ok (OpStr.new ((w ++ l).map .item)) = Except.ok z := h
        injection h with h
        rw [← h, localOps_new, strOps_item, localOps_append, rmul_localOps _ _ _ hr]
        rfl
    · injection h with h
      rw [← h, localOps_new, strOps_item, localOps_append]
  · intro h
    unfold scalOpstr at h
    rw [rmul_localOps _ _ _ h, localOps_new, strOps_item]

example (z : OpStr ℝ 2 2) (h : OpStr.mul [.op (opSx 0), .op (opSy 1)] [.op (opSz 0)] = .ok z) :
    z.localOps = [opSx 0, opSy 1, opSz 0] :=
  (c31_operators_concatenate _ _ z (.const 0)).1 h

/-- The value of a string's prefactor for a given argument tuple, 1 if there is none. -/
noncomputable def OpStr.value {Arg : Type} (x : OpStr Arg N d) (args : List Arg) :
    Except PyErr ℂ :=
  match x.prefactor with
  | none => .ok 1
  | some f => f.call args

/-- A string with at most one callable, in front: what `OpStr(…)` produces. -/
def OpStr.Normal {Arg : Type} (x : OpStr Arg N d) : Prop :=
  ∃ (p : Option (PreFun Arg)) (l : List (LocalOp N d)),
    x = (p.map StrItem.fn).toList ++ l.map StrItem.op

private theorem strFactors_ops {Arg : Type} (l : List (LocalOp N d)) :
    strFactors ((l.map (StrItem.op : _ → StrItem Arg N d)).map .item) = [] := by
  induction l with
  | nil => rfl
  | cons o l ih => simpa [strFactors] using ih

private theorem strFactors_append {Arg : Type} (l l' : List (StrArg Arg N d)) :
    strFactors (l ++ l') = strFactors l ++ strFactors l' := by
  induction l with
  | nil => rfl
  | cons i l ih =>
    match i with
    | .item (.op _) => simpa [strFactors] using ih
    | .item (.fn _) => simpa [strFactors] using ih
    | .num _ => simpa [strFactors] using ih

private theorem strOps_ops {Arg : Type} (l : List (LocalOp N d)) :
    strOps ((l.map (StrItem.op : _ → StrItem Arg N d)).map .item) = l := by
  induction l with
  | nil => rfl
  | cons o l ih => simpa [strOps] using ih

/-- `OpStr(*x)` of a normal string is the string itself. -/
theorem OpStr.new_normal {Arg : Type} (p : Option (PreFun Arg)) (l : List (LocalOp N d)) :
    OpStr.new (((p.map StrItem.fn).toList ++ l.map StrItem.op).map .item)
      = (p.map (StrItem.fn : _ → StrItem Arg N d)).toList ++ l.map StrItem.op := by
  cases p with
  | none =>
    unfold OpStr.new
    simp only [Option.map_none, Option.toList_none, List.nil_append]
    rw [strFactors_ops, strOps_ops]
  | some f =>
    unfold OpStr.new
    simp only [Option.map_some, Option.toList_some, List.cons_append, List.nil_append,
      List.map_cons, strFactors, strOps]
    rw [strFactors_ops, strOps_ops]
    rfl

/-- The prefactor callable of a scaled string. -/
def scaledPrefactor {Arg : Type} (a : PreFun Arg) : Option (PreFun Arg) → PreFun Arg
  | none => a
  | some f => .prod a f

private theorem rmul_normal {Arg : Type} (a : PreFun Arg) (p : Option (PreFun Arg))
    (l : List (LocalOp N d)) (hne : p ≠ none ∨ l ≠ []) :
    OpStr.rmul a ((p.map (StrItem.fn : _ → StrItem Arg N d)).toList ++ l.map StrItem.op)
      = .ok (.fn (scaledPrefactor a p) :: l.map StrItem.op) := by
  cases p with
  | none =>
    cases l with
    | nil => simp at hne
    | cons o l =>
      simp only [Option.map_none, Option.toList_none, List.nil_append, List.map_cons, OpStr.rmul]
      have := OpStr.new_normal (some a) (o :: l)
      simp only [Option.map_some, Option.toList_some, List.cons_append, List.nil_append,
        List.map_cons] at this
      rw [this]
      rfl
  | some f =>
    simp only [Option.map_some, Option.toList_some, List.cons_append, List.nil_append, OpStr.rmul]
    have := OpStr.new_normal (some (.prod a f)) l
    simp only [Option.map_some, Option.toList_some, List.cons_append, List.nil_append,
      List.map_cons] at this
    rw [List.map_cons, this]
    rfl

/-- Scaling with a scalar or callable: for every argument tuple the prefactor is multiplied, if the
string has no prefactor yet or there are no arguments. Missing from C31: strings that already have
a prefactor, evaluated with arguments (`c31_violated`). -/
theorem c31_scaling_partial {Arg : Type} (a : PreFun Arg) (x y : OpStr Arg N d) (hx : x.Normal)
    (h : OpStr.rmul a x = .ok y) (args : List Arg) (hargs : x.prefactor = none ∨ args = [])
    (va vx : ℂ) (ha : a.call args = .ok va) (hv : x.value args = .ok vx) :
    y.value args = .ok (va * vx) := by
  obtain ⟨p, l, rfl⟩ := hx
  by_cases hne : p ≠ none ∨ l ≠ []
  · rw [rmul_normal a p l hne] at h
    injection h with h
    subst h
    cases p with
    | none =>
      have hvx : vx = 1 := by
        have : OpStr.value (N := N) (d := d)
            ((Option.map (StrItem.fn : PreFun Arg → _) none).toList ++ l.map StrItem.op) args
            = .ok 1 := by
          cases l <;> rfl
        rw [this] at hv
        injection hv with hv
        exact hv.symm
      rw [hvx, mul_one]
      exact ha
    | some f =>
      have h0 : args = [] := by
        rcases hargs with h | h
        · cases h
        · exact h
      subst h0
      show (PreFun.prod a f).call [] = _
      have hv : f.call [] = .ok vx := hv
      unfold PreFun.call
      dsimp only
      rw [ha, hv]
      rfl
  · push Not at hne
    obtain ⟨rfl, rfl⟩ := hne
    cases h

/-- A function of time times an operator without prefactor. -/
example (t : ℝ) (y : OpStr ℝ 1 2) (h : OpStr.rmul (.user fun l => ((l.headD 0 : ℝ) : ℂ) ^ 2) [.op (opSx 0)] = .ok y) :
    y.value [t] = .ok ((t : ℂ) ^ 2 * 1) :=
  c31_scaling_partial _ _ y ⟨none, [opSx 0], rfl⟩ h [t] (.inl rfl) _ _ rfl rfl

/-- Products: for every argument tuple the prefactor of the product is the product of the
prefactors, if at most one of them has a prefactor or there are no arguments. -/
theorem c31_product_partial {Arg : Type} (x y z : OpStr Arg N d) (hx : x.Normal) (hy : y.Normal)
    (h : OpStr.mul x y = .ok z) (args : List Arg)
    (hargs : x.prefactor = none ∨ y.prefactor = none ∨ args = [])
    (vx vy : ℂ) (hvx : x.value args = .ok vx) (hvy : y.value args = .ok vy) :
    z.value args = .ok (vx * vy) := by
  obtain ⟨q, m, rfl⟩ := hy
  cases q with
  | some g =>
    simp only [Option.map_some, Option.toList_some, List.cons_append, List.nil_append] at h hvy hargs
    have hvy : g.call args = .ok vy := hvy
    unfold OpStr.mul at h
    cases hr : OpStr.rmul g x with
    | error e => simp only [hr] at h; cases h
    | ok w =>
      simp only [hr] at h
      have h : Except.ok (OpStr.new ((w ++ m.map StrItem.op).map .item)) = Except.ok z := h
      injection h with h
      have hw := c31_scaling_partial g x w hx hr args
        (by rcases hargs with h | h | h
            · exact .inl h
            · cases h
            · exact .inr h) vy vx hvy hvx
      obtain ⟨p, l, rfl⟩ := hx
      by_cases hne : p ≠ none ∨ l ≠ []
      · rw [rmul_normal g p l hne] at hr
        injection hr with hr
        subst hr
        have e : (StrItem.fn (scaledPrefactor g p) :: l.map StrItem.op : OpStr Arg N d)
            ++ m.map StrItem.op
            = ((some (scaledPrefactor g p)).map StrItem.fn).toList ++ (l ++ m).map StrItem.op := by
          simp
        rw [e, OpStr.new_normal] at h
        rw [← h, mul_comm]
        exact hw
      · push Not at hne
        obtain ⟨rfl, rfl⟩ := hne
        cases hr
  | none =>
    simp only [Option.map_none, Option.toList_none, List.nil_append] at h hvy
    have hvy1 : vy = 1 := by
      have : OpStr.value (Arg := Arg) (m.map StrItem.op) args = .ok 1 := by cases m <;> rfl
      rw [this] at hvy
      injection hvy with hvy
      exact hvy.symm
    cases m with
    | nil => cases h
    | cons o m =>
      unfold OpStr.mul at h
      simp only [List.map_cons] at h
      injection h with h
      obtain ⟨p, l, rfl⟩ := hx
      have e : (p.map StrItem.fn).toList ++ l.map StrItem.op ++ StrItem.op o :: m.map StrItem.op
          = ((p.map (StrItem.fn : _ → StrItem Arg N d)).toList ++ (l ++ o :: m).map StrItem.op) := by
        simp
      rw [e, OpStr.new_normal] at h
      rw [← h, hvy1, mul_one, ← hvx]
      cases p with
      | none => cases l <;> rfl
      | some f => rfl

/-- A time-dependent string times one without prefactor. -/
example (t : ℝ) (z : OpStr ℝ 2 2) (h : OpStr.mul [.fn (.user fun l => ((l.headD 0 : ℝ) : ℂ) ^ 2), .op (opSx 0)]
    [.op (opSz 1)] = .ok z) : z.value [t] = .ok ((t : ℂ) ^ 2 * 1) :=
  c31_product_partial _ _ z ⟨some _, [opSx 0], rfl⟩ ⟨none, [opSz 1], rfl⟩ h [t] (.inr (.inl rfl)) _ _ rfl rfl

/-- C31 fails: a string scaled twice raises a `TypeError` as soon as it is evaluated with an
argument (e.g. the time), although both factors are defined. -/
theorem c31_violated :
    ∃ (x y : OpStr ℝ 1 2) (a b : PreFun ℝ) (t : ℝ) (z : OpStr ℝ 1 2),
      OpStr.rmul b x = .ok y ∧ OpStr.rmul a y = .ok z ∧
      a.call [t] = .ok 2 ∧ y.value [t] = .ok 3 ∧ z.value [t] = .error .typeError := by
  refine ⟨[.op (opSx 0)], [.fn (.const 3), .op (opSx 0)], .const 2, .const 3, 1,
    [.fn (.prod (.const 2) (.const 3)), .op (opSx 0)], rfl, rfl, rfl, rfl, rfl⟩

/-- Every `OpStr` the constructor builds is normal (so the theorems above apply to all strings
obtained from the API). -/
theorem c31_constructor_normal {Arg : Type} (args : List (StrArg Arg N d)) :
    (OpStr.new args).Normal := by
  unfold OpStr.new
  split
  · exact ⟨none, strOps args, rfl⟩
  · exact ⟨some _, strOps args, rfl⟩

/-- The constructor multiplies all scalar and callable factors, for no arguments. -/
theorem c31_constructor_value {Arg : Type} (fs : List (PreFun Arg)) (vs : List ℂ)
    (ops : List (LocalOp N d)) (h : fs.map (fun f => f.call []) = vs.map .ok) :
    (OpStr.new (fs.map (fun f => StrArg.item (.fn f)) ++ ops.map fun o => .item (.op o))).value []
      = .ok vs.prod := by
  have hF : strFactors (fs.map (fun f => StrArg.item (N := N) (d := d) (.fn f))
      ++ ops.map fun o => .item (.op o)) = fs := by
    rw [strFactors_append]
    have h1 : strFactors (fs.map (fun f => StrArg.item (N := N) (d := d) (.fn f))) = fs := by
      clear h
      induction fs with
      | nil => rfl
      | cons f fs ih => simpa [strFactors] using ih
    have h2 : strFactors (ops.map fun o => StrArg.item (Arg := Arg) (.op o)) = [] := by
      induction ops with
      | nil => rfl
      | cons o ops ih => simpa [strFactors] using ih
    rw [h1, h2, List.append_nil]
  unfold OpStr.new
  rw [hF]
  cases fs with
  | nil =>
    cases vs with
    | nil =>
      simp only [List.map_nil, List.nil_append, List.prod_nil]
      cases strOps (ops.map fun o => StrArg.item (Arg := Arg) (.op o)) <;> rfl
    | cons v vs => simp at h
  | cons f fs =>
    cases vs with
    | nil => simp at h
    | cons v vs =>
      simp only [List.map_cons, List.cons.injEq] at h
      obtain ⟨hf, hfs⟩ := h
      show (foldFactors f fs).call [] = _
      unfold foldFactors
      have : ∀ (fs : List (PreFun Arg)) (vs : List ℂ),
          fs.map (fun f => f.call []) = vs.map .ok →
          (fs.foldr (fun last acc => PreFun.prod acc last) f).call [] = .ok (v * vs.prod) := by
        intro fs
        induction fs with
        | nil =>
          intro vs hvs
          cases vs with
          | nil => simpa using hf
          | cons _ _ => simp at hvs
        | cons g fs ih =>
          intro vs hvs
          cases vs with
          | nil => simp at hvs
          | cons w vs =>
            simp only [List.map_cons, List.cons.injEq] at hvs
            rw [List.foldr_cons]
            unfold PreFun.call
            dsimp only
            rw [ih vs hvs.2, hvs.1]
            show Except.ok _ = Except.ok _
            rw [List.prod_cons]
            congr 1
            ring
      rw [this fs vs hfs, List.prod_cons]

/-- Non-vacuity: `2 * (3 * Sx(0))`, then times `Sy(0)`, without arguments. -/
example : ∃ z : OpStr ℝ 1 2,
    (do let x ← OpStr.rmul (.const 3) [.op (opSx 0)]
        let y ← OpStr.rmul (.const 2) x
        OpStr.mul y [.op (opSy 0)]) = .ok z ∧ z.value [] = .ok (2 * 3) ∧
      z.localOps = [opSx 0, opSy 0] :=
  ⟨_, rfl, rfl, rfl⟩

/-! ## C32 — parallel evaluation of many prefactors -/

/-- Evaluated on a single rank the prefactors are the sequential ones, for any number of them. -/
theorem c32_single_rank {A : Type} (prefactor : List (ℕ × A)) (init : List A)
    (hs : prefactor.Pairwise fun a b => a.1 < b.1) (hlt : ∀ p ∈ prefactor, p.1 < init.length) :
    argFun prefactor init 1 = argFunSequential prefactor init := by
  unfold argFun
  split
  · rfl
  · rename_i h
    have := argFun_parallel_eq prefactor init 1 (by omega) hs hlt
      (by intro r h1 h2; omega) (by omega)
    unfold argFunSequential
    have hw := writeAll_ok 0 prefactor init (by intro p hp; exact ⟨by omega, by simpa using hlt p hp⟩)
    simp only [Nat.cast_zero] at hw
    rw [hw, ← this]
    rfl

example : argFun ((List.range 60).map fun k => (2 * k, k)) (List.replicate 120 0) 1
    = argFunSequential ((List.range 60).map fun k => (2 * k, k)) (List.replicate 120 0) := by
  apply c32_single_rank
  · rw [List.pairwise_map]
    refine (List.pairwise_lt_range).imp ?_
    intro a b h
    dsimp only
    omega
  · simp
    omega

/-- On any number of ranks, if at every chunk boundary there is a string *without* prefactor in
between. Missing from C32: everything else, see `c32_violated`. -/
theorem c32_parallel_partial {A : Type} (prefactor : List (ℕ × A)) (init : List A) (commSize : ℕ)
    (hc : 0 < commSize) (hs : prefactor.Pairwise fun a b => a.1 < b.1)
    (hlt : ∀ p ∈ prefactor, p.1 < init.length)
    (hgap : ∀ r, 0 < r → r < commSize →
      let k := (prefactor.length + commSize - 1) / commSize * r
      ∃ p q, prefactor[k - 1]? = some p ∧ prefactor[k]? = some q ∧ p.1 + 1 < q.1) :
    argFun prefactor init commSize = argFunSequential prefactor init := by
  unfold argFun
  split
  · rfl
  · rename_i h
    have := argFun_parallel_eq prefactor init commSize hc hs hlt
      (by
        intro r h1 h2
        obtain ⟨p, q, hp, hq, hlt⟩ := hgap r h1 h2
        refine ⟨(List.getElem?_eq_some_iff.1 hq).1, ?_⟩
        simp only [pidx, hp, hq, Option.map_some, Option.getD_some]
        exact hlt) (by omega)
    unfold argFunSequential
    have hw := writeAll_ok 0 prefactor init (by intro p hp; exact ⟨by omega, by simpa using hlt p hp⟩)
    simp only [Nat.cast_zero] at hw
    rw [hw, ← this]
    rfl

/-- C32 fails in the most common case: an operator all of whose (at least 50) strings have a
prefactor cannot be evaluated on two or more ranks, an `IndexError` is raised. -/
theorem c32_violated {A : Type} (vals : List A) (init : List A) (commSize : ℕ)
    (hn : 50 ≤ vals.length) (hi : init.length = vals.length) (hc : 2 ≤ commSize) :
    argFun ((List.range vals.length).zip vals) init commSize = .error .indexError ∧
      argFunSequential ((List.range vals.length).zip vals) init = .ok vals := by
  have hlen : ((List.range vals.length).zip vals).length = vals.length := by simp
  constructor
  · unfold argFun
    rw [if_neg (by rw [hlen]; omega)]
    have h0 := argFunRank_zero_error ((List.range vals.length).zip vals) init commSize hc
      (by rw [hlen]; omega) (by
        intro k hk
        rw [pidx_eq _ _ hk]
        simp)
    obtain ⟨c, rfl⟩ : ∃ c, commSize = c + 1 := ⟨commSize - 1, by omega⟩
    rw [List.range_succ_eq_map, List.mapM_cons, h0]
    rfl
  · unfold argFunSequential
    have hw := writeAll_ok 0 ((List.range vals.length).zip vals) init (by
      intro p hp
      have := (List.of_mem_zip hp).1
      simp only [List.mem_range] at this
      exact ⟨by omega, by omega⟩)
    simp only [Nat.cast_zero] at hw
    rw [hw]
    congr 1
    have gen : ∀ (vals pre init : List A), init.length = vals.length →
        setAll 0 ((List.range' pre.length vals.length).zip vals) (pre ++ init) = pre ++ vals := by
      intro vals
      induction vals with
      | nil => intro pre init h; simp at h; subst h; simp [setAll]
      | cons v vals ih =>
        intro pre init h
        cases init with
        | nil => simp at h
        | cons x init =>
          rw [List.length_cons, List.range'_succ, List.zip_cons_cons, setAll_cons, Nat.sub_zero,
            List.set_append_right _ _ (le_refl _), Nat.sub_self, List.set_cons_zero]
          have := ih (pre ++ [v]) init (by simpa using h)
          simpa using this
    have := gen vals [] init hi
    rw [List.range_eq_range']
    simpa using this

/-- Non-vacuity of `c32_parallel_partial`: 60 strings with prefactors on strings 0, 2, 4, …, three
ranks. -/
example : argFun ((List.range 60).map fun k => (2 * k, k)) (List.replicate 120 0) 3
    = argFunSequential ((List.range 60).map fun k => (2 * k, k)) (List.replicate 120 0) := by
  apply c32_parallel_partial _ _ _ (by omega)
  · rw [List.pairwise_map]
    refine (List.pairwise_lt_range).imp ?_
    intro a b h
    dsimp only
    omega
  · simp
    omega
  · intro r h1 h2
    have : r = 1 ∨ r = 2 := by omega
    rcases this with rfl | rfl
    · exact ⟨(38, 19), (40, 20), rfl, rfl, by omega⟩
    · exact ⟨(78, 39), (80, 40), rfl, rfl, by omega⟩

/-! ## The whole operator -/

private theorem evalPrefactors_ok {Arg : Type} (args : List Arg) (strs : List (OpStr Arg N d))
    (vals : List ℂ) (hne : ∀ x ∈ strs, x ≠ []) (h : strs.map (fun x => x.value args) = vals.map .ok)
    (o : ℕ) : ∃ pre, evalPrefactors args o strs = .ok pre ∧
      pre.Pairwise (fun a b => a.1 < b.1) ∧ (∀ p ∈ pre, o ≤ p.1 ∧ p.1 < o + strs.length) ∧
      ∀ u : List ℂ, u.length = o →
        setAll 0 pre (u ++ List.replicate strs.length 1) = u ++ vals := by
  induction strs generalizing vals o with
  | nil =>
    cases vals with
    | nil => exact ⟨[], rfl, List.Pairwise.nil, by simp, by simp [setAll]⟩
    | cons _ _ => simp at h
  | cons x strs ih =>
    cases vals with
    | nil => simp at h
    | cons v vals =>
      simp only [List.map_cons, List.cons.injEq] at h
      obtain ⟨hv, hvals⟩ := h
      obtain ⟨pre, h1, h2, h3, h4⟩ :=
        ih vals (fun y hy => hne y (List.mem_cons_of_mem _ hy)) hvals (o + 1)
      cases x with
      | nil => exact absurd rfl (hne [] List.mem_cons_self)
      | cons i x =>
        cases i with
        | op q =>
          have hv1 : v = 1 := by
            have hv : Except.ok (ε := PyErr) (1 : ℂ) = Except.ok v := hv
            injection hv with hv
            exact hv.symm
          refine ⟨pre, ?_, h2, ?_, ?_⟩
          · unfold evalPrefactors; exact h1
          · intro p hp
            have := h3 p hp
            simp only [List.length_cons]
            omega
          · intro u hu
            have := h4 (u ++ [1]) (by simp [hu])
            simp only [List.length_cons, List.replicate_succ]
            simpa [hv1] using this
        | fn f =>
          have hv : f.call args = .ok v := hv
          refine ⟨(o, v) :: pre, ?_, ?_, ?_, ?_⟩
          · unfold evalPrefactors
            dsimp only
            rw [hv, h1]; rfl
          · rw [List.pairwise_cons]
            refine ⟨?_, h2⟩
            intro p hp
            have := h3 p hp
            dsimp only
            omega
          · intro p hp
            simp only [List.length_cons]
            rcases List.mem_cons.1 hp with rfl | hp
            · dsimp only; omega
            · have := h3 p hp; omega
          · intro u hu
            have := h4 (u ++ [v]) (by simp [hu])
            rw [setAll_cons]
            simp only [List.length_cons, List.replicate_succ, Nat.sub_zero]
            rw [List.set_append_right _ _ (by omega), hu, Nat.sub_self, List.set_cons_zero]
            simpa using this

/-- The prefactors of the strings, as the object evaluates them, on one rank (or with fewer than 50
prefactors). -/
theorem prefactors_evaluated {Arg : Type} (strs : List (OpStr Arg N d)) (args : List Arg) (commSize : ℕ)
    (vals : List ℂ) (hne : ∀ x ∈ strs, x ≠ [])
    (hval : strs.map (fun x => x.value args) = vals.map .ok) (hrank : strs.length < 50 ∨ commSize = 1) :
    ∃ pre, evalPrefactors args 0 strs = .ok pre ∧
      argFun pre (List.replicate strs.length (1 : ℂ)) commSize = .ok vals := by
  obtain ⟨pre, h1, h2, h3, h4⟩ := evalPrefactors_ok args strs vals hne hval 0
  refine ⟨pre, h1, ?_⟩
  have hseq : argFunSequential pre (List.replicate strs.length (1 : ℂ)) = .ok vals := by
    unfold argFunSequential
    have hw := writeAll_ok 0 pre (List.replicate strs.length (1 : ℂ)) (by
      intro p hp; have := h3 p hp; simpa using this)
    simp only [Nat.cast_zero] at hw
    rw [hw]
    have := h4 [] rfl
    simp only [List.nil_append] at this
    rw [this]
  rcases hrank with hlt | rfl
  · unfold argFun
    rw [if_pos, hseq]
    have hle : pre.length ≤ strs.length := by
      have hnd : (pre.map Prod.fst).Nodup := by
        rw [List.Nodup, List.pairwise_map]
        exact h2.imp fun h => Nat.ne_of_lt h
      have hsub : (pre.map Prod.fst).Subset (List.range strs.length) := by
        intro k hk
        obtain ⟨p, hp, rfl⟩ := List.mem_map.1 hk
        have := h3 p hp
        simp only [List.mem_range]
        omega
      have := (hnd.subperm hsub).length_le
      simpa using this
    omega
  · rw [c32_single_rank pre _ h2 (by intro p hp; have := h3 p hp; simpa using this), hseq]

/-- C26 for the whole operator as the user builds it, on one rank (or with fewer than 50
prefactors): strings with prefactors depending on the arguments, evaluated for one configuration.
Every string contributes its prefactor times the ordered product of its local operators. -/
theorem c26_operator_partial {Arg : Type} [NeZero N] (strs : List (OpStr Arg N d))
    (args : List Arg) (commSize : ℕ) (vals : List ℂ)
    (hne : ∀ x ∈ strs, x ≠ []) (hval : strs.map (fun x => x.value args) = vals.map .ok)
    (hrank : strs.length < 50 ∨ commSize = 1)
    (hb : ∀ x ∈ strs, ∀ o ∈ x.localOps, o.fermionic = false)
    (hd : ∀ x ∈ strs, ∀ o ∈ x.localOps, o.diag = true → o.map = id)
    (hdist : ∀ x ∈ strs, x.localOps.Pairwise fun a b => a.idx ≠ b.idx) (s : Config N d) :
    ∃ l, branchFreeElements strs args commSize s = .ok l ∧ ∀ s',
      elementOf l s' = sumOfProducts (vals.zip (strs.map fun x => x.localOps.map fun o =>
        siteOperator o.idx (localMatrix o))) s s' := by
  obtain ⟨pre, h1, harg⟩ := prefactors_evaluated strs args commSize vals hne hval hrank
  have hlen : vals.length = strs.length := by
    have := congrArg List.length hval
    simpa using this.symm
  refine ⟨branchFreeKernel (strs.map OpStr.localOps) vals s, ?_, ?_⟩
  · unfold branchFreeElements
    rw [h1]
    show (do let vec ← argFun pre _ commSize; pure _) = _
    rw [harg]
    rfl
  · intro s'
    rw [c26_distinct_sites_partial (strs.map OpStr.localOps) vals (by simpa using hlen)]
    · rw [List.map_map]; rfl
    · simpa using hb
    · simpa using hd
    · simpa using hdist

/-- The Ising model with a field that depends on time, on three ranks. -/
example (t : ℝ) (s : Config 2 2) : ∃ l, branchFreeElements
      [[.fn (.const (-1)), .op (opSz 0), .op (opSz 1)], [.fn (.user fun l => ((l.headD 0 : ℝ) : ℂ)), .op (opSx 0)]] [t] 3 s = .ok l ∧
    ∀ s', elementOf l s' = sumOfProducts [(-1, [siteOperator 0 sigmaZ, siteOperator 1 sigmaZ]),
      ((t : ℂ), [siteOperator 0 sigmaX])] s s' := by
  have : arr2 (0 : Fin 2) 1 = id := by funext x; fin_cases x <;> rfl
  obtain ⟨l, h1, h2⟩ := c26_operator_partial
    [[.fn (.const (-1)), .op (opSz 0), .op (opSz 1)], [.fn (.user fun l => ((l.headD 0 : ℝ) : ℂ)), .op (opSx 0)]]
    [t] 3 [-1, (t : ℂ)] (by simp) rfl (.inl (by norm_num)) (by
      intro x hx o ho
      simp only [List.mem_cons, List.not_mem_nil, or_false] at hx
      rcases hx with rfl | rfl <;> simp [OpStr.localOps, opSz, opSx] at ho
      · rcases ho with rfl | rfl <;> rfl
      · rw [ho])
    (by
      intro x hx o ho
      simp only [List.mem_cons, List.not_mem_nil, or_false] at hx
      rcases hx with rfl | rfl <;> simp [OpStr.localOps, opSz, opSx] at ho
      · rcases ho with rfl | rfl <;> simp [this]
      · rw [ho]; simp) (by simp [OpStr.localOps, opSz]) s
  refine ⟨l, h1, fun s' => ?_⟩
  rw [h2]
  simp [OpStr.localOps, opSz_matrix, opSx_matrix]
  rfl

/-! ## C35 — configuration shapes -/

/-- One-dimensional configurations, and shapes whose last dimension is 1 (for operators without
fermionic factors), give the elements of the flattened configuration. Missing from C35: all other
shapes, see `c35_violated`. -/
theorem c35_shapes_partial [NeZero N] (shape : List ℕ) (strs : List (List (LocalOp N d)))
    (pfs : List ℂ) (s : Config N d) :
    (shape.getLastD 1 = N → branchFreeKernelShaped shape strs pfs s
      = .ok (branchFreeKernel strs pfs s)) ∧
    (shape.getLastD 1 = 1 → (∀ ops ∈ strs, ∀ o ∈ ops, o.fermionic = false) →
      branchFreeKernelShaped shape strs pfs s = .ok (branchFreeKernel strs pfs s)) := by
  constructor
  · intro h
    unfold branchFreeKernelShaped maskFor
    rw [if_pos h]
    rfl
  · intro h hb
    have key : ∀ mask : Fin N → Fin N → ℤ,
        kernelMasked mask strs pfs s = kernelMasked triMask strs pfs s := by
      intro mask
      have hraw : rawSPrimes mask strs pfs s = rawSPrimes triMask strs pfs s := by
        unfold rawSPrimes
        generalize maxOpStrLength strs = m
        have hfold : ∀ (l : List (LocalOp N d)) (c : Config N d × ℂ),
            (∀ o ∈ l, o.fermionic = false) →
            l.foldl (applyFun mask) c = l.foldl (applyFun triMask) c := by
          intro l
          induction l with
          | nil => intro c _; rfl
          | cons o l ih =>
            intro c hl
            rw [List.foldl_cons, List.foldl_cons, ih _ fun o' h => hl o' (List.mem_cons_of_mem _ h)]
            congr 1
            simp [applyFun, hl o List.mem_cons_self, fermiFactor_bosonic]
        have hcomp : ∀ ops ∈ strs, ∀ o ∈ compileStr m ops, o.fermionic = false := by
          intro ops hops o ho
          simp only [compileStr, List.mem_map, List.mem_range] at ho
          obtain ⟨k, _, rfl⟩ := ho
          split
          · exact hb ops hops _ (List.getElem_mem _)
          · rfl
        apply List.ext_getElem
        · simp
        · intro k h1 h2
          simp only [List.getElem_zipWith]
          exact hfold _ _ (hcomp _ (List.getElem_mem _))
      unfold kernelMasked
      rw [hraw]
    unfold branchFreeKernelShaped maskFor
    by_cases hN : shape.getLastD 1 = N
    · rw [if_pos hN]; rfl
    · rw [if_neg hN, if_pos h]
      show Except.ok _ = Except.ok _
      rw [key]; rfl

/-- C35 fails: on a two-dimensional lattice with at least two rows and two columns evaluation raises
a broadcasting error for every branch-free operator. -/
theorem c35_violated (rows cols : ℕ) (hr : 2 ≤ rows) (hc : 2 ≤ cols) [NeZero (rows * cols)]
    (strs : List (List (LocalOp (rows * cols) d))) (pfs : List ℂ) (s : Config (rows * cols) d) :
    branchFreeKernelShaped [rows, cols] strs pfs s = .error .broadcastError := by
  have h1 : cols ≠ rows * cols := by
    intro h
    have : 2 * cols ≤ rows * cols := Nat.mul_le_mul_right _ hr
    omega
  have h2 : cols ≠ 1 := by omega
  have e : [rows, cols].getLastD 1 = cols := rfl
  unfold branchFreeKernelShaped
  rw [e]
  unfold maskFor
  rw [if_neg h1, if_neg h2]
  rfl

/-- C35 fails silently for configurations of shape `(N, 1)`: the sign of fermionic operators is lost. For
two sites the annihilation operator of the first site has the element `-1` between the full configuration
and `(0, 1)` for the shape `(2,)` and the element `1` for the shape `(2, 1)`. -/
theorem c35_column_violated :
    branchFreeKernelShaped [2] [[opAnnihilation 0]] [1] (![1, 1] : Config 2 2) = .ok [(![0, 1], -1)] ∧
    branchFreeKernelShaped [2, 1] [[opAnnihilation 0]] [1] (![1, 1] : Config 2 2) = .ok [(![0, 1], 1)] := by
  have hu : Function.update (![1, 1] : Config 2 2) 0 0 = ![0, 1] := by
    funext j; fin_cases j <;> rfl
  constructor
  · unfold branchFreeKernelShaped maskFor
    rw [if_pos (by decide)]
    change Except.ok _ = _
    simp [kernelMasked, rawSPrimes, compileStr, maxOpStrLength, applyFun, fermiFactor, opAnnihilation,
      arr2, triMask, mergeDiag, diagIndices, hu]
    norm_num
  · unfold branchFreeKernelShaped maskFor
    rw [if_neg (by decide), if_pos (by decide)]
    change Except.ok _ = _
    simp [kernelMasked, rawSPrimes, compileStr, maxOpStrLength, applyFun, fermiFactor, opAnnihilation,
      arr2, mergeDiag, diagIndices, hu]
    norm_num

/-- Non-vacuity: shapes `(4,)` and `(4, 1)` for four spins. -/
example (s : Config 4 2) :
    branchFreeKernelShaped [4] [[opSx 1]] [1] s = .ok (branchFreeKernel [[opSx 1]] [1] s) ∧
      branchFreeKernelShaped [4, 1] [[opSx 1]] [1] s = .ok (branchFreeKernel [[opSx 1]] [1] s) :=
  ⟨(c35_shapes_partial _ _ _ _).1 rfl, (c35_shapes_partial _ _ _ _).2 rfl (by simp [opSx])⟩

end JVMC
