import Mathlib.LinearAlgebra.Matrix.Kronecker
import Mathlib.Data.List.NodupEquivFin
import Mathlib.Logic.Equiv.Basic
import Mathlib.Logic.Equiv.Fintype
import Verif.Props.PovmObs
import Verif.Spec.Lindblad
import Verif.Spec.Operators

/-!
# Local superoperators on many sites
-/

namespace JVMC

open Spec Matrix

open scoped Kronecker

section reduced

variable {X U : Type} [Fintype X] [Fintype U]

/-- The matrix on `X` that is left over when the measurement on `U` has given an outcome with
measurement operator `R`: `tr_U (ρ (1 ⊗ R))`. -/
def reduced (R : Matrix U U ℂ) (ρ : Matrix (X × U) (X × U) ℂ) : Matrix X X ℂ :=
  Matrix.of fun x y => ∑ u, ∑ v, ρ (x, u) (y, v) * R v u

omit [Fintype X] in
theorem reduced_add (R : Matrix U U ℂ) (ρ σ : Matrix (X × U) (X × U) ℂ) :
    reduced R (ρ + σ) = reduced R ρ + reduced R σ := by
  ext x y
  simp [reduced, add_mul, Finset.sum_add_distrib]

omit [Fintype X] in
theorem reduced_smul (R : Matrix U U ℂ) (c : ℂ) (ρ : Matrix (X × U) (X × U) ℂ) :
    reduced R (c • ρ) = c • reduced R ρ := by
  ext x y
  simp [reduced, Finset.mul_sum, mul_assoc]

omit [Fintype X] in
theorem reduced_sub (R : Matrix U U ℂ) (ρ σ : Matrix (X × U) (X × U) ℂ) :
    reduced R (ρ - σ) = reduced R ρ - reduced R σ := by
  ext x y
  simp [reduced, sub_mul, Finset.sum_sub_distrib]

omit [Fintype X] in
theorem reduced_neg (R : Matrix U U ℂ) (ρ : Matrix (X × U) (X × U) ℂ) :
    reduced R (-ρ) = -reduced R ρ := by
  ext x y
  simp [reduced]

variable [DecidableEq U]

theorem reduced_mul_left (R : Matrix U U ℂ) (A : Matrix X X ℂ) (ρ : Matrix (X × U) (X × U) ℂ) :
    reduced R ((A ⊗ₖ (1 : Matrix U U ℂ)) * ρ) = A * reduced R ρ := by
  ext x y
  simp only [reduced, Matrix.of_apply, Matrix.mul_apply, Fintype.sum_prod_type,
    Matrix.kroneckerMap_apply, Matrix.one_apply, mul_ite, mul_one, mul_zero, ite_mul, zero_mul,
    Finset.sum_ite_eq, Finset.mem_univ, if_true, Finset.sum_mul, Finset.mul_sum]
  rw [Finset.sum_congr rfl fun u _ => Finset.sum_comm]
  rw [Finset.sum_comm]
  simp only [mul_assoc]

theorem reduced_mul_right (R : Matrix U U ℂ) (A : Matrix X X ℂ) (ρ : Matrix (X × U) (X × U) ℂ) :
    reduced R (ρ * (A ⊗ₖ (1 : Matrix U U ℂ))) = reduced R ρ * A := by
  ext x y
  simp only [reduced, Matrix.of_apply, Matrix.mul_apply, Fintype.sum_prod_type,
    Matrix.kroneckerMap_apply, Matrix.one_apply, mul_ite, mul_one, mul_zero,
    Finset.sum_ite_eq', Finset.mem_univ, if_true, Finset.sum_mul]
  rw [Finset.sum_congr rfl fun u _ => Finset.sum_comm]
  rw [Finset.sum_comm]
  refine Finset.sum_congr rfl fun z _ => Finset.sum_congr rfl fun u _ =>
    Finset.sum_congr rfl fun v _ => by ring

omit [DecidableEq U] in
theorem trace_reduced (R : Matrix U U ℂ) (B : Matrix X X ℂ) (ρ : Matrix (X × U) (X × U) ℂ) :
    (ρ * (B ⊗ₖ R)).trace = (reduced R ρ * B).trace := by
  simp only [Matrix.trace, Matrix.diag_apply, Matrix.mul_apply, Fintype.sum_prod_type,
    Matrix.kroneckerMap_apply, reduced, Matrix.of_apply, Finset.sum_mul]
  refine Finset.sum_congr rfl fun x _ => ?_
  rw [Finset.sum_congr rfl fun u _ => rfl, Finset.sum_comm]
  refine Finset.sum_congr rfl fun y _ => Finset.sum_congr rfl fun u _ =>
    Finset.sum_congr rfl fun v _ => by ring

theorem reduced_vonNeumann [DecidableEq X] (R : Matrix U U ℂ) (A : Matrix X X ℂ)
    (ρ : Matrix (X × U) (X × U) ℂ) :
    reduced R (vonNeumann (A ⊗ₖ (1 : Matrix U U ℂ)) ρ) = vonNeumann A (reduced R ρ) := by
  simp only [vonNeumann, reduced_smul, reduced_sub, reduced_mul_left, reduced_mul_right]

theorem reduced_imaginaryTime [DecidableEq X] (R : Matrix U U ℂ) (A : Matrix X X ℂ)
    (ρ : Matrix (X × U) (X × U) ℂ) :
    reduced R (imaginaryTime (A ⊗ₖ (1 : Matrix U U ℂ)) ρ) = imaginaryTime A (reduced R ρ) := by
  simp only [imaginaryTime, reduced_neg, reduced_add, reduced_mul_left, reduced_mul_right]

theorem reduced_lindblad [DecidableEq X] (R : Matrix U U ℂ) (A : Matrix X X ℂ)
    (ρ : Matrix (X × U) (X × U) ℂ) :
    reduced R (lindblad (A ⊗ₖ (1 : Matrix U U ℂ)) ρ) = lindblad A (reduced R ρ) := by
  have h : (A ⊗ₖ (1 : Matrix U U ℂ))ᴴ = Aᴴ ⊗ₖ 1 := by
    rw [Matrix.conjTranspose_kronecker, Matrix.conjTranspose_one]
  have h2 : (Aᴴ ⊗ₖ (1 : Matrix U U ℂ)) * (A ⊗ₖ 1) = (Aᴴ * A) ⊗ₖ 1 := by
    rw [← Matrix.mul_kronecker_mul, Matrix.one_mul]
  simp only [lindblad, h, h2, reduced_smul, reduced_sub, reduced_add, reduced_mul_left,
    reduced_mul_right]

end reduced

section split

variable {N : ℕ} {n : Type}

/-- A configuration as the states on the listed sites and the states on all other sites. -/
def splitSites (sites : List (Fin N)) (h : sites.Nodup) (n : Type) :
    (Fin N → n) ≃ (Fin sites.length → n) × ({j // ¬ j ∈ sites} → n) :=
  (Equiv.piEquivPiSubtypeProd (· ∈ sites) (fun _ => n)).trans
    (Equiv.prodCongr (Equiv.arrowCongr (List.Nodup.getEquiv sites h).symm (Equiv.refl n))
      (Equiv.refl _))

theorem splitSites_fst (sites : List (Fin N)) (h : sites.Nodup) (s : Fin N → n)
    (m : Fin sites.length) : (splitSites sites h n s).1 m = s (sites.get m) := rfl

theorem splitSites_snd (sites : List (Fin N)) (h : sites.Nodup) (s : Fin N → n)
    (j : {j // ¬ j ∈ sites}) : (splitSites sites h n s).2 j = s j := rfl

theorem splitSites_symm_get (sites : List (Fin N)) (h : sites.Nodup)
    (p : (Fin sites.length → n) × ({j // ¬ j ∈ sites} → n)) (m : Fin sites.length) :
    (splitSites sites h n).symm p (sites.get m) = p.1 m := by
  have := splitSites_fst sites h ((splitSites sites h n).symm p) m
  rw [Equiv.apply_symm_apply] at this
  exact this.symm

theorem splitSites_symm_rest (sites : List (Fin N)) (h : sites.Nodup)
    (p : (Fin sites.length → n) × ({j // ¬ j ∈ sites} → n)) (j : {j // ¬ j ∈ sites}) :
    (splitSites sites h n).symm p j = p.2 j := by
  have := splitSites_snd sites h ((splitSites sites h n).symm p) j
  rw [Equiv.apply_symm_apply] at this
  exact this.symm

theorem prod_splitSites {R : Type} [CommMonoid R] (sites : List (Fin N)) (h : sites.Nodup)
    (f : Fin N → R) :
    ∏ j, f j = (∏ m : Fin sites.length, f (sites.get m)) * ∏ j : {j // ¬ j ∈ sites}, f j := by
  rw [← Fintype.prod_subtype_mul_prod_subtype (fun j => j ∈ sites) f]
  congr 1
  refine Eq.trans ?_ (Fintype.prod_equiv (List.Nodup.getEquiv sites h) (fun m => f (sites.get m))
    (fun j => f j) fun _ => rfl).symm
  congr
  exact Subsingleton.elim _ _

variable [DecidableEq n]

omit [DecidableEq n] in
/-- A product over the sites is a product over the listed sites times a product over the others. -/
theorem siteMat_split (sites : List (Fin N)) (h : sites.Nodup) (F : Fin N → Matrix n n ℂ) :
    (siteMat F).submatrix (splitSites sites h n).symm (splitSites sites h n).symm
      = siteMat (fun m : Fin sites.length => F (sites.get m))
        ⊗ₖ siteMat (fun j : {j // ¬ j ∈ sites} => F j) := by
  ext p q
  simp only [Matrix.submatrix_apply, siteMat, Matrix.of_apply, Matrix.kroneckerMap_apply]
  rw [prod_splitSites sites h]
  simp only [splitSites_symm_get, splitSites_symm_rest]

theorem siteMat_one {V : Type} [Fintype V] [DecidableEq V] :
    siteMat (fun _ : V => (1 : Matrix n n ℂ)) = 1 := by
  ext s t
  simp only [siteMat, Matrix.of_apply, Matrix.one_apply]
  by_cases h : s = t
  · simp [h]
  · obtain ⟨k, hk⟩ := Function.ne_iff.mp h
    rw [if_neg h]
    exact Finset.prod_eq_zero (Finset.mem_univ k) (if_neg hk)

/-- Operators that are trivial outside of the listed sites. -/
theorem siteMat_local (sites : List (Fin N)) (h : sites.Nodup) (F : Fin N → Matrix n n ℂ)
    (hF : ∀ j, j ∉ sites → F j = 1) :
    (siteMat F).submatrix (splitSites sites h n).symm (splitSites sites h n).symm
      = siteMat (fun m : Fin sites.length => F (sites.get m))
        ⊗ₖ (1 : Matrix ({j // ¬ j ∈ sites} → n) ({j // ¬ j ∈ sites} → n) ℂ) := by
  rw [siteMat_split, ← siteMat_one]
  congr 2
  funext j
  exact hF j j.2

omit [DecidableEq n] in
/-- A matrix on the listed sites, the identity on the others. -/
theorem onSites_local {d : ℕ} (sites : List (Fin N)) (h : sites.Nodup)
    (A : List (Fin d) → List (Fin d) → ℂ) :
    (onSites sites A).submatrix (splitSites sites h (Fin d)).symm (splitSites sites h (Fin d)).symm
      = (Matrix.of fun x y : Fin sites.length → Fin d => A (List.ofFn x) (List.ofFn y))
        ⊗ₖ (1 : Matrix ({j // ¬ j ∈ sites} → Fin d) ({j // ¬ j ∈ sites} → Fin d) ℂ) := by
  have hm : ∀ p : (Fin sites.length → Fin d) × ({j // ¬ j ∈ sites} → Fin d),
      sites.map ((splitSites sites h (Fin d)).symm p) = List.ofFn p.1 := by
    intro p
    apply List.ext_getElem
    · simp
    · intro k h1 h2
      have := splitSites_symm_get sites h p ⟨k, by simpa using h1⟩
      simpa using this
  ext p q
  simp only [Matrix.submatrix_apply, onSites, Matrix.of_apply, Matrix.kroneckerMap_apply, hm,
    Matrix.one_apply]
  congr 1
  have : (∀ j, j ∉ sites → (splitSites sites h (Fin d)).symm p j
      = (splitSites sites h (Fin d)).symm q j) ↔ p.2 = q.2 := by
    constructor
    · intro H
      funext j
      have := H j j.2
      rwa [splitSites_symm_rest sites h p j, splitSites_symm_rest sites h q j] at this
    · intro H j hj
      have e1 := splitSites_symm_rest sites h p ⟨j, hj⟩
      have e2 := splitSites_symm_rest sites h q ⟨j, hj⟩
      simp only at e1 e2
      rw [e1, e2, H]
  simp only [this]

end split

section many

variable {N : ℕ} {ι n : Type} [Fintype n]

/-- The probability of an outcome in terms of the state that is left on the listed sites. -/
theorem outcomeProb_split (M : ι → Matrix n n ℂ) (sites : List (Fin N)) (h : sites.Nodup)
    (ρ : Matrix (Fin N → n) (Fin N → n) ℂ) (a : Fin N → ι) :
    outcomeProb (productPovm M) ρ a
      = outcomeProb (productPovm M)
          (reduced (siteMat fun j : {j // ¬ j ∈ sites} => M (a j))
            (ρ.submatrix (splitSites sites h n).symm (splitSites sites h n).symm))
          (fun m : Fin sites.length => a (sites.get m)) := by
  have e : (ρ * productPovm M a).trace
      = ((ρ * productPovm M a).submatrix (splitSites sites h n).symm
          (splitSites sites h n).symm).trace := by
    simp only [Matrix.trace, Matrix.diag_apply, Matrix.submatrix_apply]
    exact ((splitSites sites h n).symm.sum_comp (fun s => (ρ * productPovm M a) s s)).symm
  unfold outcomeProb
  rw [e, ← Matrix.submatrix_mul_equiv _ _ _ (splitSites sites h n).symm]
  unfold productPovm
  rw [siteMat_split, trace_reduced]

/-- `Ω` is the matrix of the superoperator `Λ` on `k` sites, in terms of outcome probabilities. -/
def RepresentsOn (M : Fin 4 → Matrix n n ℂ) (k : ℕ) (Ω : List (Fin 4) → List (Fin 4) → ℝ)
    (Λ : Matrix (Fin k → n) (Fin k → n) ℂ → Matrix (Fin k → n) (Fin k → n) ℂ) : Prop :=
  ∀ ρ (a : Fin k → Fin 4), ∑ b : Fin k → Fin 4, ((Ω (List.ofFn a) (List.ofFn b) : ℝ) : ℂ)
      * outcomeProb (productPovm M) ρ b
    = outcomeProb (productPovm M) (Λ ρ) a

/-- A superoperator on the listed sites of a lattice: `Ω` on these sites represents `Λ'` if `Λ'` acts
as `Λ` on these sites. -/
theorem represents_many (M : Fin 4 → Matrix n n ℂ) (sites : List (Fin N)) (h : sites.Nodup)
    (Ω : List (Fin 4) → List (Fin 4) → ℝ)
    (Λ : Matrix (Fin sites.length → n) (Fin sites.length → n) ℂ
      → Matrix (Fin sites.length → n) (Fin sites.length → n) ℂ)
    (hΩ : RepresentsOn M sites.length Ω Λ)
    (Λ' : Matrix (Fin N → n) (Fin N → n) ℂ → Matrix (Fin N → n) (Fin N → n) ℂ)
    (hΛ : ∀ (R : Matrix ({j // ¬ j ∈ sites} → n) ({j // ¬ j ∈ sites} → n) ℂ) ρ,
      reduced R ((Λ' ρ).submatrix (splitSites sites h n).symm (splitSites sites h n).symm)
        = Λ (reduced R (ρ.submatrix (splitSites sites h n).symm (splitSites sites h n).symm)))
    (ρ : Matrix (Fin N → n) (Fin N → n) ℂ) (s : Fin N → Fin 4) :
    ∑ s', ((onSites sites Ω s s' : ℝ) : ℂ) * outcomeProb (productPovm M) ρ s'
      = outcomeProb (productPovm M) (Λ' ρ) s := by
  rw [outcomeProb_split M sites h (Λ' ρ) s, hΛ, ← hΩ]
  rw [← (splitSites sites h (Fin 4)).symm.sum_comp, Fintype.sum_prod_type]
  refine Finset.sum_congr rfl fun b _ => ?_
  rw [Finset.sum_eq_single (splitSites sites h (Fin 4) s).2]
  · have hmap : sites.map ((splitSites sites h (Fin 4)).symm
        (b, (splitSites sites h (Fin 4) s).2)) = List.ofFn b := by
      apply List.ext_getElem
      · simp
      · intro k h1 h2
        have := splitSites_symm_get sites h (b, (splitSites sites h (Fin 4) s).2)
          ⟨k, by simpa using h1⟩
        simpa using this
    have hmap' : sites.map s = List.ofFn fun m : Fin sites.length => s (sites.get m) := by
      apply List.ext_getElem <;> simp
    have hrest : ∀ j, j ∉ sites → s j = (splitSites sites h (Fin 4)).symm
        (b, (splitSites sites h (Fin 4) s).2) j := by
      intro j hj
      exact (splitSites_symm_rest sites h (b, (splitSites sites h (Fin 4) s).2) ⟨j, hj⟩).symm
    have h1 : onSites sites Ω s ((splitSites sites h (Fin 4)).symm
        (b, (splitSites sites h (Fin 4) s).2))
        = Ω (List.ofFn fun m : Fin sites.length => s (sites.get m)) (List.ofFn b) := by
      simp only [onSites, Matrix.of_apply, hmap, hmap', if_pos hrest, mul_one]
    have h2 : (fun j : {j // ¬ j ∈ sites} => M ((splitSites sites h (Fin 4)).symm
        (b, (splitSites sites h (Fin 4) s).2) j)) = fun j : {j // ¬ j ∈ sites} => M (s j) := by
      funext j
      rw [← hrest j j.2]
    have h3 : (fun m : Fin sites.length => (splitSites sites h (Fin 4)).symm
        (b, (splitSites sites h (Fin 4) s).2) (sites.get m)) = b := by
      funext m
      exact splitSites_symm_get sites h _ m
    rw [outcomeProb_split M sites h ρ, h1, h2, h3]
  · intro u _ hu
    have : ¬ ∀ j, j ∉ sites → s j = (splitSites sites h (Fin 4)).symm (b, u) j := by
      intro H
      apply hu
      funext j
      rw [splitSites_snd, H j j.2, splitSites_symm_rest sites h (b, u) j]
    simp only [onSites, Matrix.of_apply, if_neg this, mul_zero, Complex.ofReal_zero, zero_mul]
  · intro H
    exact absurd (Finset.mem_univ _) H

section generators

variable {m : Type} [Fintype m]

theorem submatrix_vonNeumann (e : m ≃ n) (H ρ : Matrix n n ℂ) :
    (vonNeumann H ρ).submatrix e e = vonNeumann (H.submatrix e e) (ρ.submatrix e e) := by
  unfold vonNeumann
  rw [Matrix.submatrix_mul_equiv, Matrix.submatrix_mul_equiv]
  rfl

theorem submatrix_imaginaryTime (e : m ≃ n) (H ρ : Matrix n n ℂ) :
    (imaginaryTime H ρ).submatrix e e = imaginaryTime (H.submatrix e e) (ρ.submatrix e e) := by
  unfold imaginaryTime
  rw [Matrix.submatrix_mul_equiv, Matrix.submatrix_mul_equiv]
  rfl

theorem submatrix_lindblad (e : m ≃ n) (L ρ : Matrix n n ℂ) :
    (lindblad L ρ).submatrix e e = lindblad (L.submatrix e e) (ρ.submatrix e e) := by
  unfold lindblad
  rw [Matrix.conjTranspose_submatrix]
  simp only [Matrix.submatrix_mul_equiv]
  rfl

end generators

/-- Renaming basis states and outcomes does not change probabilities. -/
theorem outcomeProb_rename {κ m : Type} [Fintype m] (e : m ≃ n) (f : κ → ι)
    (M : ι → Matrix n n ℂ) (M' : κ → Matrix m m ℂ) (hM : ∀ a, M' a = (M (f a)).submatrix e e)
    (ρ : Matrix m m ℂ) (a : κ) :
    outcomeProb M' ρ a = outcomeProb M (ρ.submatrix e.symm e.symm) (f a) := by
  unfold outcomeProb
  have : (ρ * M' a).trace = ((ρ * M' a).submatrix e.symm e.symm).trace := by
    simp only [Matrix.trace, Matrix.diag_apply, Matrix.submatrix_apply]
    exact (e.symm.sum_comp (fun s => (ρ * M' a) s s)).symm
  rw [this, ← Matrix.submatrix_mul_equiv _ _ _ e.symm, hM, Matrix.submatrix_submatrix]
  simp

end many

end JVMC
