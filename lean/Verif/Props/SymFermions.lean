import Verif.Props.SymMeasure
import Verif.Props.Fermions

/-!
# Symmetrised networks and fermionic operators (C111)

The signs of the fermionic operators refer to an order of the sites, which translations of a ring do not respect. The
theorems of C111 are about operators without fermionic factors; here is why.
-/

namespace JVMC

open Spec Matrix

/-- A network on three sites that is symmetrised with translations, reflections and spin flips; the inner network is
constant. -/
noncomputable def flatState (s : Config 3 2) : ℂ :=
  let sym := getOrbit1D 3 true true true 1 1 1
  symNet avgLog (fun _ => 0) sym.orbit sym.factor (spins s)

theorem flatState_eq (s : Config 3 2) : flatState s = 0 := by
  unfold flatState symNet avgLog
  have h : ∀ l : List (Fin 3 → ℤ), (l.map fun _ => (0 : ℂ)).sum = 0 := by
    intro l
    induction l with
    | nil => rfl
    | cons a l ih => rw [List.map_cons, List.sum_cons, ih, add_zero]
  dsimp only
  rw [h, zero_div]

/-- Hopping between two sites. -/
def hopTerms (i j : Fin 3) : List (ℂ × List (Letter 3)) :=
  [(1, [.create i, .annihilate j]), (1, [.create j, .annihilate i])]

theorem hop_neighbours : (Spec.expect (fermionOperator (hopTerms 0 1)) fun _ : Config 3 2 => Complex.exp 0).re = 1 / 2 := by
  unfold Spec.expect fermionOperator hopTerms
  simp only [List.map_cons, List.map_nil, List.sum_cons, List.sum_nil, List.prod_cons, List.prod_nil, mul_one, add_zero,
    one_smul, Letter.matrix, Complex.exp_zero, add_mulVec, ← mulVec_mulVec, Pi.add_apply, creator_mulVec,
    annihilator_mulVec]
  rw [← (Fin.consEquiv fun _ : Fin 3 => Fin 2).sum_comp, Fintype.sum_prod_type]
  simp only [← (finTwoArrowEquiv (Fin 2)).symm.sum_comp]
  simp [Fintype.sum_prod_type, particlesBefore, Fin.sum_univ_succ, finTwoArrowEquiv, norm2, Fin.consEquiv]
  norm_num

theorem hop_ring : (Spec.expect (fermionOperator (hopTerms 2 0)) fun _ : Config 3 2 => Complex.exp 0).re = 0 := by
  unfold Spec.expect fermionOperator hopTerms
  simp only [List.map_cons, List.map_nil, List.sum_cons, List.sum_nil, List.prod_cons, List.prod_nil, mul_one, add_zero,
    one_smul, Letter.matrix, Complex.exp_zero, add_mulVec, ← mulVec_mulVec, Pi.add_apply, creator_mulVec,
    annihilator_mulVec]
  rw [← (Fin.consEquiv fun _ : Fin 3 => Fin 2).sum_comp, Fintype.sum_prod_type]
  simp only [← (finTwoArrowEquiv (Fin 2)).symm.sum_comp]
  simp [Fintype.sum_prod_type, particlesBefore, Fin.sum_univ_succ, finTwoArrowEquiv, norm2, Fin.consEquiv]

/-- C111 does not extend to fermionic operators: a translation invariant network on a ring of three sites, on two ranks with
the exact sampler. The hopping between the sites 0 and 1 is measured as 1/2, the hopping between the sites 2 and 0,
which is the same operator translated by two sites, as 0. -/
theorem c111_fermionic_violated (b : ℤ) : (∀ k, SymmetricUnder (Equiv.addRight k) false flatState) ∧
    ∃ ln' w res res', exactSampleWorld 2 3 1 2 (toConfig 3 2) (1 / 2) 0 flatState = .ok (ln', w) ∧
      measureOp (branchFreeKernel [[opCreation 0, opAnnihilation 1], [opCreation 1, opAnnihilation 0]] [1, 1])
        ⟨flatState, true⟩ ![0, 0, 0] b none w = .ok res ∧
      measureOp (branchFreeKernel [[opCreation 2, opAnnihilation 0], [opCreation 0, opAnnihilation 2]] [1, 1])
        ⟨flatState, true⟩ ![0, 0, 0] b none w = .ok res' ∧
      res.length = 2 ∧ res'.length = 2 ∧ (∀ r ∈ res, r.mean = 1 / 2) ∧ ∀ r ∈ res', r.mean = 0 := by
  refine ⟨fun k => ⟨1, fun s => by rw [flatState_eq, flatState_eq, one_mul]⟩, ?_⟩
  have key : ∀ i j : Fin 3, _ := fun i j => c117_measured_partial (hopTerms i j)
    (by simp [Conserving, hopTerms, Letter.charge]) 1 (by norm_num)
    (by
      intro t ht
      refine ⟨1, ?_⟩
      simp only [hopTerms, List.mem_cons, List.not_mem_nil, or_false] at ht
      rcases ht with rfl | rfl <;> simp)
    1 2 (by norm_num) (by norm_num) (by norm_num) (fun _ _ n _ _ => one_dvd n) 0 flatState ![0, 0, 0] b
  obtain ⟨ln', w, res, h1, h2, h3, h4⟩ := key 0 1
  obtain ⟨ln'', w', res', h1', h2', h3', h4'⟩ := key 2 0
  obtain ⟨rfl, rfl⟩ := Prod.mk.inj (Except.ok.inj (h1.symm.trans h1'))
  have he : (fun s => Complex.exp (flatState s)) = fun _ : Config 3 2 => Complex.exp 0 := by
    funext s
    rw [flatState_eq]
  rw [he] at h4 h4'
  exact ⟨ln', w, res, res', h1, h2, h2', h3, h3', fun r hr => (h4 r hr).trans hop_neighbours,
    fun r hr => (h4' r hr).trans hop_ring⟩

end JVMC
