import Mathlib.LinearAlgebra.Matrix.Determinant.Basic
import Mathlib.Tactic.FinCases
import Verif.Lemmas.Symmetries

/-!
# Properties of lattice symmetries (C56)
-/

namespace JVMC

open Spec Matrix

/-- C56: `get_orbit_1D` returns the group generated by the requested symmetries, whatever the factors. -/
theorem c56_1d (L : ℕ) (hL : 0 < L) (translation reflection spinflip : Bool) (tf rf sf : ℂ) :
    IsGroupList (gens1D L translation reflection spinflip)
      (getOrbit1D L translation reflection spinflip tf rf sf).orbit := by
  have : NeZero L := ⟨hL.ne'⟩
  exact group1D L translation reflection spinflip tf rf sf

/-- C56: the same for `get_orbit_2D_square`. -/
theorem c56_2d (L : ℕ) (hL : 0 < L) (translation reflection rotation spinflip : Bool) (tf rf qf sf : ℂ) :
    IsGroupList (gens2D L translation reflection rotation spinflip)
      (getOrbit2D L translation reflection rotation spinflip tf rf qf sf).orbit := by
  have : NeZero L := ⟨hL.ne'⟩
  exact group2D L translation reflection rotation spinflip tf rf qf sf

example := c56_2d 3 (by norm_num) true true true true 1 (-1) 1 1

/-- C56: there is one factor per element. -/
theorem c56_factor_length (L : ℕ) (translation reflection rotation spinflip : Bool) (tf rf qf sf : ℂ) :
    (getOrbit1D L translation reflection spinflip tf rf sf).factor.length =
      (getOrbit1D L translation reflection spinflip tf rf sf).orbit.length ∧
    (getOrbit2D L translation reflection rotation spinflip tf rf qf sf).factor.length =
      (getOrbit2D L translation reflection rotation spinflip tf rf qf sf).orbit.length := by
  constructor <;> simp [getOrbit1D, getOrbit2D, uniqueOrbit]

/-- C56: the elements are sorted by their entries. -/
theorem c56_order (L : ℕ) (translation reflection rotation spinflip : Bool) (tf rf qf sf : ℂ) :
    (getOrbit1D L translation reflection spinflip tf rf sf).orbit.Pairwise RowLex ∧
    (getOrbit2D L translation reflection rotation spinflip tf rf qf sf).orbit.Pairwise RowLex :=
  ⟨uniqueOrbit_sorted _, uniqueOrbit_sorted _⟩

/-- C56: the array depends only on the group: two requests that generate the same group get the same array, in the
same order. -/
theorem c56_same_group {n : ℕ} {gens gens' : Set (Matrix (Fin n) (Fin n) ℤ)} {os os' : List (Matrix (Fin n) (Fin n) ℤ)}
    (h : IsGroupList gens os) (h' : IsGroupList gens' os') (ho : os.Pairwise RowLex) (ho' : os'.Pairwise RowLex)
    (hsame : Submonoid.closure gens = Submonoid.closure gens') : os = os' := by
  have hp : os.Perm os' := by
    rw [List.perm_ext_iff_of_nodup h.nodup h'.nodup]
    intro M
    rw [h.generated, h'.generated, hsame]
  refine hp.eq_of_pairwise ?_ ho ho'
  intro M N _ _ h1 h2
  rw [← rowLE_iff] at h1 h2
  simp only [rowLE, decide_eq_true_iff] at h1 h2
  exact matRow_injective (le_antisymm h1 h2)

/-- C56: if the given factors belong to a one-dimensional representation of the group, then each element comes
with its value in that representation. -/
theorem c56_factor_1d (L : ℕ) (hL : 0 < L) (translation reflection spinflip : Bool) (tf rf sf : ℂ)
    (χ : Matrix (Fin L) (Fin L) ℤ → ℂ) (hχ : IsCharacter (gens1D L translation reflection spinflip) χ)
    (ht : translation = true → ∀ M, IsShift1D M → χ M = tf)
    (hr : reflection = true → ∀ M, IsReflection1D M → χ M = rf)
    (hs : spinflip = true → ∀ M, IsSpinflip M → χ M = sf) :
    (getOrbit1D L translation reflection spinflip tf rf sf).factor =
      (getOrbit1D L translation reflection spinflip tf rf sf).orbit.map χ := by
  have : NeZero L := ⟨hL.ne'⟩
  exact factor1D L translation reflection spinflip tf rf sf χ hχ ht hr hs

/-- C56: the same for the square lattice. -/
theorem c56_factor_2d (L : ℕ) (hL : 0 < L) (translation reflection rotation spinflip : Bool) (tf rf qf sf : ℂ)
    (χ : Matrix (Fin (L * L)) (Fin (L * L)) ℤ → ℂ)
    (hχ : IsCharacter (gens2D L translation reflection rotation spinflip) χ)
    (ht : translation = true → ∀ M, IsShiftRows M ∨ IsShiftCols M → χ M = tf)
    (hr : reflection = true → ∀ M, IsFlipRows M ∨ IsFlipCols M → χ M = rf)
    (hq : rotation = true → ∀ M, IsRotation M → χ M = qf)
    (hs : spinflip = true → ∀ M, IsSpinflip M → χ M = sf) :
    (getOrbit2D L translation reflection rotation spinflip tf rf qf sf).factor =
      (getOrbit2D L translation reflection rotation spinflip tf rf qf sf).orbit.map χ := by
  have : NeZero L := ⟨hL.ne'⟩
  exact factor2D L translation reflection rotation spinflip tf rf qf sf χ hχ ht hr hq hs

/-! ## The hypotheses are met -/

/-- The determinant is a character. -/
theorem det_character {n : ℕ} (gens : Set (Matrix (Fin n) (Fin n) ℤ)) : IsCharacter gens fun M => ((M.det : ℤ) : ℂ) :=
  ⟨by simp, fun M _ N _ => by simp [Matrix.det_mul]⟩

/-- Momentum π and odd parity on a chain of two sites. -/
example : (getOrbit1D 2 true true true (-1) (-1) 1).factor =
    (getOrbit1D 2 true true true (-1) (-1) 1).orbit.map fun M => ((M.det : ℤ) : ℂ) := by
  apply c56_factor_1d 2 (by norm_num) _ _ _ _ _ _ _ (det_character _)
  · intro _ M hM
    rw [(isShift1D_iff M).mp hM]
    norm_cast
  · intro _ M hM
    rw [(isReflection1D_iff M).mp hM]
    norm_cast
  · intro _ M hM
    rw [(spinflip_iff M).mp hM]
    norm_cast

/-- The group of a chain of three sites has a translation, its square, a reflection and a spin flip. -/
example : mapMatrix (shiftMap (1 : Fin 3)) ∈ (getOrbit1D 3 true true true 1 1 1).orbit ∧
    -mapMatrix (shiftMap (2 : Fin 3)) ∈ (getOrbit1D 3 true true true 1 1 1).orbit ∧
    mapMatrix (shiftMap (1 : Fin 3)) ∉ (getOrbit1D 3 false true true 1 1 1).orbit := by
  have h := c56_1d 3 (by norm_num) true true true 1 1 1
  have h1 : mapMatrix (shiftMap (1 : Fin 3)) ∈ (getOrbit1D 3 true true true 1 1 1).orbit :=
    (h.generated _).mpr (Submonoid.subset_closure (.inl ⟨rfl, (isShift1D_iff _).mpr rfl⟩))
  have h2 : (-1 : Matrix (Fin 3) (Fin 3) ℤ) ∈ (getOrbit1D 3 true true true 1 1 1).orbit :=
    (h.generated _).mpr (Submonoid.subset_closure (.inr (.inr ⟨rfl, (spinflip_iff _).mpr rfl⟩)))
  refine ⟨h1, ?_, ?_⟩
  · have := h.mul _ h2 _ (h.mul _ h1 _ h1)
    rwa [neg_mul, one_mul, mapMatrix_mul, shift_comp] at this
  · unfold getOrbit1D
    rw [unique_mem]
    rintro ⟨o, ho, e⟩
    simp only [withSpinflip, if_true, orbitsFromMaps1D, translations1D, reflections1D, Bool.false_eq_true, if_false,
      List.flatMap_cons, List.flatMap_nil, List.map_cons, List.map_nil, List.append_nil, List.mem_append,
      List.mem_cons, List.not_mem_nil, or_false, mapMatrix_mul] at ho
    rcases ho with (rfl | rfl) | (rfl | rfl) <;> revert e <;> decide

/-- A rotation of the square lattice of side two is odd under the determinant. -/
example : (getOrbit2D 2 true true true true 1 1 (-1) 1).factor =
    (getOrbit2D 2 true true true true 1 1 (-1) 1).orbit.map fun M => ((M.det : ℤ) : ℂ) := by
  apply c56_factor_2d 2 (by norm_num) _ _ _ _ _ _ _ _ _ (det_character _)
  · intro _ M hM
    rcases hM with hM | hM
    · rw [(isShiftRows_iff M).mp hM]
      norm_cast
    · rw [(isShiftCols_iff M).mp hM]
      norm_cast
  · intro _ M hM
    rcases hM with hM | hM
    · rw [(isFlipRows_iff M).mp hM]
      norm_cast
    · rw [(isFlipCols_iff M).mp hM]
      norm_cast
  · intro _ M hM
    rw [(isRotation_iff M).mp hM]
    norm_cast
  · intro _ M hM
    rw [(spinflip_iff M).mp hM]
    norm_cast

/-- For two sites the reflection is the translation. -/
example : (getOrbit1D 2 true true true 1 1 1).orbit = (getOrbit1D 2 true false true 1 1 1).orbit := by
  refine c56_same_group (c56_1d 2 (by norm_num) _ _ _ _ _ _) (c56_1d 2 (by norm_num) _ _ _ _ _ _)
    (c56_order 2 true true true true 1 1 1 1).1 (c56_order 2 true false true true 1 1 1 1).1 ?_
  congr 1
  ext M
  have h : (shiftMap 1 : Fin 2 → Fin 2) = Fin.rev := by decide
  simp only [gens1D, Set.mem_ofPred_eq, isShift1D_iff, isReflection1D_iff, h, true_and, Bool.false_eq_true, false_and,
    false_or]
  tauto

end JVMC
