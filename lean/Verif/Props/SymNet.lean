import Mathlib.LinearAlgebra.Matrix.Determinant.Basic
import Verif.Lemmas.SymNet

/-!
# Properties of symmetrised networks (C57)
-/

namespace JVMC

open Spec Matrix

/-! ## Trivial symmetry factors -/

/-- C57 on chains: the output is the same for a configuration and each image of it, for complex networks with the
default averaging. -/
theorem c57_invariant_1d (L : ℕ) (hL : 0 < L) (translation reflection spinflip : Bool) (net : (Fin L → ℤ) → ℂ)
    (h : Matrix (Fin L) (Fin L) ℤ) (hh : h ∈ Submonoid.closure (gens1D L translation reflection spinflip))
    (s s' : Fin L → ℤ) (hs : IsImage h s s') :
    let sym := getOrbit1D L translation reflection spinflip 1 1 1
    symNet avgExp net sym.orbit sym.factor s' = symNet avgExp net sym.orbit sym.factor s := by
  have : NeZero L := ⟨hL.ne'⟩
  dsimp only
  rw [factor1D L translation reflection spinflip 1 1 1 (fun _ => 1) (trivial_character _) (fun _ _ _ => rfl)
    (fun _ _ _ => rfl) (fun _ _ _ => rfl)]
  exact symNet_trivial (group1D L translation reflection spinflip 1 1 1) net hh hs

/-- C57 on square lattices. -/
theorem c57_invariant_2d (L : ℕ) (hL : 0 < L) (translation reflection rotation spinflip : Bool)
    (net : (Fin (L * L) → ℤ) → ℂ) (h : Matrix (Fin (L * L)) (Fin (L * L)) ℤ)
    (hh : h ∈ Submonoid.closure (gens2D L translation reflection rotation spinflip))
    (s s' : Fin (L * L) → ℤ) (hs : IsImage h s s') :
    let sym := getOrbit2D L translation reflection rotation spinflip 1 1 1 1
    symNet avgExp net sym.orbit sym.factor s' = symNet avgExp net sym.orbit sym.factor s := by
  have : NeZero L := ⟨hL.ne'⟩
  dsimp only
  rw [factor2D L translation reflection rotation spinflip 1 1 1 1 (fun _ => 1) (trivial_character _)
    (fun _ _ _ => rfl) (fun _ _ _ => rfl) (fun _ _ _ => rfl) (fun _ _ _ => rfl)]
  exact symNet_trivial (group2D L translation reflection rotation spinflip 1 1 1 1) net hh hs

theorem real_invariant {n : ℕ} {gens : Set (Matrix (Fin n) (Fin n) ℤ)} {os : List (Matrix (Fin n) (Fin n) ℤ)}
    (hg : IsGroupList gens os) (net : (Fin n → ℤ) → ℝ) {h : Matrix (Fin n) (Fin n) ℤ}
    (hh : h ∈ Submonoid.closure gens) {s s' : Fin n → ℤ} (hs : IsImage h s s') :
    symNet avgExpReal net os (os.map fun _ => (1 : ℝ)) s' = symNet avgExpReal net os (os.map fun _ => (1 : ℝ)) s := by
  unfold symNet
  rw [avgExpReal_eq, avgExpReal_eq]
  have h1 : ∀ x, ((symImages os x).map net).zip (os.map fun _ => (1 : ℝ)) = (symImages os x).map fun y => (net y, 1) := by
    intro x
    rw [symImages_eq, List.map_map, zip_map_map, List.map_map]
    rfl
  rw [h1, h1, (((symImages_perm hg ((hg.generated h).mpr hh) hs).map _).map _).sum_eq]

/-- C57 for networks that return real numbers; the factors are then real, too. -/
theorem c57_invariant_real (L : ℕ) (hL : 0 < L) (translation reflection rotation spinflip : Bool) :
    (∀ (net : (Fin L → ℤ) → ℝ) (h : Matrix (Fin L) (Fin L) ℤ),
      h ∈ Submonoid.closure (gens1D L translation reflection spinflip) → ∀ s s', IsImage h s s' →
      let sym := getOrbit1D L translation reflection spinflip 1 1 1
      symNet avgExpReal net sym.orbit (sym.factor.map Complex.re) s' =
        symNet avgExpReal net sym.orbit (sym.factor.map Complex.re) s) ∧
    (∀ (net : (Fin (L * L) → ℤ) → ℝ) (h : Matrix (Fin (L * L)) (Fin (L * L)) ℤ),
      h ∈ Submonoid.closure (gens2D L translation reflection rotation spinflip) → ∀ s s', IsImage h s s' →
      let sym := getOrbit2D L translation reflection rotation spinflip 1 1 1 1
      symNet avgExpReal net sym.orbit (sym.factor.map Complex.re) s' =
        symNet avgExpReal net sym.orbit (sym.factor.map Complex.re) s) := by
  have : NeZero L := ⟨hL.ne'⟩
  constructor
  · intro net h hh s s' hs
    dsimp only
    rw [factor1D L translation reflection spinflip 1 1 1 (fun _ => 1) (trivial_character _) (fun _ _ _ => rfl)
      (fun _ _ _ => rfl) (fun _ _ _ => rfl), List.map_map]
    exact real_invariant (group1D L translation reflection spinflip 1 1 1) net hh hs
  · intro net h hh s s' hs
    dsimp only
    rw [factor2D L translation reflection rotation spinflip 1 1 1 1 (fun _ => 1) (trivial_character _)
      (fun _ _ _ => rfl) (fun _ _ _ => rfl) (fun _ _ _ => rfl) (fun _ _ _ => rfl), List.map_map]
    exact real_invariant (group2D L translation reflection rotation spinflip 1 1 1 1) net hh hs

example (net : (Fin 3 → ℤ) → ℝ) := (c57_invariant_real 3 (by norm_num) true true true true).1 net (mapMatrix (shiftMap 1))
  (Submonoid.subset_closure (.inl ⟨rfl, (isShift1D_iff _).mpr rfl⟩)) ![0, 1, 1] ![1, 0, 1] (by unfold IsImage; decide)

/-- C57: the other averaging functions are invariant, too (with any factors: they do not use them). -/
theorem c57_invariant_other (L : ℕ) (hL : 0 < L) (translation reflection rotation spinflip : Bool)
    (tf rf qf sf : ℂ) :
    (∀ (net : (Fin L → ℤ) → ℂ) (h : Matrix (Fin L) (Fin L) ℤ),
      h ∈ Submonoid.closure (gens1D L translation reflection spinflip) → ∀ s s', IsImage h s s' →
      let sym := getOrbit1D L translation reflection spinflip tf rf sf
      symNet avgLog net sym.orbit sym.factor s' = symNet avgLog net sym.orbit sym.factor s ∧
      symNet avgSep net sym.orbit sym.factor s' = symNet avgSep net sym.orbit sym.factor s) ∧
    (∀ (net : (Fin (L * L) → ℤ) → ℂ) (h : Matrix (Fin (L * L)) (Fin (L * L)) ℤ),
      h ∈ Submonoid.closure (gens2D L translation reflection rotation spinflip) → ∀ s s', IsImage h s s' →
      let sym := getOrbit2D L translation reflection rotation spinflip tf rf qf sf
      symNet avgLog net sym.orbit sym.factor s' = symNet avgLog net sym.orbit sym.factor s ∧
      symNet avgSep net sym.orbit sym.factor s' = symNet avgSep net sym.orbit sym.factor s) := by
  have : NeZero L := ⟨hL.ne'⟩
  constructor
  · intro net h hh s s' hs
    have hg := group1D L translation reflection spinflip tf rf sf
    have hp := (symImages_perm hg ((hg.generated h).mpr hh) hs).map net
    exact ⟨avgLog_perm hp, avgSep_perm hp⟩
  · intro net h hh s s' hs
    have hg := group2D L translation reflection rotation spinflip tf rf qf sf
    have hp := (symImages_perm hg ((hg.generated h).mpr hh) hs).map net
    exact ⟨avgLog_perm hp, avgSep_perm hp⟩

example (net : (Fin 3 → ℤ) → ℂ) := (c57_invariant_other 3 (by norm_num) true true true true 1 (-1) 1 1).1 net
  (mapMatrix (shiftMap 1)) (Submonoid.subset_closure (.inl ⟨rfl, (isShift1D_iff _).mpr rfl⟩)) ![0, 1, 1] ![1, 0, 1]
  (by unfold IsImage; decide)

/-! ## Non-trivial symmetry factors -/

/-- C57 on chains: if the factors belong to a one-dimensional representation `χ`, the amplitude of the image
under `h` is `χ(h)⁻¹` times the amplitude, for networks with complex output. Missing: networks with real output,
for which the claim is false (`c57_real_violated`). -/
theorem c57_character_1d_partial (L : ℕ) (hL : 0 < L) (translation reflection spinflip : Bool) (tf rf sf : ℂ)
    (χ : Matrix (Fin L) (Fin L) ℤ → ℂ) (hχ : IsCharacter (gens1D L translation reflection spinflip) χ)
    (ht : translation = true → ∀ M, IsShift1D M → χ M = tf)
    (hr : reflection = true → ∀ M, IsReflection1D M → χ M = rf)
    (hsf : spinflip = true → ∀ M, IsSpinflip M → χ M = sf) (net : (Fin L → ℤ) → ℂ)
    (h : Matrix (Fin L) (Fin L) ℤ) (hh : h ∈ Submonoid.closure (gens1D L translation reflection spinflip))
    (s s' : Fin L → ℤ) (hs : IsImage h s s') :
    let sym := getOrbit1D L translation reflection spinflip tf rf sf
    χ h * (symNet avgExp net sym.orbit sym.factor s').amp = (symNet avgExp net sym.orbit sym.factor s).amp := by
  have : NeZero L := ⟨hL.ne'⟩
  dsimp only
  rw [factor1D L translation reflection spinflip tf rf sf χ hχ ht hr hsf]
  exact symNet_character (group1D L translation reflection spinflip tf rf sf) hχ net hh hs

/-- C57 on square lattices; missing as before. -/
theorem c57_character_2d_partial (L : ℕ) (hL : 0 < L) (translation reflection rotation spinflip : Bool)
    (tf rf qf sf : ℂ) (χ : Matrix (Fin (L * L)) (Fin (L * L)) ℤ → ℂ)
    (hχ : IsCharacter (gens2D L translation reflection rotation spinflip) χ)
    (ht : translation = true → ∀ M, IsShiftRows M ∨ IsShiftCols M → χ M = tf)
    (hr : reflection = true → ∀ M, IsFlipRows M ∨ IsFlipCols M → χ M = rf)
    (hq : rotation = true → ∀ M, IsRotation M → χ M = qf)
    (hsf : spinflip = true → ∀ M, IsSpinflip M → χ M = sf) (net : (Fin (L * L) → ℤ) → ℂ)
    (h : Matrix (Fin (L * L)) (Fin (L * L)) ℤ)
    (hh : h ∈ Submonoid.closure (gens2D L translation reflection rotation spinflip))
    (s s' : Fin (L * L) → ℤ) (hs : IsImage h s s') :
    let sym := getOrbit2D L translation reflection rotation spinflip tf rf qf sf
    χ h * (symNet avgExp net sym.orbit sym.factor s').amp = (symNet avgExp net sym.orbit sym.factor s).amp := by
  have : NeZero L := ⟨hL.ne'⟩
  dsimp only
  rw [factor2D L translation reflection rotation spinflip tf rf qf sf χ hχ ht hr hq hsf]
  exact symNet_character (group2D L translation reflection rotation spinflip tf rf qf sf) hχ net hh hs

/-- The amplitude is the sum of the amplitudes of all images, weighted with the factors. The documented
prefactor `1/|S|` is missing. -/
theorem c57_sum (n : ℕ) (gens : Set (Matrix (Fin n) (Fin n) ℤ)) (orbit : List (Matrix (Fin n) (Fin n) ℤ))
    (hg : IsGroupList gens orbit) (factor : List ℂ) (net : (Fin n → ℤ) → ℂ)
    (s : Fin n → ℤ) :
    ∃ images : List (Fin n → ℤ), List.Forall₂ (fun g s' => IsImage g s s') orbit images ∧
      (symNet avgExp net orbit factor s).amp =
        (List.zipWith (fun f s' => f * Complex.exp (net s')) factor images).sum := by
  refine ⟨symImages orbit s, ?_, ?_⟩
  · rw [symImages_eq, List.forall₂_map_right_iff, List.forall₂_same]
    intro g hgm
    exact imageOf_isImage (hg.signed g hgm) s
  · unfold symNet
    rw [avgExp_amp]
    congr 1
    rw [List.zipWith_comm, ← List.map_uncurry_zip_eq_zipWith, List.zip_map_left, List.map_map]
    rfl

example (net : (Fin 3 → ℤ) → ℂ) := c57_sum 3 _ _ (group1D 3 true true true 1 1 1)
  (getOrbit1D 3 true true true 1 1 1).factor net ![0, 1, 1]

/-! ## The claims that fail -/

/-- C57: however large the logarithmic amplitudes are, the numbers that are exponentiated and summed are at most one
in modulus, and one of them has modulus one: the sum neither overflows nor loses all its terms. -/
theorem c57_no_overflow (t : List (ℂ × ℂ)) (ht : ∃ x ∈ t, x.2 ≠ 0) :
    (∀ x ∈ t, x.2 ≠ 0 → ‖Complex.exp (x.1 - lseMax t)‖ ≤ 1) ∧
      ∃ x ∈ t, x.2 ≠ 0 ∧ ‖Complex.exp (x.1 - lseMax t)‖ = 1 := by
  set l := ((t.filter fun x => x.2 ≠ 0).map fun x => x.1.re) with hl
  have hmem : ∀ a, a ∈ l ↔ ∃ x ∈ t, x.2 ≠ 0 ∧ x.1.re = a := fun a => by
    simp only [hl, List.mem_map, List.mem_filter, decide_eq_true_eq, and_assoc]
  obtain ⟨x₀, hx₀, hx₀'⟩ := ht
  cases hm : l.max? with
  | none =>
    rw [List.max?_eq_none_iff] at hm
    have := (hmem x₀.1.re).mpr ⟨x₀, hx₀, hx₀', rfl⟩
    rw [hm] at this
    exact absurd this List.not_mem_nil
  | some a =>
    have ha : lseMax t = a := by
      change l.max?.getD 0 = a
      rw [hm]
      rfl
    rw [List.max?_eq_some_iff] at hm
    rw [ha]
    have hre : ∀ x : ℂ × ℂ, ‖Complex.exp (x.1 - (a : ℂ))‖ = Real.exp (x.1.re - a) := fun x => by
      rw [Complex.norm_exp]
      simp
    refine ⟨fun x hx hx' => ?_, ?_⟩
    · rw [hre, Real.exp_le_one_iff, sub_nonpos]
      exact hm.2 _ ((hmem _).mpr ⟨x, hx, hx', rfl⟩)
    · obtain ⟨x, hx, hx', hxa⟩ := (hmem a).mp hm.1
      exact ⟨x, hx, hx', by rw [hre, hxa, sub_self, Real.exp_zero]⟩

/-- Case: amplitudes far beyond the range of floating point numbers. -/
example : ‖Complex.exp ((1000 : ℂ) - lseMax [(1000, 1), (5000, 0), (-3000, -1)])‖ ≤ 1 :=
  (c57_no_overflow [(1000, 1), (5000, 0), (-3000, -1)] ⟨(1000, 1), by simp, one_ne_zero⟩).1 (1000, 1) (by simp)
    one_ne_zero


/-- The reflection of a chain of two sites. -/
theorem orbit_two (rf : ℂ) :
    (getOrbit1D 2 false true false 1 rf 1).orbit.Perm [1, mapMatrix Fin.rev] := by
  have hne : (1 : Matrix (Fin 2) (Fin 2) ℤ) ≠ mapMatrix Fin.rev := by decide
  rw [List.perm_ext_iff_of_nodup (group1D 2 false true false 1 rf 1).nodup (by simp [hne])]
  intro M
  unfold getOrbit1D
  rw [unique_mem]
  simp only [withSpinflip, Bool.false_eq_true, if_false, orbitsFromMaps1D, translations1D, reflections1D, if_true,
    List.flatMap_cons, List.flatMap_nil, List.map_cons, List.map_nil, List.append_nil, List.mem_cons,
    List.not_mem_nil, or_false, exists_eq_or_imp, exists_eq_left, mapMatrix_mul]
  have h1 : mapMatrix (index1D 2 ∘ index1D 2) = 1 := mapMatrix_id
  have h2 : mapMatrix ((fun i : Fin 2 => index1D 2 i.rev) ∘ index1D 2) = mapMatrix Fin.rev := rfl
  rw [h1, h2, eq_comm (b := M), eq_comm (b := M)]

/-- Odd parity. -/
theorem factor_two : (getOrbit1D 2 false true false 1 (-1) 1).factor =
    (getOrbit1D 2 false true false 1 (-1) 1).orbit.map fun M => ((M.det : ℤ) : ℂ) := by
  refine factor1D 2 _ _ _ _ _ _ _ ⟨by simp, fun M _ N _ => by simp [Matrix.det_mul]⟩ (fun h => by cases h) ?_
    (fun h => by cases h)
  intro _ M hM
  rw [(isReflection1D_iff M).mp hM]
  norm_cast

theorem image_two : IsImage (mapMatrix (Fin.rev (n := 2))) ![0, 1] ![1, 0] := by
  unfold IsImage
  decide

theorem imageOf_two : imageOf (mapMatrix (Fin.rev (n := 2))) ![0, 1] = ![1, 0] ∧
    imageOf (1 : Matrix (Fin 2) (Fin 2) ℤ) ![0, 1] = ![0, 1] ∧
    imageOf (mapMatrix (Fin.rev (n := 2))) ![1, 0] = ![0, 1] ∧
    imageOf (1 : Matrix (Fin 2) (Fin 2) ℤ) ![1, 0] = ![1, 0] := by decide

/-- With real output, odd parity gives NaN for a configuration whose reflected image has a finite logarithm: the
amplitude does not transform with the character. -/
theorem c57_real_violated : ∃ net : (Fin 2 → ℤ) → ℝ,
    let sym := getOrbit1D 2 false true false 1 (-1) 1
    IsImage (mapMatrix (Fin.rev (n := 2))) ![0, 1] ![1, 0] ∧
    symNet avgExpReal net sym.orbit (sym.factor.map Complex.re) ![0, 1] = .nan ∧
    ∃ x, symNet avgExpReal net sym.orbit (sym.factor.map Complex.re) ![1, 0] = .fin x := by
  refine ⟨fun s => (s 0 : ℝ), image_two, ?_⟩
  have hS : ∀ s : Fin 2 → ℤ,
      ((((symImages (getOrbit1D 2 false true false 1 (-1) 1).orbit s).map fun s => (s 0 : ℝ)).zip
        ((getOrbit1D 2 false true false 1 (-1) 1).factor.map Complex.re)).map fun x => x.2 * Real.exp x.1).sum =
      Real.exp (imageOf (1 : Matrix (Fin 2) (Fin 2) ℤ) s 0) - Real.exp (imageOf (mapMatrix (Fin.rev (n := 2))) s 0) := by
    intro s
    rw [factor_two, symImages_eq, List.map_map, List.map_map, zip_map_map, List.map_map,
      ((orbit_two (-1)).map _).sum_eq]
    have hd : (mapMatrix (Fin.rev (n := 2))).det = -1 := by decide
    simp [hd, sub_eq_add_neg]
  have he : Real.exp 0 < Real.exp 1 := Real.exp_lt_exp.mpr one_pos
  unfold symNet
  rw [avgExpReal_eq, avgExpReal_eq, hS, hS, imageOf_two.1, imageOf_two.2.1, imageOf_two.2.2.1, imageOf_two.2.2.2]
  simp only [Matrix.cons_val_zero, Int.cast_zero, Int.cast_one]
  refine ⟨if_pos (by linarith), Real.log (Real.exp 1 - Real.exp 0), ?_⟩
  rw [if_neg (by linarith), if_neg (by linarith)]

/-- The other averaging functions ignore the factors: the amplitude does not transform with the character. -/
theorem c57_other_violated : ∃ net : (Fin 2 → ℤ) → ℂ,
    let sym := getOrbit1D 2 false true false 1 (-1) 1
    IsImage (mapMatrix (Fin.rev (n := 2))) ![0, 1] ![1, 0] ∧
    -1 * Complex.exp (symNet avgLog net sym.orbit sym.factor ![1, 0]) ≠
      Complex.exp (symNet avgLog net sym.orbit sym.factor ![0, 1]) ∧
    -1 * Complex.exp (symNet avgSep net sym.orbit sym.factor ![1, 0]) ≠
      Complex.exp (symNet avgSep net sym.orbit sym.factor ![0, 1]) := by
  refine ⟨fun _ => 0, image_two, ?_, ?_⟩
  all_goals
    have h := c57_invariant_other 2 (by norm_num) false true false false 1 (-1) 1 1
    have h2 := h.1 (fun _ => 0) (mapMatrix Fin.rev)
      (Submonoid.subset_closure (.inr (.inl ⟨rfl, (isReflection1D_iff _).mpr rfl⟩))) ![0, 1] ![1, 0] image_two
    first
      | rw [h2.1]
      | rw [h2.2]
    intro he
    have h0 := Complex.exp_ne_zero
    rw [neg_one_mul, neg_eq_iff_add_eq_zero, ← two_mul] at he
    exact absurd he (mul_ne_zero two_ne_zero (h0 _))

/-! ## The hypotheses are met -/

/-- With odd parity and a network with different amplitudes: the symmetrised amplitude changes sign. -/
example : -1 * (symNet avgExp (fun s => (s 0 : ℂ)) (getOrbit1D 2 false true false 1 (-1) 1).orbit
      (getOrbit1D 2 false true false 1 (-1) 1).factor ![1, 0]).amp =
    (symNet avgExp (fun s => (s 0 : ℂ)) (getOrbit1D 2 false true false 1 (-1) 1).orbit
      (getOrbit1D 2 false true false 1 (-1) 1).factor ![0, 1]).amp := by
  have hd : (((mapMatrix (Fin.rev (n := 2))).det : ℤ) : ℂ) = -1 := by norm_cast
  have h := c57_character_1d_partial 2 (by norm_num) false true false 1 (-1) 1 (fun M => ((M.det : ℤ) : ℂ))
    ⟨by simp, fun M _ N _ => by simp [Matrix.det_mul]⟩ (fun h => by cases h)
    (fun _ M hM => by rw [(isReflection1D_iff M).mp hM]; exact hd) (fun h => by cases h) (fun s => (s 0 : ℂ))
    (mapMatrix Fin.rev) (Submonoid.subset_closure (.inr (.inl ⟨rfl, (isReflection1D_iff _).mpr rfl⟩)))
    ![0, 1] ![1, 0] image_two
  dsimp only at h
  rwa [hd] at h

/-- The configuration 011 and its translate 101. -/
example (net : (Fin 3 → ℤ) → ℂ) :
    let sym := getOrbit1D 3 true true true 1 1 1
    symNet avgExp net sym.orbit sym.factor ![1, 0, 1] = symNet avgExp net sym.orbit sym.factor ![0, 1, 1] :=
  c57_invariant_1d 3 (by norm_num) true true true net (mapMatrix (shiftMap 1))
    (Submonoid.subset_closure (.inl ⟨rfl, (isShift1D_iff _).mpr rfl⟩)) ![0, 1, 1] ![1, 0, 1]
    (by unfold IsImage; decide)

/-- A rotation of a square. -/
example (net : (Fin (2 * 2) → ℤ) → ℂ) :
    let sym := getOrbit2D 2 true true true true 1 1 1 1
    symNet avgExp net sym.orbit sym.factor ![0, 1, 1, 1] = symNet avgExp net sym.orbit sym.factor ![1, 1, 0, 1] := by
  refine c57_invariant_2d 2 (by norm_num) true true true true net (mapMatrix (lift2 rot1))
    (Submonoid.subset_closure (.inr (.inr (.inl ⟨rfl, (isRotation_iff _).mpr rfl⟩)))) ![1, 1, 0, 1] ![0, 1, 1, 1] ?_
  unfold IsImage
  decide

end JVMC
