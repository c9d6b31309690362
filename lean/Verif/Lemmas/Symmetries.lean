import Mathlib.LinearAlgebra.Matrix.NonsingularInverse
import Mathlib.Data.Fintype.EquivFin
import Mathlib.Data.List.GetD
import Verif.Spec.Symmetries

/-!
# Lemmas about lattice symmetries
-/

namespace JVMC

open Spec Matrix

/-! ## Matrices of maps -/

theorem mapMatrix_mulVec {n : ℕ} (m : Fin n → Fin n) (s : Fin n → ℤ) (i : Fin n) :
    (mapMatrix m *ᵥ s) i = s (m i) := by
  simp [mapMatrix, Matrix.mulVec, dotProduct]

theorem mapMatrix_mul {n : ℕ} (f g : Fin n → Fin n) : mapMatrix f * mapMatrix g = mapMatrix (g ∘ f) := by
  apply Matrix.ext
  intro i j
  rw [Matrix.mul_apply, Finset.sum_eq_single (f i)]
  · simp [mapMatrix]
  · intro k _ hk
    simp [mapMatrix, Ne.symm hk]
  · intro h
    exact absurd (Finset.mem_univ _) h

theorem mapMatrix_id {n : ℕ} : mapMatrix (id : Fin n → Fin n) = 1 := by
  ext i j
  simp [mapMatrix, Matrix.one_apply]

/-- A matrix is determined by its action. -/
theorem mat_eq_of_mulVec {n : ℕ} {M N : Matrix (Fin n) (Fin n) ℤ} (h : ∀ s i, (M *ᵥ s) i = (N *ᵥ s) i) : M = N := by
  ext i j
  have := h (Pi.single j 1) i
  simpa [Matrix.mulVec_single_one] using this

/-- Cancellation for signed permutations. -/
theorem SignedPermutation.cancel {n : ℕ} {M : Matrix (Fin n) (Fin n) ℤ} (h : SignedPermutation M)
    {A B : Matrix (Fin n) (Fin n) ℤ} (hAB : M * A = M * B) : A = B := by
  obtain ⟨σ, e, he, hM⟩ := h
  have he0 : e ≠ 0 := by rcases he with rfl | rfl <;> decide
  apply mat_eq_of_mulVec
  intro s i
  have h1 : M *ᵥ (A *ᵥ s) = M *ᵥ (B *ᵥ s) := by
    rw [Matrix.mulVec_mulVec, Matrix.mulVec_mulVec, hAB]
  have h2 := congrFun h1 (σ.symm i)
  rw [hM, hM, Equiv.apply_symm_apply] at h2
  exact mul_left_cancel₀ he0 h2

theorem signed_one {n : ℕ} : SignedPermutation (1 : Matrix (Fin n) (Fin n) ℤ) :=
  ⟨1, 1, .inl rfl, fun s i => by simp⟩

theorem signed_mul {n : ℕ} {M N : Matrix (Fin n) (Fin n) ℤ} (hM : SignedPermutation M) (hN : SignedPermutation N) :
    SignedPermutation (M * N) := by
  obtain ⟨σ, e, he, hM⟩ := hM
  obtain ⟨τ, d, hd, hN⟩ := hN
  refine ⟨σ.trans τ, e * d, ?_, fun s i => ?_⟩
  · rcases he with rfl | rfl <;> rcases hd with rfl | rfl <;> decide
  · rw [← Matrix.mulVec_mulVec, hM, hN]
    simp [mul_assoc]

theorem signed_map {n : ℕ} (f : Fin n → Fin n) (hf : Function.Injective f) : SignedPermutation (mapMatrix f) :=
  ⟨Equiv.ofBijective f (Finite.injective_iff_bijective.mp hf), 1, .inl rfl, fun s i => by
    rw [mapMatrix_mulVec, one_mul]; rfl⟩

theorem signed_flip {n : ℕ} {M : Matrix (Fin n) (Fin n) ℤ} (h : IsSpinflip M) : SignedPermutation M :=
  ⟨1, -1, .inr rfl, fun s i => by rw [h]; simp⟩

theorem spinflip_iff {n : ℕ} (M : Matrix (Fin n) (Fin n) ℤ) : IsSpinflip M ↔ M = -1 := by
  constructor
  · intro h
    apply mat_eq_of_mulVec
    intro s i
    rw [h]
    simp [Matrix.neg_mulVec]
  · rintro rfl s i
    simp [Matrix.neg_mulVec]

/-! ## Unique elements -/

theorem unique_mem {n : ℕ} (os : List (Matrix (Fin n) (Fin n) ℤ × ℂ)) (M : Matrix (Fin n) (Fin n) ℤ) :
    M ∈ (uniqueOrbit os).orbit ↔ ∃ o ∈ os, o.1 = M := by
  unfold uniqueOrbit
  dsimp only
  rw [List.mem_mergeSort, List.mem_dedup, List.mem_map]

theorem unique_nodup {n : ℕ} (os : List (Matrix (Fin n) (Fin n) ℤ × ℂ)) : (uniqueOrbit os).orbit.Nodup := by
  unfold uniqueOrbit
  dsimp only
  exact (List.mergeSort_perm _ _).nodup_iff.mpr (List.nodup_dedup _)

theorem unique_factor {n : ℕ} (os : List (Matrix (Fin n) (Fin n) ℤ × ℂ)) (χ : Matrix (Fin n) (Fin n) ℤ → ℂ)
    (h : ∀ o ∈ os, o.2 = χ o.1) : (uniqueOrbit os).factor = (uniqueOrbit os).orbit.map χ := by
  unfold uniqueOrbit
  dsimp only
  apply List.map_congr_left
  intro M hM
  rw [List.mem_mergeSort, List.mem_dedup] at hM
  have hlt := List.idxOf_lt_length_iff.mpr hM
  have hlt' : (os.map Prod.fst).idxOf M < os.length := by simpa using hlt
  rw [List.getD_eq_getElem _ _ (by simpa using hlt), List.getElem_map, h _ (List.getElem_mem hlt')]
  congr 1
  have := List.getElem_idxOf hlt
  rw [List.getElem_map] at this
  exact this

/-! ## Groups -/

/-- If the elements of `os` are generated and the set is closed under multiplication with generators from the
right, then it is the generated group. -/
theorem group_of_closed {n : ℕ} (gens : Set (Matrix (Fin n) (Fin n) ℤ)) (os : List (Matrix (Fin n) (Fin n) ℤ))
    (hnd : os.Nodup) (hgen : ∀ M ∈ os, M ∈ Submonoid.closure gens) (hone : 1 ∈ os)
    (hclosed : ∀ M ∈ os, ∀ g ∈ gens, M * g ∈ os) (hs : ∀ g ∈ gens, SignedPermutation g) : IsGroupList gens os := by
  have hg : ∀ M, M ∈ os ↔ M ∈ Submonoid.closure gens := by
    intro M
    refine ⟨hgen M, fun hM => ?_⟩
    induction hM using Submonoid.closure_induction_right with
    | one => exact hone
    | mul_right x _ y hy ih => exact hclosed x ih y hy
  have hsigned : ∀ M ∈ os, SignedPermutation M := by
    intro M hM
    have := (hg M).mp hM
    induction this using Submonoid.closure_induction_right with
    | one => exact signed_one
    | mul_right x hx y hy ih => exact signed_mul (ih ((hg x).mpr hx)) (hs y hy)
  have hmul : ∀ M ∈ os, ∀ N ∈ os, M * N ∈ os := by
    intro M hM N hN
    exact (hg _).mpr (Submonoid.mul_mem _ ((hg M).mp hM) ((hg N).mp hN))
  refine ⟨hnd, hone, hmul, ?_, hsigned, hg⟩
  intro M hM
  let f : {N // N ∈ os} → {N // N ∈ os} := fun N => ⟨M * N.1, hmul M hM N.1 N.2⟩
  have hf : Function.Injective f := by
    intro A B hAB
    exact Subtype.ext (SignedPermutation.cancel (hsigned M hM) (congrArg Subtype.val hAB))
  have : Finite {N // N ∈ os} := List.finite_toSet os
  obtain ⟨N, hN⟩ := (Finite.injective_iff_surjective.mp hf) ⟨1, hone⟩
  have h1 : M * N.1 = 1 := congrArg Subtype.val hN
  exact ⟨N.1, N.2, h1, mul_eq_one_comm.mp h1⟩

/-- The same with maps: `F` is the set of maps of the elements that are not flipped. -/
theorem group_of_maps {n : ℕ} (gens : Set (Matrix (Fin n) (Fin n) ℤ)) (mgens : Set (Fin n → Fin n))
    (F : Set (Fin n → Fin n)) (flip : Bool) (os : List (Matrix (Fin n) (Fin n) ℤ × ℂ)) (sf : ℂ)
    (hos : ∀ M, (∃ o ∈ os, o.1 = M) ↔ ∃ f ∈ F, M = mapMatrix f)
    (hgens : ∀ M, M ∈ gens ↔ (∃ g ∈ mgens, M = mapMatrix g) ∨ (flip ∧ IsSpinflip M))
    (hinj : ∀ g ∈ mgens, Function.Injective g) (hid : id ∈ F)
    (hF : ∀ f ∈ F, mapMatrix f ∈ Submonoid.closure gens) (hcl : ∀ f ∈ F, ∀ g ∈ mgens, g ∘ f ∈ F) :
    IsGroupList gens (uniqueOrbit (withSpinflip flip sf os)).orbit := by
  have hmem : ∀ M, M ∈ (uniqueOrbit (withSpinflip flip sf os)).orbit ↔
      (∃ f ∈ F, M = mapMatrix f) ∨ (flip ∧ ∃ f ∈ F, M = -mapMatrix f) := by
    intro M
    rw [unique_mem]
    unfold withSpinflip
    cases flip with
    | false => simpa using hos M
    | true =>
      simp only [if_true, List.mem_append, List.mem_map, true_and]
      constructor
      · rintro ⟨o, ho | ⟨o', ho', rfl⟩, rfl⟩
        · exact .inl ((hos _).mp ⟨o, ho, rfl⟩)
        · obtain ⟨f, hf, e⟩ := (hos o'.1).mp ⟨o', ho', rfl⟩
          exact .inr ⟨f, hf, by rw [e]⟩
      · rintro (h | ⟨f, hf, rfl⟩)
        · obtain ⟨o, ho, h⟩ := (hos _).mpr h
          exact ⟨o, .inl ho, h⟩
        · obtain ⟨o, ho, h⟩ := (hos _).mpr ⟨f, hf, rfl⟩
          exact ⟨_, .inr ⟨o, ho, rfl⟩, by rw [h]⟩
  have hflip : flip = true → (-1 : Matrix (Fin n) (Fin n) ℤ) ∈ gens := fun h =>
    (hgens _).mpr (.inr ⟨h, (spinflip_iff _).mpr rfl⟩)
  apply group_of_closed
  · exact unique_nodup _
  · intro M hM
    rcases (hmem M).mp hM with ⟨f, hf, rfl⟩ | ⟨hfl, f, hf, rfl⟩
    · exact hF f hf
    · rw [← one_mul (mapMatrix f), ← neg_mul]
      exact Submonoid.mul_mem _ (Submonoid.subset_closure (hflip hfl)) (hF f hf)
  · exact (hmem 1).mpr (.inl ⟨id, hid, mapMatrix_id.symm⟩)
  · intro M hM g hg
    rw [hmem] at hM ⊢
    rcases (hgens g).mp hg with ⟨m, hm, rfl⟩ | ⟨hfl, h⟩
    · rcases hM with ⟨f, hf, rfl⟩ | ⟨hfl, f, hf, rfl⟩
      · exact .inl ⟨m ∘ f, hcl f hf m hm, mapMatrix_mul f m⟩
      · exact .inr ⟨hfl, m ∘ f, hcl f hf m hm, by rw [neg_mul, mapMatrix_mul]⟩
    · rw [spinflip_iff] at h
      subst h
      rcases hM with ⟨f, hf, rfl⟩ | ⟨_, f, hf, rfl⟩
      · exact .inr ⟨hfl, f, hf, by simp⟩
      · exact .inl ⟨f, hf, by simp⟩
  · intro g hg
    rcases (hgens g).mp hg with ⟨m, hm, rfl⟩ | ⟨_, h⟩
    · exact signed_map m (hinj m hm)
    · exact signed_flip h

/-! ## One dimension -/

theorem roll1D_eq {L : ℕ} [NeZero L] {A : Type} (a : Fin L → A) (x i : Fin L) : roll1D a x i = a (i - x) := by
  unfold roll1D
  congr 1
  apply Fin.ext
  rw [Fin.sub_def]
  dsimp only
  rw [add_comm]

/-- The translation by `x`. -/
def shiftMap {L : ℕ} (x : Fin L) : Fin L → Fin L := fun i => i - x

theorem roll1D_index {L : ℕ} [NeZero L] (x : Fin L) : roll1D (index1D L) x = shiftMap x := by
  funext i
  rw [roll1D_eq]
  rfl

theorem shiftMap_zero {L : ℕ} [NeZero L] : shiftMap (0 : Fin L) = id := by
  funext i
  simp [shiftMap]

theorem shift_comp {L : ℕ} [NeZero L] (x y : Fin L) : shiftMap x ∘ shiftMap y = shiftMap (y + x) := by
  funext i
  simp [shiftMap, sub_sub]

theorem shift_injective {L : ℕ} [NeZero L] (x : Fin L) : Function.Injective (shiftMap x) := by
  intro i j h
  simpa [shiftMap] using h

theorem rev_shift {L : ℕ} [NeZero L] (x : Fin L) : shiftMap x ∘ Fin.rev = Fin.rev ∘ shiftMap (-x) := by
  funext i
  simp only [shiftMap, Function.comp]
  rw [Fin.rev_sub]
  simp [sub_eq_add_neg]

theorem shift_mem {L : ℕ} [NeZero L] {gens : Set (Matrix (Fin L) (Fin L) ℤ)}
    (h : mapMatrix (shiftMap (1 : Fin L)) ∈ Submonoid.closure gens) (x : Fin L) :
    mapMatrix (shiftMap x) ∈ Submonoid.closure gens := by
  have : ∀ k : ℕ, mapMatrix (shiftMap (Fin.ofNat L k)) ∈ Submonoid.closure gens := by
    intro k
    induction k with
    | zero =>
      rw [show Fin.ofNat L 0 = 0 from rfl, shiftMap_zero, mapMatrix_id]
      exact Submonoid.one_mem _
    | succ k ih =>
      rw [show Fin.ofNat L (k + 1) = Fin.ofNat L k + 1 from Fin.ext (by simp [Fin.val_add, Fin.ofNat]),
        ← shift_comp, ← mapMatrix_mul]
      exact Submonoid.mul_mem _ ih h
  have := this x.val
  rwa [show Fin.ofNat L x.val = x from Fin.ext (Nat.mod_eq_of_lt x.isLt)] at this

theorem isShift1D_iff {L : ℕ} [NeZero L] (M : Matrix (Fin L) (Fin L) ℤ) : IsShift1D M ↔ M = mapMatrix (shiftMap 1) := by
  have key : ∀ i j : Fin L, (j.val + 1) % L = i.val ↔ j = i - 1 := by
    intro i j
    rw [eq_sub_iff_add_eq, Fin.ext_iff, Fin.val_add, Fin.val_one']
    simp
  constructor
  · intro h
    apply mat_eq_of_mulVec
    intro s i
    rw [mapMatrix_mulVec, h s i (i - 1) ((key _ _).mpr rfl)]
    rfl
  · rintro rfl s i j hij
    rw [mapMatrix_mulVec, (key i j).mp hij]
    rfl

theorem isReflection1D_iff {L : ℕ} (M : Matrix (Fin L) (Fin L) ℤ) : IsReflection1D M ↔ M = mapMatrix Fin.rev := by
  have key : ∀ i j : Fin L, j.val + i.val + 1 = L ↔ j = i.rev := by
    intro i j
    rw [Fin.ext_iff, Fin.val_rev]
    have := i.isLt
    omega
  constructor
  · intro h
    apply mat_eq_of_mulVec
    intro s i
    rw [mapMatrix_mulVec, h s i i.rev ((key _ _).mpr rfl)]
  · rintro rfl s i j hij
    rw [mapMatrix_mulVec, (key i j).mp hij]

/-- The translations that are used. -/
theorem mem_translations1D {L : ℕ} [NeZero L] (use : Bool) (factor : ℂ) (m : Fin L → Fin L) :
    (∃ c, (m, c) ∈ translations1D L use factor) ↔ m = id ∨ (use ∧ ∃ x, m = shiftMap x) := by
  unfold translations1D
  cases use with
  | false => simp [index1D]
  | true =>
    simp only [if_true, List.mem_cons, List.mem_map, List.mem_filter, List.mem_finRange, true_and, Prod.mk.injEq,
      roll1D_index]
    constructor
    · rintro ⟨c, ⟨rfl, _⟩ | ⟨x, _, rfl, _⟩⟩
      · exact .inl rfl
      · exact .inr ⟨x, rfl⟩
    · rintro (rfl | ⟨x, rfl⟩)
      · exact ⟨1, .inl ⟨rfl, rfl⟩⟩
      · by_cases hx : x.val = 0
        · have : x = 0 := Fin.ext hx
          subst this
          exact ⟨1, .inl ⟨by rw [shiftMap_zero]; rfl, rfl⟩⟩
        · exact ⟨_, .inr ⟨x, by simpa using hx, rfl, rfl⟩⟩

theorem mem_reflections1D {L : ℕ} (use : Bool) (factor : ℂ) (m : Fin L → Fin L) :
    (∃ c, (m, c) ∈ reflections1D L use factor) ↔ m = id ∨ (use ∧ m = Fin.rev) := by
  unfold reflections1D
  cases use with
  | false => simp [index1D]
  | true =>
    simp only [if_true, List.mem_cons, List.not_mem_nil, or_false, Prod.mk.injEq, true_and]
    constructor
    · rintro ⟨c, ⟨rfl, _⟩ | ⟨rfl, _⟩⟩
      · exact .inl rfl
      · exact .inr rfl
    · rintro (rfl | rfl)
      · exact ⟨1, .inl ⟨rfl, rfl⟩⟩
      · exact ⟨_, .inr ⟨rfl, rfl⟩⟩

theorem mem_orbits1D {L : ℕ} (ts rs : MapList L) (M : Matrix (Fin L) (Fin L) ℤ) :
    (∃ o ∈ orbitsFromMaps1D ts rs, o.1 = M) ↔
      ∃ t r, (∃ c, (t, c) ∈ ts) ∧ (∃ c, (r, c) ∈ rs) ∧ M = mapMatrix (r ∘ t) := by
  unfold orbitsFromMaps1D
  constructor
  · rintro ⟨o, ho, rfl⟩
    obtain ⟨t, ht, ho⟩ := List.mem_flatMap.mp ho
    obtain ⟨r, hr, rfl⟩ := List.mem_map.mp ho
    exact ⟨t.1, r.1, ⟨t.2, ht⟩, ⟨r.2, hr⟩, mapMatrix_mul _ _⟩
  · rintro ⟨t, r, ⟨c, ht⟩, ⟨d, hr⟩, rfl⟩
    exact ⟨_, List.mem_flatMap.mpr ⟨_, ht, List.mem_map.mpr ⟨_, hr, rfl⟩⟩, mapMatrix_mul _ _⟩

theorem group1D (L : ℕ) [NeZero L] (translation reflection spinflip : Bool) (tf rf sf : ℂ) :
    IsGroupList (gens1D L translation reflection spinflip)
      (getOrbit1D L translation reflection spinflip tf rf sf).orbit := by
  unfold getOrbit1D
  apply group_of_maps _ {m | translation ∧ m = shiftMap 1 ∨ reflection ∧ m = Fin.rev}
    {m | ∃ t r, (t = id ∨ (translation ∧ ∃ x, t = shiftMap x)) ∧ (r = id ∨ (reflection ∧ r = Fin.rev)) ∧ m = r ∘ t}
  · intro M
    rw [mem_orbits1D]
    simp only [mem_translations1D, mem_reflections1D, Set.mem_ofPred_eq]
    constructor
    · rintro ⟨t, r, ht, hr, rfl⟩
      exact ⟨_, ⟨t, r, ht, hr, rfl⟩, rfl⟩
    · rintro ⟨_, ⟨t, r, ht, hr, rfl⟩, rfl⟩
      exact ⟨t, r, ht, hr, rfl⟩
  · intro M
    simp only [gens1D, Set.mem_ofPred_eq, isShift1D_iff, isReflection1D_iff]
    constructor
    · rintro (⟨h, rfl⟩ | ⟨h, rfl⟩ | ⟨h, h'⟩)
      · exact .inl ⟨_, .inl ⟨h, rfl⟩, rfl⟩
      · exact .inl ⟨_, .inr ⟨h, rfl⟩, rfl⟩
      · exact .inr ⟨h, h'⟩
    · rintro (⟨_, ⟨h, rfl⟩ | ⟨h, rfl⟩, rfl⟩ | ⟨h, h'⟩)
      · exact .inl ⟨h, rfl⟩
      · exact .inr (.inl ⟨h, rfl⟩)
      · exact .inr (.inr ⟨h, h'⟩)
  · rintro g (⟨_, rfl⟩ | ⟨_, rfl⟩)
    · exact shift_injective 1
    · exact Fin.rev_injective
  · exact ⟨id, id, .inl rfl, .inl rfl, rfl⟩
  · rintro f ⟨t, r, ht, hr, rfl⟩
    rw [← mapMatrix_mul]
    apply Submonoid.mul_mem
    · rcases ht with rfl | ⟨h, x, rfl⟩
      · rw [mapMatrix_id]; exact Submonoid.one_mem _
      · exact shift_mem (Submonoid.subset_closure (.inl ⟨h, (isShift1D_iff _).mpr rfl⟩)) x
    · rcases hr with rfl | ⟨h, rfl⟩
      · rw [mapMatrix_id]; exact Submonoid.one_mem _
      · exact Submonoid.subset_closure (.inr (.inl ⟨h, (isReflection1D_iff _).mpr rfl⟩))
  · rintro f ⟨t, r, ht, hr, rfl⟩ g (⟨hg, rfl⟩ | ⟨hg, rfl⟩)
    · -- a translation after the others
      have ht' : ∃ x, t = shiftMap x := by
        rcases ht with rfl | ⟨_, h⟩
        · exact ⟨0, shiftMap_zero.symm⟩
        · exact h
      obtain ⟨x, rfl⟩ := ht'
      rcases hr with rfl | ⟨h, rfl⟩
      · exact ⟨shiftMap (x + 1), id, .inr ⟨hg, _, rfl⟩, .inl rfl, shift_comp 1 x⟩
      · refine ⟨shiftMap (x + -1), Fin.rev, .inr ⟨hg, _, rfl⟩, .inr ⟨h, rfl⟩, ?_⟩
        rw [← Function.comp_assoc, rev_shift, Function.comp_assoc, shift_comp]
    · rcases hr with rfl | ⟨h, rfl⟩
      · exact ⟨t, Fin.rev, ht, .inr ⟨hg, rfl⟩, rfl⟩
      · refine ⟨t, id, ht, .inl rfl, ?_⟩
        rw [← Function.comp_assoc]
        congr 1
        funext i
        simp

/-! ## Factors -/

/-- The factors are the values of `χ`. -/
def GoodFactors {n : ℕ} (gens : Set (Matrix (Fin n) (Fin n) ℤ)) (χ : Matrix (Fin n) (Fin n) ℤ → ℂ)
    (os : List (Matrix (Fin n) (Fin n) ℤ × ℂ)) : Prop :=
  ∀ o ∈ os, o.1 ∈ Submonoid.closure gens ∧ o.2 = χ o.1

theorem good_unique {n : ℕ} {gens : Set (Matrix (Fin n) (Fin n) ℤ)} {χ : Matrix (Fin n) (Fin n) ℤ → ℂ}
    (hχ : IsCharacter gens χ) {os : List (Matrix (Fin n) (Fin n) ℤ × ℂ)} (h : GoodFactors gens χ os) (flip : Bool)
    (sf : ℂ) (hsf : flip = true → (-1 : Matrix (Fin n) (Fin n) ℤ) ∈ gens ∧ χ (-1) = sf) :
    (uniqueOrbit (withSpinflip flip sf os)).factor = (uniqueOrbit (withSpinflip flip sf os)).orbit.map χ := by
  apply unique_factor
  intro o ho
  unfold withSpinflip at ho
  cases flip with
  | false => exact (h o ho).2
  | true =>
    rw [if_pos rfl, List.mem_append] at ho
    rcases ho with ho | ho
    · exact (h o ho).2
    · obtain ⟨o', ho', rfl⟩ := List.mem_map.mp ho
      obtain ⟨h1, h2⟩ := hsf rfl
      obtain ⟨h3, h4⟩ := h o' ho'
      dsimp only
      rw [← one_mul o'.1, ← neg_mul, hχ.mul _ (Submonoid.subset_closure h1) _ h3, h2, h4]

theorem character_shift {L : ℕ} [NeZero L] {n : ℕ} {gens : Set (Matrix (Fin n) (Fin n) ℤ)}
    {χ : Matrix (Fin n) (Fin n) ℤ → ℂ} (hχ : IsCharacter gens χ) (m : Fin L → Fin n → Fin n) (hm0 : m 0 = id)
    (hm : ∀ x y, m x ∘ m y = m (y + x)) (h1 : mapMatrix (m 1) ∈ Submonoid.closure gens) (x : Fin L) :
    mapMatrix (m x) ∈ Submonoid.closure gens ∧ χ (mapMatrix (m x)) = χ (mapMatrix (m 1)) ^ x.val := by
  have : ∀ k : ℕ, mapMatrix (m (Fin.ofNat L k)) ∈ Submonoid.closure gens ∧
      χ (mapMatrix (m (Fin.ofNat L k))) = χ (mapMatrix (m 1)) ^ k := by
    intro k
    induction k with
    | zero =>
      rw [show Fin.ofNat L 0 = 0 from rfl, hm0, mapMatrix_id]
      exact ⟨Submonoid.one_mem _, by rw [hχ.one, pow_zero]⟩
    | succ k ih =>
      rw [show Fin.ofNat L (k + 1) = Fin.ofNat L k + 1 from Fin.ext (by simp [Fin.val_add, Fin.ofNat]),
        ← hm, ← mapMatrix_mul]
      exact ⟨Submonoid.mul_mem _ ih.1 h1, by rw [hχ.mul _ ih.1 _ h1, ih.2, pow_succ]⟩
  have := this x.val
  rwa [show Fin.ofNat L x.val = x from Fin.ext (Nat.mod_eq_of_lt x.isLt)] at this

theorem good_product {n : ℕ} {gens : Set (Matrix (Fin n) (Fin n) ℤ)} {χ : Matrix (Fin n) (Fin n) ℤ → ℂ}
    (hχ : IsCharacter gens χ) {a b : Matrix (Fin n) (Fin n) ℤ × ℂ}
    (ha : a.1 ∈ Submonoid.closure gens ∧ a.2 = χ a.1) (hb : b.1 ∈ Submonoid.closure gens ∧ b.2 = χ b.1) :
    a.1 * b.1 ∈ Submonoid.closure gens ∧ a.2 * b.2 = χ (a.1 * b.1) :=
  ⟨Submonoid.mul_mem _ ha.1 hb.1, by rw [hχ.mul _ ha.1 _ hb.1, ha.2, hb.2]⟩

theorem good_id {n : ℕ} {gens : Set (Matrix (Fin n) (Fin n) ℤ)} {χ : Matrix (Fin n) (Fin n) ℤ → ℂ}
    (hχ : IsCharacter gens χ) :
    mapMatrix (id : Fin n → Fin n) ∈ Submonoid.closure gens ∧ 1 = χ (mapMatrix (id : Fin n → Fin n)) := by
  rw [mapMatrix_id]
  exact ⟨Submonoid.one_mem _, hχ.one.symm⟩

theorem factor1D (L : ℕ) [NeZero L] (translation reflection spinflip : Bool) (tf rf sf : ℂ)
    (χ : Matrix (Fin L) (Fin L) ℤ → ℂ) (hχ : IsCharacter (gens1D L translation reflection spinflip) χ)
    (ht : translation = true → ∀ M, IsShift1D M → χ M = tf)
    (hr : reflection = true → ∀ M, IsReflection1D M → χ M = rf)
    (hs : spinflip = true → ∀ M, IsSpinflip M → χ M = sf) :
    (getOrbit1D L translation reflection spinflip tf rf sf).factor =
      (getOrbit1D L translation reflection spinflip tf rf sf).orbit.map χ := by
  unfold getOrbit1D
  apply good_unique hχ
  · intro o ho
    unfold orbitsFromMaps1D at ho
    obtain ⟨t, htm, ho⟩ := List.mem_flatMap.mp ho
    obtain ⟨r, hrm, rfl⟩ := List.mem_map.mp ho
    have h1 : mapMatrix t.1 ∈ Submonoid.closure (gens1D L translation reflection spinflip) ∧
        t.2 = χ (mapMatrix t.1) := by
      unfold translations1D at htm
      rcases List.mem_cons.mp htm with rfl | htm
      · exact good_id hχ
      · cases translation with
        | false => simp at htm
        | true =>
          rw [if_pos rfl] at htm
          obtain ⟨x, _, rfl⟩ := List.mem_map.mp htm
          have h := character_shift hχ (fun x => shiftMap x) shiftMap_zero shift_comp
            (Submonoid.subset_closure (.inl ⟨rfl, (isShift1D_iff _).mpr rfl⟩)) x
          dsimp only
          rw [roll1D_index]
          exact ⟨h.1, by rw [h.2, ht rfl _ ((isShift1D_iff _).mpr rfl)]⟩
    have h2 : mapMatrix r.1 ∈ Submonoid.closure (gens1D L translation reflection spinflip) ∧
        r.2 = χ (mapMatrix r.1) := by
      unfold reflections1D at hrm
      rcases List.mem_cons.mp hrm with rfl | hrm
      · exact good_id hχ
      · cases reflection with
        | false => simp at hrm
        | true =>
          rw [if_pos rfl, List.mem_singleton] at hrm
          subst hrm
          have h : IsReflection1D (mapMatrix (Fin.rev (n := L))) := (isReflection1D_iff _).mpr rfl
          exact ⟨Submonoid.subset_closure (.inr (.inl ⟨rfl, h⟩)), (hr rfl _ h).symm⟩
    exact good_product hχ (a := (_, _)) (b := (_, _)) h1 h2
  · intro h
    have h' : IsSpinflip (-1 : Matrix (Fin L) (Fin L) ℤ) := (spinflip_iff _).mpr rfl
    exact ⟨.inr (.inr ⟨h, h'⟩), hs h _ h'⟩

/-! ## Two dimensions -/

/-- A map of the pairs (row, column), as a map of sites. -/
def lift2 {L : ℕ} (f : Fin L × Fin L → Fin L × Fin L) : Fin (L * L) → Fin (L * L) :=
  fun k => finProdFinEquiv (f (finProdFinEquiv.symm k))

theorem lift2_comp {L : ℕ} (f g : Fin L × Fin L → Fin L × Fin L) : lift2 f ∘ lift2 g = lift2 (f ∘ g) := by
  funext k
  simp [lift2]

theorem lift2_id {L : ℕ} : lift2 (id : Fin L × Fin L → Fin L × Fin L) = id := by
  funext k
  exact finProdFinEquiv.apply_symm_apply k

theorem lift2_injective {L : ℕ} {f : Fin L × Fin L → Fin L × Fin L} (hf : Function.Injective f) :
    Function.Injective (lift2 f) := fun _ _ h =>
  finProdFinEquiv.symm.injective (hf (finProdFinEquiv.injective h))

theorem site_eq {L : ℕ} (i j : Fin L) : site i j = finProdFinEquiv (i, j) := by
  apply Fin.ext
  simp [site, finProdFinEquiv, Nat.mul_comm, Nat.add_comm]

theorem lift2_mulVec {L : ℕ} (f : Fin L × Fin L → Fin L × Fin L) (s : Fin (L * L) → ℤ) (i j : Fin L) :
    (mapMatrix (lift2 f) *ᵥ s) (site i j) = s (site (f (i, j)).1 (f (i, j)).2) := by
  rw [mapMatrix_mulVec, site_eq, site_eq]
  simp [lift2]

theorem site_surj {L : ℕ} (k : Fin (L * L)) : ∃ i j, k = site i j :=
  ⟨(finProdFinEquiv.symm k).1, (finProdFinEquiv.symm k).2, by
    rw [site_eq]
    exact (finProdFinEquiv.apply_symm_apply k).symm⟩

theorem eq_lift2 {L : ℕ} (f : Fin L × Fin L → Fin L × Fin L) (M : Matrix (Fin (L * L)) (Fin (L * L)) ℤ)
    (h : ∀ s i j, (M *ᵥ s) (site i j) = s (site (f (i, j)).1 (f (i, j)).2)) : M = mapMatrix (lift2 f) := by
  apply mat_eq_of_mulVec
  intro s k
  obtain ⟨i, j, rfl⟩ := site_surj k
  rw [h, lift2_mulVec]

/-- Translation by `y` rows and `x` columns. -/
def shift2 {L : ℕ} (y x : Fin L) : Fin L × Fin L → Fin L × Fin L := fun p => (p.1 - y, p.2 - x)
/-- Reflections. -/
def flipR {L : ℕ} : Fin L × Fin L → Fin L × Fin L := fun p => (p.1.rev, p.2)
/-- Reflections. -/
def flipC {L : ℕ} : Fin L × Fin L → Fin L × Fin L := fun p => (p.1, p.2.rev)
/-- Reflections. -/
def flipRC {L : ℕ} : Fin L × Fin L → Fin L × Fin L := fun p => (p.1.rev, p.2.rev)
/-- Rotations. -/
def rot1 {L : ℕ} : Fin L × Fin L → Fin L × Fin L := fun p => (p.2.rev, p.1)
/-- Rotations. -/
def rot3 {L : ℕ} : Fin L × Fin L → Fin L × Fin L := fun p => (p.2, p.1.rev)

theorem pred_iff {L : ℕ} [NeZero L] (i j : Fin L) : (j.val + 1) % L = i.val ↔ j = i - 1 := by
  rw [eq_sub_iff_add_eq, Fin.ext_iff, Fin.val_add, Fin.val_one']
  simp

theorem rev_iff {L : ℕ} (i j : Fin L) : j.val + i.val + 1 = L ↔ j = i.rev := by
  rw [Fin.ext_iff, Fin.val_rev]
  have := i.isLt
  omega

theorem isShiftRows_iff {L : ℕ} [NeZero L] (M : Matrix (Fin (L * L)) (Fin (L * L)) ℤ) :
    IsShiftRows M ↔ M = mapMatrix (lift2 (shift2 1 0)) := by
  constructor
  · intro h
    refine eq_lift2 _ _ fun s i j => ?_
    rw [h s i (i - 1) j ((pred_iff _ _).mpr rfl)]
    simp [shift2]
  · rintro rfl s i k j hk
    rw [lift2_mulVec, (pred_iff _ _).mp hk]
    simp [shift2]

theorem isShiftCols_iff {L : ℕ} [NeZero L] (M : Matrix (Fin (L * L)) (Fin (L * L)) ℤ) :
    IsShiftCols M ↔ M = mapMatrix (lift2 (shift2 0 1)) := by
  constructor
  · intro h
    refine eq_lift2 _ _ fun s i j => ?_
    rw [h s i j (j - 1) ((pred_iff _ _).mpr rfl)]
    simp [shift2]
  · rintro rfl s i j k hk
    rw [lift2_mulVec, (pred_iff _ _).mp hk]
    simp [shift2]

theorem isFlipRows_iff {L : ℕ} (M : Matrix (Fin (L * L)) (Fin (L * L)) ℤ) :
    IsFlipRows M ↔ M = mapMatrix (lift2 flipR) := by
  constructor
  · intro h
    refine eq_lift2 _ _ fun s i j => ?_
    rw [h s i i.rev j ((rev_iff _ _).mpr rfl)]
    rfl
  · rintro rfl s i k j hk
    rw [lift2_mulVec, (rev_iff _ _).mp hk]
    rfl

theorem isFlipCols_iff {L : ℕ} (M : Matrix (Fin (L * L)) (Fin (L * L)) ℤ) :
    IsFlipCols M ↔ M = mapMatrix (lift2 flipC) := by
  constructor
  · intro h
    refine eq_lift2 _ _ fun s i j => ?_
    rw [h s i j j.rev ((rev_iff _ _).mpr rfl)]
    rfl
  · rintro rfl s i j k hk
    rw [lift2_mulVec, (rev_iff _ _).mp hk]
    rfl

theorem isRotation_iff {L : ℕ} (M : Matrix (Fin (L * L)) (Fin (L * L)) ℤ) :
    IsRotation M ↔ M = mapMatrix (lift2 rot1) := by
  constructor
  · intro h
    refine eq_lift2 _ _ fun s i j => ?_
    rw [h s i j j.rev ((rev_iff _ _).mpr rfl)]
    rfl
  · rintro rfl s i j k hk
    rw [lift2_mulVec, (rev_iff _ _).mp hk]
    rfl

theorem ravel_lift {L : ℕ} (f : Fin L × Fin L → Fin L × Fin L) :
    (ravel2D fun i j => index2D L (f (i, j)).1 (f (i, j)).2) = lift2 f := by
  funext k
  simp [ravel2D, index2D, lift2]

theorem roll2D_index {L : ℕ} [NeZero L] (y x : Fin L) : ravel2D (roll2D (index2D L) y x) = lift2 (shift2 y x) := by
  rw [← ravel_lift]
  congr 1
  funext i j
  unfold roll2D
  rw [roll1D_eq, roll1D_eq]
  rfl

theorem shift2_comp {L : ℕ} [NeZero L] (y x y' x' : Fin L) : shift2 y x ∘ shift2 y' x' = shift2 (y' + y) (x' + x) := by
  funext p
  simp [shift2, sub_sub]

theorem shift2_zero {L : ℕ} [NeZero L] : shift2 (0 : Fin L) 0 = id := by
  funext p
  simp [shift2]

theorem rev_sub_eq {L : ℕ} [NeZero L] (i x : Fin L) : i.rev - x = (i - -x).rev := by
  have := congrFun (rev_shift x) i
  simpa [shiftMap] using this

/-- The reflections that are used. -/
def reflSet (L : ℕ) (use : Bool) : Set (Fin L × Fin L → Fin L × Fin L) :=
  {d | d = id ∨ (use ∧ (d = flipR ∨ d = flipC ∨ d = flipRC))}

/-- The rotations that are used. -/
def rotSet (L : ℕ) (use : Bool) : Set (Fin L × Fin L → Fin L × Fin L) :=
  {d | d = id ∨ (use ∧ (d = rot1 ∨ d = flipRC ∨ d = rot3))}

/-- The translations that are used. -/
def transSet (L : ℕ) (use : Bool) : Set (Fin L × Fin L → Fin L × Fin L) :=
  {d | d = id ∨ (use ∧ ∃ y x, d = shift2 y x)}

theorem flipR_refl {L : ℕ} {d : Fin L × Fin L → Fin L × Fin L} (h : d ∈ reflSet L true) :
    flipR ∘ d ∈ reflSet L true ∧ flipC ∘ d ∈ reflSet L true := by
  rcases h with rfl | ⟨_, rfl | rfl | rfl⟩
  · exact ⟨.inr ⟨rfl, .inl rfl⟩, .inr ⟨rfl, .inr (.inl rfl)⟩⟩
  · exact ⟨.inl (by funext p; simp [flipR]), .inr ⟨rfl, .inr (.inr rfl)⟩⟩
  · exact ⟨.inr ⟨rfl, .inr (.inr rfl)⟩, .inl (by funext p; simp [flipC])⟩
  · exact ⟨.inr ⟨rfl, .inr (.inl (by funext p; simp [flipR, flipC, flipRC]))⟩,
      .inr ⟨rfl, .inl (by funext p; simp [flipR, flipC, flipRC])⟩⟩

theorem rot1_refl {L : ℕ} {use : Bool} {d : Fin L × Fin L → Fin L × Fin L} (h : d ∈ reflSet L use) :
    ∃ d' ∈ reflSet L use, rot1 ∘ d = d' ∘ rot1 := by
  rcases h with rfl | ⟨hu, rfl | rfl | rfl⟩
  · exact ⟨id, .inl rfl, rfl⟩
  · exact ⟨flipC, .inr ⟨hu, .inr (.inl rfl)⟩, rfl⟩
  · exact ⟨flipR, .inr ⟨hu, .inl rfl⟩, rfl⟩
  · exact ⟨flipRC, .inr ⟨hu, .inr (.inr rfl)⟩, rfl⟩

theorem rot1_rot {L : ℕ} {r : Fin L × Fin L → Fin L × Fin L} (h : r ∈ rotSet L true) : rot1 ∘ r ∈ rotSet L true := by
  rcases h with rfl | ⟨_, rfl | rfl | rfl⟩
  · exact .inr ⟨rfl, .inl rfl⟩
  · exact .inr ⟨rfl, .inr (.inl rfl)⟩
  · exact .inr ⟨rfl, .inr (.inr (by funext p; simp [rot1, rot3, flipRC]))⟩
  · exact .inl (by funext p; simp [rot1, rot3])

theorem shift_refl {L : ℕ} [NeZero L] {use : Bool} {d : Fin L × Fin L → Fin L × Fin L} (h : d ∈ reflSet L use)
    (y x : Fin L) : ∃ y' x', shift2 y x ∘ d = d ∘ shift2 y' x' := by
  rcases h with rfl | ⟨_, rfl | rfl | rfl⟩
  · exact ⟨y, x, rfl⟩
  · exact ⟨-y, x, by funext p; simp only [shift2, flipR, Function.comp, rev_sub_eq]⟩
  · exact ⟨y, -x, by funext p; simp only [shift2, flipC, Function.comp, rev_sub_eq]⟩
  · exact ⟨-y, -x, by funext p; simp only [shift2, flipRC, Function.comp, rev_sub_eq]⟩

theorem shift_rot {L : ℕ} [NeZero L] {use : Bool} {d : Fin L × Fin L → Fin L × Fin L} (h : d ∈ rotSet L use)
    (y x : Fin L) : ∃ y' x', shift2 y x ∘ d = d ∘ shift2 y' x' := by
  rcases h with rfl | ⟨_, rfl | rfl | rfl⟩
  · exact ⟨y, x, rfl⟩
  · exact ⟨x, -y, by funext p; simp only [shift2, rot1, Function.comp, rev_sub_eq]⟩
  · exact ⟨-y, -x, by funext p; simp only [shift2, flipRC, Function.comp, rev_sub_eq]⟩
  · exact ⟨-x, y, by funext p; simp only [shift2, rot3, Function.comp, rev_sub_eq]⟩

theorem mem_translations2D {L : ℕ} [NeZero L] (use : Bool) (factor : ℂ) (m : Fin (L * L) → Fin (L * L)) :
    (∃ c, (m, c) ∈ translations2D L use factor) ↔ ∃ t ∈ transSet L use, m = lift2 t := by
  have hid : ravel2D (index2D L) = lift2 id := ravel_lift id
  unfold translations2D
  cases use with
  | false => simp [hid, transSet]
  | true =>
    simp only [if_true, List.mem_cons, List.mem_flatMap, List.mem_map, List.mem_filter, List.mem_finRange, true_and,
      Prod.mk.injEq, roll2D_index, hid, transSet, Set.mem_ofPred_eq]
    constructor
    · rintro ⟨c, ⟨rfl, _⟩ | ⟨x, y, _, rfl, _⟩⟩
      · exact ⟨id, .inl rfl, rfl⟩
      · exact ⟨_, .inr ⟨y, x, rfl⟩, rfl⟩
    · rintro ⟨_, rfl | ⟨y, x, rfl⟩, rfl⟩
      · exact ⟨1, .inl ⟨rfl, rfl⟩⟩
      · by_cases hx : x.val = 0 ∧ y.val = 0
        · have h1 : x = 0 := Fin.ext hx.1
          have h2 : y = 0 := Fin.ext hx.2
          subst h1 h2
          exact ⟨1, .inl ⟨by rw [shift2_zero], rfl⟩⟩
        · exact ⟨_, .inr ⟨x, y, by have := not_and_or.mp hx; simpa using this, rfl, rfl⟩⟩

theorem mem_reflections2D {L : ℕ} (use : Bool) (factor : ℂ) (m : Fin (L * L) → Fin (L * L)) :
    (∃ c, (m, c) ∈ reflections2D L use factor) ↔ ∃ t ∈ reflSet L use, m = lift2 t := by
  have hid : ravel2D (index2D L) = lift2 id := ravel_lift id
  have h1 : (ravel2D fun i j => index2D L i.rev j) = lift2 flipR := ravel_lift flipR
  have h2 : (ravel2D fun i j => index2D L i j.rev) = lift2 flipC := ravel_lift flipC
  have h3 : (ravel2D fun i j => index2D L i.rev j.rev) = lift2 flipRC := ravel_lift flipRC
  unfold reflections2D
  cases use with
  | false => simp [hid, reflSet]
  | true =>
    simp only [if_true, List.mem_cons, List.not_mem_nil, or_false, Prod.mk.injEq, true_and, hid, h1, h2, h3, reflSet,
      Set.mem_ofPred_eq]
    constructor
    · rintro ⟨c, ⟨rfl, _⟩ | ⟨rfl, _⟩ | ⟨rfl, _⟩ | ⟨rfl, _⟩⟩
      · exact ⟨_, .inl rfl, rfl⟩
      · exact ⟨_, .inr (.inl rfl), rfl⟩
      · exact ⟨_, .inr (.inr (.inl rfl)), rfl⟩
      · exact ⟨_, .inr (.inr (.inr rfl)), rfl⟩
    · rintro ⟨_, rfl | rfl | rfl | rfl, rfl⟩
      · exact ⟨_, .inl ⟨rfl, rfl⟩⟩
      · exact ⟨_, .inr (.inl ⟨rfl, rfl⟩)⟩
      · exact ⟨_, .inr (.inr (.inl ⟨rfl, rfl⟩))⟩
      · exact ⟨_, .inr (.inr (.inr ⟨rfl, rfl⟩))⟩

theorem mem_rotations2D {L : ℕ} (use : Bool) (factor : ℂ) (m : Fin (L * L) → Fin (L * L)) :
    (∃ c, (m, c) ∈ rotations2D L use factor) ↔ ∃ t ∈ rotSet L use, m = lift2 t := by
  have hid : ravel2D (index2D L) = lift2 id := ravel_lift id
  have h1 : (ravel2D fun i j => index2D L j.rev i) = lift2 rot1 := ravel_lift rot1
  have h2 : (ravel2D fun i j => index2D L j i.rev) = lift2 rot3 := ravel_lift rot3
  have h3 : (ravel2D fun i j => index2D L i.rev j.rev) = lift2 flipRC := ravel_lift flipRC
  unfold rotations2D
  cases use with
  | false => simp [hid, rotSet]
  | true =>
    simp only [if_true, List.mem_cons, List.not_mem_nil, or_false, Prod.mk.injEq, true_and, hid, h1, h2, h3, rotSet,
      Set.mem_ofPred_eq]
    constructor
    · rintro ⟨c, ⟨rfl, _⟩ | ⟨rfl, _⟩ | ⟨rfl, _⟩ | ⟨rfl, _⟩⟩
      · exact ⟨_, .inl rfl, rfl⟩
      · exact ⟨_, .inr (.inl rfl), rfl⟩
      · exact ⟨_, .inr (.inr (.inl rfl)), rfl⟩
      · exact ⟨_, .inr (.inr (.inr rfl)), rfl⟩
    · rintro ⟨_, rfl | rfl | rfl | rfl, rfl⟩
      · exact ⟨_, .inl ⟨rfl, rfl⟩⟩
      · exact ⟨_, .inr (.inl ⟨rfl, rfl⟩)⟩
      · exact ⟨_, .inr (.inr (.inl ⟨rfl, rfl⟩))⟩
      · exact ⟨_, .inr (.inr (.inr ⟨rfl, rfl⟩))⟩

theorem mem_orbits2D {n : ℕ} (ts rots refs : MapList n) (M : Matrix (Fin n) (Fin n) ℤ) :
    (∃ o ∈ orbitsFromMaps2D ts rots refs, o.1 = M) ↔
      ∃ t ref rot, (∃ c, (t, c) ∈ ts) ∧ (∃ c, (ref, c) ∈ refs) ∧ (∃ c, (rot, c) ∈ rots) ∧
        M = mapMatrix (rot ∘ ref ∘ t) := by
  have hm : ∀ t ref rot : Fin n → Fin n,
      mapMatrix t * mapMatrix ref * mapMatrix rot = mapMatrix (rot ∘ ref ∘ t) := by
    intro t ref rot
    rw [mapMatrix_mul, mapMatrix_mul]
  unfold orbitsFromMaps2D
  constructor
  · rintro ⟨o, ho, rfl⟩
    obtain ⟨t, ht, ho⟩ := List.mem_flatMap.mp ho
    obtain ⟨r, hr, ho⟩ := List.mem_flatMap.mp ho
    obtain ⟨q, hq, rfl⟩ := List.mem_map.mp ho
    exact ⟨t.1, r.1, q.1, ⟨t.2, ht⟩, ⟨r.2, hr⟩, ⟨q.2, hq⟩, hm _ _ _⟩
  · rintro ⟨t, ref, rot, ⟨c, ht⟩, ⟨d, hr⟩, ⟨e, hq⟩, rfl⟩
    exact ⟨_, List.mem_flatMap.mpr ⟨_, ht, List.mem_flatMap.mpr ⟨_, hr, List.mem_map.mpr ⟨_, hq, rfl⟩⟩⟩, hm _ _ _⟩

theorem shift2_mem {L : ℕ} [NeZero L] {gens : Set (Matrix (Fin (L * L)) (Fin (L * L)) ℤ)}
    {χ : Matrix (Fin (L * L)) (Fin (L * L)) ℤ → ℂ} (hχ : IsCharacter gens χ)
    (hr : mapMatrix (lift2 (shift2 (1 : Fin L) 0)) ∈ gens) (hc : mapMatrix (lift2 (shift2 (0 : Fin L) 1)) ∈ gens)
    (y x : Fin L) : mapMatrix (lift2 (shift2 y x)) ∈ Submonoid.closure gens ∧
      χ (mapMatrix (lift2 (shift2 y x))) =
        χ (mapMatrix (lift2 (shift2 (0 : Fin L) 1))) ^ x.val * χ (mapMatrix (lift2 (shift2 (1 : Fin L) 0))) ^ y.val := by
  have h1 := character_shift hχ (fun y : Fin L => lift2 (shift2 y 0)) (by rw [shift2_zero, lift2_id])
    (by intro a b; rw [lift2_comp, shift2_comp, add_zero]) (Submonoid.subset_closure hr) y
  have h2 := character_shift hχ (fun x : Fin L => lift2 (shift2 0 x)) (by rw [shift2_zero, lift2_id])
    (by intro a b; rw [lift2_comp, shift2_comp, add_zero]) (Submonoid.subset_closure hc) x
  have h3 : mapMatrix (lift2 (shift2 y x)) = mapMatrix (lift2 (shift2 0 x)) * mapMatrix (lift2 (shift2 y 0)) := by
    rw [mapMatrix_mul, lift2_comp, shift2_comp, zero_add, add_zero]
  rw [h3]
  exact ⟨Submonoid.mul_mem _ h2.1 h1.1, by rw [hχ.mul _ h2.1 _ h1.1, h1.2, h2.2]⟩

/-- The trivial character. -/
theorem trivial_character {n : ℕ} (gens : Set (Matrix (Fin n) (Fin n) ℤ)) : IsCharacter gens fun _ => 1 :=
  ⟨rfl, fun _ _ _ _ => by norm_num⟩

theorem transSet_mem {L : ℕ} [NeZero L] {translation reflection rotation spinflip : Bool}
    {t : Fin L × Fin L → Fin L × Fin L} (h : t ∈ transSet L translation) :
    mapMatrix (lift2 t) ∈ Submonoid.closure (gens2D L translation reflection rotation spinflip) := by
  rcases h with rfl | ⟨hu, y, x, rfl⟩
  · rw [lift2_id, mapMatrix_id]; exact Submonoid.one_mem _
  · exact (shift2_mem (trivial_character _) (.inl ⟨hu, .inl ((isShiftRows_iff _).mpr rfl)⟩)
      (.inl ⟨hu, .inr ((isShiftCols_iff _).mpr rfl)⟩) y x).1

theorem reflSet_mem {L : ℕ} {translation reflection rotation spinflip : Bool}
    {t : Fin L × Fin L → Fin L × Fin L} (h : t ∈ reflSet L reflection) :
    mapMatrix (lift2 t) ∈ Submonoid.closure (gens2D L translation reflection rotation spinflip) := by
  rcases h with rfl | ⟨hu, rfl | rfl | rfl⟩
  · rw [lift2_id, mapMatrix_id]; exact Submonoid.one_mem _
  · exact Submonoid.subset_closure (.inr (.inl ⟨hu, .inl ((isFlipRows_iff _).mpr rfl)⟩))
  · exact Submonoid.subset_closure (.inr (.inl ⟨hu, .inr ((isFlipCols_iff _).mpr rfl)⟩))
  · rw [show (flipRC : Fin L × Fin L → Fin L × Fin L) = flipR ∘ flipC from rfl, ← lift2_comp, ← mapMatrix_mul]
    exact Submonoid.mul_mem _ (Submonoid.subset_closure (.inr (.inl ⟨hu, .inr ((isFlipCols_iff _).mpr rfl)⟩)))
      (Submonoid.subset_closure (.inr (.inl ⟨hu, .inl ((isFlipRows_iff _).mpr rfl)⟩)))

theorem rot_pow {L : ℕ} : (mapMatrix (lift2 (flipRC : Fin L × Fin L → Fin L × Fin L)) =
      mapMatrix (lift2 rot1) * mapMatrix (lift2 rot1)) ∧
    mapMatrix (lift2 (rot3 : Fin L × Fin L → Fin L × Fin L)) =
      mapMatrix (lift2 rot1) * mapMatrix (lift2 rot1) * mapMatrix (lift2 rot1) := by
  rw [mapMatrix_mul, mapMatrix_mul, lift2_comp, lift2_comp]
  refine ⟨rfl, ?_⟩
  congr 2
  funext p
  simp [rot1, rot3]

theorem rotSet_mem {L : ℕ} {translation reflection rotation spinflip : Bool}
    {t : Fin L × Fin L → Fin L × Fin L} (h : t ∈ rotSet L rotation) :
    mapMatrix (lift2 t) ∈ Submonoid.closure (gens2D L translation reflection rotation spinflip) := by
  have h1 : rotation = true → mapMatrix (lift2 (rot1 : Fin L × Fin L → Fin L × Fin L)) ∈
      Submonoid.closure (gens2D L translation reflection rotation spinflip) := fun hu =>
    Submonoid.subset_closure (.inr (.inr (.inl ⟨hu, (isRotation_iff _).mpr rfl⟩)))
  rcases h with rfl | ⟨hu, rfl | rfl | rfl⟩
  · rw [lift2_id, mapMatrix_id]; exact Submonoid.one_mem _
  · exact h1 hu
  · rw [rot_pow.1]
    exact Submonoid.mul_mem _ (h1 hu) (h1 hu)
  · rw [rot_pow.2]
    exact Submonoid.mul_mem _ (Submonoid.mul_mem _ (h1 hu) (h1 hu)) (h1 hu)

theorem group2D (L : ℕ) [NeZero L] (translation reflection rotation spinflip : Bool) (tf rf qf sf : ℂ) :
    IsGroupList (gens2D L translation reflection rotation spinflip)
      (getOrbit2D L translation reflection rotation spinflip tf rf qf sf).orbit := by
  unfold getOrbit2D
  apply group_of_maps _ {m | ∃ g, m = lift2 g ∧ (translation ∧ (g = shift2 1 0 ∨ g = shift2 0 1) ∨
      reflection ∧ (g = flipR ∨ g = flipC) ∨ rotation ∧ g = rot1)}
    {m | ∃ t ∈ transSet L translation, ∃ r ∈ rotSet L rotation, ∃ d ∈ reflSet L reflection, m = lift2 (d ∘ r ∘ t)}
  · intro M
    rw [mem_orbits2D]
    simp only [mem_translations2D, mem_reflections2D, mem_rotations2D, Set.mem_ofPred_eq]
    constructor
    · rintro ⟨_, _, _, ⟨t, ht, rfl⟩, ⟨r, hr, rfl⟩, ⟨d, hd, rfl⟩, rfl⟩
      exact ⟨_, ⟨t, ht, r, hr, d, hd, rfl⟩, by rw [lift2_comp, lift2_comp]⟩
    · rintro ⟨_, ⟨t, ht, r, hr, d, hd, rfl⟩, rfl⟩
      exact ⟨_, _, _, ⟨t, ht, rfl⟩, ⟨r, hr, rfl⟩, ⟨d, hd, rfl⟩, by rw [lift2_comp, lift2_comp]⟩
  · intro M
    simp only [gens2D, Set.mem_ofPred_eq, isShiftRows_iff, isShiftCols_iff, isFlipRows_iff, isFlipCols_iff,
      isRotation_iff]
    constructor
    · rintro (⟨h, rfl | rfl⟩ | ⟨h, rfl | rfl⟩ | ⟨h, rfl⟩ | ⟨h, h'⟩)
      · exact .inl ⟨_, ⟨_, rfl, .inl ⟨h, .inl rfl⟩⟩, rfl⟩
      · exact .inl ⟨_, ⟨_, rfl, .inl ⟨h, .inr rfl⟩⟩, rfl⟩
      · exact .inl ⟨_, ⟨_, rfl, .inr (.inl ⟨h, .inl rfl⟩)⟩, rfl⟩
      · exact .inl ⟨_, ⟨_, rfl, .inr (.inl ⟨h, .inr rfl⟩)⟩, rfl⟩
      · exact .inl ⟨_, ⟨_, rfl, .inr (.inr ⟨h, rfl⟩)⟩, rfl⟩
      · exact .inr ⟨h, h'⟩
    · rintro (⟨_, ⟨g, rfl, ⟨h, rfl | rfl⟩ | ⟨h, rfl | rfl⟩ | ⟨h, rfl⟩⟩, rfl⟩ | ⟨h, h'⟩)
      · exact .inl ⟨h, .inl rfl⟩
      · exact .inl ⟨h, .inr rfl⟩
      · exact .inr (.inl ⟨h, .inl rfl⟩)
      · exact .inr (.inl ⟨h, .inr rfl⟩)
      · exact .inr (.inr (.inl ⟨h, rfl⟩))
      · exact .inr (.inr (.inr ⟨h, h'⟩))
  · rintro _ ⟨g, rfl, h⟩
    apply lift2_injective
    rcases h with ⟨_, rfl | rfl⟩ | ⟨_, rfl | rfl⟩ | ⟨_, rfl⟩
    · intro p q h; simpa [shift2, Prod.ext_iff] using h
    · intro p q h; simpa [shift2, Prod.ext_iff] using h
    · intro p q h; simpa [flipR, Prod.ext_iff] using h
    · intro p q h; simpa [flipC, Prod.ext_iff] using h
    · intro p q h
      simp only [rot1, Prod.mk.injEq, Fin.rev_inj] at h
      exact Prod.ext h.2 h.1
  · exact ⟨id, .inl rfl, id, .inl rfl, id, .inl rfl, lift2_id.symm⟩
  · rintro _ ⟨t, ht, r, hr, d, hd, rfl⟩
    rw [← lift2_comp, ← lift2_comp, ← mapMatrix_mul, ← mapMatrix_mul]
    exact Submonoid.mul_mem _ (Submonoid.mul_mem _ (transSet_mem ht) (rotSet_mem hr)) (reflSet_mem hd)
  · rintro _ ⟨t, ht, r, hr, d, hd, rfl⟩ _ ⟨g, rfl, h⟩
    rw [lift2_comp]
    have htrans : ∀ y x, translation = true → ∃ t' ∈ transSet L translation, shift2 y x ∘ d ∘ r ∘ t = d ∘ r ∘ t' := by
      intro y x hu
      obtain ⟨y1, x1, h1⟩ := shift_refl hd y x
      obtain ⟨y2, x2, h2⟩ := shift_rot hr y1 x1
      obtain ⟨y3, x3, rfl⟩ : ∃ y3 x3, t = shift2 y3 x3 := by
        rcases ht with rfl | ⟨_, h⟩
        · exact ⟨0, 0, shift2_zero.symm⟩
        · exact h
      refine ⟨shift2 (y3 + y2) (x3 + x2), .inr ⟨hu, _, _, rfl⟩, ?_⟩
      rw [← shift2_comp, ← Function.comp_assoc (shift2 y x), h1, Function.comp_assoc, ← Function.comp_assoc r (shift2 y2 x2), ← h2]
      rfl
    rcases h with ⟨hu, rfl | rfl⟩ | ⟨hu, h⟩ | ⟨hu, rfl⟩
    · obtain ⟨t', ht', e⟩ := htrans 1 0 hu
      exact ⟨t', ht', r, hr, d, hd, by rw [e]⟩
    · obtain ⟨t', ht', e⟩ := htrans 0 1 hu
      exact ⟨t', ht', r, hr, d, hd, by rw [e]⟩
    · subst hu
      rcases h with rfl | rfl
      · exact ⟨t, ht, r, hr, _, (flipR_refl hd).1, rfl⟩
      · exact ⟨t, ht, r, hr, _, (flipR_refl hd).2, rfl⟩
    · subst hu
      obtain ⟨d', hd', e⟩ := rot1_refl hd
      refine ⟨t, ht, rot1 ∘ r, rot1_rot hr, d', hd', ?_⟩
      rw [← Function.comp_assoc rot1, e]
      rfl

theorem factor2D (L : ℕ) [NeZero L] (translation reflection rotation spinflip : Bool) (tf rf qf sf : ℂ)
    (χ : Matrix (Fin (L * L)) (Fin (L * L)) ℤ → ℂ)
    (hχ : IsCharacter (gens2D L translation reflection rotation spinflip) χ)
    (ht : translation = true → ∀ M, IsShiftRows M ∨ IsShiftCols M → χ M = tf)
    (hr : reflection = true → ∀ M, IsFlipRows M ∨ IsFlipCols M → χ M = rf)
    (hq : rotation = true → ∀ M, IsRotation M → χ M = qf)
    (hs : spinflip = true → ∀ M, IsSpinflip M → χ M = sf) :
    (getOrbit2D L translation reflection rotation spinflip tf rf qf sf).factor =
      (getOrbit2D L translation reflection rotation spinflip tf rf qf sf).orbit.map χ := by
  unfold getOrbit2D
  have hid : ravel2D (index2D L) = id := (ravel_lift id).trans lift2_id
  have h1 : (ravel2D fun i j => index2D L j.rev i) = lift2 rot1 := ravel_lift rot1
  have h2 : (ravel2D fun i j => index2D L j i.rev) = lift2 rot3 := ravel_lift rot3
  have h3 : (ravel2D fun i j => index2D L i.rev j.rev) = lift2 flipRC := ravel_lift flipRC
  have h4 : (ravel2D fun i j => index2D L i.rev j) = lift2 flipR := ravel_lift flipR
  have h5 : (ravel2D fun i j => index2D L i j.rev) = lift2 flipC := ravel_lift flipC
  apply good_unique hχ
  · intro o ho
    unfold orbitsFromMaps2D at ho
    obtain ⟨t, htm, ho⟩ := List.mem_flatMap.mp ho
    obtain ⟨q, hqm, ho⟩ := List.mem_flatMap.mp ho
    obtain ⟨r, hrm, rfl⟩ := List.mem_map.mp ho
    have g1 : mapMatrix t.1 ∈ Submonoid.closure (gens2D L translation reflection rotation spinflip) ∧
        t.2 = χ (mapMatrix t.1) := by
      unfold translations2D at htm
      rcases List.mem_cons.mp htm with rfl | htm
      · dsimp only
        rw [hid]
        exact good_id hχ
      · cases translation with
        | false => simp at htm
        | true =>
          rw [if_pos rfl] at htm
          obtain ⟨x, _, htm⟩ := List.mem_flatMap.mp htm
          obtain ⟨y, _, rfl⟩ := List.mem_map.mp htm
          have h := shift2_mem hχ (.inl ⟨rfl, .inl ((isShiftRows_iff _).mpr rfl)⟩)
            (.inl ⟨rfl, .inr ((isShiftCols_iff _).mpr rfl)⟩) y x
          dsimp only
          rw [roll2D_index]
          refine ⟨h.1, ?_⟩
          rw [h.2, ht rfl _ (.inl ((isShiftRows_iff _).mpr rfl)), ht rfl _ (.inr ((isShiftCols_iff _).mpr rfl)),
            ← pow_add]
    have g2 : mapMatrix q.1 ∈ Submonoid.closure (gens2D L translation reflection rotation spinflip) ∧
        q.2 = χ (mapMatrix q.1) := by
      unfold rotations2D at hqm
      rcases List.mem_cons.mp hqm with rfl | hqm
      · dsimp only
        rw [hid]
        exact good_id hχ
      · cases rotation with
        | false => simp at hqm
        | true =>
          have hm : mapMatrix (lift2 (rot1 : Fin L × Fin L → Fin L × Fin L)) ∈
              Submonoid.closure (gens2D L translation reflection true spinflip) := rotSet_mem (.inr ⟨rfl, .inl rfl⟩)
          have hc := hq rfl _ ((isRotation_iff (L := L) _).mpr rfl)
          rw [if_pos rfl, h1, h2, h3] at hqm
          rcases List.mem_cons.mp hqm with rfl | hqm
          · exact ⟨hm, hc.symm⟩
          rcases List.mem_cons.mp hqm with rfl | hqm
          · refine ⟨rotSet_mem (.inr ⟨rfl, .inr (.inl rfl)⟩), ?_⟩
            dsimp only
            rw [rot_pow.1, hχ.mul _ hm _ hm, hc, sq]
          · rw [List.mem_singleton] at hqm
            subst hqm
            refine ⟨rotSet_mem (.inr ⟨rfl, .inr (.inr rfl)⟩), ?_⟩
            dsimp only
            rw [rot_pow.2, hχ.mul _ (Submonoid.mul_mem _ hm hm) _ hm, hχ.mul _ hm _ hm, hc, pow_succ, sq]
    have g3 : mapMatrix r.1 ∈ Submonoid.closure (gens2D L translation reflection rotation spinflip) ∧
        r.2 = χ (mapMatrix r.1) := by
      unfold reflections2D at hrm
      rcases List.mem_cons.mp hrm with rfl | hrm
      · dsimp only
        rw [hid]
        exact good_id hχ
      · cases reflection with
        | false => simp at hrm
        | true =>
          have hcR := hr rfl _ (.inl ((isFlipRows_iff (L := L) _).mpr rfl))
          have hcC := hr rfl _ (.inr ((isFlipCols_iff (L := L) _).mpr rfl))
          have hmR : mapMatrix (lift2 (flipR : Fin L × Fin L → Fin L × Fin L)) ∈
              Submonoid.closure (gens2D L translation true rotation spinflip) := reflSet_mem (.inr ⟨rfl, .inl rfl⟩)
          have hmC : mapMatrix (lift2 (flipC : Fin L × Fin L → Fin L × Fin L)) ∈
              Submonoid.closure (gens2D L translation true rotation spinflip) :=
            reflSet_mem (.inr ⟨rfl, .inr (.inl rfl)⟩)
          rw [if_pos rfl, h3, h4, h5] at hrm
          rcases List.mem_cons.mp hrm with rfl | hrm
          · exact ⟨hmR, hcR.symm⟩
          rcases List.mem_cons.mp hrm with rfl | hrm
          · exact ⟨hmC, hcC.symm⟩
          · rw [List.mem_singleton] at hrm
            subst hrm
            refine ⟨reflSet_mem (.inr ⟨rfl, .inr (.inr rfl)⟩), ?_⟩
            dsimp only
            rw [show (flipRC : Fin L × Fin L → Fin L × Fin L) = flipR ∘ flipC from rfl, ← lift2_comp,
              ← mapMatrix_mul, hχ.mul _ hmC _ hmR, hcR, hcC, sq]
    exact good_product hχ (a := (_, _)) (b := (_, _)) (good_product hχ (a := (_, _)) (b := (_, _)) g1 g2) g3
  · intro h
    have h' : IsSpinflip (-1 : Matrix (Fin (L * L)) (Fin (L * L)) ℤ) := (spinflip_iff _).mpr rfl
    exact ⟨.inr (.inr (.inr ⟨h, h'⟩)), hs h _ h'⟩

/-! ## Order -/

theorem matRow_eq {n : ℕ} (M : Matrix (Fin n) (Fin n) ℤ) :
    matRow M = List.ofFn fun k : Fin (n * n) => M k.divNat k.modNat := by
  rw [List.ofFn_mul]
  unfold matRow
  congr 2
  funext i
  congr 1
  funext j
  have hn : 0 < n := i.pos
  congr 1
  · ext
    simp [Fin.divNat, Nat.add_div_of_dvd_right (dvd_mul_left n _), Nat.div_eq_of_lt j.2, hn]
  · ext
    simp [Fin.modNat, Nat.mod_eq_of_lt j.2]

theorem matRow_injective {n : ℕ} : Function.Injective (matRow (n := n)) := by
  intro M N h
  rw [matRow_eq, matRow_eq] at h
  have h1 := List.ofFn_injective h
  ext i j
  have h2 := congrFun h1 (finProdFinEquiv (i, j))
  have h3 := finProdFinEquiv.symm_apply_apply (i, j)
  rw [finProdFinEquiv_symm_apply] at h3
  simp only [Prod.mk.injEq] at h3
  simpa only [h3.1, h3.2] using h2

theorem rowLE_iff {n : ℕ} (M N : Matrix (Fin n) (Fin n) ℤ) : rowLE M N = true ↔ RowLex M N := by
  have hidx : ∀ k : Fin (n * n), k.val = k.divNat.val * n + k.modNat.val := fun k => by
    simp only [Fin.coe_divNat, Fin.coe_modNat]
    exact (Nat.div_add_mod' _ _).symm
  have hinj : matRow M = matRow N ↔ M = N := matRow_injective.eq_iff
  unfold rowLE RowLex
  rw [decide_eq_true_iff, le_iff_eq_or_lt, hinj]
  refine or_congr Iff.rfl ?_
  rw [List.lt_iff_exists, matRow_eq, matRow_eq]
  simp only [List.length_ofFn, lt_irrefl, and_false, false_or, List.getElem_ofFn]
  constructor
  · rintro ⟨k, hk, _, hlt, h⟩
    refine ⟨_, _, h, fun i j hij => ?_⟩
    have h3 := finProdFinEquiv.symm_apply_apply (i, j)
    rw [finProdFinEquiv_symm_apply] at h3
    simp only [Prod.mk.injEq] at h3
    have h4 : (finProdFinEquiv (i, j)).val < k := by
      have h5 := hidx (finProdFinEquiv (i, j))
      have h6 := hidx ⟨k, hk⟩
      rw [h3.1, h3.2] at h5
      rw [h5]
      simp only at h6
      rw [h6]
      rcases hij with hi | ⟨hi, hj⟩
      · have h7 : (i.val + 1) * n ≤ (Fin.divNat ⟨k, hk⟩ : Fin n).val * n := Nat.mul_le_mul_right n hi
        have := j.2
        rw [Nat.add_mul] at h7
        omega
      · rw [hi]
        have : j.val < (Fin.modNat ⟨k, hk⟩ : Fin n).val := hj
        omega
    have h5 := hlt _ h4
    simpa only [Fin.eta, h3.1, h3.2] using h5
  · rintro ⟨i, j, h, hlt⟩
    have h3 := finProdFinEquiv.symm_apply_apply (i, j)
    rw [finProdFinEquiv_symm_apply] at h3
    simp only [Prod.mk.injEq] at h3
    refine ⟨(finProdFinEquiv (i, j)).val, (finProdFinEquiv (i, j)).2, (finProdFinEquiv (i, j)).2,
      fun k hk => hlt _ _ ?_, ?_⟩
    · have h5 := hidx (finProdFinEquiv (i, j))
      rw [h3.1, h3.2] at h5
      have h6 := hidx ⟨k, hk.trans (finProdFinEquiv (i, j)).2⟩
      simp only at h6
      set a := (Fin.divNat ⟨k, hk.trans (finProdFinEquiv (i, j)).2⟩ : Fin n)
      set b := (Fin.modNat ⟨k, hk.trans (finProdFinEquiv (i, j)).2⟩ : Fin n)
      rw [h5, h6] at hk
      rcases lt_trichotomy a i with hi | hi | hi
      · exact .inl hi
      · refine .inr ⟨hi, ?_⟩
        rw [hi] at hk
        exact Fin.lt_def.mpr (by omega)
      · exfalso
        have h7 : (i.val + 1) * n ≤ a.val * n := Nat.mul_le_mul_right n hi
        have := j.2
        rw [Nat.add_mul] at h7
        omega
    · simpa only [Fin.eta, h3.1, h3.2] using h

theorem uniqueOrbit_sorted {n : ℕ} (os : List (Matrix (Fin n) (Fin n) ℤ × ℂ)) :
    (uniqueOrbit os).orbit.Pairwise RowLex := by
  have h : (uniqueOrbit os).orbit.Pairwise fun M N => rowLE M N = true := by
    refine List.pairwise_mergeSort ?_ ?_ _
    · intro a b c h1 h2
      simp only [rowLE, decide_eq_true_iff] at h1 h2 ⊢
      exact le_trans h1 h2
    · intro a b
      simp only [rowLE, Bool.or_eq_true, decide_eq_true_iff]
      exact le_total _ _
  exact h.imp fun {a b} hab => (rowLE_iff a b).mp hab

end JVMC
