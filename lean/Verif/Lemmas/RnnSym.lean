import Mathlib.LinearAlgebra.Matrix.NonsingularInverse
import Verif.Lemmas.Rnn

/-!
# Lemmas about samples of symmetrised recurrent networks
-/

namespace JVMC

open Spec Matrix

theorem expect_randomize {n : ℕ} (os : List (Matrix (Fin n) (Fin n) ℤ)) (t : Fin n → ℤ) (F : (Fin n → ℤ) → ℝ) :
    expect (randomizeSample os t) F = (os.map fun o => F (imageOf o t)).sum / os.length := by
  unfold expect randomizeSample
  rw [List.map_map, div_eq_inv_mul (List.sum _), ← List.sum_map_mul_left]
  congr 1
  apply List.map_congr_left
  intro o _
  rw [Function.comp_apply]
  dsimp only
  rw [one_div]
  congr 2
  unfold imageOf
  simp_rw [mul_comm (2 : ℤ)]

theorem imageOf_one {n : ℕ} (t : Fin n → ℤ) : imageOf 1 t = t := by
  funext i
  unfold imageOf
  rw [Matrix.one_mulVec, Int.fdiv_eq_ediv_of_nonneg _ (by norm_num)]
  omega

theorem imageOf_eq_iff {n : ℕ} {gens : Set (Matrix (Fin n) (Fin n) ℤ)} {os : List (Matrix (Fin n) (Fin n) ℤ)}
    (hg : IsGroupList gens os) {o k : Matrix (Fin n) (Fin n) ℤ} (ho : o ∈ os) (hk : k ∈ os) (h1 : o * k = 1)
    (h2 : k * o = 1) (t s : Fin n → ℤ) : imageOf o t = s ↔ t = imageOf k s := by
  constructor
  · rintro rfl
    rw [imageOf_image (imageOf_isImage (hg.signed o ho) t), h2, imageOf_one]
  · rintro rfl
    rw [imageOf_image (imageOf_isImage (hg.signed k hk) s), h1, imageOf_one]

theorem inv_perm {n : ℕ} {gens : Set (Matrix (Fin n) (Fin n) ℤ)} {os : List (Matrix (Fin n) (Fin n) ℤ)}
    (hg : IsGroupList gens os) : (os.map fun g => g⁻¹).Perm os := by
  have hinv : ∀ g ∈ os, g⁻¹ ∈ os ∧ g * g⁻¹ = 1 ∧ g⁻¹ * g = 1 := by
    intro g hgm
    obtain ⟨k, hk, h1, h2⟩ := hg.inv g hgm
    rw [Matrix.inv_eq_right_inv h1]
    exact ⟨hk, h1, h2⟩
  have hii : ∀ g ∈ os, g⁻¹⁻¹ = g := fun g hgm => Matrix.inv_eq_right_inv (hinv g hgm).2.2
  rw [List.perm_ext_iff_of_nodup _ hg.nodup]
  · intro M
    rw [List.mem_map]
    constructor
    · rintro ⟨g, hgm, rfl⟩
      exact (hinv g hgm).1
    · intro hM
      exact ⟨M⁻¹, (hinv M hM).1, hii M hM⟩
  · refine List.Nodup.map_on ?_ hg.nodup
    intro x hx y hy hxy
    rw [← hii x hx, hxy, hii y hy]

theorem expect_sum {A B : Type} (d : WDist A) (l : List B) (F : B → A → ℝ) (c : ℝ) :
    expect d (fun a => (l.map fun b => F b a).sum / c) = (l.map fun b => expect d (F b)).sum / c := by
  induction l with
  | nil => simp [expect]
  | cons b l ih =>
    simp only [List.map_cons, List.sum_cons, add_div]
    rw [← ih]
    unfold expect
    rw [div_eq_mul_inv, ← List.sum_map_mul_right, ← List.sum_map_add]
    congr 1
    apply List.map_congr_left
    intro e _
    ring

open Classical in
/-- The probability after a random symmetry operation. -/
theorem prob_randomize {A : Type} {n : ℕ} {gens : Set (Matrix (Fin n) (Fin n) ℤ)} {os : List (Matrix (Fin n) (Fin n) ℤ)}
    (hg : IsGroupList gens os) (d : WDist A) (conf : A → Fin n → ℤ) (s : Fin n → ℤ) :
    prob (WDist.bind d fun a => randomizeSample os (conf a)) s =
      (os.map fun g => expect d fun a => if conf a = imageOf g s then 1 else 0).sum / os.length := by
  rw [prob_eq_expect, expect_bind]
  simp_rw [expect_randomize]
  rw [expect_sum]
  congr 1
  rw [← ((inv_perm hg).map fun g => expect d fun a => if conf a = imageOf g s then 1 else 0).sum_eq, List.map_map]
  congr 1
  apply List.map_congr_left
  intro o ho
  obtain ⟨k, hk, h1, h2⟩ := hg.inv o ho
  rw [Function.comp_apply, Matrix.inv_eq_right_inv h1]
  apply expect_congr
  intro a
  simp only [imageOf_eq_iff hg ho hk h1 h2]

theorem avgSep_norm (coeffs b : List ℂ) (h : coeffs ≠ []) :
    ‖Complex.exp (avgSep coeffs b)‖ ^ 2 = (coeffs.map fun c => Real.exp (c.re / (1 / 2))).sum / coeffs.length := by
  have hsum : ∀ l : List ℂ, l ≠ [] → 0 < (l.map fun c => Real.exp (2 * c.re)).sum := by
    intro l hl
    apply List.sum_pos
    · intro x hx
      rw [List.mem_map] at hx
      obtain ⟨c, _, rfl⟩ := hx
      exact Real.exp_pos _
    · simpa using hl
  have hpos := div_pos (hsum coeffs h)
    (show (0 : ℝ) < coeffs.length from Nat.cast_pos.mpr (List.length_pos_iff.mpr h))
  rw [Complex.norm_exp, ← Real.exp_nat_mul]
  have hre : (avgSep coeffs b).re = 1 / 2 * Real.log ((coeffs.map fun c => Real.exp (2 * c.re)).sum / coeffs.length) := by
    unfold avgSep
    rw [Complex.add_re, Complex.re_mul_ofReal, Complex.re_mul_ofReal, Complex.I_re, zero_mul, add_zero]
    norm_num
  rw [hre, ← mul_assoc]
  norm_num
  rw [Real.exp_log hpos]
  congr 3
  funext c
  congr 1
  ring

/-- The configurations with entries in the range. -/
def ValidConfig {n : ℕ} (D : ℕ) (s : Fin n → ℤ) : Prop := ∀ i, 0 ≤ s i ∧ s i < D

theorem imageOf_valid {n : ℕ} {o : Matrix (Fin n) (Fin n) ℤ} (ho : SignedPermutation o) {D : ℕ}
    (hD : D = 2 ∨ ∀ i, (o *ᵥ fun _ => 1) i = 1) {s : Fin n → ℤ} (hs : ValidConfig D s) : ValidConfig D (imageOf o s) := by
  obtain ⟨σ, e, he, h⟩ := ho
  intro i
  unfold imageOf
  rw [h, Int.fdiv_eq_ediv_of_nonneg _ (by norm_num)]
  have h2 := hs (σ i)
  rcases hD with rfl | hD
  · rcases he with rfl | rfl <;> omega
  · have h1 := hD i
    rw [h, mul_one] at h1
    subst h1
    omega

theorem ones_closure {n : ℕ} (gens : Set (Matrix (Fin n) (Fin n) ℤ)) (h : ∀ M ∈ gens, (M *ᵥ fun _ => 1) = fun _ => 1) :
    ∀ M ∈ Submonoid.closure gens, (M *ᵥ fun _ => 1) = fun _ => 1 := by
  intro M hM
  induction hM using Submonoid.closure_induction with
  | mem x hx => exact h x hx
  | one => rw [Matrix.one_mulVec]
  | mul x y _ _ hx hy => rw [← Matrix.mulVec_mulVec, hy, hx]

theorem ones_1d (L : ℕ) (hL : 0 < L) (t r : Bool) : ∀ M ∈ gens1D L t r false, (M *ᵥ fun _ => 1) = fun _ => 1 := by
  intro M hM
  funext i
  rcases hM with ⟨_, h⟩ | ⟨_, h⟩ | ⟨h, _⟩
  · refine h _ i ⟨(i.val + L - 1) % L, Nat.mod_lt _ hL⟩ ?_
    dsimp only
    rw [Nat.mod_add_mod, Nat.sub_add_cancel (by omega), Nat.add_mod_right, Nat.mod_eq_of_lt i.isLt]
  · refine h _ i ⟨L - 1 - i.val, by omega⟩ ?_
    dsimp only
    omega
  · simp at h

theorem ones_2d (L : ℕ) (hL : 0 < L) (t r q : Bool) : ∀ M ∈ gens2D L t r q false, (M *ᵥ fun _ => 1) = fun _ => 1 := by
  intro M hM
  funext k
  obtain ⟨i, j, rfl⟩ := site_surj k
  have hshift : ∀ i : Fin L, ((i.val + L - 1) % L + 1) % L = i.val := by
    intro i
    rw [Nat.mod_add_mod, Nat.sub_add_cancel (by omega), Nat.add_mod_right, Nat.mod_eq_of_lt i.isLt]
  rcases hM with ⟨_, h | h⟩ | ⟨_, h | h⟩ | ⟨_, h⟩ | ⟨h, _⟩
  · exact h _ i ⟨(i.val + L - 1) % L, Nat.mod_lt _ hL⟩ j (hshift i)
  · exact h _ i j ⟨(j.val + L - 1) % L, Nat.mod_lt _ hL⟩ (hshift j)
  · exact h _ i ⟨L - 1 - i.val, by omega⟩ j (by dsimp only; omega)
  · exact h _ i j ⟨L - 1 - j.val, by omega⟩ (by dsimp only; omega)
  · exact h _ i j ⟨L - 1 - j.val, by omega⟩ (by dsimp only; omega)
  · simp at h

/-! ## Configurations as lists -/

theorem listConfig_mem {L D : ℕ} {s : Fin L → ℤ} (hs : ValidConfig D s) : listConfig s ∈ listsOver (localStates D) L := by
  rw [mem_listsOver]
  refine ⟨List.length_ofFn, fun a ha => ?_⟩
  obtain ⟨i, rfl⟩ := (List.mem_ofFn' _ _).mp ha
  exact mem_localStates.mpr (hs i)

theorem configList_eq_iff {L : ℕ} {l : List ℤ} (hl : l.length = L) (t : Fin L → ℤ) : configList L l = t ↔ l = listConfig t := by
  subst hl
  constructor
  · rintro rfl
    apply List.ext_getElem
    · simp [listConfig]
    · intro i h1 h2
      simp [listConfig, configList, h1]
  · intro h
    funext i
    unfold configList
    rw [List.getD_eq_getElem _ _ i.isLt]
    have : ∀ (m : List ℤ) (hm : i.val < m.length), l = m → l[i.val] = m[i.val] := by
      rintro m hm rfl
      rfl
    rw [this (listConfig t) (by simp [listConfig]) h]
    simp [listConfig]

theorem rowsConfig_mem {L D : ℕ} {s : Fin (L * L) → ℤ} (hs : ValidConfig D s) :
    rowsConfig s ∈ listsOver (listsOver (localStates D) L) L := by
  rw [mem_listsOver]
  refine ⟨List.length_ofFn, fun a ha => ?_⟩
  obtain ⟨i, rfl⟩ := (List.mem_ofFn' _ _).mp ha
  exact listConfig_mem (s := fun j => s (finProdFinEquiv (i, j))) fun j => hs _

theorem configRows_eq_iff {L : ℕ} {l : List (List ℤ)} (hl : l.length = L) (hr : ∀ row ∈ l, row.length = L)
    (t : Fin (L * L) → ℤ) : configRows L l = t ↔ l = rowsConfig t := by
  have key : ∀ (i : Fin L) (j : Fin L), configRows L l (finProdFinEquiv (i, j)) =
      (l[i.val]'(by omega))[j.val]'(by rw [hr _ (List.getElem_mem _)]; exact j.isLt) := by
    intro i j
    have hLpos : 0 < L := Nat.lt_of_le_of_lt (Nat.zero_le _) i.isLt
    have h1 : (finProdFinEquiv (i, j)).val / L = i.val := by
      change (j.val + L * i.val) / L = i.val
      rw [Nat.add_mul_div_left _ _ hLpos, Nat.div_eq_of_lt j.isLt, Nat.zero_add]
    have h2 : (finProdFinEquiv (i, j)).val % L = j.val := by
      change (j.val + L * i.val) % L = j.val
      rw [Nat.add_mul_mod_self_left, Nat.mod_eq_of_lt j.isLt]
    unfold configRows
    simp only [h1, h2]
    rw [List.getD_eq_getElem _ _ (show i.val < l.length by omega), List.getD_eq_getElem]
  constructor
  · rintro rfl
    apply List.ext_getElem
    · simp [rowsConfig, hl]
    · intro i h1 h2
      apply List.ext_getElem
      · simp [rowsConfig, hr _ (List.getElem_mem h1)]
      · intro j h3 h4
        have hj : j < L := by rw [← hr _ (List.getElem_mem h1)]; exact h3
        simp only [rowsConfig, List.getElem_ofFn]
        exact (key ⟨i, by omega⟩ ⟨j, hj⟩).symm
  · intro h
    funext k
    obtain ⟨⟨i, j⟩, rfl⟩ := finProdFinEquiv.surjective k
    rw [key]
    simp only [h, rowsConfig, List.getElem_ofFn]

/-! ## The distribution -/

theorem prob_genSample1D_mean {H O : Type} (net : Rnn1D H O) (hh : Normed net.head)
    {L : ℕ} {gens : Set (Matrix (Fin L) (Fin L) ℤ)} {os : List (Matrix (Fin L) (Fin L) ℤ)} (hg : IsGroupList gens os)
    (s : Fin L → ℤ) (hv : ∀ o ∈ os, ValidConfig net.head.inputDim (imageOf o s)) :
    prob (genSample1D net L os) s = (os.map fun g =>
      Real.exp ((rnn1d net (listConfig (imageOf g s))).re / net.head.logProbFactor)).sum / os.length := by
  classical
  unfold genSample1D
  rw [prob_randomize hg]
  congr 2
  apply List.map_congr_left
  intro o ho
  rw [rnn1dSample, expect_rnnSampleScan net hh]
  have : ∀ l ∈ listsOver (localStates net.head.inputDim) L,
      Real.exp ((rnnScan net (net.zeroCarry, fun _ => 0) (l.map (oneHot net.head.inputDim))).sum.re /
        net.head.logProbFactor) * (if configList L l = imageOf o s then 1 else 0) =
      Real.exp ((rnnScan net (net.zeroCarry, fun _ => 0) (l.map (oneHot net.head.inputDim))).sum.re /
        net.head.logProbFactor) * @ite ℝ (l = listConfig (imageOf o s)) (Classical.propDecidable _) 1 0 := by
    intro l hl
    simp only [configList_eq_iff (mem_listsOver.mp hl).1]
    congr
  rw [List.map_congr_left this,
    sum_indicator (listsOver_nodup (localStates_nodup _) L) (listConfig_mem (hv o ho))]
  rfl

theorem prob_genSample1D {H O : Type} (net : Rnn1D H O) (hh : Normed net.head) (hκ : net.head.logProbFactor = 1 / 2)
    {L : ℕ} {gens : Set (Matrix (Fin L) (Fin L) ℤ)} {os : List (Matrix (Fin L) (Fin L) ℤ)} (hg : IsGroupList gens os)
    (factor : List ℂ) (s : Fin L → ℤ) (hv : ∀ o ∈ os, ValidConfig net.head.inputDim (imageOf o s)) :
    prob (genSample1D net L os) s =
      ‖Complex.exp (symNet avgSep (fun s => rnn1d net (listConfig s)) os factor s)‖ ^ 2 := by
  unfold symNet
  rw [prob_genSample1D_mean net hh hg s hv, avgSep_norm _ _ (by
    rw [symImages_eq]
    have := List.ne_nil_of_mem hg.one
    simpa using this), symImages_eq, List.length_map, List.length_map, List.map_map, List.map_map, hκ]
  rfl

theorem prob_genSample2D {H O : Type} (net : Rnn2D H O) (hh : Normed net.head) (hκ : net.head.logProbFactor = 1 / 2)
    {L : ℕ} {gens : Set (Matrix (Fin (L * L)) (Fin (L * L)) ℤ)} {os : List (Matrix (Fin (L * L)) (Fin (L * L)) ℤ)}
    (hg : IsGroupList gens os) (factor : List ℂ) (s : Fin (L * L) → ℤ)
    (hv : ∀ o ∈ os, ValidConfig net.head.inputDim (imageOf o s)) :
    prob (genSample2D net L os) s =
      ‖Complex.exp (symNet avgSep (fun s => rnn2d net L (rowsConfig s)) os factor s)‖ ^ 2 := by
  classical
  unfold genSample2D symNet
  rw [prob_randomize hg, avgSep_norm _ _ (by
    rw [symImages_eq]
    have := List.ne_nil_of_mem hg.one
    simpa using this), symImages_eq, List.length_map, List.length_map, List.map_map, List.map_map]
  congr 2
  apply List.map_congr_left
  intro o ho
  rw [rnn2dSample, expect_rnnSampleV net hh L _ _ _ (by simp) (by simp)]
  have : ∀ l ∈ listsOver (listsOver (localStates net.head.inputDim) L) L,
      Real.exp ((rnnScanV net 0 ((List.range L).map net.zeroCarry, List.replicate L fun _ => 0)
        (l.map fun row => row.map (oneHot net.head.inputDim))).sum.re /
        net.head.logProbFactor) * (if configRows L l = imageOf o s then 1 else 0) =
      Real.exp ((rnnScanV net 0 ((List.range L).map net.zeroCarry, List.replicate L fun _ => 0)
        (l.map fun row => row.map (oneHot net.head.inputDim))).sum.re /
        net.head.logProbFactor) * @ite ℝ (l = rowsConfig (imageOf o s)) (Classical.propDecidable _) 1 0 := by
    intro l hl
    rw [mem_listsOver] at hl
    simp only [configRows_eq_iff hl.1 fun row hrow => (mem_listsOver.mp (hl.2 row hrow)).1]
    congr
  rw [List.map_congr_left this,
    sum_indicator (listsOver_nodup (listsOver_nodup (localStates_nodup _) L) L) (rowsConfig_mem (hv o ho)), hκ]
  rfl

end JVMC
