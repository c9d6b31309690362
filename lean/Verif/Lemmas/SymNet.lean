import Verif.Lemmas.Symmetries
import Verif.Spec.SymNet

/-!
# Lemmas about symmetrised networks
-/

namespace JVMC

open Spec Matrix

/-! ## Averages -/

theorem max?_perm {l l' : List ℝ} (h : l.Perm l') : l.max? = l'.max? := by
  cases h' : l'.max? with
  | none =>
    rw [List.max?_eq_none_iff] at h'
    subst h'
    rw [List.Perm.eq_nil h]
    rfl
  | some a =>
    rw [List.max?_eq_some_iff] at h' ⊢
    exact ⟨h.mem_iff.mpr h'.1, fun b hb => h'.2 b (h.mem_iff.mp hb)⟩

theorem lseMax_perm {t t' : List (ℂ × ℂ)} (h : t.Perm t') : lseMax t = lseMax t' := by
  unfold lseMax
  rw [max?_perm ((h.filter _).map _)]

theorem logC_amp (z : ℂ) : (logC z).amp = z := by
  unfold logC LogVal.amp
  by_cases h : z = 0
  · simp [h]
  · simp [h, Complex.exp_log h]

theorem amp_map_add (z : LogVal) (m : ℂ) : LogVal.amp (z.map fun x => x + m) = z.amp * Complex.exp m := by
  cases z with
  | none => simp [LogVal.amp]
  | some z => simp [LogVal.amp, Complex.exp_add]

/-- The amplitude is the weighted sum of the exponentials. -/
theorem avgExp_amp (coeffs b : List ℂ) :
    (avgExp coeffs b).amp = ((coeffs.zip b).map fun x => x.2 * Complex.exp x.1).sum := by
  unfold avgExp
  dsimp only
  rw [amp_map_add, logC_amp, ← List.sum_map_mul_right]
  congr 1
  apply List.map_congr_left
  rintro ⟨c, b⟩ _
  dsimp only
  by_cases hb : b = 0
  · simp [hb]
  · rw [if_neg hb, mul_right_comm, ← Complex.exp_add, sub_add_cancel, mul_comm]

theorem avgExp_perm {c b c' b' : List ℂ} (h : (c.zip b).Perm (c'.zip b')) : avgExp c b = avgExp c' b' := by
  unfold avgExp
  dsimp only
  rw [lseMax_perm h, (h.map _).sum_eq]

theorem avgLog_perm {c c' b b' : List ℂ} (h : c.Perm c') : avgLog c b = avgLog c' b' := by
  unfold avgLog
  rw [h.sum_eq, h.length_eq]

theorem avgSep_perm {c c' b b' : List ℂ} (h : c.Perm c') : avgSep c b = avgSep c' b' := by
  unfold avgSep
  rw [(h.map _).sum_eq, (h.map _).sum_eq, h.length_eq]

/-- For real entries: the logarithm of the sum, if it is positive. -/
theorem avgExpReal_eq (coeffs b : List ℝ) :
    avgExpReal coeffs b =
      (let S := ((coeffs.zip b).map fun x => x.2 * Real.exp x.1).sum
       if S < 0 then .nan else if S = 0 then .negInf else .fin (Real.log S)) := by
  unfold avgExpReal
  dsimp only
  set m := ((((coeffs.zip b).filter fun x => x.2 ≠ 0).map fun x => x.1).max?).getD 0
  have hS : ((coeffs.zip b).map fun x => x.2 * Real.exp x.1).sum =
      ((coeffs.zip b).map fun x => if x.2 = 0 then 0 else Real.exp (x.1 - m) * x.2).sum * Real.exp m := by
    rw [← List.sum_map_mul_right]
    congr 1
    apply List.map_congr_left
    rintro ⟨c, b⟩ _
    dsimp only
    by_cases hb : b = 0
    · simp [hb]
    · rw [if_neg hb, mul_right_comm, ← Real.exp_add, sub_add_cancel, mul_comm]
  rw [hS]
  set S := ((coeffs.zip b).map fun x => if x.2 = 0 then 0 else Real.exp (x.1 - m) * x.2).sum
  have hm := Real.exp_pos m
  rcases lt_trichotomy S 0 with h | h | h
  · rw [if_pos h, if_pos (mul_neg_of_neg_of_pos h hm)]
  · simp [h]
  · rw [if_neg (not_lt.mpr h.le), if_neg h.ne', if_neg (not_lt.mpr (mul_pos h hm).le), if_neg (mul_pos h hm).ne',
      Real.log_mul h.ne' hm.ne', Real.log_exp, abs_of_pos h]

/-! ## Images -/

/-- The image of a configuration that the code computes. -/
def imageOf {n : ℕ} (o : Matrix (Fin n) (Fin n) ℤ) (x : Fin n → ℤ) : Fin n → ℤ := fun i =>
  Int.fdiv (o.mulVec (fun j => 2 * x j - 1) i + 1) 2

theorem symImages_eq {n : ℕ} (orbit : List (Matrix (Fin n) (Fin n) ℤ)) (x : Fin n → ℤ) :
    symImages orbit x = orbit.map fun o => imageOf o x := rfl

theorem imageOf_isImage {n : ℕ} {o : Matrix (Fin n) (Fin n) ℤ} (ho : SignedPermutation o) (x : Fin n → ℤ) :
    IsImage o x (imageOf o x) := by
  intro i
  obtain ⟨σ, e, he, h⟩ := ho
  have h1 : ∑ j, o i j * (2 * x j - 1) = o.mulVec (fun j => 2 * x j - 1) i := rfl
  rw [h1]
  unfold imageOf
  rw [h, Int.fdiv_eq_ediv_of_nonneg _ (by norm_num)]
  rcases he with rfl | rfl <;> omega

theorem isImage_unique {n : ℕ} {o : Matrix (Fin n) (Fin n) ℤ} {s a b : Fin n → ℤ} (ha : IsImage o s a)
    (hb : IsImage o s b) : a = b := by
  funext i
  have h1 := ha i
  have h2 := hb i
  omega

/-- Images of an image are images under the product. -/
theorem imageOf_image {n : ℕ} {h : Matrix (Fin n) (Fin n) ℤ} {s s' : Fin n → ℤ} (hs : IsImage h s s')
    (g : Matrix (Fin n) (Fin n) ℤ) : imageOf g s' = imageOf (g * h) s := by
  have h1 : (fun j => 2 * s' j - 1) = h *ᵥ fun j => 2 * s j - 1 := by
    funext i
    exact hs i
  unfold imageOf
  rw [h1]
  funext i
  rw [Matrix.mulVec_mulVec]

/-- Multiplication with an element permutes the group. -/
theorem group_perm {n : ℕ} {gens : Set (Matrix (Fin n) (Fin n) ℤ)} {os : List (Matrix (Fin n) (Fin n) ℤ)}
    (hg : IsGroupList gens os) {h : Matrix (Fin n) (Fin n) ℤ} (hh : h ∈ os) : (os.map fun g => g * h).Perm os := by
  obtain ⟨k, hk, hhk, hkh⟩ := hg.inv h hh
  have hinj : Function.Injective fun g : Matrix (Fin n) (Fin n) ℤ => g * h := by
    intro a b hab
    have := congrArg (fun M => M * k) hab
    simpa only [Matrix.mul_assoc, hhk, Matrix.mul_one] using this
  rw [List.perm_ext_iff_of_nodup (hg.nodup.map hinj) hg.nodup]
  intro M
  rw [List.mem_map]
  constructor
  · rintro ⟨g, hgm, rfl⟩
    exact hg.mul g hgm h hh
  · intro hM
    exact ⟨M * k, hg.mul M hM k hk, by rw [Matrix.mul_assoc, hkh, Matrix.mul_one]⟩

theorem symImages_perm {n : ℕ} {gens : Set (Matrix (Fin n) (Fin n) ℤ)} {os : List (Matrix (Fin n) (Fin n) ℤ)}
    (hg : IsGroupList gens os) {h : Matrix (Fin n) (Fin n) ℤ} (hh : h ∈ os) {s s' : Fin n → ℤ}
    (hs : IsImage h s s') : (symImages os s').Perm (symImages os s) := by
  rw [symImages_eq, symImages_eq]
  have h1 : (os.map fun o => imageOf o s') = (os.map fun g => g * h).map fun o => imageOf o s := by
    rw [List.map_map]
    apply List.map_congr_left
    intro g _
    exact imageOf_image hs g
  rw [h1]
  exact (group_perm hg hh).map _

theorem zip_map_map {A B C : Type} (f : A → B) (g : A → C) (l : List A) :
    (l.map f).zip (l.map g) = l.map fun a => (f a, g a) := by
  induction l with
  | nil => rfl
  | cons a l ih => simp [ih]

/-- The amplitude is the sum over the group. -/
theorem symNet_amp {n : ℕ} (net : (Fin n → ℤ) → ℂ) (os : List (Matrix (Fin n) (Fin n) ℤ))
    (χ : Matrix (Fin n) (Fin n) ℤ → ℂ) (s : Fin n → ℤ) :
    (symNet avgExp net os (os.map χ) s).amp =
      (os.map fun g => χ g * Complex.exp (net (imageOf g s))).sum := by
  unfold symNet
  rw [avgExp_amp, symImages_eq, List.map_map, zip_map_map, List.map_map]
  rfl

/-- The amplitude transforms with the character. -/
theorem symNet_character {n : ℕ} {gens : Set (Matrix (Fin n) (Fin n) ℤ)} {os : List (Matrix (Fin n) (Fin n) ℤ)}
    (hg : IsGroupList gens os) {χ : Matrix (Fin n) (Fin n) ℤ → ℂ} (hχ : IsCharacter gens χ)
    (net : (Fin n → ℤ) → ℂ) {h : Matrix (Fin n) (Fin n) ℤ} (hh : h ∈ Submonoid.closure gens) {s s' : Fin n → ℤ}
    (hs : IsImage h s s') :
    χ h * (symNet avgExp net os (os.map χ) s').amp = (symNet avgExp net os (os.map χ) s).amp := by
  rw [symNet_amp, symNet_amp, ← List.sum_map_mul_left]
  rw [← ((group_perm hg ((hg.generated h).mpr hh)).map fun g => χ g * Complex.exp (net (imageOf g s))).sum_eq,
    List.map_map]
  congr 1
  apply List.map_congr_left
  intro g hgm
  dsimp only [Function.comp]
  rw [imageOf_image hs g, hχ.mul g ((hg.generated g).mp hgm) h hh]
  ring

theorem symNet_trivial {n : ℕ} {gens : Set (Matrix (Fin n) (Fin n) ℤ)} {os : List (Matrix (Fin n) (Fin n) ℤ)}
    (hg : IsGroupList gens os) (net : (Fin n → ℤ) → ℂ) {h : Matrix (Fin n) (Fin n) ℤ}
    (hh : h ∈ Submonoid.closure gens) {s s' : Fin n → ℤ} (hs : IsImage h s s') :
    symNet avgExp net os (os.map fun _ => 1) s' = symNet avgExp net os (os.map fun _ => 1) s := by
  unfold symNet
  apply avgExp_perm
  have h1 : ∀ x, ((symImages os x).map net).zip (os.map fun _ => (1 : ℂ)) = (symImages os x).map fun y => (net y, 1) := by
    intro x
    rw [symImages_eq, List.map_map, zip_map_map, List.map_map]
    rfl
  rw [h1, h1]
  exact (symImages_perm hg ((hg.generated h).mpr hh) hs).map _

end JVMC
