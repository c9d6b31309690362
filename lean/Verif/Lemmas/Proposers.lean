import Mathlib.Algebra.BigOperators.Group.List.Basic
import Mathlib.Algebra.BigOperators.Group.Finset.Basic
import Mathlib.Data.List.GetD
import Mathlib.Algebra.Order.BigOperators.Group.List
import Mathlib.Order.Interval.Finset.Nat
import Mathlib.Data.Int.Interval
import Mathlib.Tactic.Linarith
import Mathlib.Tactic.Ring
import Verif.Model.Proposers
import Verif.Spec.Configs

/-! # Helper lemmas for the proposer properties -/

namespace JVMC

/-- Entries are zero or one. -/
def Bin (s : List ℤ) : Prop := ∀ x ∈ s, x = 0 ∨ x = 1

theorem bin_iff (s : List ℤ) : Bin s ↔ Spec.InSpace 2 s := by
  unfold Bin Spec.InSpace
  constructor <;> intro h x hx <;> have := h x hx <;> omega

theorem Bin.getD {s : List ℤ} (h : Bin s) (i : ℕ) : s.getD i 0 = 0 ∨ s.getD i 0 = 1 := by
  by_cases hi : i < s.length
  · rw [List.getD_eq_getElem _ _ hi]; exact h _ (List.getElem_mem hi)
  · rw [List.getD_eq_default _ _ (by omega)]; left; rfl

theorem Bin.set {s : List ℤ} (h : Bin s) (i : ℕ) {v : ℤ} (hv : v = 0 ∨ v = 1) :
    Bin (s.set i v) := by
  intro x hx
  rcases List.mem_or_eq_of_mem_set hx with hx | rfl
  · exact h x hx
  · exact hv

theorem Bin.compl {s : List ℤ} (h : Bin s) : Bin (s.map fun x => 1 - x) := by
  intro x hx
  obtain ⟨y, hy, rfl⟩ := List.mem_map.mp hx
  rcases h y hy with rfl | rfl <;> simp

theorem Bin.globalFlip {s : List ℤ} (h : Bin s) (f : ℕ) : Bin (globalFlip f s) := by
  unfold JVMC.globalFlip; split_ifs
  · exact h.compl
  · exact h

theorem compl_compl (s : List ℤ) : (s.map fun x => 1 - x).map (fun x => 1 - x) = s := by
  rw [List.map_map]
  conv_rhs => rw [← List.map_id s]
  apply List.map_congr_left
  intro x _
  simp

theorem globalFlip_invol (f : ℕ) (s : List ℤ) : globalFlip f (globalFlip f s) = s := by
  unfold globalFlip; split_ifs
  · exact compl_compl s
  · rfl

theorem spinFlip_bin {s : List ℤ} (h : Bin s) (i : ℕ) : Bin (proposeSpinFlip i s) := by
  apply h.set
  rcases h.getD i with h | h <;> rw [h] <;> simp

theorem set_set_same (s : List ℤ) (i : ℕ) (a b : ℤ) : (s.set i a).set i b = s.set i b :=
  List.set_set a

theorem spinFlip_invol {s : List ℤ} (h : Bin s) (i : ℕ) :
    proposeSpinFlip i (proposeSpinFlip i s) = s := by
  unfold proposeSpinFlip
  by_cases hi : i < s.length
  · rw [List.getD_eq_getElem s _ hi, List.getD_eq_getElem _ _ (by simpa using hi),
      List.getElem_set_self, List.set_set]
    apply List.ext_getElem (by simp)
    intro j h1 h2
    rw [List.getElem_set]
    split_ifs with hij
    · subst hij
      rcases h _ (List.getElem_mem hi) with h | h <;> rw [h] <;> rfl
    · rfl
  · rw [List.set_eq_of_length_le (by simp; omega), List.set_eq_of_length_le (by omega)]

theorem spinFlip_globalFlip {s : List ℤ} (h : Bin s) (i f : ℕ) :
    globalFlip f (proposeSpinFlip i s) = proposeSpinFlip i (globalFlip f s) := by
  unfold globalFlip proposeSpinFlip
  split_ifs
  · by_cases hi : i < s.length
    · rw [List.map_set, List.getD_eq_getElem _ _ hi, List.getD_eq_getElem _ _ (by simpa using hi),
        List.getElem_map]
      congr 1
      rcases h _ (List.getElem_mem hi) with h | h <;> rw [h] <;> rfl
    · rw [List.set_eq_of_length_le (by omega), List.set_eq_of_length_le (by simp; omega)]
  · rfl

theorem z2_eq (i f : ℕ) (s : List ℤ) :
    proposeSpinFlipZ2 i f s = globalFlip f (proposeSpinFlip i s) := rfl

theorem z2_invol {s : List ℤ} (h : Bin s) (i f : ℕ) :
    proposeSpinFlipZ2 i f (proposeSpinFlipZ2 i f s) = s := by
  rw [z2_eq, z2_eq, spinFlip_globalFlip (spinFlip_bin h i |>.globalFlip f),
    globalFlip_invol, spinFlip_invol h]

/-! ## The cumulative-sum search -/

theorem bin_sum_nonneg {s : List ℤ} (h : Bin s) : 0 ≤ s.sum := by
  apply List.sum_nonneg
  intro x hx
  rcases h x hx with rfl | rfl <;> simp

theorem Bin.tail {x : ℤ} {s : List ℤ} (h : Bin (x :: s)) : Bin s :=
  fun y hy => h y (by simp [hy])

theorem Bin.take {s : List ℤ} (h : Bin s) (i : ℕ) : Bin (s.take i) :=
  fun y hy => h y (List.mem_of_mem_take hy)

/-- Searching for the rank of the one at position `i` finds `i`. -/
theorem search_one (s : List ℤ) (h : Bin s) (c : ℤ) (i : ℕ) (hi : i < s.length) (h1 : s[i] = 1) :
    searchsorted (cumsumFrom c s) (c + (s.take i).sum + 1) = i := by
  induction s generalizing c i with
  | nil => simp at hi
  | cons x xs ih =>
    cases i with
    | zero =>
      simp only [List.getElem_cons_zero] at h1
      subst h1
      simp [searchsorted, cumsumFrom]
    | succ i =>
      simp only [List.getElem_cons_succ] at h1
      have := ih h.tail (c + x) i (by simpa using hi) h1
      have hnn := bin_sum_nonneg (h.tail.take i)
      have hv : c + ((x :: xs).take (i + 1)).sum + 1 = c + x + (xs.take i).sum + 1 := by
        rw [List.take_succ_cons, List.sum_cons]; ring
      rw [hv]
      unfold searchsorted at this ⊢
      rw [cumsumFrom, List.takeWhile_cons, if_pos (by simp only [decide_eq_true_eq]; linarith),
        List.length_cons, this]

/-- Every rank `1 ≤ b ≤ #ones` is the rank of some one. -/
theorem exists_one (s : List ℤ) (h : Bin s) (b : ℤ) (hb : 1 ≤ b) (hb' : b ≤ s.sum) :
    ∃ i, ∃ hi : i < s.length, s[i] = 1 ∧ (s.take i).sum + 1 = b := by
  induction s generalizing b with
  | nil => simp at hb'; omega
  | cons x xs ih =>
    rw [List.sum_cons] at hb'
    rcases h x (by simp) with hx | hx
    · obtain ⟨i, hi, h1, h2⟩ := ih h.tail b hb (by omega)
      exact ⟨i + 1, by simpa using hi, by simpa using h1, by simp [hx]; omega⟩
    · by_cases hb1 : b = 1
      · exact ⟨0, by simp, by simpa using hx, by simp [hb1]⟩
      · obtain ⟨i, hi, h1, h2⟩ := ih h.tail (b - 1) (by omega) (by omega)
        exact ⟨i + 1, by simpa using hi, by simpa using h1, by simp [hx]; omega⟩

theorem rank_le (s : List ℤ) (h : Bin s) (i : ℕ) (hi : i < s.length) (h1 : s[i] = 1) :
    (s.take i).sum + 1 ≤ s.sum := by
  have h2 : s.sum = (s.take i).sum + (s.drop i).sum := by
    rw [← List.sum_append, List.take_append_drop]
  have h3 : s.drop i = s[i] :: s.drop (i + 1) := List.drop_eq_getElem_cons hi
  have h4 : 0 ≤ (s.drop (i + 1)).sum :=
    bin_sum_nonneg fun y hy => h y (List.mem_of_mem_drop hy)
  rw [h3, List.sum_cons, h1] at h2
  omega

theorem bin_count (s : List ℤ) (h : Bin s) :
    (s.count 1 : ℤ) = s.sum ∧ (s.count 0 : ℤ) = s.length - s.sum := by
  induction s with
  | nil => simp
  | cons x xs ih =>
    obtain ⟨h1, h2⟩ := ih h.tail
    rcases h x (by simp) with rfl | rfl
    · simp [h1, h2]; ring
    · simp only [List.count_cons_self, List.sum_cons, List.length_cons]
      rw [List.count_cons_of_ne (by decide)]
      push_cast
      constructor <;> linarith

theorem sum_compl (s : List ℤ) : (s.map fun x => 1 - x).sum = s.length - s.sum := by
  induction s with
  | nil => simp
  | cons x xs ih => simp [ih]; ring

theorem balanced_iff (s : List ℤ) : Spec.Balanced s ↔ Bin s ∧ 2 * s.sum = s.length := by
  unfold Spec.Balanced
  constructor
  · rintro ⟨h, h2⟩
    obtain ⟨h3, h4⟩ := bin_count s h
    exact ⟨h, by omega⟩
  · rintro ⟨h, h2⟩
    obtain ⟨h3, h4⟩ := bin_count s h
    exact ⟨h, by omega⟩

/-- The move of the zero-magnetisation proposer, in terms of positions. -/
def swapAt (i j : ℕ) (s : List ℤ) : List ℤ := (s.set i 0).set j 1

/-- On balanced configurations the drawn ranks determine a one at `i` and a zero at `j`, and the
proposal exchanges them. -/
theorem zeroMag_pos (s : List ℤ) (h : Bin s) (f : ℕ) (i j : ℕ) (hi : i < s.length)
    (hj : j < s.length) (hi1 : s[i] = 1) (hj0 : s[j] = 0) :
    proposeSpinFlipZeroMag ((s.take i).sum + 1) (((s.map fun x => 1 - x).take j).sum + 1) f s
      = globalFlip f (swapAt i j s) := by
  unfold proposeSpinFlipZeroMag
  have e1 := search_one s h 0 i hi hi1
  have e2 := search_one (s.map fun x => 1 - x) h.compl 0 j (by simpa using hj) (by simp [hj0])
  rw [zero_add] at e1 e2
  dsimp only
  rw [e1, e2, min_eq_left (by omega), min_eq_left (by omega)]
  rfl

theorem swapAt_sum (s : List ℤ) (i j : ℕ) (hi : i < s.length) (hj : j < s.length)
    (hi1 : s[i] = 1) (hj0 : s[j] = 0) : (swapAt i j s).sum = s.sum := by
  have hij : i ≠ j := by
    rintro rfl; rw [hi1] at hj0; simp at hj0
  unfold swapAt
  rw [List.sum_set', List.sum_set']
  simp [hi, hj, hij, hi1, hj0]

theorem swapAt_back (s : List ℤ) (i j : ℕ) (hi : i < s.length) (hj : j < s.length)
    (hi1 : s[i] = 1) (hj0 : s[j] = 0) : swapAt j i (swapAt i j s) = s := by
  have hij : i ≠ j := by
    rintro rfl; rw [hi1] at hj0; simp at hj0
  unfold swapAt
  apply List.ext_getElem (by simp)
  intro k h1 h2
  simp only [List.getElem_set]
  split_ifs with h h'
  · subst h; exact hi1.symm
  · subst h'; exact hj0.symm
  · rfl

theorem swapAt_compl (s : List ℤ) (i j : ℕ) (hij : i ≠ j) :
    (swapAt i j s).map (fun x => 1 - x) = swapAt j i (s.map fun x => 1 - x) := by
  unfold swapAt
  rw [List.map_set, List.map_set, List.set_comm _ _ hij]
  rfl

end JVMC
