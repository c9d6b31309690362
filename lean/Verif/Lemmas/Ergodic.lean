import Mathlib.Logic.Relation
import Mathlib.Algebra.Order.BigOperators.Ring.Finset
import Verif.Props.Markov

/-! # Helper lemmas for the ergodicity of the Markov chains -/

namespace JVMC

open Relation

section Kernel

variable {Ω S : Type*} [DecidableEq S] (W : Finset Ω) (propose : Ω → S → S) (lw : S → ℝ)

theorem chainKernel_term_nonneg (ω : Ω) (s s' : S) :
    0 ≤ ((if propose ω s = s' then
        min 1 (Real.exp (lw (propose ω s)) / Real.exp (lw s)) else 0)
      + (if s = s' then 1 - min 1 (Real.exp (lw (propose ω s)) / Real.exp (lw s)) else 0)) := by
  have h0 : (0 : ℝ) ≤ min 1 (Real.exp (lw (propose ω s)) / Real.exp (lw s)) :=
    le_min zero_le_one (by positivity)
  have h1 : min 1 (Real.exp (lw (propose ω s)) / Real.exp (lw s)) ≤ (1 : ℝ) := min_le_left _ _
  split_ifs <;> linarith

theorem chainKernel_nonneg (s s' : S) : 0 ≤ chainKernel W propose lw s s' := by
  unfold chainKernel
  exact div_nonneg (Finset.sum_nonneg fun ω _ => chainKernel_term_nonneg propose lw ω s s')
    (by positivity)

/-- A proposed configuration is reached with positive probability. -/
theorem chainKernel_pos (ω : Ω) (hω : ω ∈ W) (s : S) :
    0 < chainKernel W propose lw s (propose ω s) := by
  unfold chainKernel
  apply div_pos
  · apply Finset.sum_pos' (fun ω _ => chainKernel_term_nonneg propose lw ω s _)
    refine ⟨ω, hω, ?_⟩
    have h0 : (0 : ℝ) < min 1 (Real.exp (lw (propose ω s)) / Real.exp (lw s)) :=
      lt_min zero_lt_one (by positivity)
    have h1 : min 1 (Real.exp (lw (propose ω s)) / Real.exp (lw s)) ≤ (1 : ℝ) := min_le_left _ _
    rw [if_pos rfl]
    split_ifs <;> linarith
  · exact_mod_cast Finset.card_pos.mpr ⟨ω, hω⟩

theorem transProb_one (s s' : S) :
    Spec.transProb W (metropolisStep propose lw) (fun _ : Fin 1 => s) (fun _ => s')
      = chainKernel W propose lw s s' := by
  rw [transProb_eq]; simp

omit [DecidableEq S] in
theorem sum_piFinset_one (X : Finset S) (g : (Fin 1 → S) → ℝ) :
    ∑ s ∈ Fintype.piFinset (fun _ : Fin 1 => X), g s = ∑ x ∈ X, g fun _ => x := by
  apply Finset.sum_nbij' (fun s => s 0) (fun x _ => x)
  · intro s hs; exact Fintype.mem_piFinset.mp hs 0
  · intro x hx; exact Fintype.mem_piFinset.mpr fun _ => hx
  · intro s _; funext i; rw [Subsingleton.elim i 0]
  · intro x _; rfl
  · intro s _; congr 1; funext i; rw [Subsingleton.elim i 0]

/-- A function that is harmonic for the kernel is constant on an irreducible finite set. -/
theorem harmonic_const (X : Finset S) (hW : W.Nonempty)
    (hX : ∀ ω ∈ W, ∀ s ∈ X, propose ω s ∈ X)
    (hirr : ∀ s ∈ X, ∀ t ∈ X, ReflTransGen (fun a b => ∃ ω ∈ W, propose ω a = b) s t)
    (f : S → ℝ) (hf : ∀ s ∈ X, ∑ t ∈ X, chainKernel W propose lw s t * f t = f s)
    (s t : S) (hs : s ∈ X) (ht : t ∈ X) : f s = f t := by
  obtain ⟨m, hm, hmax⟩ := X.exists_max_image f ⟨s, hs⟩
  have step : ∀ a b, a ∈ X → f a = f m → (∃ ω ∈ W, propose ω a = b) → b ∈ X ∧ f b = f m := by
    rintro a b ha hfa ⟨ω, hω, rfl⟩
    have hb := hX ω hω a ha
    refine ⟨hb, ?_⟩
    have hz : ∑ t ∈ X, chainKernel W propose lw a t * (f m - f t) = 0 := by
      simp only [mul_sub, Finset.sum_sub_distrib]
      rw [← Finset.sum_mul, chainKernel_rowSum W propose lw hW X hX a ha, hf a ha, hfa]
      ring
    have := (Finset.sum_eq_zero_iff_of_nonneg (fun t ht => mul_nonneg
      (chainKernel_nonneg W propose lw a t) (sub_nonneg.mpr (hmax t ht)))).mp hz _ hb
    rcases mul_eq_zero.mp this with h | h
    · exact absurd h (chainKernel_pos W propose lw ω hω a).ne'
    · linarith
  have reach : ∀ b, ReflTransGen (fun a b => ∃ ω ∈ W, propose ω a = b) m b → b ∈ X ∧ f b = f m := by
    intro b hb
    induction hb with
    | refl => exact ⟨hm, rfl⟩
    | tail _ h ih => exact step _ _ ih.1 ih.2 h
  rw [(reach s (hirr m hm s hs)).2, (reach t (hirr m hm t ht)).2]

end Kernel

/-! ### The proposal graphs -/

/-- Number of positions at which two configurations differ. -/
def diffCount (s t : List ℤ) : ℕ :=
  ((Finset.range s.length).filter fun i => s.getD i 0 ≠ t.getD i 0).card

theorem diffCount_zero {s t : List ℤ} (hl : s.length = t.length) (h : diffCount s t = 0) : s = t := by
  unfold diffCount at h
  rw [Finset.card_eq_zero, Finset.filter_eq_empty_iff] at h
  apply List.ext_getElem hl
  intro i h1 h2
  have := h (Finset.mem_range.mpr h1)
  rw [not_not, List.getD_eq_getElem _ _ h1, List.getD_eq_getElem _ _ h2] at this
  exact this

theorem getD_set (s : List ℤ) (i j : ℕ) (v : ℤ) (hi : i < s.length) :
    (s.set i v).getD j 0 = if j = i then v else s.getD j 0 := by
  rw [List.getD_eq_getElem?_getD, List.getD_eq_getElem?_getD, List.getElem?_set]
  by_cases h : i = j
  · subst h; simp [hi]
  · simp [h, Ne.symm h]

theorem diffCount_set_lt (s t : List ℤ) (i : ℕ) (hi : i < s.length) (h : s.getD i 0 ≠ t.getD i 0) :
    diffCount (s.set i (t.getD i 0)) t < diffCount s t := by
  unfold diffCount
  apply Finset.card_lt_card
  rw [Finset.ssubset_iff_of_subset]
  · refine ⟨i, Finset.mem_filter.mpr ⟨Finset.mem_range.mpr hi, h⟩, ?_⟩
    simp only [Finset.mem_filter, not_and, not_not]
    intro _
    rw [getD_set _ _ _ _ hi, if_pos rfl]
  · intro j hj
    simp only [Finset.mem_filter, Finset.mem_range, List.length_set] at hj ⊢
    refine ⟨hj.1, ?_⟩
    intro heq
    apply hj.2
    rw [getD_set _ _ _ _ hi]
    split_ifs with hji
    · rw [hji]
    · exact heq

theorem spinFlip_connected (s t : List ℤ) (hs : Bin s) (ht : Bin t) (hl : s.length = t.length) :
    ReflTransGen (fun a b => ∃ d ∈ spinFlipDraws s.length, proposeSpinFlip d a = b) s t := by
  generalize hL : s.length = L at *
  induction hn : diffCount s t using Nat.strong_induction_on generalizing s with
  | _ n ih =>
    by_cases h0 : diffCount s t = 0
    · rw [diffCount_zero (hL.trans hl) h0]
    · obtain ⟨i, hi⟩ := Finset.card_pos.mp (Nat.pos_of_ne_zero h0)
      rw [Finset.mem_filter, Finset.mem_range] at hi
      have hstep : proposeSpinFlip i s = s.set i (t.getD i 0) := by
        unfold proposeSpinFlip
        congr 1
        have h1 := hs.getD i
        have h2 := ht.getD i
        have h3 := hi.2
        omega
      refine ReflTransGen.head ⟨i, ?_, rfl⟩ ?_
      · rw [← hL]; exact Finset.mem_range.mpr hi.1
      · rw [hstep]
        exact ih _ (hn ▸ diffCount_set_lt s t i hi.1 hi.2) _ (hs.set i (ht.getD i)) (by simpa) rfl

theorem z2_connected (s t : List ℤ) (hs : Bin s) (ht : Bin t) (hl : s.length = t.length) :
    ReflTransGen (fun a b => ∃ d ∈ z2Draws s.length, proposeSpinFlipZ2 d.1 d.2 a = b) s t := by
  refine (ReflTransGen.mono ?_) _ _ (spinFlip_connected s t hs ht hl)
  rintro a b ⟨d, hd, rfl⟩
  exact ⟨(d, 1), by simp [z2Draws]; simpa [spinFlipDraws] using hd, rfl⟩

/-- Two different spin configurations of equal size and sum have a position where the first is
larger. -/
theorem exists_gt (s t : List ℤ) (hl : s.length = t.length) (hsum : s.sum = t.sum) (hne : s ≠ t) :
    ∃ i, ∃ hi : i < s.length, t.getD i 0 < s[i] := by
  by_contra hc
  push Not at hc
  have hle : ∀ (s t : List ℤ), s.length = t.length →
      (∀ i, ∀ hi : i < s.length, s[i] ≤ t.getD i 0) → s.sum ≤ t.sum ∧ (s.sum = t.sum → s = t) := by
    intro s
    induction s with
    | nil => intro t hl _; cases t <;> simp_all
    | cons x xs ih =>
      intro t hl h
      cases t with
      | nil => simp at hl
      | cons y ys =>
        have h0 := h 0 (by simp)
        have := ih ys (by simpa using hl) (fun i hi => by
          have := h (i + 1) (by simpa using hi)
          simpa using this)
        simp only [List.getElem_cons_zero, List.getD_cons_zero] at h0
        simp only [List.sum_cons]
        refine ⟨by linarith [this.1], ?_⟩
        intro he
        have hxy : x = y := by linarith [this.1]
        rw [hxy, this.2 (by linarith)]
  exact hne ((hle s t hl hc).2 hsum)

theorem zeroMag_connected (s t : List ℤ) (hs : Spec.Balanced s) (ht : Spec.Balanced t)
    (hl : s.length = t.length) :
    ReflTransGen (fun a b => ∃ d ∈ zeroMagDraws s.length,
      proposeSpinFlipZeroMag d.1 d.2.1 d.2.2 a = b) s t := by
  rw [balanced_iff] at hs ht
  obtain ⟨hs, hs2⟩ := hs
  obtain ⟨ht, ht2⟩ := ht
  generalize hL : s.length = L at *
  induction hn : diffCount s t using Nat.strong_induction_on generalizing s with
  | _ n ih =>
    by_cases h0 : diffCount s t = 0
    · rw [diffCount_zero (hL.trans hl) h0]
    · have hst : s ≠ t := by
        rintro rfl
        apply h0
        simp [diffCount]
      have hsum : s.sum = t.sum := by omega
      obtain ⟨i, hi, hgt⟩ := exists_gt s t (hL.trans hl) hsum hst
      obtain ⟨j, hj, hgt'⟩ := exists_gt t s (hL.trans hl).symm hsum.symm hst.symm
      have hj' : j < s.length := by omega
      have hi' : i < t.length := by omega
      rw [List.getD_eq_getElem _ _ hi'] at hgt
      rw [List.getD_eq_getElem _ _ hj'] at hgt'
      have a1 := hs _ (List.getElem_mem hi)
      have a2 := ht _ (List.getElem_mem hi')
      have b1 := hs _ (List.getElem_mem hj')
      have b2 := ht _ (List.getElem_mem hj)
      have hi1 : s[i] = 1 := by omega
      have ti0 : t[i] = 0 := by omega
      have hj0 : s[j] = 0 := by omega
      have tj1 : t[j] = 1 := by omega
      have hij : i ≠ j := by rintro rfl; omega
      have r1 := rank_le s hs i hi hi1
      have r2 := rank_le (s.map fun x => 1 - x) hs.compl j (by simpa using hj') (by simp [hj0])
      have n1 := bin_sum_nonneg (hs.take i)
      have n2 := bin_sum_nonneg (hs.compl.take j)
      rw [sum_compl] at r2
      refine ReflTransGen.head ⟨((s.take i).sum + 1,
        ((s.map fun x => 1 - x).take j).sum + 1, 1), ?_, rfl⟩ ?_
      · simp only [zeroMagDraws, Finset.mem_product, Finset.mem_Icc, Finset.mem_range]
        omega
      · rw [zeroMag_pos s hs 1 i j hi hj' hi1 hj0]
        change ReflTransGen _ (swapAt i j s) t
        have hset : swapAt i j s = (s.set i (t.getD i 0)).set j (t.getD j 0) := by
          unfold swapAt
          rw [List.getD_eq_getElem _ _ hi', List.getD_eq_getElem _ _ hj, ti0, tj1]
        have hlt : diffCount (swapAt i j s) t < n := by
          rw [hset, ← hn]
          refine (diffCount_set_lt _ t j (by simpa using hj') ?_).trans
            (diffCount_set_lt s t i hi ?_)
          · rw [getD_set _ _ _ _ hi, if_neg hij.symm, List.getD_eq_getElem _ _ hj',
              List.getD_eq_getElem _ _ hj, hj0, tj1]; decide
          · rw [List.getD_eq_getElem _ _ hi, List.getD_eq_getElem _ _ hi', hi1, ti0]; decide
        refine ih _ hlt _ ((hs.set _ (Or.inl rfl)).set _ (Or.inr rfl)) ?_ ?_ rfl
        · simpa [swapAt] using hL
        · rw [swapAt_sum s i j hi hj' hi1 hj0]; exact hs2

end JVMC
