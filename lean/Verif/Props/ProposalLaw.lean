import Mathlib.Tactic.FieldSimp
import Mathlib.Tactic.NormNum
import Verif.Spec.Proposals
import Verif.Props.Proposers

/-!
# C106: which configurations the spin proposers propose, and how often
-/

namespace JVMC

open Spec

theorem flipped_unique {D : Set ℕ} {s t t' : List ℤ} (h : Flipped D s t) (h' : Flipped D s t') : t = t' := by
  apply List.ext_getElem (h.1.trans h'.1.symm)
  intro k hk hk'
  have hks : k < s.length := h.1 ▸ hk
  have a := h.2 k hks
  have b := h'.2 k hks
  rw [List.getD_eq_getElem _ _ hk] at a
  rw [List.getD_eq_getElem _ _ hk'] at b
  by_cases hD : k ∈ D
  · rw [a.1 hD, b.1 hD]
  · rw [a.2 hD, b.2 hD]

/-- The flipped sites are determined by the two configurations. -/
theorem flipped_sites {D D' : Set ℕ} {s t : List ℤ} (h : Flipped D s t) (h' : Flipped D' s t) (k : ℕ)
    (hk : k < s.length) : k ∈ D ↔ k ∈ D' := by
  have a := h.2 k hk
  have b := h'.2 k hk
  by_cases h1 : k ∈ D <;> by_cases h2 : k ∈ D' <;> simp only [h1, h2, iff_true, iff_false, not_true]
  · have := a.1 h1
    have := b.2 h2
    omega
  · have := a.2 h1
    have := b.1 h2
    omega

theorem flipped_same {D D' : Set ℕ} {s t : List ℤ} (h : Flipped D s t) (he : ∀ k < s.length, k ∈ D ↔ k ∈ D') :
    Flipped D' s t :=
  ⟨h.1, fun k hk => ⟨fun h1 => (h.2 k hk).1 ((he k hk).mpr h1), fun h1 => (h.2 k hk).2 (fun h2 => h1 ((he k hk).mp h2))⟩⟩

theorem flipped_spinFlip (s : List ℤ) (hs : InSpace 2 s) (i : ℕ) : Flipped {i} s (proposeSpinFlip i s) := by
  refine ⟨by simp [proposeSpinFlip], fun k hk => ⟨fun h => ?_, fun h => ?_⟩⟩
  · obtain rfl : k = i := h
    unfold proposeSpinFlip
    rw [List.getD_eq_getElem _ _ (by simpa using hk), List.getElem_set_self]
    have := ((bin_iff s).mpr hs).getD k
    omega
  · have hne : i ≠ k := fun h1 => h h1.symm
    unfold proposeSpinFlip
    rw [List.getD_eq_getElem _ _ (by simpa using hk), List.getElem_set_ne hne, List.getD_eq_getElem _ _ hk]

theorem flipped_reflect {D : Set ℕ} {s t : List ℤ} (h : Flipped D s t) (f : ℕ) :
    Flipped (if f = 0 then Dᶜ else D) s (globalFlip f t) := by
  unfold globalFlip
  split_ifs with hf
  · refine ⟨by simpa using h.1, fun k hk => ?_⟩
    have hkt : k < t.length := h.1 ▸ hk
    have e : (t.map fun x => 1 - x).getD k 0 = 1 - t.getD k 0 := by
      rw [List.getD_eq_getElem _ _ (by simpa using hkt), List.getElem_map, List.getD_eq_getElem _ _ hkt]
    rw [e]
    refine ⟨fun h1 => ?_, fun h1 => ?_⟩
    · rw [(h.2 k hk).2 h1]
    · rw [(h.2 k hk).1 (by simpa using h1)]
      omega
  · exact h

theorem flipped_swap (s : List ℤ) (i j : ℕ) (hi : s.getD i 0 = 1) (hj : s.getD j 0 = 0) :
    Flipped {i, j} s (swapAt i j s) := by
  have hij : i ≠ j := by
    rintro rfl
    omega
  refine ⟨by simp [swapAt], fun k hk => ?_⟩
  unfold swapAt
  rw [List.getD_eq_getElem _ _ (by simpa using hk)]
  by_cases h1 : k = j
  · subst h1
    rw [List.getElem_set_self]
    refine ⟨fun _ => by omega, fun h => absurd (Or.inr rfl) h⟩
  · rw [List.getElem_set_ne (fun h => h1 h.symm)]
    by_cases h2 : k = i
    · subst h2
      rw [List.getElem_set_self]
      refine ⟨fun _ => by omega, fun h => absurd (Or.inl rfl) h⟩
    · rw [List.getElem_set_ne (fun h => h2 h.symm), ← List.getD_eq_getElem _ 0]
      refine ⟨fun h => ?_, fun _ => rfl⟩
      rcases h with h | h
      · exact absurd h h2
      · exact absurd h h1

theorem drawProb_congr {Ω : Type} (W : Finset Ω) (propose : Ω → List ℤ) (event : List ℤ → Prop) (V : Finset Ω)
    (h : ∀ d, (d ∈ W ∧ event (propose d)) ↔ d ∈ V) :
    drawProb W propose event = (V.card : ℚ) / (W.card : ℚ) := by
  classical
  unfold drawProb
  congr 3
  ext d
  rw [Finset.mem_filter]
  exact h d

/-- C106, `propose_spin_flip`: every site is flipped with the same probability, and nothing else happens. -/
theorem c106_spin_flip (s : List ℤ) (hs : InSpace 2 s) (hn : s ≠ []) :
    (∀ i < s.length, drawProb (spinFlipDraws s.length) (fun d => proposeSpinFlip d s) (Flipped {i} s)
      = 1 / s.length) ∧
    drawProb (spinFlipDraws s.length) (fun d => proposeSpinFlip d s)
      (fun t => ∃ i < s.length, Flipped {i} s t) = 1 := by
  have hpos : 0 < s.length := List.length_pos_iff.mpr hn
  have hq : (s.length : ℚ) ≠ 0 := by exact_mod_cast hpos.ne'
  refine ⟨fun i hi => ?_, ?_⟩
  · rw [drawProb_congr _ _ _ {i} (fun d => ?_)]
    · simp [spinFlipDraws]
    · simp only [spinFlipDraws, Finset.mem_range, Finset.mem_singleton]
      constructor
      · rintro ⟨hd, h⟩
        exact (flipped_sites h (flipped_spinFlip s hs d) d hd).mpr rfl
      · rintro rfl
        exact ⟨hi, flipped_spinFlip s hs d⟩
  · rw [drawProb_congr _ _ _ (Finset.range s.length) (fun d => ?_)]
    · simp [spinFlipDraws, hq]
    · simp only [spinFlipDraws, Finset.mem_range, and_iff_left_iff_imp]
      exact fun hd => ⟨d, hd, flipped_spinFlip s hs d⟩

example := c106_spin_flip [1, 0, 0, 1, 1, 0] (by unfold InSpace; decide) (by decide)

theorem flipped_z2 (s : List ℤ) (hs : InSpace 2 s) (i f : ℕ) :
    Flipped (if f = 0 then {i}ᶜ else {i}) s (proposeSpinFlipZ2 i f s) := by
  rw [z2_eq]
  exact flipped_reflect (flipped_spinFlip s hs i) f

/-- On three or more sites a reflection is not a single flip. -/
theorem reflect_ne {n i j : ℕ} (hn : 3 ≤ n) (h : ∀ k < n, k ∈ ({i} : Set ℕ) ↔ k ∈ ({j} : Set ℕ)ᶜ) : False := by
  simp only [Set.mem_singleton_iff, Set.mem_compl_iff] at h
  have h0 := h 0 (by omega)
  have h1 := h 1 (by omega)
  have h2 := h 2 (by omega)
  omega

/-- C106, `propose_spin_flip_Z2`: a site is flipped, every one with the same probability; then the whole
configuration is reflected with probability `1/5` (the claim asks for one in thirty). -/
theorem c106_spin_flip_Z2_partial (s : List ℤ) (hs : InSpace 2 s) (hn : 3 ≤ s.length) :
    (∀ i < s.length, drawProb (z2Draws s.length) (fun d => proposeSpinFlipZ2 d.1 d.2 s) (Flipped {i} s)
      = 4 / 5 * (1 / s.length)) ∧
    (∀ i < s.length, drawProb (z2Draws s.length) (fun d => proposeSpinFlipZ2 d.1 d.2 s) (Flipped {i}ᶜ s)
      = 1 / 5 * (1 / s.length)) ∧
    drawProb (z2Draws s.length) (fun d => proposeSpinFlipZ2 d.1 d.2 s)
      (fun t => ∃ i < s.length, Flipped {i}ᶜ s t) = 1 / 5 ∧
    drawProb (z2Draws s.length) (fun d => proposeSpinFlipZ2 d.1 d.2 s)
      (fun t => ∃ i < s.length, Flipped {i} s t ∨ Flipped {i}ᶜ s t) = 1 := by
  have hq : (s.length : ℚ) ≠ 0 := by
    have : s.length ≠ 0 := by omega
    exact_mod_cast this
  have hW : ((z2Draws s.length).card : ℚ) = s.length * 5 := by simp [z2Draws]
  have hmem : ∀ d : ℕ × ℕ, d ∈ z2Draws s.length ↔ d.1 < s.length ∧ d.2 < 5 := by simp [z2Draws]
  have key : ∀ d : ℕ × ℕ, ∀ i < s.length, d.1 < s.length →
      (Flipped {i} s (proposeSpinFlipZ2 d.1 d.2 s) ↔ d.1 = i ∧ d.2 ≠ 0) ∧
      (Flipped {i}ᶜ s (proposeSpinFlipZ2 d.1 d.2 s) ↔ d.1 = i ∧ d.2 = 0) := by
    rintro ⟨j, f⟩ i hi hj
    have h := flipped_z2 s hs j f
    by_cases hf : f = 0
    · rw [if_pos hf] at h
      refine ⟨⟨fun h1 => ?_, fun h1 => absurd hf h1.2⟩, fun h1 => ⟨?_, hf⟩, fun h1 => h1.1 ▸ h⟩
      · exact (reflect_ne hn (flipped_sites h1 h)).elim
      · have := flipped_sites h1 h i hi
        simp only [Set.mem_compl_iff, Set.mem_singleton_iff, not_true, false_iff, not_not] at this
        exact this.symm
    · rw [if_neg hf] at h
      refine ⟨⟨fun h1 => ⟨?_, hf⟩, fun h1 => h1.1 ▸ h⟩, fun h1 => ?_, fun h1 => absurd h1.2 hf⟩
      · have := flipped_sites h1 h i hi
        simp only [Set.mem_singleton_iff, true_iff] at this
        exact this.symm
      · exact (reflect_ne hn (flipped_sites h h1)).elim
  refine ⟨fun i hi => ?_, fun i hi => ?_, ?_, ?_⟩
  · rw [drawProb_congr _ _ _ ({i} ×ˢ {1, 2, 3, 4}) (fun d => ?_), hW]
    · simp
      field_simp
    · rw [hmem, Finset.mem_product]
      simp only [Finset.mem_singleton, Finset.mem_insert]
      constructor
      · rintro ⟨⟨h1, h2⟩, h3⟩
        have := ((key d i hi h1).1).mp h3
        omega
      · rintro ⟨h1, h2⟩
        have h3 : d.1 < s.length := h1 ▸ hi
        exact ⟨⟨h3, by omega⟩, ((key d i hi h3).1).mpr ⟨h1, by omega⟩⟩
  · rw [drawProb_congr _ _ _ ({i} ×ˢ {0}) (fun d => ?_), hW]
    · simp
    · rw [hmem, Finset.mem_product]
      simp only [Finset.mem_singleton]
      constructor
      · rintro ⟨⟨h1, h2⟩, h3⟩
        exact ((key d i hi h1).2).mp h3
      · rintro ⟨h1, h2⟩
        have h3 : d.1 < s.length := h1 ▸ hi
        exact ⟨⟨h3, by omega⟩, ((key d i hi h3).2).mpr ⟨h1, h2⟩⟩
  · rw [drawProb_congr _ _ _ (Finset.range s.length ×ˢ {0}) (fun d => ?_), hW]
    · simp
      field_simp
    · rw [hmem, Finset.mem_product]
      simp only [Finset.mem_singleton, Finset.mem_range]
      constructor
      · rintro ⟨⟨h1, h2⟩, i, hi, h3⟩
        exact ⟨h1, (((key d i hi h1).2).mp h3).2⟩
      · rintro ⟨h1, h2⟩
        exact ⟨⟨h1, by omega⟩, d.1, h1, ((key d d.1 h1 h1).2).mpr ⟨rfl, h2⟩⟩
  · rw [drawProb_congr _ _ _ (z2Draws s.length) (fun d => ?_), hW]
    · field_simp
    · rw [and_iff_left_iff_imp, hmem]
      rintro ⟨h1, h2⟩
      refine ⟨d.1, h1, ?_⟩
      by_cases hf : d.2 = 0
      · exact Or.inr (((key d d.1 h1 h1).2).mpr ⟨rfl, hf⟩)
      · exact Or.inl (((key d d.1 h1 h1).1).mpr ⟨rfl, hf⟩)

example := c106_spin_flip_Z2_partial [1, 0, 0, 1, 1, 0] (by unfold InSpace; decide) (by decide)

/-- The moves of the zero-magnetisation proposer. -/
theorem zeroMag_move (s : List ℤ) (hs : Balanced s) (d : ℤ × ℤ × ℕ) (hd : d ∈ zeroMagDraws s.length) :
    ∃ i < s.length, ∃ j < s.length, s.getD i 0 = 1 ∧ s.getD j 0 = 0 ∧
      proposeSpinFlipZeroMag d.1 d.2.1 d.2.2 s = globalFlip d.2.2 (swapAt i j s) := by
  obtain ⟨hb, hsum⟩ := (balanced_iff s).mp hs
  have hhalf : (s.length : ℤ) / 2 = s.sum := by omega
  have hhalf' : (s.map fun x => 1 - x).sum = s.sum := by rw [sum_compl]; omega
  obtain ⟨a, b, f⟩ := d
  simp only [zeroMagDraws, Finset.mem_product, Finset.mem_Icc, Finset.mem_range] at hd
  obtain ⟨⟨ha, ha'⟩, ⟨hb1, hb2⟩, hf⟩ := hd
  obtain ⟨i, hi, hi1, hia⟩ := exists_one s hb a ha (by omega)
  obtain ⟨j, hj, hj1, hjb⟩ := exists_one (s.map fun x => 1 - x) hb.compl b hb1 (by omega)
  have hj' : j < s.length := by simpa using hj
  have hj0 : s[j] = 0 := by
    rw [List.getElem_map] at hj1; omega
  refine ⟨i, hi, j, hj', by rw [List.getD_eq_getElem _ _ hi, hi1], by rw [List.getD_eq_getElem _ _ hj', hj0], ?_⟩
  rw [← zeroMag_pos s hb f i j hi hj' hi1 hj0, hia, hjb]

/-- On a number of sites other than four, a reflection is not an exchange of two spins. -/
theorem reflect_ne₂ {n i j i' j' : ℕ} (hi : i < n) (hj : j < n) (hij : i ≠ j) (hi' : i' < n) (hj' : j' < n)
    (hij' : i' ≠ j') (h4 : n ≠ 4)
    (h : ∀ k < n, k ∈ ({i, j} : Set ℕ) ↔ k ∈ ({i', j'} : Set ℕ)ᶜ) : False := by
  have e : ({i, j} : Finset ℕ) = Finset.range n \ {i', j'} := by
    ext k
    rw [Finset.mem_sdiff, Finset.mem_range]
    constructor
    · intro hk
      have hkn : k < n := by
        rcases Finset.mem_insert.mp hk with rfl | h1
        · exact hi
        · rw [Finset.mem_singleton.mp h1]
          exact hj
      refine ⟨hkn, fun h1 => ?_⟩
      have := (h k hkn).mp (by simpa using hk)
      exact this (by simpa using h1)
    · rintro ⟨hkn, h1⟩
      have := (h k hkn).mpr (by simpa using h1)
      simpa using this
  have hc := congrArg Finset.card e
  rw [Finset.card_pair hij, Finset.card_sdiff_of_subset (by
    intro k hk
    rw [Finset.mem_range]
    rcases Finset.mem_insert.mp hk with rfl | h1
    · exact hi'
    · rw [Finset.mem_singleton.mp h1]
      exact hj'), Finset.card_pair hij', Finset.card_range] at hc
  omega

/-- Which pair was exchanged and whether the configuration was reflected can be seen from the result. -/
theorem zeroMag_sites (s : List ℤ) (h4 : s.length ≠ 4) {i j i' j' : ℕ} (hi : i < s.length) (hj : j < s.length)
    (hi' : i' < s.length) (hj' : j' < s.length) (h1 : s.getD i 0 = 1) (h0 : s.getD j 0 = 0)
    (h1' : s.getD i' 0 = 1) (h0' : s.getD j' 0 = 0) (f : ℕ) :
    (Flipped {i, j} s (globalFlip f (swapAt i' j' s)) ↔ i' = i ∧ j' = j ∧ f ≠ 0) ∧
    (Flipped {i, j}ᶜ s (globalFlip f (swapAt i' j' s)) ↔ i' = i ∧ j' = j ∧ f = 0) := by
  have hij : i ≠ j := by
    rintro rfl
    omega
  have hij' : i' ≠ j' := by
    rintro rfl
    omega
  have h := flipped_reflect (flipped_swap s i' j' h1' h0') f
  have hsame : (∀ k < s.length, k ∈ ({i, j} : Set ℕ) ↔ k ∈ ({i', j'} : Set ℕ)) → i' = i ∧ j' = j := by
    intro hk
    have a := (hk i hi).mp (Or.inl rfl)
    have b := (hk j hj).mp (Or.inr rfl)
    have hii : i ≠ j' := by
      rintro rfl
      omega
    have hjj : j ≠ i' := by
      rintro rfl
      omega
    rcases a with a | a
    · rcases b with b | b
      · exact absurd b hjj
      · exact ⟨a.symm, Eq.symm b⟩
    · exact absurd a hii
  by_cases hf : f = 0
  · rw [if_pos hf] at h
    refine ⟨⟨fun h2 => ?_, fun h2 => absurd hf h2.2.2⟩, fun h2 => ?_, ?_⟩
    · exact (reflect_ne₂ hi hj hij hi' hj' hij' h4 (flipped_sites h2 h)).elim
    · obtain ⟨a, b⟩ := hsame fun k hk => not_iff_not.mp (flipped_sites h2 h k hk)
      exact ⟨a, b, hf⟩
    · rintro ⟨rfl, rfl, -⟩
      exact h
  · rw [if_neg hf] at h
    refine ⟨⟨fun h2 => ?_, ?_⟩, fun h2 => ?_, fun h2 => absurd h2.2.2 hf⟩
    · obtain ⟨a, b⟩ := hsame fun k hk => flipped_sites h2 h k hk
      exact ⟨a, b, hf⟩
    · rintro ⟨rfl, rfl, -⟩
      exact h
    · exact (reflect_ne₂ hi' hj' hij' hi hj hij h4 (flipped_sites h h2)).elim

/-- C106, `propose_spin_flip_zeroMag` on balanced configurations: an up spin and a down spin are exchanged,
every pair with the same probability; then the whole configuration is reflected with probability `1/5`. -/
theorem c106_spin_flip_zeroMag_partial (s : List ℤ) (hs : Balanced s) (hn : s ≠ []) (h4 : s.length ≠ 4) :
    (∀ i < s.length, ∀ j < s.length, s.getD i 0 = 1 → s.getD j 0 = 0 →
      drawProb (zeroMagDraws s.length) (fun d => proposeSpinFlipZeroMag d.1 d.2.1 d.2.2 s) (Flipped {i, j} s)
        = 4 / 5 * (1 / (s.length / 2) ^ 2) ∧
      drawProb (zeroMagDraws s.length) (fun d => proposeSpinFlipZeroMag d.1 d.2.1 d.2.2 s) (Flipped {i, j}ᶜ s)
        = 1 / 5 * (1 / (s.length / 2) ^ 2)) ∧
    drawProb (zeroMagDraws s.length) (fun d => proposeSpinFlipZeroMag d.1 d.2.1 d.2.2 s)
      (fun t => ∃ i < s.length, ∃ j < s.length, s.getD i 0 = 1 ∧ s.getD j 0 = 0 ∧ Flipped {i, j}ᶜ s t) = 1 / 5 ∧
    drawProb (zeroMagDraws s.length) (fun d => proposeSpinFlipZeroMag d.1 d.2.1 d.2.2 s)
      (fun t => ∃ i < s.length, ∃ j < s.length, s.getD i 0 = 1 ∧ s.getD j 0 = 0 ∧
        (Flipped {i, j} s t ∨ Flipped {i, j}ᶜ s t)) = 1 := by
  obtain ⟨hb, hsum⟩ := (balanced_iff s).mp hs
  have hpos : 0 < s.length := List.length_pos_iff.mpr hn
  set m : ℕ := s.length / 2 with hm
  have hlen : s.length = 2 * m := by omega
  have hm0 : 0 < m := by omega
  have hq : (m : ℚ) ≠ 0 := by exact_mod_cast hm0.ne'
  have hlq : (s.length : ℚ) / 2 = m := by
    rw [hlen]
    push_cast
    ring
  have hmz : ((s.length : ℤ) / 2).toNat = m := by omega
  have hW : ((zeroMagDraws s.length).card : ℚ) = m ^ 2 * 5 := by
    simp only [zeroMagDraws, Finset.card_product, Int.card_Icc, Finset.card_range]
    rw [show (s.length : ℤ) / 2 + 1 - 1 = (s.length : ℤ) / 2 by ring, hmz]
    push_cast
    ring
  have one : ∀ (D : Set ℕ) (t : List ℤ), Flipped D s t →
      drawProb (zeroMagDraws s.length) (fun d => proposeSpinFlipZeroMag d.1 d.2.1 d.2.2 s) (Flipped D s)
        = ((posMoves s t).card : ℚ) / (m ^ 2 * 5) := by
    intro D t ht
    rw [drawProb_congr _ _ _ ((zeroMagDraws s.length).filter fun d =>
      proposeSpinFlipZeroMag d.1 d.2.1 d.2.2 s = t) (fun d => ?_), card_draws_eq s t hs, hW]
    rw [Finset.mem_filter]
    refine and_congr_right fun _ => ⟨fun h => flipped_unique h ht, fun h => ?_⟩
    rw [h]
    exact ht
  refine ⟨fun i hi j hj h1 h0 => ⟨?_, ?_⟩, ?_, ?_⟩
  · have hF := flipped_swap s i j h1 h0
    have hc : posMoves s (swapAt i j s) = ({i} : Finset ℕ) ×ˢ ({j} : Finset ℕ) ×ˢ ({1, 2, 3, 4} : Finset ℕ) := by
      ext ⟨i', j', f⟩
      rw [mem_posMoves]
      simp only [Finset.mem_product, Finset.mem_singleton, Finset.mem_insert]
      constructor
      · rintro ⟨hi', hj', hf, a, b, c⟩
        rw [← List.getD_eq_getElem _ 0] at a b
        have := ((zeroMag_sites s h4 hi hj hi' hj' h1 h0 a b f).1).mp (by rw [c]; exact hF)
        exact ⟨this.1, this.2.1, by omega⟩
      · rintro ⟨rfl, rfl, hf⟩
        refine ⟨hi, hj, by omega, ?_, ?_, ?_⟩
        · rw [← List.getD_eq_getElem _ 0]; exact h1
        · rw [← List.getD_eq_getElem _ 0]; exact h0
        · unfold globalFlip
          rw [if_neg (by omega)]
    rw [one _ _ hF, hc, hlq]
    simp
    field_simp
  · have hF := flipped_reflect (flipped_swap s i j h1 h0) 0
    rw [if_pos rfl] at hF
    have hc : posMoves s (globalFlip 0 (swapAt i j s)) = ({i} : Finset ℕ) ×ˢ ({j} : Finset ℕ) ×ˢ ({0} : Finset ℕ) := by
      ext ⟨i', j', f⟩
      rw [mem_posMoves]
      simp only [Finset.mem_product, Finset.mem_singleton]
      constructor
      · rintro ⟨hi', hj', hf, a, b, c⟩
        rw [← List.getD_eq_getElem _ 0] at a b
        exact ((zeroMag_sites s h4 hi hj hi' hj' h1 h0 a b f).2).mp (by rw [c]; exact hF)
      · rintro ⟨rfl, rfl, rfl⟩
        refine ⟨hi, hj, by omega, ?_, ?_, rfl⟩
        · rw [← List.getD_eq_getElem _ 0]; exact h1
        · rw [← List.getD_eq_getElem _ 0]; exact h0
    rw [one _ _ hF, hc, hlq]
    simp
  · rw [drawProb_congr _ _ _ (Finset.Icc 1 ((s.length : ℤ) / 2) ×ˢ Finset.Icc 1 ((s.length : ℤ) / 2) ×ˢ ({0} : Finset ℕ))
      (fun d => ?_), hW]
    · simp only [Finset.card_product, Int.card_Icc, Finset.card_singleton]
      rw [show (s.length : ℤ) / 2 + 1 - 1 = (s.length : ℤ) / 2 by ring, hmz]
      push_cast
      field_simp
    · constructor
      · rintro ⟨hd, i, hi, j, hj, h1, h0, hF⟩
        obtain ⟨i', hi', j', hj', h1', h0', he⟩ := zeroMag_move s hs d hd
        rw [he] at hF
        have := ((zeroMag_sites s h4 hi hj hi' hj' h1 h0 h1' h0' d.2.2).2).mp hF
        simp only [zeroMagDraws, Finset.mem_product] at hd ⊢
        exact ⟨hd.1, hd.2.1, Finset.mem_singleton.mpr this.2.2⟩
      · intro hd
        simp only [Finset.mem_product, Finset.mem_singleton] at hd
        have hd' : d ∈ zeroMagDraws s.length := by
          simp only [zeroMagDraws, Finset.mem_product, Finset.mem_range]
          exact ⟨hd.1, hd.2.1, by omega⟩
        obtain ⟨i', hi', j', hj', h1', h0', he⟩ := zeroMag_move s hs d hd'
        refine ⟨hd', i', hi', j', hj', h1', h0', ?_⟩
        rw [he]
        exact ((zeroMag_sites s h4 hi' hj' hi' hj' h1' h0' h1' h0' d.2.2).2).mpr ⟨rfl, rfl, hd.2.2⟩
  · rw [drawProb_congr _ _ _ (zeroMagDraws s.length) (fun d => ?_), hW]
    · field_simp
    · rw [and_iff_left_iff_imp]
      intro hd
      obtain ⟨i, hi, j, hj, h1, h0, he⟩ := zeroMag_move s hs d hd
      refine ⟨i, hi, j, hj, h1, h0, ?_⟩
      rw [he]
      have k := zeroMag_sites s h4 hi hj hi hj h1 h0 h1 h0 d.2.2
      by_cases hf : d.2.2 = 0
      · exact Or.inr (k.2.mpr ⟨rfl, rfl, hf⟩)
      · exact Or.inl (k.1.mpr ⟨rfl, rfl, hf⟩)

example := c106_spin_flip_zeroMag_partial [1, 0, 0, 1, 1, 0] (by unfold Balanced; decide) (by decide) (by decide)

/-- C106 is violated: the comments in the code announce a reflection in one of thirty updates on average;
both proposers reflect in one of five, for every configuration on three (or six) and more sites. -/
theorem c106_rate_violated :
    (∀ s : List ℤ, InSpace 2 s → 3 ≤ s.length →
      drawProb (z2Draws s.length) (fun d => proposeSpinFlipZ2 d.1 d.2 s)
        (fun t => ∃ i < s.length, Flipped {i}ᶜ s t) ≠ 1 / 30) ∧
    (∀ s : List ℤ, Balanced s → 6 ≤ s.length →
      drawProb (zeroMagDraws s.length) (fun d => proposeSpinFlipZeroMag d.1 d.2.1 d.2.2 s)
        (fun t => ∃ i < s.length, ∃ j < s.length, s.getD i 0 = 1 ∧ s.getD j 0 = 0 ∧ Flipped {i, j}ᶜ s t)
          ≠ 1 / 30) := by
  refine ⟨fun s hs hn => ?_, fun s hs hn => ?_⟩
  · rw [(c106_spin_flip_Z2_partial s hs hn).2.2.1]
    norm_num
  · rw [(c106_spin_flip_zeroMag_partial s hs (by rintro rfl; simp at hn) (by omega)).2.1]
    norm_num

/-- Cases for the theorems above. -/
example : InSpace 2 [1, 0, 0, 1, 1, 0] ∧ Balanced [1, 0, 0, 1, 1, 0] ∧
    Flipped {0, 1} [1, 0, 0, 1, 1, 0] [0, 1, 0, 1, 1, 0] ∧ Flipped {2}ᶜ [1, 0, 0] [0, 1, 0] := by
  refine ⟨by unfold InSpace; decide, by unfold Balanced; decide, ?_, ?_⟩
  · have := flipped_swap [1, 0, 0, 1, 1, 0] 0 1 (by decide) (by decide)
    exact this
  · have := flipped_z2 [1, 0, 0] (by unfold InSpace; decide) 2 0
    rw [if_pos rfl] at this
    exact this

end JVMC
