import Mathlib.Data.Finset.Card
import Mathlib.Tactic.NormNum
import Verif.Model.Proposers
import Verif.Spec.Configs
import Verif.Lemmas.Proposers

/-! # Properties C13–C15: update proposals -/

namespace JVMC

/-! ## C13 -/

/-- **C13**, spin flip: spin configurations go to spin configurations of the same size, for every
draw. -/
theorem c13_spin_flip (s : List ℤ) (h : Spec.InSpace 2 s) (idx : ℕ) :
    Spec.InSpace 2 (proposeSpinFlip idx s) ∧ (proposeSpinFlip idx s).length = s.length := by
  refine ⟨?_, by simp [proposeSpinFlip]⟩
  rw [← bin_iff] at *
  exact spinFlip_bin h idx

/-- **C13**, spin flip with global flip. -/
theorem c13_spin_flip_Z2 (s : List ℤ) (h : Spec.InSpace 2 s) (idx doFlip : ℕ) :
    Spec.InSpace 2 (proposeSpinFlipZ2 idx doFlip s) ∧
      (proposeSpinFlipZ2 idx doFlip s).length = s.length := by
  constructor
  · rw [← bin_iff] at *
    exact (spinFlip_bin h idx).globalFlip doFlip
  · unfold proposeSpinFlipZ2 globalFlip; split_ifs <;> simp

/-- **C13**, zero-magnetisation proposer (whether or not the configuration is balanced). -/
theorem c13_spin_flip_zeroMag (s : List ℤ) (h : Spec.InSpace 2 s) (b₁ b₂ : ℤ) (doFlip : ℕ) :
    Spec.InSpace 2 (proposeSpinFlipZeroMag b₁ b₂ doFlip s) ∧
      (proposeSpinFlipZeroMag b₁ b₂ doFlip s).length = s.length := by
  constructor
  · rw [← bin_iff] at *
    exact ((h.set _ (Or.inl rfl)).set _ (Or.inr rfl)).globalFlip doFlip
  · unfold proposeSpinFlipZeroMag globalFlip; dsimp only; split_ifs <;> simp

/-- **C13**, POVM proposer, the part that holds: the proposal is a POVM configuration only if the
drawn increment does not push the outcome beyond 3. (The claim asks for this for every draw.) -/
theorem c13_povm_partial (s : List ℤ) (h : Spec.InSpace 4 s) (d : ℕ × ℤ)
    (hd : d ∈ povmDraws s.length) :
    Spec.InSpace 4 (proposePovmOutcome d.1 d.2 s) ↔ s.getD d.1 0 + d.2 ≤ 3 := by
  obtain ⟨hi, hr⟩ := Finset.mem_product.mp hd
  rw [Finset.mem_range] at hi
  rw [Finset.mem_Ico] at hr
  have hmod : d.2 % 4 = d.2 := by omega
  have hs := h _ (List.getElem_mem hi)
  unfold proposePovmOutcome
  rw [hmod, List.getD_eq_getElem _ _ hi]
  constructor
  · intro h'
    have := h' (s[d.1] + d.2) (List.mem_set hi _)
    omega
  · intro h' x hx
    rcases List.mem_or_eq_of_mem_set hx with hx | rfl
    · exact h x hx
    · omega

example := c13_povm_partial [1, 0, 3] (by unfold Spec.InSpace; decide) (1, 2) (by decide)

/-- **C13 is violated** by `propose_POVM_outcome`: the outcome 3 can become 4 (the modulus binds
to the random increment, not to the sum). -/
theorem c13_povm_violated :
    ∃ d ∈ povmDraws 2, Spec.InSpace 4 [3, 0] ∧ ¬ Spec.InSpace 4 (proposePovmOutcome d.1 d.2 [3, 0]) := by
  refine ⟨(0, 1), by decide, ?_, ?_⟩ <;> unfold Spec.InSpace <;> decide

/-- Non-vacuity: a spin configuration and the three proposals for it. -/
example : Spec.InSpace 2 [1, 0, 0, 1] ∧ proposeSpinFlip 1 [1, 0, 0, 1] = [1, 1, 0, 1] ∧
    proposeSpinFlipZ2 1 0 [1, 0, 0, 1] = [0, 0, 1, 0] ∧
    proposeSpinFlipZeroMag 2 1 3 [1, 0, 0, 1] = [1, 1, 0, 0] := by
  unfold Spec.InSpace; decide

/-! ## C14 -/

/-- **C14**, spin flip: as many draws lead from `s` to `t` as from `t` to `s`. -/
theorem c14_spin_flip (s t : List ℤ) (hs : Spec.InSpace 2 s) (ht : Spec.InSpace 2 t)
    (hlen : s.length = t.length) :
    ((spinFlipDraws s.length).filter fun d => proposeSpinFlip d s = t).card
      = ((spinFlipDraws t.length).filter fun d => proposeSpinFlip d t = s).card := by
  rw [← bin_iff] at hs ht
  rw [hlen]
  congr 1
  apply Finset.filter_congr
  intro d _
  constructor
  · rintro rfl; exact spinFlip_invol hs d
  · rintro rfl; exact spinFlip_invol ht d

example := c14_spin_flip [1, 0, 0] [1, 1, 0] (by unfold Spec.InSpace; decide) (by unfold Spec.InSpace; decide) rfl

/-- **C14**, spin flip with global flip. -/
theorem c14_spin_flip_Z2 (s t : List ℤ) (hs : Spec.InSpace 2 s) (ht : Spec.InSpace 2 t)
    (hlen : s.length = t.length) :
    ((z2Draws s.length).filter fun d => proposeSpinFlipZ2 d.1 d.2 s = t).card
      = ((z2Draws t.length).filter fun d => proposeSpinFlipZ2 d.1 d.2 t = s).card := by
  rw [← bin_iff] at hs ht
  rw [hlen]
  congr 1
  apply Finset.filter_congr
  intro d _
  constructor
  · rintro rfl; exact z2_invol hs _ _
  · rintro rfl; exact z2_invol ht _ _

example := c14_spin_flip_Z2 [1, 0, 0] [0, 0, 1] (by unfold Spec.InSpace; decide) (by unfold Spec.InSpace; decide) rfl

/-- Moves of the zero-magnetisation proposer in terms of positions. -/
def posMoves (s t : List ℤ) : Finset (ℕ × ℕ × ℕ) :=
  (Finset.range s.length ×ˢ Finset.range s.length ×ˢ Finset.range 5).filter fun d =>
    s.getD d.1 0 = 1 ∧ s.getD d.2.1 0 = 0 ∧ globalFlip d.2.2 (swapAt d.1 d.2.1 s) = t

theorem mem_posMoves (s t : List ℤ) (i j f : ℕ) : (i, j, f) ∈ posMoves s t ↔
    ∃ (hi : i < s.length) (hj : j < s.length), f < 5 ∧ s[i] = 1 ∧ s[j] = 0 ∧
      globalFlip f (swapAt i j s) = t := by
  unfold posMoves
  simp only [Finset.mem_filter, Finset.mem_product, Finset.mem_range]
  constructor
  · rintro ⟨⟨hi, hj, hf⟩, h1, h2, h3⟩
    rw [List.getD_eq_getElem _ _ hi] at h1
    rw [List.getD_eq_getElem _ _ hj] at h2
    exact ⟨hi, hj, hf, h1, h2, h3⟩
  · rintro ⟨hi, hj, hf, h1, h2, h3⟩
    rw [List.getD_eq_getElem _ _ hi, List.getD_eq_getElem _ _ hj]
    exact ⟨⟨hi, hj, hf⟩, h1, h2, h3⟩

theorem card_draws_eq (s t : List ℤ) (hs : Spec.Balanced s) :
    ((zeroMagDraws s.length).filter fun d => proposeSpinFlipZeroMag d.1 d.2.1 d.2.2 s = t).card
      = (posMoves s t).card := by
  rw [balanced_iff] at hs
  obtain ⟨hb, hsum⟩ := hs
  have hhalf : (s.length : ℤ) / 2 = s.sum := by omega
  have hhalf' : (s.map fun x => 1 - x).sum = s.sum := by rw [sum_compl]; omega
  symm
  apply Finset.card_bij
    (fun (d : ℕ × ℕ × ℕ) _ =>
      ((s.take d.1).sum + 1, ((s.map fun x => 1 - x).take d.2.1).sum + 1, d.2.2))
  · rintro ⟨i, j, f⟩ h
    obtain ⟨hi, hj, hf, h1, h2, h3⟩ := (mem_posMoves _ _ _ _ _).mp h
    have r1 := rank_le s hb i hi h1
    have r2 := rank_le (s.map fun x => 1 - x) hb.compl j (by simpa using hj) (by simp [h2])
    have n1 := bin_sum_nonneg (hb.take i)
    have n2 := bin_sum_nonneg (hb.compl.take j)
    simp only [Finset.mem_filter, zeroMagDraws, Finset.mem_product, Finset.mem_Icc,
      Finset.mem_range]
    refine ⟨⟨⟨by omega, by omega⟩, ⟨by omega, by omega⟩, hf⟩, ?_⟩
    rw [zeroMag_pos s hb f i j hi hj h1 h2]
    exact h3
  · rintro ⟨i, j, f⟩ h ⟨i', j', f'⟩ h' heq
    obtain ⟨hi, hj, hf, h1, h2, h3⟩ := (mem_posMoves _ _ _ _ _).mp h
    obtain ⟨hi', hj', hf', h1', h2', h3'⟩ := (mem_posMoves _ _ _ _ _).mp h'
    simp only [Prod.mk.injEq] at heq ⊢
    obtain ⟨e1, e2, e3⟩ := heq
    refine ⟨?_, ?_, e3⟩
    · have a := search_one s hb 0 i hi h1
      have b := search_one s hb 0 i' hi' h1'
      rw [zero_add] at a b
      rw [← a, ← b, e1]
    · have a := search_one (s.map fun x => 1 - x) hb.compl 0 j (by simpa using hj) (by simp [h2])
      have b := search_one (s.map fun x => 1 - x) hb.compl 0 j' (by simpa using hj')
        (by simp [h2'])
      rw [zero_add] at a b
      rw [← a, ← b, e2]
  · rintro ⟨a, b, f⟩ h
    simp only [Finset.mem_filter, zeroMagDraws, Finset.mem_product, Finset.mem_Icc,
      Finset.mem_range] at h
    obtain ⟨⟨⟨ha, ha'⟩, ⟨hb1, hb2⟩, hf⟩, hmove⟩ := h
    obtain ⟨i, hi, hi1, hia⟩ := exists_one s hb a ha (by omega)
    obtain ⟨j, hj, hj1, hjb⟩ := exists_one (s.map fun x => 1 - x) hb.compl b hb1 (by omega)
    have hj' : j < s.length := by simpa using hj
    have hj0 : s[j] = 0 := by
      rw [List.getElem_map] at hj1; omega
    refine ⟨(i, j, f), (mem_posMoves _ _ _ _ _).mpr ⟨hi, hj', hf, hi1, hj0, ?_⟩, ?_⟩
    · rw [← zeroMag_pos s hb f i j hi hj' hi1 hj0, hia, hjb]
      exact hmove
    · simp only [hia, hjb]

private theorem posMoves_swap (s t : List ℤ) (i j f : ℕ) (h : (i, j, f) ∈ posMoves s t) :
    (if f = 0 then (i, j, f) else (j, i, f)) ∈ posMoves t s := by
  obtain ⟨hi, hj, hf, h1, h2, h3⟩ := (mem_posMoves _ _ _ _ _).mp h
  have hij : i ≠ j := by
    rintro rfl; rw [h1] at h2; simp at h2
  have hlen : t.length = s.length := by
    rw [← h3]; unfold globalFlip swapAt; split_ifs <;> simp
  subst h3
  split_ifs with hf0
  · subst hf0
    refine (mem_posMoves _ _ _ _ _).mpr ⟨by omega, by omega, hf, ?_, ?_, ?_⟩
    · simp [globalFlip, swapAt, hij.symm]
    · simp [globalFlip, swapAt]
    · simp only [globalFlip, if_true]
      rw [swapAt_compl _ _ _ hij, compl_compl, swapAt_back s i j hi hj h1 h2]
  · refine (mem_posMoves _ _ _ _ _).mpr ⟨by omega, by omega, hf, ?_, ?_, ?_⟩
    · simp [globalFlip, hf0, swapAt]
    · simp [globalFlip, hf0, swapAt, hij.symm]
    · simp only [globalFlip, hf0, if_false]
      exact swapAt_back s i j hi hj h1 h2

/-- **C14**, zero-magnetisation proposer, on balanced configurations. -/
theorem c14_spin_flip_zeroMag (s t : List ℤ) (hs : Spec.Balanced s) (ht : Spec.Balanced t)
    (_hlen : s.length = t.length) :
    ((zeroMagDraws s.length).filter fun d => proposeSpinFlipZeroMag d.1 d.2.1 d.2.2 s = t).card
      = ((zeroMagDraws t.length).filter
          fun d => proposeSpinFlipZeroMag d.1 d.2.1 d.2.2 t = s).card := by
  rw [card_draws_eq s t hs, card_draws_eq t s ht]
  apply Finset.card_nbij' (fun d => if d.2.2 = 0 then (d.1, d.2.1, d.2.2) else (d.2.1, d.1, d.2.2))
    (fun d => if d.2.2 = 0 then (d.1, d.2.1, d.2.2) else (d.2.1, d.1, d.2.2))
  · rintro ⟨i, j, f⟩ h; exact posMoves_swap s t i j f h
  · rintro ⟨i, j, f⟩ h; exact posMoves_swap t s i j f h
  · rintro ⟨i, j, f⟩ _; by_cases hf : f = 0 <;> simp [hf]
  · rintro ⟨i, j, f⟩ _; by_cases hf : f = 0 <;> simp [hf]

/-- **C14 is violated** by `propose_POVM_outcome`: outcome 0 can go to 1 but not back. -/
theorem c14_povm_violated :
    ((povmDraws 1).filter fun d => proposePovmOutcome d.1 d.2 [0] = [1]).card = 1 ∧
    ((povmDraws 1).filter fun d => proposePovmOutcome d.1 d.2 [1] = [0]).card = 0 := by
  decide

/-- **C14**, POVM proposer: no proposal ever decreases an outcome, so no proposal that changes the
configuration can be undone, whatever the system size. -/
theorem c14_povm_never_returns (s t : List ℤ) (hst : s ≠ t) (d d' : ℕ × ℤ)
    (hd : d ∈ povmDraws s.length) (hd' : d' ∈ povmDraws t.length)
    (h : proposePovmOutcome d.1 d.2 s = t) : proposePovmOutcome d'.1 d'.2 t ≠ s := by
  intro h'
  have hsum : ∀ (u : List ℤ) (e : ℕ × ℤ), e ∈ povmDraws u.length →
      (proposePovmOutcome e.1 e.2 u).sum = u.sum + e.2 := by
    intro u e he
    obtain ⟨hi, hr⟩ := Finset.mem_product.mp he
    rw [Finset.mem_range] at hi
    rw [Finset.mem_Ico] at hr
    unfold proposePovmOutcome
    rw [List.sum_set', dif_pos hi, List.getD_eq_getElem _ _ hi]
    omega
  have e1 := hsum s d hd
  have e2 := hsum t d' hd'
  rw [h] at e1
  rw [h'] at e2
  obtain ⟨hi, hr⟩ := Finset.mem_product.mp hd
  obtain ⟨_, hr'⟩ := Finset.mem_product.mp hd'
  rw [Finset.mem_Ico] at hr hr'
  rw [Finset.mem_range] at hi
  have h0 : d.2 = 0 := by omega
  apply hst
  rw [← h, h0]
  unfold proposePovmOutcome
  rw [List.getD_eq_getElem _ _ hi]
  simp

/-- Non-vacuity: two balanced configurations connected by proposals (one draw each way with a given
choice of the global flip; four of the five flip draws do nothing). -/
example : Spec.Balanced [1, 0, 0, 1] ∧ Spec.Balanced [1, 1, 0, 0] ∧
    ((zeroMagDraws 4).filter
      fun d => proposeSpinFlipZeroMag d.1 d.2.1 d.2.2 [1, 0, 0, 1] = [1, 1, 0, 0]).card = 5 := by
  unfold Spec.Balanced
  decide

/-! ## C15 -/

/-- **C15**, one proposal: a balanced configuration is mapped to a balanced configuration of the
same size by every draw. -/
theorem c15_zeroMag_step (s : List ℤ) (hs : Spec.Balanced s) (d : ℤ × ℤ × ℕ)
    (hd : d ∈ zeroMagDraws s.length) :
    Spec.Balanced (proposeSpinFlipZeroMag d.1 d.2.1 d.2.2 s) ∧
      (proposeSpinFlipZeroMag d.1 d.2.1 d.2.2 s).length = s.length := by
  obtain ⟨a, b, f⟩ := d
  rw [balanced_iff] at hs ⊢
  obtain ⟨hb, hsum⟩ := hs
  simp only [zeroMagDraws, Finset.mem_product, Finset.mem_Icc, Finset.mem_range] at hd
  obtain ⟨⟨ha, ha'⟩, ⟨hb1, hb2⟩, hf⟩ := hd
  have hhalf' : (s.map fun x => 1 - x).sum = s.sum := by rw [sum_compl]; omega
  obtain ⟨i, hi, hi1, hia⟩ := exists_one s hb a ha (by omega)
  obtain ⟨j, hj, hj1, hjb⟩ := exists_one (s.map fun x => 1 - x) hb.compl b hb1 (by omega)
  have hj' : j < s.length := by simpa using hj
  have hj0 : s[j] = 0 := by
    rw [List.getElem_map] at hj1; omega
  have hmove := zeroMag_pos s hb f i j hi hj' hi1 hj0
  rw [hia, hjb] at hmove
  simp only
  rw [hmove]
  have hswap := swapAt_sum s i j hi hj' hi1 hj0
  have hbin : Bin (swapAt i j s) := (hb.set _ (Or.inl rfl)).set _ (Or.inr rfl)
  have hl : (swapAt i j s).length = s.length := by simp [swapAt]
  have hl' : (globalFlip f (swapAt i j s)).length = s.length := by
    unfold globalFlip; split_ifs <;> simp [hl]
  refine ⟨⟨hbin.globalFlip f, ?_⟩, hl'⟩
  rw [hl']
  unfold globalFlip
  split_ifs
  · rw [sum_compl, hl, hswap]; omega
  · rw [hswap]; exact hsum

/-- **C15**, any number of proposals: along every sequence of draws the configuration stays
balanced. -/
theorem c15_zeroMag_history (s : List ℤ) (hs : Spec.Balanced s) (draws : List (ℤ × ℤ × ℕ))
    (hd : ∀ d ∈ draws, d ∈ zeroMagDraws s.length) :
    Spec.Balanced (draws.foldl (fun c d => proposeSpinFlipZeroMag d.1 d.2.1 d.2.2 c) s) := by
  induction draws generalizing s with
  | nil => exact hs
  | cons d ds ih =>
    obtain ⟨h1, h2⟩ := c15_zeroMag_step s hs d (hd d (by simp))
    exact ih _ h1 fun d' hd' => by rw [h2]; exact hd d' (by simp [hd'])

/-- Non-vacuity: a balanced four-site configuration and a legal draw. -/
example : Spec.Balanced [1, 0, 0, 1] ∧ ((2, 1, 0) : ℤ × ℤ × ℕ) ∈ zeroMagDraws 4 := by
  unfold Spec.Balanced; decide

end JVMC
