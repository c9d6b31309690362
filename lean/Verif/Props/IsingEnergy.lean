import Verif.Model.SearchEx
import Verif.Props.Ising
import Verif.Props.Spectrum

/-!
# C144 — the reference energy of `examples/ex0`
-/

namespace JVMC

open Spec Matrix

/-! ## The formula -/

theorem isingMomenta_eq (N : ℕ) : isingMomenta N = (List.range N).map fun k : ℕ => (2 * (k : ℝ) - N + 1) * (Real.pi / N) := by
  unfold isingMomenta npArange
  rw [List.map_map, show (((N : ℤ) - 1 + 2 - -((N : ℤ) - 1) + 2 - 1) / 2).toNat = N by omega]
  refine List.map_congr_left fun k _ => ?_
  simp only [Function.comp]
  push_cast
  ring

theorem groundStateEnergyPerSite_eq (g : ℝ) (N : ℕ) : groundStateEnergyPerSite g N =
    -(∑ k ∈ Finset.range N, energySinglePMode g ((2 * (k : ℝ) - N + 1) * (Real.pi / N))) / N := by
  unfold groundStateEnergyPerSite
  rw [isingMomenta_eq, List.map_map, Finset.sum_range, ← List.sum_ofFn, List.ofFn_eq_map,
    ← List.map_coe_finRange_eq_range, List.map_map]
  simp only [Function.comp_def]
  ring

theorem sum_cos_momenta (N : ℕ) (hN : 2 ≤ N) :
    ∑ k ∈ Finset.range N, Real.cos ((2 * (k : ℝ) - N + 1) * (Real.pi / N)) = 0 := by
  have hN0 : (N : ℝ) ≠ 0 := by positivity
  have hs : 0 < Real.sin (Real.pi / N) := by
    apply Real.sin_pos_of_pos_of_lt_pi (by positivity)
    exact div_lt_self Real.pi_pos (by exact_mod_cast (by omega : 1 < N))
  have h : ∑ k ∈ Finset.range N, 2 * Real.sin (Real.pi / N) * Real.cos ((2 * (k : ℝ) - N + 1) * (Real.pi / N))
      = ∑ k ∈ Finset.range N, (Real.sin ((2 * ((k + 1 : ℕ) : ℝ) - N) * (Real.pi / N))
        - Real.sin ((2 * (k : ℝ) - N) * (Real.pi / N))) := by
    refine Finset.sum_congr rfl fun k _ => ?_
    rw [show (2 * ((k + 1 : ℕ) : ℝ) - N) * (Real.pi / N) = (2 * (k : ℝ) - N + 1) * (Real.pi / N) + Real.pi / N by
        push_cast; ring,
      show (2 * (k : ℝ) - N) * (Real.pi / N) = (2 * (k : ℝ) - N + 1) * (Real.pi / N) - Real.pi / N by ring,
      Real.sin_add, Real.sin_sub]
    ring
  rw [Finset.sum_range_sub (fun k : ℕ => Real.sin ((2 * (k : ℝ) - N) * (Real.pi / N))), ← Finset.mul_sum] at h
  rw [show (2 * (N : ℝ) - N) * (Real.pi / N) = Real.pi by field_simp; ring,
    show (2 * ((0 : ℕ) : ℝ) - N) * (Real.pi / N) = -Real.pi by push_cast; field_simp; ring, Real.sin_neg, Real.sin_pi] at h
  have h2 : 2 * Real.sin (Real.pi / N) ≠ 0 := by positivity
  have h3 : (2 * Real.sin (Real.pi / N)) * ∑ k ∈ Finset.range N, Real.cos ((2 * (k : ℝ) - N + 1) * (Real.pi / N)) = 0 := by
    rw [h]; ring
  exact (mul_eq_zero.mp h3).resolve_left h2

theorem energySinglePMode_le (g p : ℝ) : energySinglePMode g p ≤ 1 + |g| := by
  unfold energySinglePMode
  refine Real.sqrt_le_iff.mpr ⟨by positivity, ?_⟩
  have h1 : -(2 * g * Real.cos p) ≤ 2 * |g| := by
    have := abs_mul g (Real.cos p)
    have h2 := Real.abs_cos_le_one p
    have h3 := neg_abs_le (g * Real.cos p)
    nlinarith [abs_nonneg g]
  nlinarith [sq_abs g]

theorem le_energySinglePMode (g p : ℝ) : 1 - g * Real.cos p ≤ energySinglePMode g p := by
  unfold energySinglePMode
  refine Real.le_sqrt_of_sq_le ?_
  nlinarith [sq_nonneg (g * Real.sin p), Real.sin_sq_add_cos_sq p]

theorem le_energySinglePMode' (g p : ℝ) : |g| - SignType.sign g * Real.cos p ≤ energySinglePMode g p := by
  unfold energySinglePMode
  refine Real.le_sqrt_of_sq_le ?_
  have hs : |g| * (SignType.sign g : ℝ) = g := abs_mul_sign g
  have h1 : ((SignType.sign g : SignType) : ℝ) ^ 2 ≤ 1 := by
    rcases lt_trichotomy g 0 with h | h | h
    · simp [sign_neg h]
    · simp [h]
    · simp [sign_pos h]
  have h2 : (SignType.sign g : ℝ) ^ 2 * Real.cos p ^ 2 ≤ 1 := by
    nlinarith [Real.sin_sq_add_cos_sq p, sq_nonneg (Real.sin p), sq_nonneg (Real.cos p)]
  have h3 : (|g| - SignType.sign g * Real.cos p) ^ 2
      = |g| ^ 2 - 2 * (|g| * SignType.sign g) * Real.cos p + (SignType.sign g : ℝ) ^ 2 * Real.cos p ^ 2 := by ring
  rw [h3, hs, sq_abs]
  linarith

/-- The reference energy lies between -1 - |g| and -max(1, |g|). -/
theorem groundStateEnergy_bounds (g : ℝ) (N : ℕ) (hN : 2 ≤ N) :
    -1 - |g| ≤ groundStateEnergyPerSite g N ∧ groundStateEnergyPerSite g N ≤ -max 1 |g| := by
  have hN0 : (0 : ℝ) < N := by positivity
  rw [groundStateEnergyPerSite_eq]
  constructor
  · rw [le_div_iff₀ hN0]
    have := Finset.sum_le_card_nsmul (Finset.range N)
      (fun k : ℕ => energySinglePMode g ((2 * (k : ℝ) - N + 1) * (Real.pi / N))) (1 + |g|) fun k _ => energySinglePMode_le g _
    rw [Finset.card_range, nsmul_eq_mul] at this
    linarith
  · have h1 : (N : ℝ) ≤ ∑ k ∈ Finset.range N, energySinglePMode g ((2 * (k : ℝ) - N + 1) * (Real.pi / N)) := by
      have := Finset.sum_le_sum (s := Finset.range N) fun (k : ℕ) _ =>
        le_energySinglePMode g ((2 * (k : ℝ) - N + 1) * (Real.pi / N))
      rw [Finset.sum_sub_distrib, ← Finset.mul_sum, sum_cos_momenta N hN] at this
      simpa using this
    have h2 : N * |g| ≤ ∑ k ∈ Finset.range N, energySinglePMode g ((2 * (k : ℝ) - N + 1) * (Real.pi / N)) := by
      have := Finset.sum_le_sum (s := Finset.range N) fun (k : ℕ) _ =>
        le_energySinglePMode' g ((2 * (k : ℝ) - N + 1) * (Real.pi / N))
      rw [Finset.sum_sub_distrib, ← Finset.mul_sum, sum_cos_momenta N hN] at this
      simpa using this
    rw [div_le_iff₀ hN0]
    have : (N : ℝ) * max 1 |g| ≤ ∑ k ∈ Finset.range N, energySinglePMode g ((2 * (k : ℝ) - N + 1) * (Real.pi / N)) := by
      rcases max_choice 1 |g| with h | h <;> rw [h]
      · simpa using h1
      · exact h2
    linarith

/-! ## The levels of the chain -/

variable {N : ℕ} [NeZero N]

/-- All spins up: energy -1 per site. -/
theorem ising_up (g : ℝ) (e₀ : ℝ) (h0 : ∀ e v, Level (ising (L := N) (g : ℂ) 0) e v → e₀ ≤ e) : e₀ ≤ -N := by
  have hne : (Pi.single (fun _ => 1) 1 : Config N 2 → ℂ) ≠ 0 := by
    intro h
    have := congrFun h fun _ => 1
    simp at this
  have h := c98_variational (by simpa using c138_hermitian (L := N) g 0) _ hne e₀ h0
  have hfl : ∀ l : Fin N, (Pi.single (fun _ => 1) 1 : Config N 2 → ℂ) (flipSpin (fun _ => 1) l) = 0 := by
    intro l
    rw [Pi.single_eq_of_ne]
    intro h
    have := congrFun h l
    simp [flipSpin] at this
  have he : (Spec.expect (ising (L := N) (g : ℂ) 0) (Pi.single (fun _ => 1) 1)) = -(N : ℂ) := by
    unfold Spec.expect norm2
    rw [Finset.sum_eq_single (fun _ => 1), Finset.sum_eq_single (fun _ => 1)]
    · rw [ising_mulVec]
      simp [hfl, classicalEnergy, spinValue]
    · intro b _ hb
      rw [Pi.single_eq_of_ne hb]; simp
    · simp
    · intro b _ hb
      rw [Pi.single_eq_of_ne hb]; simp
    · simp
  rw [he] at h
  simpa using h

theorem sum_classicalEnergy (hN : 2 ≤ N) : ∑ s : Config N 2, classicalEnergy 0 s = 0 := by
  unfold classicalEnergy
  rw [Finset.sum_comm]
  refine Finset.sum_eq_zero fun l _ => ?_
  have hl : l + 1 ≠ l := by
    intro h
    have h1 : (1 : Fin N) = 0 := by simpa using h
    have := congrArg Fin.val h1
    rw [Fin.val_one', Fin.val_zero, Nat.mod_eq_of_lt (by omega)] at this
    omega
  have hsp : ∀ a : Fin 2, spinValue (1 - a) = -spinValue a := by
    intro a
    fin_cases a <;> simp [spinValue]
  have h := Equiv.sum_comp (flipEquiv (L := N) l) fun s : Config N 2 =>
    (-(spinValue (s l) * spinValue (s (l + 1)) : ℝ) + 0 * spinValue (s l) : ℂ)
  have h2 : ∀ s : Config N 2, (-(spinValue ((flipEquiv l s) l) * spinValue ((flipEquiv l s) (l + 1)) : ℝ)
      + 0 * spinValue ((flipEquiv l s) l) : ℂ) = -(-(spinValue (s l) * spinValue (s (l + 1)) : ℝ) + 0 * spinValue (s l) : ℂ) := by
    intro s
    have e1 : (flipEquiv l s) l = 1 - s l := by simp [flipEquiv, flipSpin]
    have e2 : (flipEquiv l s) (l + 1) = s (l + 1) := by simp [flipEquiv, flipSpin, hl]
    rw [e1, e2, hsp]
    push_cast
    ring
  simp only [h2] at h
  rw [Finset.sum_neg_distrib] at h
  have := self_eq_neg.mp h.symm
  exact this

/-- All spins against the field: energy -|g| per site. -/
theorem ising_field (hN : 2 ≤ N) (g : ℝ) (e₀ : ℝ) (h0 : ∀ e v, Level (ising (L := N) (g : ℂ) 0) e v → e₀ ≤ e) :
    e₀ ≤ -(N * |g|) := by
  obtain ⟨σ, hσ, hg⟩ : ∃ σ : ℝ, (σ = 1 ∨ σ = -1) ∧ g * σ = -|g| := by
    rcases le_total 0 g with h | h
    · exact ⟨-1, .inr rfl, by rw [abs_of_nonneg h]; ring⟩
    · exact ⟨1, .inl rfl, by rw [abs_of_nonpos h]; ring⟩
  have hσ2 : σ * σ = 1 := by rcases hσ with rfl | rfl <;> norm_num
  set ψ : Config N 2 → ℂ := fun s => ∏ l, (if s l = 0 then 1 else (σ : ℂ)) with hψ
  have hns : ∀ s, Complex.normSq (ψ s) = 1 := by
    intro s
    rw [hψ]
    dsimp only
    rw [map_prod]
    refine Finset.prod_eq_one fun l _ => ?_
    split_ifs
    · simp
    · rw [Complex.normSq_ofReal, hσ2]
  have hfl : ∀ s l, ψ (flipSpin s l) = σ * ψ s := by
    intro s l
    rw [hψ]
    dsimp only
    rw [← Finset.mul_prod_erase _ _ (Finset.mem_univ l), ← Finset.mul_prod_erase _ _ (Finset.mem_univ l), ← mul_assoc]
    congr 1
    · simp only [flipSpin, Function.update_self]
      have : (σ : ℂ) * σ = 1 := by exact_mod_cast hσ2
      have h01 : s l = 0 ∨ s l = 1 := by omega
      rcases h01 with h | h <;> simp [h, this]
    · refine Finset.prod_congr rfl fun k hk => ?_
      rw [flipSpin, Function.update_of_ne (Finset.ne_of_mem_erase hk)]
  have hne : ψ ≠ 0 := by
    intro h
    have := hns fun _ => 0
    rw [h] at this
    simp at this
  have h := c98_variational (by simpa using c138_hermitian (L := N) g 0) ψ hne e₀ h0
  have he : Spec.expect (ising (L := N) (g : ℂ) 0) ψ = ((-(N * |g|) : ℝ) : ℂ) := by
    unfold Spec.expect norm2
    have hcard : (Fintype.card (Config N 2) : ℂ) ≠ 0 := by
      exact_mod_cast Fintype.card_ne_zero
    have hterm : ∀ s, (starRingEnd ℂ) (ψ s) * (ising (L := N) (g : ℂ) 0 *ᵥ ψ) s
        = classicalEnergy 0 s + ((-(N * |g|) : ℝ) : ℂ) := by
      intro s
      rw [ising_mulVec]
      simp only [hfl, Finset.sum_const, Finset.card_univ, Fintype.card_fin, nsmul_eq_mul]
      have h1 : (starRingEnd ℂ) (ψ s) * ψ s = 1 := by
        rw [mul_comm, Complex.mul_conj, hns]; simp
      have h2 : (g : ℂ) * σ = ((-|g| : ℝ) : ℂ) := by exact_mod_cast hg
      calc _ = classicalEnergy 0 s * ((starRingEnd ℂ) (ψ s) * ψ s) + N * ((g : ℂ) * σ) * ((starRingEnd ℂ) (ψ s) * ψ s) := by ring
        _ = _ := by rw [h1, h2]; push_cast; ring
    simp only [hterm, hns]
    rw [Finset.sum_add_distrib, sum_classicalEnergy hN]
    simp only [Finset.sum_const, Finset.card_univ, nsmul_eq_mul, zero_add, mul_one]
    push_cast
    rw [mul_div_assoc, mul_comm, div_mul_cancel₀ _ hcard]
  rw [he] at h
  exact_mod_cast h

theorem level_expect {O : Matrix (Config N 2) (Config N 2) ℂ} {e : ℝ} {v : Config N 2 → ℂ} (h : Level O e v) :
    Spec.expect O v = (e : ℂ) := by
  have hZ := norm2_pos_of_ne v h.1
  unfold Spec.expect
  simp only [h.2]
  rw [div_eq_iff (by exact_mod_cast hZ.ne')]
  unfold norm2
  push_cast
  rw [Finset.mul_sum]
  refine Finset.sum_congr rfl fun s _ => ?_
  rw [Complex.normSq_eq_conj_mul_self]
  ring

/-- No level lies below -(1 + |g|) per site. -/
theorem ising_below (g e : ℝ) (v : Config N 2 → ℂ) (h : Level (ising (L := N) (g : ℂ) 0) e v) : -(N * (1 + |g|)) ≤ e := by
  have hb := c138_bound (L := N) (g : ℂ) 0 v
  have he := level_expect h
  rw [he, Complex.norm_real, Complex.norm_real, norm_zero, add_zero, Real.norm_eq_abs, Real.norm_eq_abs] at hb
  exact neg_le_of_abs_le hb

/-- C144: the reference energy of ex0 and the true ground state energy per site differ by at most `min(1, |g|)`, for every chain of
at least two sites; in particular they agree without field. Missing: equality, which holds for the values in the script but not in
general (`c144_reference_violated`). -/
theorem c144_reference_partial (hN : 2 ≤ N) (g e₀ : ℝ) (v : Config N 2 → ℂ) (hv : Level (ising (L := N) (g : ℂ) 0) e₀ v)
    (h0 : ∀ e v, Level (ising (L := N) (g : ℂ) 0) e v → e₀ ≤ e) :
    |groundStateEnergyPerSite g N - e₀ / N| ≤ min 1 |g| := by
  have hN0 : (0 : ℝ) < N := by positivity
  obtain ⟨h1, h2⟩ := groundStateEnergy_bounds g N hN
  have h3 : -(1 + |g|) ≤ e₀ / N := by
    rw [le_div_iff₀ hN0]
    have := ising_below g e₀ v hv
    linarith
  have h4 : e₀ / N ≤ -max 1 |g| := by
    rw [div_le_iff₀ hN0]
    have a := ising_up g e₀ h0
    have b := ising_field hN g e₀ h0
    rcases max_choice 1 |g| with h | h <;> rw [h] <;> linarith
  have h5 : min 1 |g| + max 1 |g| = 1 + |g| := min_add_max 1 |g|
  rw [abs_le]
  constructor <;> linarith

/-- Case: for every chain there is a lowest level. -/
theorem lowest_level (g : ℝ) : ∃ e₀ v, Level (ising (L := N) (g : ℂ) 0) e₀ v ∧
    ∀ e v, Level (ising (L := N) (g : ℂ) 0) e v → e₀ ≤ e := by
  have hO : (ising (L := N) (g : ℂ) 0).IsHermitian := by simpa using c138_hermitian (L := N) g 0
  obtain ⟨k, -, hk⟩ := Finset.exists_min_image Finset.univ hO.eigenvalues Finset.univ_nonempty
  refine ⟨_, _, eigen_level hO k, fun e v h => ?_⟩
  have hZ := norm2_pos_of_ne v h.1
  have he := level_expect h
  rw [expect_levels hO, ← Complex.ofReal_div] at he
  have he' := Complex.ofReal_injective he
  rw [← he', le_div_iff₀ hZ, ← amplitude_norm hO, Finset.mul_sum]
  exact Finset.sum_le_sum fun j hj => mul_le_mul_of_nonneg_right (hk j hj) (Complex.normSq_nonneg _)

/-- Case: the parameters of the script. -/
example : ∃ e₀ v, Level (ising (L := 10) ((-0.7 : ℝ) : ℂ) 0) e₀ v ∧
    |groundStateEnergyPerSite (-0.7) 10 - e₀ / (10 : ℕ)| ≤ min 1 |(-0.7 : ℝ)| := by
  obtain ⟨e₀, v, h1, h2⟩ := lowest_level (N := 10) (-0.7)
  exact ⟨e₀, v, h1, c144_reference_partial (by norm_num) (-0.7) e₀ v h1 h2⟩

/-- The state of three spins with energy -4 in the field 1. -/
noncomputable def triangleState (s : Config 3 2) : ℂ :=
  if (s 0).val + (s 1).val + (s 2).val = 0 then 3
  else if (s 0).val + (s 1).val + (s 2).val = 1 then -1
  else if (s 0).val + (s 1).val + (s 2).val = 2 then 1 else -3

/-- C144 is false of odd chains with a positive field: three sites, field 1, there is a level with energy -4; the reference
energy is -2 √3 in total. -/
theorem c144_reference_violated : Level (ising (L := 3) ((1 : ℝ) : ℂ) 0) (-4) triangleState ∧
    3 * groundStateEnergyPerSite 1 3 = -(2 * √3) ∧ (-4 : ℝ) < 3 * groundStateEnergyPerSite 1 3 := by
  have hval : 3 * groundStateEnergyPerSite 1 3 = -(2 * √3) := by
    rw [groundStateEnergyPerSite_eq]
    simp only [Finset.sum_range_succ, Finset.sum_range_zero, energySinglePMode]
    have e1 : (2 * ((0 : ℕ) : ℝ) - (3 : ℕ) + 1) * (Real.pi / (3 : ℕ)) = -(Real.pi - Real.pi / 3) := by push_cast; ring
    have e2 : (2 * ((1 : ℕ) : ℝ) - (3 : ℕ) + 1) * (Real.pi / (3 : ℕ)) = 0 := by push_cast; ring
    have e3 : (2 * ((2 : ℕ) : ℝ) - (3 : ℕ) + 1) * (Real.pi / (3 : ℕ)) = Real.pi - Real.pi / 3 := by push_cast; ring
    rw [e1, e2, e3, Real.cos_neg, Real.cos_pi_sub, Real.cos_pi_div_three, Real.cos_zero]
    norm_num
    ring
  refine ⟨⟨?_, ?_⟩, hval, ?_⟩
  · intro h
    have := congrFun h fun _ => 0
    simp [triangleState] at this
  · intro s
    rw [ising_mulVec]
    obtain ⟨a, b, c, rfl⟩ : ∃ a b c, s = ![a, b, c] := ⟨s 0, s 1, s 2, by funext i; fin_cases i <;> rfl⟩
    fin_cases a <;> fin_cases b <;> fin_cases c <;>
      simp [Fin.sum_univ_three, classicalEnergy, spinValue, triangleState, flipSpin, Function.update] <;> norm_num
  · rw [hval]
    have : √3 < 2 := by
      rw [Real.sqrt_lt' (by norm_num)]; norm_num
    linarith

end JVMC
