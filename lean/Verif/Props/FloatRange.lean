import Verif.Lemmas.FloatRange
import Verif.Spec.FloatRange
import Verif.Props.ExactSampler
import Verif.Props.MCSampler
import Verif.Props.Nodes
import Mathlib.Analysis.Complex.ExponentialBounds

/-! # C120: the limited range of floating point numbers -/

set_option exponentiation.threshold 2000

namespace JVMC

open Spec

/-- The real parts of the logarithmic amplitudes, as floating point numbers. -/
noncomputable def dblWorld (w : List (List (List ExactEntry))) : List (List (List (Bool × Dbl))) :=
  w.map fun rk => rk.map fun dev => dev.map fun e => (e.1, .fin e.2.re)

/-- The range that is assumed is that of double precision. -/
theorem c120_double :
    IsGreatest {x | IsDouble x} FloatRange.double.big ∧ IsLeast {x | IsDouble x ∧ 0 < x} FloatRange.double.tiny := by
  refine ⟨⟨⟨2 ^ 53 - 1, 971, by norm_num, by norm_num, le_rfl, ?_⟩, ?_⟩, ⟨⟨⟨1, -1074, by norm_num, le_rfl, by norm_num, ?_⟩, ?_⟩, ?_⟩⟩
  · change (2 : ℝ) ^ 1024 - 2 ^ 971 = _
    push_cast
    have : (2 : ℝ) ^ (971 : ℤ) = 2 ^ (971 : ℕ) := by norm_cast
    rw [this]
    norm_num
  · rintro x ⟨m, e, hm, he, he', rfl⟩
    change _ ≤ (2 : ℝ) ^ 1024 - 2 ^ 971
    have h1 : (m : ℝ) ≤ 2 ^ 53 - 1 := by
      have : m ≤ 2 ^ 53 - 1 := by have := le_abs_self m; omega
      exact_mod_cast this
    have h2 : (2 : ℝ) ^ e ≤ 2 ^ (971 : ℤ) := zpow_le_zpow_right₀ (by norm_num) he'
    have h3 : (2 : ℝ) ^ (971 : ℤ) = 2 ^ (971 : ℕ) := by norm_cast
    rw [h3] at h2
    have h4 : (0 : ℝ) < 2 ^ e := by positivity
    calc (m : ℝ) * 2 ^ e ≤ (2 ^ 53 - 1) * 2 ^ e := mul_le_mul_of_nonneg_right h1 h4.le
      _ ≤ (2 ^ 53 - 1) * 2 ^ 971 := mul_le_mul_of_nonneg_left h2 (by norm_num)
      _ = _ := by rw [sub_mul, ← pow_add, one_mul]
  · change 1 / (2 : ℝ) ^ 1074 = _
    rw [zpow_neg]
    push_cast
    rw [one_mul, one_div]
    norm_cast
  · exact FloatRange.double.tiny_pos
  · rintro x ⟨⟨m, e, hm, he, he', rfl⟩, hx⟩
    have h4 : (0 : ℝ) < 2 ^ e := by positivity
    have h1 : (1 : ℝ) ≤ m := by
      have : (0 : ℝ) < m := pos_of_mul_pos_left hx h4.le
      have : 0 < m := by exact_mod_cast this
      exact_mod_cast this
    have h2 : (2 : ℝ) ^ (-1074 : ℤ) ≤ 2 ^ e := zpow_le_zpow_right₀ (by norm_num) he
    change 1 / (2 : ℝ) ^ 1074 ≤ _
    have h3 : (2 : ℝ) ^ (-1074 : ℤ) = 1 / 2 ^ 1074 := by
      rw [zpow_neg, one_div]; norm_cast
    rw [← h3]
    nlinarith

theorem double_log_big : Real.log FloatRange.double.big < 710 := by
  have h : Real.log FloatRange.double.big ≤ Real.log (2 ^ 1024) :=
    Real.log_le_log FloatRange.double.big_pos (by norm_num [FloatRange.double, dblMax])
  rw [Real.log_pow] at h
  have := Real.log_two_lt_d9
  push_cast at h
  linarith

theorem double_log_tiny : -745 < Real.log FloatRange.double.tiny := by
  change _ < Real.log (1 / 2 ^ 1074)
  rw [one_div, Real.log_inv, Real.log_pow]
  have := Real.log_two_lt_d9
  push_cast
  linarith

theorem exp_650 : Real.exp 650 ≤ 2 ^ 975 := by
  have h1 : Real.exp 1 < 2.7182818286 := Real.exp_one_lt_d9
  have h2 : Real.exp 2 ≤ 8 := by
    have : Real.exp 2 = Real.exp 1 ^ 2 := by rw [← Real.exp_nat_mul]; norm_num
    rw [this]
    have := Real.exp_pos 1
    nlinarith
  have : Real.exp 650 = Real.exp 2 ^ 325 := by rw [← Real.exp_nat_mul]; norm_num
  rw [this]
  calc Real.exp 2 ^ 325 ≤ 8 ^ 325 := pow_le_pow_left₀ (Real.exp_pos 2).le h2 325
    _ = 2 ^ 975 := by rw [show (8 : ℝ) = 2 ^ 3 by norm_num, ← pow_mul]

/-- Two configurations and a padding entry, with largest logarithmic amplitude `c`. -/
noncomputable def peakWorld (c : ℝ) : List (List (List ExactEntry)) :=
  [[[(true, (c : ℂ)), (true, ((c - 1 : ℝ) : ℂ)), (false, 7)]]]

theorem keptLogPsi_peak (c : ℝ) : keptLogPsi (peakWorld c) = [(c : ℂ), ((c - 1 : ℝ) : ℂ)] := by
  simp [keptLogPsi, peakWorld, allSamples]

theorem peakWorld_dev (c : ℝ) : ∀ r ∈ peakWorld c, r ≠ [] := by simp [peakWorld]

theorem prob_error (tiny x N Z c K t q : ℝ) (htiny : 0 < tiny) (hK : 1 ≤ K) (hc : 0 < c) (hx : 0 ≤ x) (hxZ : x ≤ Z)
    (hcN : c ≤ N) (hNZ : N ≤ Z) (hZN : Z ≤ N + K * tiny) (ht : t = x ∨ (t = 0 ∧ x < tiny))
    (hq : q = t / N ∨ (q = 0 ∧ t / N < tiny)) : |q - x / Z| ≤ tiny * (1 + K / c) := by
  have hN : 0 < N := lt_of_lt_of_le hc hcN
  have hZ : 0 < Z := lt_of_lt_of_le hN hNZ
  have hKc : 0 ≤ K / c := by positivity
  have h1 : |t / N - x / Z| ≤ tiny * (K / c) := by
    rcases ht with rfl | ⟨rfl, hlt⟩
    · have e : t / N - t / Z = (t / Z) * ((Z - N) / N) := by field_simp
      rw [e, abs_of_nonneg (mul_nonneg (div_nonneg hx hZ.le) (div_nonneg (by linarith) hN.le))]
      calc t / Z * ((Z - N) / N) ≤ 1 * ((Z - N) / N) :=
            mul_le_mul_of_nonneg_right ((div_le_one hZ).2 hxZ) (div_nonneg (by linarith) hN.le)
        _ ≤ (K * tiny) / N := by rw [one_mul]; exact div_le_div_of_nonneg_right (by linarith) hN.le
        _ ≤ (K * tiny) / c := div_le_div_of_nonneg_left (by positivity) hc hcN
        _ = tiny * (K / c) := by ring
    · rw [zero_div, zero_sub, abs_neg, abs_of_nonneg (div_nonneg hx hZ.le)]
      calc x / Z ≤ tiny / Z := div_le_div_of_nonneg_right hlt.le hZ.le
        _ ≤ tiny / c := div_le_div_of_nonneg_left htiny.le hc (hcN.trans hNZ)
        _ = tiny * (1 / c) := by ring
        _ ≤ tiny * (K / c) := mul_le_mul_of_nonneg_left (div_le_div_of_nonneg_right hK hc.le) htiny.le
  rcases hq with rfl | ⟨rfl, hlt⟩
  · calc _ ≤ tiny * (K / c) := h1
      _ ≤ tiny * (1 + K / c) := mul_le_mul_of_nonneg_left (by linarith) htiny.le
  · have ht0 : 0 ≤ t / N := by
      rcases ht with rfl | ⟨rfl, _⟩
      · exact div_nonneg hx hN.le
      · simp
    calc |0 - x / Z| ≤ |0 - t / N| + |t / N - x / Z| := abs_sub_le _ _ _
      _ ≤ tiny + tiny * (K / c) := by
        refine add_le_add ?_ h1
        rw [zero_sub, abs_neg, abs_of_nonneg ht0]
        exact hlt.le
      _ = tiny * (1 + K / c) := by ring

/-- The probabilities `p` returned for the entries `w` are finite and agree with the Born probabilities up to `ε`. -/
def CloseToBorn (f ε : ℝ) (w : List (List (List ExactEntry))) (p : List (List (List Dbl))) : Prop :=
  List.Forall₂ (List.Forall₂ (List.Forall₂ fun (e : ExactEntry) (v : Dbl) => ∃ q, v = .fin q ∧ 0 ≤ q ∧ q ≤ 1 ∧
    |q - if e.1 then bornProb f (keptLogPsi w) e.2 else 0| ≤ ε)) w p

theorem sum_kept (w : List (List (List ExactEntry))) (g : ℂ → ℝ) :
    ((allSamples w).map fun e => if e.1 then g e.2 else 0).sum = ((keptLogPsi w).map g).sum := by
  unfold keptLogPsi
  induction allSamples w with
  | nil => rfl
  | cons e l ih =>
    rw [List.map_cons, List.sum_cons, ih]
    rcases e with ⟨b, z⟩
    cases b <;> simp

theorem forall₂_map_right_of {A B : Type} (P : A → B → Prop) (f : A → B) (l : List A) (h : ∀ a ∈ l, P a (f a)) :
    List.Forall₂ P l (l.map f) := by
  induction l with
  | nil => exact .nil
  | cons a l ih => exact .cons (h a (by simp)) (ih fun b hb => h b (by simp [hb]))

theorem exact_step (R : FloatRange) (f : ℝ) (hf : 0 < f) (hf1 : f ≤ 1) (K : ℕ) (Δ : ℝ)
    (hΔ : 0 ≤ Δ) (hb : K * Real.exp Δ ≤ R.big) (ht : R.tiny ≤ (K * Real.exp Δ)⁻¹) (m ln : ℝ) (h1 : m ≤ ln)
    (h2 : ln ≤ m + f * Real.log K) (w : List (List (List ExactEntry))) (hdev : ∀ r ∈ w, r ≠ []) (m' : ℝ)
    (hm : PeakAt (keptLogPsi w) m') (hd : |m' - m| ≤ f * Δ) (hA : |m'| ≤ R.big / 2)
    (hlen : (keptLogPsi w).length ≤ K) :
    ∃ ln' p, exactSampleF R f (.fin ln) (dblWorld w) = .ok (.fin ln', p) ∧ m' ≤ ln' ∧ ln' ≤ m' + f * Real.log K ∧
      CloseToBorn f (R.tiny * (1 + K ^ 2 * Real.exp Δ)) w p := by
  set l := keptLogPsi w with hl
  obtain ⟨⟨z₀, hz₀, hz₀m⟩, hmax⟩ := hm
  have hlpos : 0 < l.length := List.length_pos_of_mem hz₀
  have hK1 : (1 : ℝ) ≤ K := by exact_mod_cast hlpos.trans_le hlen
  have hKpos : (0 : ℝ) < K := by linarith
  have hbig := R.big_pos
  have hne : w ≠ [] := by
    rintro rfl
    simp [hl, keptLogPsi, allSamples] at hz₀
  obtain ⟨hd1, hd2⟩ := abs_le.1 hd
  set y := (m' - ln) / f with hy
  have hyΔ : y ≤ Δ := by
    rw [hy, div_le_iff₀ hf]
    linarith
  have hyl : -Δ - Real.log K ≤ y := by
    rw [hy, le_div_iff₀ hf]
    linarith
  set c := (K * Real.exp Δ)⁻¹ with hc
  have hcpos : 0 < c := by positivity
  have hcy : c ≤ Real.exp y := by
    rw [hc, mul_inv, ← Real.exp_neg, ← Real.exp_log (inv_pos.2 hKpos), ← Real.exp_add, Real.log_inv]
    exact Real.exp_le_exp.2 (by linarith)
  set t : ℂ → ℝ := fun z => flushExp R ((z.re - ln) / f) with htd
  set N := (l.map t).sum with hN
  have htle : ∀ z ∈ l, t z ≤ Real.exp y := fun z hz => (flushExp_le R _).trans
    (Real.exp_le_exp.2 (div_le_div_of_nonneg_right (by linarith [hmax z hz]) hf.le))
  have ht0 : ∀ z, 0 ≤ t z := fun z => flushExp_nonneg R _
  have htN : ∀ z ∈ l, t z ≤ N := fun z hz => List.single_le_sum (by
    intro x hx
    obtain ⟨z, _, rfl⟩ := List.mem_map.1 hx
    exact ht0 z) _ (List.mem_map.2 ⟨z, hz, rfl⟩)
  have hyN : Real.exp y ≤ N := by
    have : t z₀ = Real.exp y := by
      change flushExp R ((z₀.re - ln) / f) = _
      rw [hz₀m]
      exact flushExp_eq R (ht.trans hcy)
    rw [← this]
    exact htN z₀ hz₀
  have hNpos : 0 < N := lt_of_lt_of_le (Real.exp_pos y) hyN
  have hNle : N ≤ K * Real.exp y := by
    have := List.sum_le_card_nsmul (l.map t) (Real.exp y) (by
      intro x hx
      obtain ⟨z, hz, rfl⟩ := List.mem_map.1 hx
      exact htle z hz)
    rw [List.length_map, nsmul_eq_mul] at this
    exact this.trans (mul_le_mul_of_nonneg_right (by exact_mod_cast hlen) (Real.exp_pos y).le)
  have hNbig : N ≤ R.big := hNle.trans ((mul_le_mul_of_nonneg_left (Real.exp_le_exp.2 hyΔ) hKpos.le).trans hb)
  -- the sum of the code
  set conv : ExactEntry → Dbl := fun e => exactUnnormalisedF R f (.fin ln) (e.1, .fin e.2.re) with hconv
  have hcv : ∀ e, conv e = R.clip (.fin (if e.1 then t e.2 else 0)) := by
    rintro ⟨b, z⟩
    cases b
    · rw [if_neg (by simp), clip_fin R (by simpa using hbig.le)]
      rfl
    · exact exactUnnormalisedF_fin R f hf hf1 ln z.re
  have hsum : worldSumF R ((dblWorld w).map fun rk => rk.map fun dev => dev.map (exactUnnormalisedF R f (.fin ln)))
      = .fin N := by
    have e1 : ((dblWorld w).map fun rk => rk.map fun dev => dev.map (exactUnnormalisedF R f (.fin ln)))
        = w.map fun rk => rk.map fun dev => dev.map conv := by
      unfold dblWorld
      simp only [List.map_map, Function.comp_def, hconv]
    rw [e1, worldSumF_nonneg R conv (fun e => if e.1 then t e.2 else 0) (by
      intro e
      split
      · exact ht0 _
      · exact le_rfl) w (fun e _ => hcv e), sum_kept w t, ← hl, ← hN, clip_fin R (by rwa [abs_of_pos hNpos])]
  have hlogN1 : y ≤ Real.log N := by rw [← Real.log_exp y]; exact Real.log_le_log (Real.exp_pos y) hyN
  have hlogN2 : Real.log N ≤ y + Real.log K := by
    have := Real.log_le_log hNpos hNle
    rwa [Real.log_mul hKpos.ne' (Real.exp_pos y).ne', Real.log_exp, add_comm] at this
  have hlogK : 0 ≤ Real.log K := Real.log_nonneg hK1
  have hΔK : Δ + Real.log K ≤ R.big / 2 := by
    have := (Real.log_le_log (by positivity) hb).trans (log_le_half R.big hbig)
    rwa [Real.log_mul hKpos.ne' (Real.exp_pos Δ).ne', Real.log_exp, add_comm] at this
  have hfy : f * y = m' - ln := by rw [hy]; field_simp
  have hfl1 : m' - ln ≤ f * Real.log N := by rw [← hfy]; exact mul_le_mul_of_nonneg_left hlogN1 hf.le
  have hfl2 : f * Real.log N ≤ m' - ln + f * Real.log K := by
    rw [← hfy, ← mul_add]
    exact mul_le_mul_of_nonneg_left hlogN2 hf.le
  have habsN : |f * Real.log N| ≤ R.big := by
    rw [abs_mul, abs_of_pos hf]
    have : |Real.log N| ≤ Δ + Real.log K := abs_le.2 ⟨by linarith, by linarith⟩
    calc f * |Real.log N| ≤ 1 * |Real.log N| := mul_le_mul_of_nonneg_right hf1 (abs_nonneg _)
      _ ≤ R.big := by linarith
  have hfK : f * Real.log K ≤ Real.log K := by nlinarith
  obtain ⟨hA1, hA2⟩ := abs_le.1 hA
  have hlnabs : |ln + f * Real.log N| ≤ R.big := abs_le.2 ⟨by linarith, by linarith⟩
  refine ⟨ln + f * Real.log N, (dblWorld w).map fun rk => rk.map fun dev => dev.map fun e =>
    R.round ((exactUnnormalisedF R f (.fin ln) e).div (.fin N)), ?_, by linarith, by linarith, ?_⟩
  · rw [exactSampleF_eq R f (.fin ln) (dblWorld w) (by
      intro r hr
      obtain ⟨r', hr', rfl⟩ := List.mem_map.1 hr
      simpa using hdev r' hr') (by simpa [dblWorld] using hne) (.fin N) hsum]
    have : R.clip ((Dbl.fin ln).add (R.clip ((Dbl.fin f).mul (Dbl.fin N).log))) = .fin (ln + f * Real.log N) := by
      simp only [Dbl.log, if_neg hNpos.ne', if_pos hNpos, Dbl.mul]
      rw [clip_fin R habsN]
      simp only [Dbl.add]
      rw [clip_fin R hlnabs]
    rw [this]
  · unfold CloseToBorn dblWorld
    simp only [List.map_map, Function.comp_def]
    refine forall₂_map_right_of _ _ _ fun rk hrk => forall₂_map_right_of _ _ _ fun dev hdev' =>
      forall₂_map_right_of _ _ _ fun e he => ?_
    have hmem : e ∈ allSamples w := List.mem_flatten.2 ⟨dev, List.mem_flatten.2 ⟨rk, hrk, hdev'⟩, he⟩
    change ∃ q, R.round ((conv e).div (.fin N)) = .fin q ∧ _
    have key : ∀ x : ℝ, 0 ≤ x → x ≤ N → ∃ q, R.round ((R.clip (.fin x)).div (.fin N)) = .fin q ∧ 0 ≤ q ∧ q ≤ 1 ∧
        (q = x / N ∨ (q = 0 ∧ x / N < R.tiny)) := by
      intro x hx hxN
      have hq0 : 0 ≤ x / N := div_nonneg hx hNpos.le
      have hq1 : x / N ≤ 1 := (div_le_one hNpos).2 hxN
      rw [clip_fin R (by rw [abs_of_nonneg hx]; linarith)]
      simp only [Dbl.div, Dbl.quotient, if_neg hNpos.ne']
      rcases lt_or_ge (x / N) R.tiny with h | h
      · exact ⟨0, round_small R (by rwa [abs_of_nonneg hq0]), le_rfl, zero_le_one, .inr ⟨rfl, h⟩⟩
      · refine ⟨x / N, ?_, hq0, hq1, .inl rfl⟩
        rw [round_fin R (by rwa [abs_of_nonneg hq0]), clip_fin R (by
          rw [abs_of_nonneg hq0]
          linarith [R.big_gt])]
    rw [hcv]
    rcases e with ⟨b, z⟩
    cases b
    · obtain ⟨q, hq, h0, h1, hor⟩ := key 0 le_rfl hNpos.le
      refine ⟨q, hq, h0, h1, ?_⟩
      have : q = 0 := by
        rcases hor with h | h
        · rw [h, zero_div]
        · exact h.1
      rw [this]
      have := R.tiny_pos
      simp only [Bool.false_eq_true, if_false, sub_zero, abs_zero]
      positivity
    · have hz : z ∈ l := List.mem_map.2 ⟨(true, z), List.mem_filter.2 ⟨hmem, rfl⟩, rfl⟩
      obtain ⟨q, hq, h0, h1, hor⟩ := key (t z) (ht0 z) (htN z hz)
      refine ⟨q, hq, h0, h1, ?_⟩
      set x : ℂ → ℝ := fun z => Real.exp ((z.re - ln) / f) with hx
      set Z := (l.map x).sum with hZ
      have hsc : ∀ z, x z = Real.exp (z.re / f) * Real.exp (-(ln / f)) := by
        intro z
        change Real.exp _ = _
        rw [← Real.exp_add]
        congr 1
        ring
      have hPz : bornProb f l z = x z / Z := by
        have e2 : Z = partitionSum f l * Real.exp (-(ln / f)) := by
          rw [hZ, partitionSum, ← List.sum_map_mul_right]
          congr 1
          exact List.map_congr_left fun z _ => hsc z
        unfold bornProb
        rw [e2, hsc, mul_div_mul_right _ _ (Real.exp_pos _).ne']
      rw [if_pos rfl, hPz]
      have hxZ : x z ≤ Z := List.single_le_sum (by
        intro u hu
        obtain ⟨z, _, rfl⟩ := List.mem_map.1 hu
        exact (Real.exp_pos _).le) _ (List.mem_map.2 ⟨z, hz, rfl⟩)
      have hNZ : N ≤ Z := List.sum_le_sum fun z _ => flushExp_le R _
      have hZN : Z ≤ N + K * R.tiny := by
        have : ∀ l' : List ℂ, (l'.map x).sum ≤ (l'.map t).sum + l'.length * R.tiny := by
          intro l'
          induction l' with
          | nil => simp
          | cons z l' ih =>
            have := le_flushExp R ((z.re - ln) / f)
            simp only [List.map_cons, List.sum_cons, List.length_cons]
            push_cast
            change Real.exp ((z.re - ln) / f) + _ ≤ flushExp R ((z.re - ln) / f) + _ + _
            linarith
        refine (this l).trans ?_
        have := mul_le_mul_of_nonneg_right (show (l.length : ℝ) ≤ K by exact_mod_cast hlen) R.tiny_pos.le
        linarith
      have hte : t z = x z ∨ (t z = 0 ∧ x z < R.tiny) := by
        change flushExp R _ = _ ∨ (flushExp R _ = 0 ∧ Real.exp _ < _)
        unfold flushExp
        split
        · rename_i h; exact .inr ⟨rfl, h⟩
        · exact .inl rfl
      have := prob_error R.tiny (x z) N Z c K (t z) q R.tiny_pos hK1 hcpos (Real.exp_pos _).le hxZ (hcy.trans hyN) hNZ hZN
        hte hor
      refine this.trans (le_of_eq ?_)
      rw [hc]
      field_simp

/-- C120: over a whole history of calls of the exact sampler, all probabilities are finite and those of C10 up to a
negligible error, however large or small the amplitudes become, as long as the largest one changes by at most a factor
`exp(f * Δ)` from call to call. -/
theorem c120_exact_partial (R : FloatRange) (f : ℝ) (hf : 0 < f) (hf1 : f ≤ 1) (K : ℕ) (Δ : ℝ)
    (hΔ : 0 ≤ Δ) (hb : K * Real.exp Δ ≤ R.big) (ht : R.tiny ≤ (K * Real.exp Δ)⁻¹)
    (history : List (List (List (List ExactEntry)))) (hdev : ∀ w ∈ history, ∀ r ∈ w, r ≠ [])
    (hs : SlowHistory (f * Δ) K (R.big / 2) 0 (history.map keptLogPsi)) :
    ∃ ln ps, exactRunF R f (.fin 0) (history.map dblWorld) = .ok (ln, ps) ∧
      List.Forall₂ (CloseToBorn f (R.tiny * (1 + K ^ 2 * Real.exp Δ))) history ps := by
  have main : ∀ (history : List (List (List (List ExactEntry)))) (m ln : ℝ), m ≤ ln → (ln ≤ m + f * Real.log K) →
      (∀ w ∈ history, ∀ r ∈ w, r ≠ []) → SlowHistory (f * Δ) K (R.big / 2) m (history.map keptLogPsi) →
      ∃ ln' ps, exactRunF R f (.fin ln) (history.map dblWorld) = .ok (ln', ps) ∧
        List.Forall₂ (CloseToBorn f (R.tiny * (1 + K ^ 2 * Real.exp Δ))) history ps := by
    intro history
    induction history with
    | nil => exact fun m ln _ _ _ _ => ⟨_, _, rfl, .nil⟩
    | cons w ws ih =>
      intro m ln h1 h2 hdev hs
      obtain ⟨m', hp, hd, hA, hlen, hrest⟩ := hs
      obtain ⟨ln', p, e1, h1', h2', hc⟩ := exact_step R f hf hf1 K Δ hΔ hb ht m ln h1 h2 w (hdev w (by simp)) m' hp hd hA
        hlen
      obtain ⟨ln'', ps, e2, hps⟩ := ih m' ln' h1' h2' (fun w' hw' => hdev w' (by simp [hw'])) hrest
      refine ⟨ln'', p :: ps, ?_, .cons hc hps⟩
      rw [List.map_cons, exactRunF, e1]
      change (exactRunF R f (.fin ln') _ >>= _) = _
      rw [e2]
      rfl
  exact main history 0 0 le_rfl (by
    have : 0 ≤ Real.log K := Real.log_natCast_nonneg K
    have := mul_nonneg hf.le this
    linarith) hdev hs

/-- In double precision: amplitudes that grow by a factor `e^300` from call to call. -/
example : ∃ ln ps, exactRunF .double (1 / 2) (.fin 0) ([peakWorld 0, peakWorld 300, peakWorld 600].map dblWorld)
      = .ok (ln, ps) ∧
    List.Forall₂ (CloseToBorn (1 / 2) (FloatRange.double.tiny * (1 + (2 : ℕ) ^ 2 * Real.exp 650)))
      [peakWorld 0, peakWorld 300, peakWorld 600] ps := by
  have h650 := exp_650
  have hpos := Real.exp_pos 650
  have hpeak : ∀ c : ℝ, PeakAt [(c : ℂ), ((c - 1 : ℝ) : ℂ)] c := by
    intro c
    refine ⟨⟨_, by simp, Complex.ofReal_re c⟩, ?_⟩
    intro z hz
    rcases List.mem_pair.1 hz with rfl | rfl
    · exact (Complex.ofReal_re c).le
    · rw [Complex.ofReal_re]
      linarith
  refine c120_exact_partial .double (1 / 2) (by norm_num) (by norm_num) 2 650 (by norm_num) ?_ ?_ _ (by
    intro w hw
    simp only [List.mem_cons, List.not_mem_nil, or_false] at hw
    rcases hw with rfl | rfl | rfl <;> exact peakWorld_dev _) ?_
  · calc ((2 : ℕ) : ℝ) * Real.exp 650 ≤ 2 * 2 ^ 975 := by push_cast; linarith
      _ ≤ _ := by norm_num [FloatRange.double, dblMax]
  · change 1 / (2 : ℝ) ^ 1074 ≤ _
    rw [one_div]
    apply inv_anti₀ (by positivity)
    calc ((2 : ℕ) : ℝ) * Real.exp 650 ≤ 2 * 2 ^ 975 := by push_cast; linarith
      _ ≤ _ := by norm_num
  · simp only [List.map_cons, List.map_nil, keptLogPsi_peak]
    refine ⟨0, hpeak 0, by norm_num, ?_, by simp, 300, hpeak 300, by norm_num, ?_, by simp, 600, hpeak 600, by norm_num, ?_,
      by simp, trivial⟩ <;> norm_num [FloatRange.double, dblMax]

/-! ## Poisoned samplers -/

/-- The numbers returned for the entries `w` with the property `P` are NaN. -/
def NanWhere (P : ExactEntry → Prop) (w : List (List (List ExactEntry))) (p : List (List (List Dbl))) : Prop :=
  List.Forall₂ (List.Forall₂ (List.Forall₂ fun (e : ExactEntry) (v : Dbl) => P e → v = .nan)) w p

theorem nanWhere_map (P : ExactEntry → Prop) (w : List (List (List ExactEntry))) (g : Bool × Dbl → Dbl)
    (h : ∀ e ∈ allSamples w, P e → g (e.1, .fin e.2.re) = .nan) :
    NanWhere P w ((dblWorld w).map fun rk => rk.map fun dev => dev.map g) := by
  unfold NanWhere dblWorld
  simp only [List.map_map, Function.comp_def]
  exact forall₂_map_right_of _ _ _ fun rk hrk => forall₂_map_right_of _ _ _ fun dev hdev =>
    forall₂_map_right_of _ _ _ fun e he => h e (List.mem_flatten.2 ⟨dev, List.mem_flatten.2 ⟨rk, hrk, hdev⟩, he⟩)

theorem dblWorld_dev {w : List (List (List ExactEntry))} (hdev : ∀ r ∈ w, r ≠ []) : ∀ r ∈ dblWorld w, r ≠ [] := by
  intro r hr
  obtain ⟨r', hr', rfl⟩ := List.mem_map.1 hr
  simpa using hdev r' hr'

theorem dblWorld_ne {w : List (List (List ExactEntry))} (hk : keptLogPsi w ≠ []) : dblWorld w ≠ [] := by
  intro h
  have : w = [] := by simpa [dblWorld] using h
  subst this
  simp [keptLogPsi, allSamples] at hk

theorem kept_exists {w : List (List (List ExactEntry))} (hk : keptLogPsi w ≠ []) : ∃ z, (true, z) ∈ allSamples w := by
  obtain ⟨z, l, h⟩ := List.exists_cons_of_ne_nil hk
  have : z ∈ keptLogPsi w := by rw [h]; simp
  obtain ⟨⟨b, z'⟩, h1, rfl⟩ := List.mem_map.1 this
  obtain ⟨h2, h3⟩ := List.mem_filter.1 h1
  have : b = true := h3
  subst this
  exact ⟨_, h2⟩

theorem allSamples_dblWorld (w : List (List (List ExactEntry))) :
    allSamples (dblWorld w) = (allSamples w).map fun e => (e.1, Dbl.fin e.2.re) := allSamples_map _ w

/-- A sampler whose stored normalisation is NaN stays like this. -/
theorem exact_step_nan (R : FloatRange) (f : ℝ) (w : List (List (List ExactEntry))) (hdev : ∀ r ∈ w, r ≠ [])
    (hk : keptLogPsi w ≠ []) : ∃ p, exactSampleF R f .nan (dblWorld w) = .ok (.nan, p) ∧ NanWhere (fun _ => True) w p := by
  obtain ⟨z, hz⟩ := kept_exists hk
  have hv : ∀ a, exactUnnormalisedF R f .nan (true, .fin a) = .nan := fun a => rfl
  rw [exactSampleF_eq R f .nan (dblWorld w) (dblWorld_dev hdev) (dblWorld_ne hk) .nan (worldSumF_nan R _ (by
    rw [allSamples_map, allSamples_dblWorld, List.map_map]
    exact List.mem_map.2 ⟨_, hz, rfl⟩))]
  refine ⟨_, rfl, nanWhere_map _ _ _ fun a _ _ => ?_⟩
  cases exactUnnormalisedF R f .nan (a.1, .fin a.2.re) <;> rfl

theorem exact_run_nan (R : FloatRange) (f : ℝ) (ws : List (List (List (List ExactEntry))))
    (hdev : ∀ w ∈ ws, ∀ r ∈ w, r ≠ []) (hk : ∀ w ∈ ws, keptLogPsi w ≠ []) :
    ∃ ps, exactRunF R f .nan (ws.map dblWorld) = .ok (.nan, ps) ∧ List.Forall₂ (NanWhere fun _ => True) ws ps := by
  induction ws with
  | nil => exact ⟨[], rfl, .nil⟩
  | cons w ws ih =>
    obtain ⟨p, e1, hp⟩ := exact_step_nan R f w (hdev w (by simp)) (hk w (by simp))
    obtain ⟨ps, e2, hps⟩ := ih (fun w' h => hdev w' (by simp [h])) (fun w' h => hk w' (by simp [h]))
    refine ⟨p :: ps, ?_, .cons hp hps⟩
    rw [List.map_cons, exactRunF, e1]
    change (exactRunF R f .nan _ >>= _) = _
    rw [e2]
    rfl

/-- After an overflow the stored normalisation is infinite: the next call divides zero by zero. -/
theorem exact_step_inf (R : FloatRange) (f : ℝ) (hf : 0 < f) (w : List (List (List ExactEntry)))
    (hdev : ∀ r ∈ w, r ≠ []) (hk : keptLogPsi w ≠ []) :
    ∃ p, exactSampleF R f .inf (dblWorld w) = .ok (.nan, p) ∧ NanWhere (fun _ => True) w p := by
  have hv : ∀ (b : Bool) (a : ℝ), exactUnnormalisedF R f .inf (b, .fin a) = .fin 0 := by
    intro b a
    cases b
    · rfl
    · change R.round (R.clip (Dbl.ninf.div (.fin f))).exp = _
      simp only [Dbl.div, if_neg (not_lt.2 hf.le)]
      exact round_zero R
  have hsum : worldSumF R ((dblWorld w).map fun rk => rk.map fun dev => dev.map (exactUnnormalisedF R f .inf))
      = .fin 0 := by
    unfold dblWorld
    simp only [List.map_map, Function.comp_def, hv]
    rw [worldSumF_nonneg R (fun _ => Dbl.fin 0) (fun _ => 0) (fun _ => le_rfl) w (fun e _ => by
      rw [clip_fin R (by simpa using R.big_pos.le)])]
    simp only [List.map_const', List.sum_replicate, smul_zero]
    rw [clip_fin R (by simpa using R.big_pos.le)]
  rw [exactSampleF_eq R f .inf (dblWorld w) (dblWorld_dev hdev) (dblWorld_ne hk) _ hsum]
  have e : R.clip (Dbl.inf.add (R.clip ((Dbl.fin f).mul (Dbl.fin 0).log))) = .nan := by
    simp only [Dbl.log, if_pos, Dbl.mul, Dbl.infTimes, if_neg hf.ne', if_pos hf, Dbl.neg]
    rfl
  rw [e]
  refine ⟨_, rfl, nanWhere_map _ _ _ fun a _ _ => ?_⟩
  rw [hv]
  simp [Dbl.div, Dbl.quotient, Dbl.infTimes, FloatRange.round]

/-- After an underflow the stored normalisation is minus infinity: the next call divides infinities. -/
theorem exact_step_ninf (R : FloatRange) (f : ℝ) (hf : 0 < f) (w : List (List (List ExactEntry)))
    (hdev : ∀ r ∈ w, r ≠ []) (hk : keptLogPsi w ≠ []) :
    ∃ p, exactSampleF R f .ninf (dblWorld w) = .ok (.nan, p) ∧ NanWhere (fun e => e.1 = true) w p := by
  have hv : ∀ (b : Bool) (a : ℝ), exactUnnormalisedF R f .ninf (b, .fin a) = if b then .inf else .fin 0 := by
    intro b a
    cases b
    · rfl
    · change R.round (R.clip (Dbl.inf.div (.fin f))).exp = _
      simp only [Dbl.div, if_neg (not_lt.2 hf.le)]
      rfl
  obtain ⟨z, hz⟩ := kept_exists hk
  have hb := R.big_pos
  have hsum : worldSumF R ((dblWorld w).map fun rk => rk.map fun dev => dev.map (exactUnnormalisedF R f .ninf))
      = .inf := by
    unfold dblWorld
    simp only [List.map_map, Function.comp_def, hv]
    rw [worldSumF_nonneg R (fun e : ExactEntry => if e.1 then Dbl.inf else .fin 0)
      (fun e => if e.1 then R.big + 1 else 0) (fun e => by split <;> linarith) w (fun e _ => by
        split
        · rw [clip_over R (by linarith)]
        · rw [clip_fin R (by simpa using hb.le)])]
    apply clip_over
    refine lt_of_lt_of_le (by linarith : R.big < R.big + 1) (List.single_le_sum ?_ _ (List.mem_map.2 ⟨_, hz, rfl⟩))
    intro x hx
    obtain ⟨e, _, rfl⟩ := List.mem_map.1 hx
    split <;> linarith
  rw [exactSampleF_eq R f .ninf (dblWorld w) (dblWorld_dev hdev) (dblWorld_ne hk) _ hsum]
  have e : R.clip (Dbl.ninf.add (R.clip ((Dbl.fin f).mul Dbl.inf.log))) = .nan := by
    simp only [Dbl.log, Dbl.mul, Dbl.infTimes, if_neg hf.ne', if_pos hf]
    rfl
  rw [e]
  refine ⟨_, rfl, nanWhere_map _ _ _ fun e _ he => ?_⟩
  rw [hv, if_pos he]
  rfl

/-- C120 fails: if at one call an amplitude is too large (relative to the normalisation of the previous call), then this
call returns NaN for it, and *every* later call returns NaN for all configurations, whatever the wave function is then. -/
theorem c120_overflow_violated (R : FloatRange) (f : ℝ) (hf : 0 < f) (hf1 : f ≤ 1) (ln : ℝ)
    (w : List (List (List ExactEntry))) (ws : List (List (List (List ExactEntry))))
    (hdev : ∀ w' ∈ w :: ws, ∀ r ∈ w', r ≠ []) (hk : ∀ w' ∈ ws, keptLogPsi w' ≠ [])
    (hover : ∃ z ∈ keptLogPsi w, Real.log R.big < (z.re - ln) / f) :
    ∃ ln' p ps, exactRunF R f (.fin ln) ((w :: ws).map dblWorld) = .ok (ln', p :: ps) ∧
      NanWhere (fun e => e.1 = true ∧ Real.log R.big < (e.2.re - ln) / f) w p ∧
      List.Forall₂ (NanWhere fun _ => True) ws ps := by
  obtain ⟨z, hz, hzo⟩ := hover
  have hb := R.big_pos
  have hk0 : keptLogPsi w ≠ [] := List.ne_nil_of_mem hz
  have hcv : ∀ e : ExactEntry, exactUnnormalisedF R f (.fin ln) (e.1, .fin e.2.re)
      = R.clip (.fin (if e.1 then flushExp R ((e.2.re - ln) / f) else 0)) := by
    rintro ⟨b, z⟩
    cases b
    · rw [if_neg (by simp), clip_fin R (by simpa using hb.le)]
      rfl
    · exact exactUnnormalisedF_fin R f hf hf1 ln z.re
  have hbigger : ∀ x, Real.log R.big < x → R.big < flushExp R x := by
    intro x hx
    have := (Real.log_lt_iff_lt_exp hb).1 hx
    rw [flushExp_eq R (by linarith [R.tiny_lt, R.big_gt])]
    exact this
  have hsum : worldSumF R ((dblWorld w).map fun rk => rk.map fun dev => dev.map (exactUnnormalisedF R f (.fin ln)))
      = .inf := by
    unfold dblWorld
    simp only [List.map_map, Function.comp_def]
    rw [worldSumF_nonneg R _ (fun e : ExactEntry => if e.1 then flushExp R ((e.2.re - ln) / f) else 0)
      (fun e => by
        split
        · exact flushExp_nonneg R _
        · exact le_rfl) w (fun e _ => hcv e), sum_kept w fun z => flushExp R ((z.re - ln) / f)]
    apply clip_over
    refine lt_of_lt_of_le (hbigger _ hzo) (List.single_le_sum ?_ _ (List.mem_map.2 ⟨_, hz, rfl⟩))
    intro x hx
    obtain ⟨e, _, rfl⟩ := List.mem_map.1 hx
    exact flushExp_nonneg R _
  have e1 := exactSampleF_eq R f (.fin ln) (dblWorld w) (dblWorld_dev (hdev w (by simp))) (dblWorld_ne hk0) _ hsum
  have e2 : R.clip ((Dbl.fin ln).add (R.clip ((Dbl.fin f).mul Dbl.inf.log))) = .inf := by
    simp only [Dbl.log, Dbl.mul, Dbl.infTimes, if_neg hf.ne', if_pos hf]
    rfl
  rw [e2] at e1
  have hfirst : NanWhere (fun e => e.1 = true ∧ Real.log R.big < (e.2.re - ln) / f) w ((dblWorld w).map fun rk =>
      rk.map fun dev => dev.map fun e => R.round ((exactUnnormalisedF R f (.fin ln) e).div .inf)) := by
    refine nanWhere_map _ _ _ fun e _ he => ?_
    rw [hcv, if_pos he.1, clip_over R (hbigger _ he.2)]
    rfl
  cases ws with
  | nil =>
    refine ⟨.inf, _, [], ?_, hfirst, .nil⟩
    rw [List.map_cons, exactRunF, e1]
    rfl
  | cons w' ws =>
    obtain ⟨p', e3, hp'⟩ := exact_step_inf R f hf w' (hdev w' (by simp)) (hk w' (by simp))
    obtain ⟨ps, e4, hps⟩ := exact_run_nan R f ws (fun w'' h => hdev w'' (by simp [h])) fun w'' h => hk w'' (by simp [h])
    refine ⟨.nan, _, p' :: ps, ?_, hfirst, .cons hp' hps⟩
    rw [List.map_cons, exactRunF, e1]
    change (exactRunF R f .inf _ >>= _) = _
    rw [List.map_cons, exactRunF, e3]
    change ((exactRunF R f .nan _ >>= _) >>= _) = _
    rw [e4]
    rfl

/-- In double precision: amplitudes that grow by a factor `e^400` at once. Then the network returns to its previous state,
but the sampler does not. -/
example : ∃ ln' p ps, exactRunF .double (1 / 2) (.fin 0) ([peakWorld 400, peakWorld 0].map dblWorld) = .ok (ln', p :: ps) ∧
    NanWhere (fun e => e.1 = true ∧ Real.log FloatRange.double.big < (e.2.re - 0) / (1 / 2)) (peakWorld 400) p ∧
    List.Forall₂ (NanWhere fun _ => True) [peakWorld 0] ps :=
  c120_overflow_violated .double (1 / 2) (by norm_num) (by norm_num) 0 (peakWorld 400) [peakWorld 0]
    (by
      intro w hw
      simp only [List.mem_cons, List.not_mem_nil, or_false] at hw
      rcases hw with rfl | rfl <;> exact peakWorld_dev _)
    (by
      intro w hw
      rw [List.mem_singleton] at hw
      subst hw
      rw [keptLogPsi_peak]
      simp)
    ⟨((400 : ℝ) : ℂ), by rw [keptLogPsi_peak]; simp, by
      rw [Complex.ofReal_re]
      linarith [double_log_big]⟩

/-- C120 fails: if at one call all amplitudes are too small, then this call and *every* later call return NaN for all
configurations. -/
theorem c120_underflow_violated (R : FloatRange) (f : ℝ) (hf : 0 < f) (hf1 : f ≤ 1) (ln : ℝ)
    (w : List (List (List ExactEntry))) (ws : List (List (List (List ExactEntry))))
    (hdev : ∀ w' ∈ w :: ws, ∀ r ∈ w', r ≠ []) (hk : ∀ w' ∈ w :: ws, keptLogPsi w' ≠ [])
    (hunder : ∀ z ∈ keptLogPsi w, (z.re - ln) / f < Real.log R.tiny) :
    ∃ ln' p ps, exactRunF R f (.fin ln) ((w :: ws).map dblWorld) = .ok (ln', p :: ps) ∧
      NanWhere (fun _ => True) w p ∧ List.Forall₂ (NanWhere fun e => e.1 = true) ws ps := by
  have hb := R.big_pos
  have hv : ∀ e ∈ allSamples w, exactUnnormalisedF R f (.fin ln) (e.1, .fin e.2.re) = .fin 0 := by
    rintro ⟨b, z⟩ he
    cases b
    · rfl
    · have hz : z ∈ keptLogPsi w := List.mem_map.2 ⟨(true, z), List.mem_filter.2 ⟨he, rfl⟩, rfl⟩
      have := (Real.lt_log_iff_exp_lt R.tiny_pos).1 (hunder z hz)
      change exactUnnormalisedF R f (.fin ln) (true, .fin z.re) = _
      rw [exactUnnormalisedF_fin R f hf hf1 ln z.re, flushExp, if_pos this, clip_fin R (by simpa using hb.le)]
  have hsum : worldSumF R ((dblWorld w).map fun rk => rk.map fun dev => dev.map (exactUnnormalisedF R f (.fin ln)))
      = .fin 0 := by
    unfold dblWorld
    simp only [List.map_map, Function.comp_def]
    rw [worldSumF_nonneg R _ (fun _ => 0) (fun _ => le_rfl) w (fun e he => by
      rw [hv e he, clip_fin R (by simpa using hb.le)])]
    simp only [List.map_const', List.sum_replicate, smul_zero]
    rw [clip_fin R (by simpa using hb.le)]
  have e1 := exactSampleF_eq R f (.fin ln) (dblWorld w) (dblWorld_dev (hdev w (by simp)))
    (dblWorld_ne (hk w (by simp))) _ hsum
  have e2 : R.clip ((Dbl.fin ln).add (R.clip ((Dbl.fin f).mul (Dbl.fin 0).log))) = .ninf := by
    simp only [Dbl.log, if_pos, Dbl.mul, Dbl.infTimes, if_neg hf.ne', if_pos hf, Dbl.neg]
    rfl
  rw [e2] at e1
  have hfirst : NanWhere (fun _ => True) w ((dblWorld w).map fun rk => rk.map fun dev => dev.map fun e =>
      R.round ((exactUnnormalisedF R f (.fin ln) e).div (.fin 0))) := by
    refine nanWhere_map _ _ _ fun e he _ => ?_
    rw [hv e he]
    simp [Dbl.div, Dbl.quotient, Dbl.infTimes, FloatRange.round]
  cases ws with
  | nil =>
    refine ⟨.ninf, _, [], ?_, hfirst, .nil⟩
    rw [List.map_cons, exactRunF, e1]
    rfl
  | cons w' ws =>
    obtain ⟨p', e3, hp'⟩ := exact_step_ninf R f hf w' (hdev w' (by simp)) (hk w' (by simp))
    obtain ⟨ps, e4, hps⟩ := exact_run_nan R f ws (fun w'' h => hdev w'' (by simp [h])) fun w'' h => hk w'' (by simp [h])
    refine ⟨.nan, _, p' :: ps, ?_, hfirst, .cons hp' ?_⟩
    · rw [List.map_cons, exactRunF, e1]
      change (exactRunF R f .ninf _ >>= _) = _
      rw [List.map_cons, exactRunF, e3]
      change ((exactRunF R f .nan _ >>= _) >>= _) = _
      rw [e4]
      rfl
    · exact hps.imp fun w' q h => h.imp fun rk r h => h.imp fun dev d h => h.imp fun e v h _ => h trivial

/-- In double precision: amplitudes that shrink by a factor `e^400` at once. -/
example : ∃ ln' p ps, exactRunF .double (1 / 2) (.fin 0) ([peakWorld (-400), peakWorld 0].map dblWorld)
      = .ok (ln', p :: ps) ∧
    NanWhere (fun _ => True) (peakWorld (-400)) p ∧ List.Forall₂ (NanWhere fun e => e.1 = true) [peakWorld 0] ps :=
  c120_underflow_violated .double (1 / 2) (by norm_num) (by norm_num) 0 (peakWorld (-400)) [peakWorld 0]
    (by
      intro w hw
      simp only [List.mem_cons, List.not_mem_nil, or_false] at hw
      rcases hw with rfl | rfl <;> exact peakWorld_dev _)
    (by
      intro w hw
      simp only [List.mem_cons, List.not_mem_nil, or_false] at hw
      rcases hw with rfl | rfl <;> (rw [keptLogPsi_peak]; simp))
    (by
      intro z hz
      rw [keptLogPsi_peak] at hz
      have := double_log_tiny
      rcases List.mem_pair.1 hz with rfl | rfl <;> (rw [Complex.ofReal_re]; linarith))

theorem forall₂_imp_mem {A B : Type} {P Q : A → B → Prop} {l : List A} {m : List B} (h : List.Forall₂ P l m)
    (hi : ∀ a b, a ∈ l → P a b → Q a b) : List.Forall₂ Q l m := by
  induction h with
  | nil => exact .nil
  | cons hab _ ih => exact .cons (hi _ _ (by simp) hab) (ih fun a b ha => hi a b (by simp [ha]))

/-- The same state with another normalisation: `c` is added to all logarithmic amplitudes. -/
noncomputable def shiftLog (c : ℝ) (w : List (List (List ExactEntry))) : List (List (List ExactEntry)) :=
  w.map fun rk => rk.map fun dev => dev.map fun e => (e.1, e.2 + c)

theorem keptLogPsi_shift (c : ℝ) (w : List (List (List ExactEntry))) :
    keptLogPsi (shiftLog c w) = (keptLogPsi w).map fun z => z + (c : ℂ) := by
  unfold keptLogPsi shiftLog
  rw [allSamples_map, List.filter_map, List.map_map, List.map_map]
  rfl

/-- C120 fails: for every state there is a normalisation of its amplitudes with which all calls of the exact sampler return
NaN, from the second one on whatever the later wave functions are, although its probabilities are the same. -/
theorem c120_normalisation_violated (R : FloatRange) (f : ℝ) (hf : 0 < f) (hf1 : f ≤ 1)
    (w : List (List (List ExactEntry))) (hw : ∀ r ∈ w, r ≠ []) (hkw : keptLogPsi w ≠ []) :
    ∃ c : ℝ, (∀ z, bornProb f (keptLogPsi (shiftLog c w)) (z + c) = bornProb f (keptLogPsi w) z) ∧
      ∀ ws : List (List (List (List ExactEntry))), (∀ w' ∈ ws, ∀ r ∈ w', r ≠ []) → (∀ w' ∈ ws, keptLogPsi w' ≠ []) →
        ∃ ln' p ps, exactRunF R f (.fin 0) ((shiftLog c w :: ws).map dblWorld) = .ok (ln', p :: ps) ∧
          NanWhere (fun e => e.1 = true) (shiftLog c w) p ∧ List.Forall₂ (NanWhere fun _ => True) ws ps := by
  obtain ⟨z₀, hz₀⟩ := kept_exists hkw
  have hz₀' : z₀ ∈ keptLogPsi w := List.mem_map.2 ⟨(true, z₀), List.mem_filter.2 ⟨hz₀, rfl⟩, rfl⟩
  set M := ((keptLogPsi w).map fun z => |z.re|).sum with hM
  have hMle : ∀ z ∈ keptLogPsi w, -M ≤ z.re := fun z hz => by
    have := List.single_le_sum (l := (keptLogPsi w).map fun z => |z.re|) (by
      intro x hx
      obtain ⟨z, _, rfl⟩ := List.mem_map.1 hx
      exact abs_nonneg _) _ (List.mem_map.2 ⟨z, hz, rfl⟩)
    have := neg_abs_le z.re
    linarith
  set c := f * (Real.log R.big + 1) + M with hc
  refine ⟨c, fun z => ?_, fun ws hdev hk => ?_⟩
  · rw [keptLogPsi_shift]
    unfold bornProb partitionSum
    rw [List.map_map]
    have e : ∀ y : ℂ, Real.exp ((y + (c : ℂ)).re / f) = Real.exp (y.re / f) * Real.exp (c / f) := by
      intro y
      rw [Complex.add_re, Complex.ofReal_re, add_div, Real.exp_add]
    simp only [Function.comp_def, e]
    rw [List.sum_map_mul_right, mul_div_mul_right _ _ (Real.exp_pos _).ne']
  · have hover : ∀ z ∈ keptLogPsi (shiftLog c w), Real.log R.big < (z.re - 0) / f := by
      intro z hz
      rw [keptLogPsi_shift] at hz
      obtain ⟨y, hy, rfl⟩ := List.mem_map.1 hz
      have := hMle y hy
      rw [Complex.add_re, Complex.ofReal_re, lt_div_iff₀ hf]
      nlinarith
    have hmem : z₀ + (c : ℂ) ∈ keptLogPsi (shiftLog c w) := by
      rw [keptLogPsi_shift]
      exact List.mem_map.2 ⟨_, hz₀', rfl⟩
    obtain ⟨ln', p, ps, e1, h1, h2⟩ := c120_overflow_violated R f hf hf1 0 (shiftLog c w) ws (by
        intro w' hw' r hr
        rcases List.mem_cons.1 hw' with rfl | hw'
        · obtain ⟨r', hr', rfl⟩ := List.mem_map.1 hr
          simpa using hw r' hr'
        · exact hdev w' hw' r hr) hk ⟨_, hmem, hover _ hmem⟩
    refine ⟨ln', p, ps, e1, ?_, h2⟩
    unfold NanWhere at h1 ⊢
    refine forall₂_imp_mem h1 fun rk r hrk h => forall₂_imp_mem h fun dev d hdev h => forall₂_imp_mem h fun e v he h ht =>
      h ⟨ht, hover e.2 (List.mem_map.2 ⟨e, List.mem_filter.2 ⟨List.mem_flatten.2 ⟨dev, List.mem_flatten.2
        ⟨rk, hrk, hdev⟩, he⟩, ht⟩, rfl⟩)⟩

example : (∀ r ∈ peakWorld 0, r ≠ []) ∧ keptLogPsi (peakWorld 0) ≠ [] :=
  ⟨peakWorld_dev 0, by rw [keptLogPsi_peak]; simp⟩

/-! ## Weights of Markov chain samples -/

/-- The real parts of logarithmic amplitudes, as floating point numbers. -/
def finWorld (w : List (List (List ℝ))) : List (List (List Dbl)) :=
  w.map fun rk => rk.map fun dev => dev.map Dbl.fin

theorem mcmcWeightsF_eq (R : FloatRange) (f mu : ℝ) (w : List (List (List Dbl))) (hdev : ∀ r ∈ w, r ≠ []) (nrm : Dbl)
    (hn : worldSumF R (w.map fun rk => rk.map fun dev => dev.map fun re =>
      R.round (R.clip ((Dbl.fin (1 / f - mu)).mul re)).exp) = nrm) :
    mcmcWeightsF R f mu w = .ok (w.map fun rk => rk.map fun dev => dev.map fun re =>
      R.round ((R.round (R.clip ((Dbl.fin (1 / f - mu)).mul re)).exp).div nrm)) := by
  unfold mcmcWeightsF
  dsimp only
  rw [globalSumF_eq R _ (by
    intro r hr
    obtain ⟨r', hr', rfl⟩ := List.mem_map.1 hr
    simpa using hdev r' hr'), hn]
  change Except.ok _ = _
  congr 1
  rw [List.map_map]
  apply List.ext_getElem
  · simp
  · intro i h1 h2
    simp [List.getElem_zip, Function.comp_def]

/-- C120: with `mu = 1 / logProbFactor`, the default, all weights of a Markov chain sample are equal, however large or small
the amplitudes are. -/
theorem c120_mc_default (R : FloatRange) (f mu : ℝ) (hmu : mu = 1 / f) (w : List (List (List ℝ)))
    (hdev : ∀ r ∈ w, r ≠ []) (hn : (allSamples w).length ≤ R.big) (ht : R.tiny ≤ 1 / (allSamples w).length) :
    mcmcWeightsF R f mu (finWorld w)
      = .ok (w.map fun rk => rk.map fun dev => dev.map fun _ => .fin (1 / (allSamples w).length)) := by
  have hb := R.big_pos
  have hv : ∀ a : ℝ, R.round (R.clip ((Dbl.fin (1 / f - mu)).mul (.fin a))).exp = .fin 1 := by
    intro a
    change R.round (R.clip (.fin ((1 / f - mu) * a))).exp = _
    rw [round_exp_clip, hmu, sub_self, zero_mul, flushExp_eq R (by rw [Real.exp_zero]; exact R.tiny_lt.le), Real.exp_zero,
      clip_fin R (by simpa using R.big_gt.le)]
  have hpos : (0 : ℝ) < (allSamples w).length := by
    rcases Nat.eq_zero_or_pos (allSamples w).length with h | h
    · rw [h] at ht
      have := R.tiny_pos
      simp at ht
      linarith
    · exact_mod_cast h
  rw [mcmcWeightsF_eq R f mu _ (by
    intro r hr
    obtain ⟨r', hr', rfl⟩ := List.mem_map.1 hr
    simpa using hdev r' hr') (.fin (allSamples w).length) (by
      unfold finWorld
      simp only [List.map_map, Function.comp_def, hv]
      rw [worldSumF_nonneg R (fun _ => Dbl.fin 1) (fun _ => 1) (fun _ => zero_le_one) w (fun e _ => by
        rw [clip_fin R (by simpa using R.big_gt.le)])]
      simp only [List.map_const', List.sum_replicate, nsmul_eq_mul, mul_one]
      rw [clip_fin R (by rwa [abs_of_pos hpos])])]
  unfold finWorld
  simp only [List.map_map, Function.comp_def, hv]
  have : R.round ((Dbl.fin 1).div (.fin (allSamples w).length)) = .fin (1 / (allSamples w).length) := by
    simp only [Dbl.div, Dbl.quotient, if_neg hpos.ne']
    have h0 : (0 : ℝ) ≤ 1 / (allSamples w).length := by positivity
    rw [round_fin R (by rwa [abs_of_nonneg h0]), clip_fin R]
    rw [abs_of_nonneg h0]
    have h1 : (1 : ℝ) ≤ (allSamples w).length := by exact_mod_cast hpos
    exact ((div_le_one hpos).2 h1).trans R.big_gt.le
  rw [this]

/-- In double precision: amplitudes `e^900` and `e^-900`, on two devices. -/
example : mcmcWeightsF .double (1 / 2) 2 (finWorld [[[900], [-900]]]) = .ok [[[.fin (1 / 2)], [.fin (1 / 2)]]] := by
  rw [c120_mc_default .double (1 / 2) 2 (by norm_num) _ (by simp)
    (by norm_num [allSamples, FloatRange.double, dblMax]) (by norm_num [allSamples, FloatRange.double])]
  norm_num [allSamples]

/-- C120 fails: with `mu = 1 / logProbFactor`, one sampled configuration with amplitude zero (`-inf`) makes all weights
NaN. -/
theorem c120_mc_zero_violated (R : FloatRange) (f mu : ℝ) (hmu : mu = 1 / f) (w : List (List (List Dbl)))
    (hdev : ∀ r ∈ w, r ≠ []) (hz : Dbl.ninf ∈ allSamples w) :
    mcmcWeightsF R f mu w = .ok (w.map fun rk => rk.map fun dev => dev.map fun _ => .nan) := by
  rw [mcmcWeightsF_eq R f mu w hdev .nan (worldSumF_nan R _ (by
    rw [allSamples_map]
    refine List.mem_map.2 ⟨_, hz, ?_⟩
    simp only [Dbl.mul, Dbl.infTimes, hmu, sub_self, if_pos]
    rfl))]
  have : ∀ x : Dbl, R.round (x.div .nan) = .nan := by intro x; cases x <;> rfl
  simp only [this]

example : mcmcWeightsF .double (1 / 2) 2 [[[.fin 0], [.ninf]]] = .ok [[[.nan], [.nan]]] :=
  c120_mc_zero_violated .double (1 / 2) 2 (by norm_num) _ (by simp) (by simp [allSamples])

/-- C120 fails: with another `mu`, if `exp((1 / logProbFactor - mu) * Re(log ψ))` is too large for one sample, then its
weight is NaN and all samples for which it is not too large have weight zero. -/
theorem c120_mc_overflow_violated (R : FloatRange) (f mu : ℝ) (w : List (List (List ℝ))) (hdev : ∀ r ∈ w, r ≠ [])
    (hover : ∃ a ∈ allSamples w, Real.log R.big < (1 / f - mu) * a) :
    mcmcWeightsF R f mu (finWorld w) = .ok (w.map fun rk => rk.map fun dev => dev.map fun a =>
      open Classical in if Real.log R.big < (1 / f - mu) * a then .nan else .fin 0) := by
  have hb := R.big_pos
  obtain ⟨a₀, ha₀, hov⟩ := hover
  have hv : ∀ a : ℝ, R.round (R.clip ((Dbl.fin (1 / f - mu)).mul (.fin a))).exp
      = R.clip (.fin (flushExp R ((1 / f - mu) * a))) := fun a => round_exp_clip R _
  have hbigger : ∀ x, Real.log R.big < x → R.big < flushExp R x := by
    intro x hx
    have := (Real.log_lt_iff_lt_exp hb).1 hx
    rw [flushExp_eq R (by linarith [R.tiny_lt, R.big_gt])]
    exact this
  have hsmaller : ∀ x, ¬ Real.log R.big < x → flushExp R x ≤ R.big := by
    intro x hx
    refine (flushExp_le R x).trans ?_
    exact (Real.le_log_iff_exp_le hb).1 (not_lt.1 hx)
  rw [mcmcWeightsF_eq R f mu _ (by
    intro r hr
    obtain ⟨r', hr', rfl⟩ := List.mem_map.1 hr
    simpa using hdev r' hr') .inf (by
      unfold finWorld
      simp only [List.map_map, Function.comp_def, hv]
      rw [worldSumF_nonneg R _ (fun a => flushExp R ((1 / f - mu) * a)) (fun a => flushExp_nonneg R _) w (fun e _ => rfl)]
      apply clip_over
      refine lt_of_lt_of_le (hbigger _ hov) (List.single_le_sum ?_ _ (List.mem_map.2 ⟨_, ha₀, rfl⟩))
      intro x hx
      obtain ⟨e, _, rfl⟩ := List.mem_map.1 hx
      exact flushExp_nonneg R _)]
  unfold finWorld
  simp only [List.map_map, Function.comp_def, hv]
  have : ∀ a : ℝ, R.round ((R.clip (.fin (flushExp R ((1 / f - mu) * a)))).div .inf)
      = open Classical in if Real.log R.big < (1 / f - mu) * a then .nan else .fin 0 := by
    intro a
    split
    · rename_i h
      rw [clip_over R (hbigger _ h)]
      rfl
    · rename_i h
      rw [clip_fin R (by rw [abs_of_nonneg (flushExp_nonneg R _)]; exact hsmaller _ h)]
      exact round_zero R
  simp only [this]

example : ∃ a ∈ allSamples [[[(720 : ℝ), 0]]], Real.log FloatRange.double.big < (1 / (1 / 2) - 1) * a :=
  ⟨720, by simp [allSamples], by linarith [double_log_big]⟩

/-- C120: with another `mu`, the weights are those of C19 as long as the logarithms of the amplitudes are of moderate size.
Missing: other ones (`c120_mc_overflow_violated`). -/
theorem c120_mc_partial (R : FloatRange) (f mu Δ : ℝ) (w : List (List (List ℝ))) (hdev : ∀ r ∈ w, r ≠ [])
    (hne : allSamples w ≠ []) (hΔ : ∀ a ∈ allSamples w, |(1 / f - mu) * a| ≤ Δ)
    (hb : (allSamples w).length * Real.exp Δ ≤ R.big)
    (ht : R.tiny ≤ Real.exp (-(2 * Δ)) / (allSamples w).length) :
    mcmcWeightsF R f mu (finWorld w) = .ok (w.map fun rk => rk.map fun dev => dev.map fun a =>
      .fin (Real.exp ((1 / f - mu) * a) / ((allSamples w).map fun a => Real.exp ((1 / f - mu) * a)).sum)) := by
  have hbig := R.big_pos
  set n := (allSamples w).length with hn
  have hn1 : (1 : ℝ) ≤ n := by exact_mod_cast List.length_pos_iff.2 hne
  have hΔ0 : 0 ≤ Δ := by
    obtain ⟨a, l, h⟩ := List.exists_cons_of_ne_nil hne
    exact (abs_nonneg _).trans (hΔ a (by rw [h]; simp))
  have h2 : Real.exp (-(2 * Δ)) / n ≤ Real.exp (-Δ) :=
    (div_le_self (Real.exp_pos _).le hn1).trans (Real.exp_le_exp.2 (by linarith))
  have h3 : Real.exp Δ ≤ n * Real.exp Δ := le_mul_of_one_le_left (Real.exp_pos _).le hn1
  have hle : ∀ a ∈ allSamples w, Real.exp (-Δ) ≤ Real.exp ((1 / f - mu) * a) ∧ Real.exp ((1 / f - mu) * a) ≤ Real.exp Δ :=
    fun a ha => ⟨Real.exp_le_exp.2 (abs_le.1 (hΔ a ha)).1, Real.exp_le_exp.2 (abs_le.1 (hΔ a ha)).2⟩
  have hv : ∀ a ∈ allSamples w, R.round (R.clip ((Dbl.fin (1 / f - mu)).mul (.fin a))).exp
      = .fin (Real.exp ((1 / f - mu) * a)) := by
    intro a ha
    obtain ⟨l1, l2⟩ := hle a ha
    change R.round (R.clip (.fin ((1 / f - mu) * a))).exp = _
    rw [round_exp_clip, flushExp_eq R (by linarith), clip_fin R (by rw [abs_of_pos (Real.exp_pos _)]; linarith)]
  set Z := ((allSamples w).map fun a => Real.exp ((1 / f - mu) * a)).sum with hZ
  have hZle : Z ≤ n * Real.exp Δ := by
    have := List.sum_le_card_nsmul ((allSamples w).map fun a => Real.exp ((1 / f - mu) * a)) (Real.exp Δ) (by
      intro x hx
      obtain ⟨a, ha, rfl⟩ := List.mem_map.1 hx
      exact (hle a ha).2)
    rwa [List.length_map, nsmul_eq_mul] at this
  have hsingle : ∀ a ∈ allSamples w, Real.exp ((1 / f - mu) * a) ≤ Z := fun a ha => List.single_le_sum (by
    intro x hx
    obtain ⟨a, _, rfl⟩ := List.mem_map.1 hx
    exact (Real.exp_pos _).le) _ (List.mem_map.2 ⟨a, ha, rfl⟩)
  have hZpos : 0 < Z := by
    obtain ⟨a, l, h⟩ := List.exists_cons_of_ne_nil hne
    exact lt_of_lt_of_le (Real.exp_pos _) (hsingle a (by rw [h]; simp))
  have hmap : ∀ g : Dbl → Dbl, ((finWorld w).map fun rk => rk.map fun dev => dev.map fun re =>
      g (R.round (R.clip ((Dbl.fin (1 / f - mu)).mul re)).exp))
      = w.map fun rk => rk.map fun dev => dev.map fun a => g (.fin (Real.exp ((1 / f - mu) * a))) := by
    intro g
    unfold finWorld
    simp only [List.map_map, Function.comp_def]
    refine List.map_congr_left fun rk hrk => List.map_congr_left fun dev hd => List.map_congr_left fun a ha => ?_
    rw [hv a (List.mem_flatten.2 ⟨dev, List.mem_flatten.2 ⟨rk, hrk, hd⟩, ha⟩)]
  rw [mcmcWeightsF_eq R f mu _ (by
    intro r hr
    obtain ⟨r', hr', rfl⟩ := List.mem_map.1 hr
    simpa using hdev r' hr') (.fin Z) (by
      have := hmap id
      simp only [id] at this
      rw [this, worldSumF_nonneg R _ (fun a => Real.exp ((1 / f - mu) * a)) (fun a => (Real.exp_pos _).le) w (fun a ha => by
        rw [clip_fin R (by rw [abs_of_pos (Real.exp_pos _)]; linarith [(hle a ha).2])])]
      rw [← hZ, clip_fin R (by rw [abs_of_pos hZpos]; linarith)]), hmap fun x => R.round (x.div (.fin Z))]
  congr 1
  refine List.map_congr_left fun rk hrk => List.map_congr_left fun dev hd => List.map_congr_left fun a ha => ?_
  have ha : a ∈ allSamples w := List.mem_flatten.2 ⟨dev, List.mem_flatten.2 ⟨rk, hrk, hd⟩, ha⟩
  simp only [Dbl.div, Dbl.quotient, if_neg hZpos.ne']
  have h0 : 0 ≤ Real.exp ((1 / f - mu) * a) / Z := by positivity
  have h1 : Real.exp ((1 / f - mu) * a) / Z ≤ 1 := (div_le_one hZpos).2 (hsingle a ha)
  have hlow : Real.exp (-(2 * Δ)) / n ≤ Real.exp ((1 / f - mu) * a) / Z := by
    calc Real.exp (-(2 * Δ)) / n = Real.exp (-Δ) / (n * Real.exp Δ) := by
          rw [show -(2 * Δ) = -Δ + -Δ by ring, Real.exp_add, Real.exp_neg Δ]
          field_simp
      _ ≤ Real.exp ((1 / f - mu) * a) / (n * Real.exp Δ) :=
          div_le_div_of_nonneg_right (hle a ha).1 (by positivity)
      _ ≤ _ := div_le_div_of_nonneg_left (Real.exp_pos _).le hZpos hZle
  rw [round_fin R (by rw [abs_of_nonneg h0]; linarith), clip_fin R (by rw [abs_of_nonneg h0]; linarith [R.big_gt])]

/-- In double precision, `mu = 1`: amplitudes `e^300` and `e^-20`. -/
example : mcmcWeightsF .double (1 / 2) 1 (finWorld [[[300], [-20]]]) = .ok
    [[[.fin (Real.exp ((1 / (1 / 2) - 1) * 300) / (Real.exp ((1 / (1 / 2) - 1) * 300) + Real.exp ((1 / (1 / 2) - 1) * -20)))],
      [.fin (Real.exp ((1 / (1 / 2) - 1) * -20)
        / (Real.exp ((1 / (1 / 2) - 1) * 300) + Real.exp ((1 / (1 / 2) - 1) * -20)))]]] := by
  have h650 := exp_650
  have h1 : Real.exp 300 ≤ Real.exp 650 := Real.exp_le_exp.2 (by norm_num)
  have h2 : Real.exp (-650) ≤ Real.exp (-(2 * 300)) := Real.exp_le_exp.2 (by norm_num)
  have h3 : 1 / 2 ^ 975 ≤ Real.exp (-650) := by
    rw [Real.exp_neg, one_div]
    exact inv_anti₀ (Real.exp_pos _) h650
  rw [c120_mc_partial .double (1 / 2) 1 300 _ (by simp) (by simp [allSamples])
    (by
      intro a ha
      simp only [allSamples, List.flatten_cons, List.flatten_nil, List.append_nil, List.cons_append, List.nil_append,
        List.mem_cons, List.not_mem_nil, or_false] at ha
      rcases ha with rfl | rfl <;> norm_num)
    (by
      calc _ = 2 * Real.exp 300 := by norm_num [allSamples]
        _ ≤ 2 * 2 ^ 975 := by linarith
        _ ≤ _ := by norm_num [FloatRange.double, dblMax])
    (by
      calc FloatRange.double.tiny ≤ (1 / 2 ^ 975) / 2 := by norm_num [FloatRange.double]
        _ ≤ Real.exp (-(2 * 300)) / 2 := div_le_div_of_nonneg_right (h3.trans h2) (by norm_num)
        _ = _ := by norm_num [allSamples])]
  simp [allSamples]

/-! ## Markov chains -/

/-- C120: the decision of a chain is the exact one, however large or small the ratio of the amplitudes is, if the drawn
number is not below the smallest positive number. -/
theorem c120_decision (R : FloatRange) (a b u : ℝ) (hu : R.tiny ≤ u) (hu1 : u ≤ 1) :
    acceptsF R (.fin a) (.fin b) u = decide (u < Real.exp (b - a)) := by
  unfold acceptsF
  change (R.round (R.clip (.fin (b + -a))).exp).above u = _
  rw [← sub_eq_add_neg, round_exp_clip]
  have ht := R.tiny_pos
  rcases lt_or_ge R.big (flushExp R (b - a)) with h | h
  · rw [clip_over R h]
    have := h.trans_le (flushExp_le R _)
    simp only [Dbl.above]
    symm
    rw [decide_eq_true_iff]
    linarith [R.big_gt]
  · rw [clip_fin R (by rw [abs_of_nonneg (flushExp_nonneg R _)]; exact h)]
    simp only [Dbl.above]
    congr 1
    unfold flushExp
    split
    · rename_i h'
      exact propext ⟨fun h => by linarith, fun h => by linarith⟩
    · rfl

/-- C120: a whole run of a chain passes through exactly the configurations of exact arithmetic. -/
theorem c120_metropolis {S : Type} (R : FloatRange) (mu : ℝ) (re : S → ℝ) (hre : ∀ s, |mu * re s| ≤ R.big) (s : S)
    (ds : List ((S → S) × ℝ)) (hu : ∀ d ∈ ds, R.tiny ≤ d.2 ∧ d.2 ≤ 1) :
    (chainRunF R mu (fun s => .fin (re s)) (s, .fin (mu * re s)) ds).1
      = chainRunN mu (fun s => some (re s : ℂ)) s ds := by
  induction ds generalizing s with
  | nil => rfl
  | cons d ds ih =>
    obtain ⟨prop, u⟩ := d
    have ih := fun s => ih s fun d hd => hu d (by simp [hd])
    obtain ⟨h1, h2⟩ := hu (prop, u) (by simp)
    unfold chainRunF chainRunN chainStepF chainStepN
    have e : R.clip ((Dbl.fin mu).mul (.fin (re (prop s)))) = .fin (mu * re (prop s)) := clip_fin R (hre _)
    dsimp only
    rw [e, c120_decision R _ _ u h1 h2]
    have e2 : acceptsN mu (some (re s : ℂ)) (some (re (prop s) : ℂ)) u
        = decide (u < Real.exp (mu * re (prop s) - mu * re s)) := rfl
    rw [e2]
    by_cases h : u < Real.exp (mu * re (prop s) - mu * re s)
    · simp only [h, decide_true, if_true]
      exact ih (prop s)
    · simp only [h, decide_false, Bool.false_eq_true, if_false]
      exact ih s

/-- In double precision: a proposal with a ratio of probabilities `e^2000` is accepted, and one with ratio `e^-2000` is
not. -/
example : (chainRunF .double 2 (fun b : Bool => .fin (if b then 1000 else 0)) (false, .fin (2 * 0))
    [(not, 1 / 2), (not, 1 / 3)]).1 = chainRunN 2 (fun b : Bool => some (((if b then 1000 else 0 : ℝ)) : ℂ)) false
    [(not, 1 / 2), (not, 1 / 3)] :=
  c120_metropolis .double 2 (fun b : Bool => if b then 1000 else 0)
    (by intro s; cases s <;> norm_num [FloatRange.double, dblMax]) false _ (by
      intro d hd
      simp only [List.mem_cons, List.not_mem_nil, or_false] at hd
      rcases hd with rfl | rfl <;> norm_num [FloatRange.double])

/-- C120: a chain never enters a configuration for which the network returns NaN. -/
theorem c120_nan_never {S : Type} (R : FloatRange) (mu : ℝ) (re : S → Dbl) (c : S × Dbl) (hc : re c.1 ≠ .nan)
    (ds : List ((S → S) × ℝ)) : re (chainRunF R mu re c ds).1 ≠ .nan := by
  induction ds generalizing c with
  | nil => exact hc
  | cons d ds ih =>
    obtain ⟨prop, u⟩ := d
    unfold chainRunF
    refine ih _ ?_
    unfold chainStepF
    dsimp only
    split
    · rename_i h
      intro hn
      dsimp only at hn
      rw [hn] at h
      cases c.2 <;> simp [acceptsF, Dbl.mul, FloatRange.clip, FloatRange.round, Dbl.sub, Dbl.neg, Dbl.add, Dbl.exp, Dbl.above] at h
    · exact hc

/-- C120 fails: a chain whose network returns NaN for its configuration never moves again. -/
theorem c120_nan_stuck_violated {S : Type} (R : FloatRange) (mu : ℝ) (re : S → Dbl) (s : S) (ds : List ((S → S) × ℝ)) :
    chainRunF R mu re (s, .nan) ds = (s, .nan) := by
  induction ds with
  | nil => rfl
  | cons d ds ih =>
    obtain ⟨prop, u⟩ := d
    unfold chainRunF
    have : chainStepF R mu re (s, .nan) (prop s, u) = (s, .nan) := by
      unfold chainStepF
      dsimp only
      rw [if_neg]
      generalize R.clip ((Dbl.fin mu).mul (re (prop s))) = x
      cases x <;> simp [acceptsF, FloatRange.clip, FloatRange.round, Dbl.sub, Dbl.neg, Dbl.add, Dbl.exp, Dbl.above]
    rw [this]
    exact ih

/-! ## Averages over symmetries -/

theorem avgSepF_sum (R : FloatRange) (l : List ℝ) :
    R.sum ((l.map Dbl.fin).map fun c => R.round (R.clip ((Dbl.fin 2).mul c)).exp)
      = R.clip (.fin (l.map fun a => flushExp R (2 * a)).sum) := by
  rw [← sum_nonneg_clip R _ (by
    intro x hx
    obtain ⟨a, _, rfl⟩ := List.mem_map.1 hx
    exact flushExp_nonneg R _), List.map_map, List.map_map]
  congr 1
  refine List.map_congr_left fun a _ => ?_
  change R.round (R.clip (.fin (2 * a))).exp = _
  rw [round_exp_clip]
  rfl

/-- C120 fails: `avgFun_Coefficients_Sep` returns `inf` if one amplitude squared is too large, and `-inf` if all are too
small, although the exact result is at most `log(n) / 2` away from the largest logarithm. -/
theorem c120_sep_violated (R : FloatRange) (l : List ℝ) (hl : l ≠ []) :
    ((∃ a ∈ l, Real.log R.big < 2 * a) → avgSepF R (l.map .fin) = .inf) ∧
    ((∀ a ∈ l, 2 * a < Real.log R.tiny) → avgSepF R (l.map .fin) = .ninf) ∧
    ∀ m, (m ∈ l ∧ ∀ a ∈ l, a ≤ m) → ∀ b, (avgSep (l.map fun a : ℝ => (a : ℂ)) b).re ≤ m ∧
      m - Real.log l.length / 2 ≤ (avgSep (l.map fun a : ℝ => (a : ℂ)) b).re := by
  have hb := R.big_pos
  have hn : (0 : ℝ) < l.length := by exact_mod_cast List.length_pos_iff.2 hl
  refine ⟨?_, ?_, ?_⟩
  · rintro ⟨a, ha, hov⟩
    unfold avgSepF
    have : R.big < (l.map fun a => flushExp R (2 * a)).sum := by
      have h1 := (Real.log_lt_iff_lt_exp hb).1 hov
      rw [← flushExp_eq R (by linarith [R.tiny_lt, R.big_gt] : R.tiny ≤ Real.exp (2 * a))] at h1
      refine lt_of_lt_of_le h1 (List.single_le_sum ?_ _ (List.mem_map.2 ⟨a, ha, rfl⟩))
      intro x hx
      obtain ⟨a, _, rfl⟩ := List.mem_map.1 hx
      exact flushExp_nonneg R _
    rw [avgSepF_sum, clip_over R this]
    simp only [Dbl.div, List.length_map, if_neg (not_lt.2 hn.le), FloatRange.round, Dbl.log, Dbl.mul, Dbl.infTimes]
    norm_num
  · intro h
    have : (l.map fun a => flushExp R (2 * a)).sum = 0 := by
      apply List.sum_eq_zero
      intro x hx
      obtain ⟨a, ha, rfl⟩ := List.mem_map.1 hx
      have := (Real.lt_log_iff_exp_lt R.tiny_pos).1 (h a ha)
      simp [flushExp, this]
    unfold avgSepF
    rw [avgSepF_sum, this, clip_fin R (by simpa using hb.le)]
    simp only [Dbl.div, List.length_map, Dbl.quotient, if_neg hn.ne', zero_div]
    rw [round_zero]
    simp only [Dbl.log, if_pos, Dbl.mul, Dbl.infTimes]
    norm_num [Dbl.neg]
  · rintro m ⟨hm, hmax⟩ b
    have hre : (avgSep (l.map fun a : ℝ => (a : ℂ)) b).re
        = 1 / 2 * Real.log ((l.map fun a => Real.exp (2 * a)).sum / l.length) := by
      unfold avgSep
      simp only [List.map_map, Function.comp_def, Complex.ofReal_re, List.length_map]
      rw [Complex.add_re, Complex.mul_re, Complex.mul_re]
      norm_num
    rw [hre]
    set T := (l.map fun a => Real.exp (2 * a)).sum with hT
    have h1 : Real.exp (2 * m) ≤ T := List.single_le_sum (by
      intro x hx
      obtain ⟨a, _, rfl⟩ := List.mem_map.1 hx
      exact (Real.exp_pos _).le) _ (List.mem_map.2 ⟨m, hm, rfl⟩)
    have h2 : T ≤ l.length * Real.exp (2 * m) := by
      have := List.sum_le_card_nsmul (l.map fun a => Real.exp (2 * a)) (Real.exp (2 * m)) (by
        intro x hx
        obtain ⟨a, ha, rfl⟩ := List.mem_map.1 hx
        exact Real.exp_le_exp.2 (by linarith [hmax a ha]))
      rwa [List.length_map, nsmul_eq_mul] at this
    have hTpos : 0 < T := lt_of_lt_of_le (Real.exp_pos _) h1
    have h3 : Real.log (T / l.length) ≤ 2 * m := by
      rw [Real.log_le_iff_le_exp (by positivity), div_le_iff₀ hn, mul_comm]
      exact h2
    have h4 : 2 * m ≤ Real.log T := (Real.le_log_iff_exp_le hTpos).2 h1
    constructor
    · linarith
    · rw [Real.log_div hTpos.ne' hn.ne']
      linarith

/-- In double precision: amplitudes `e^400`, and amplitudes `e^-400`. -/
example : avgSepF .double [.fin 400, .fin 0] = .inf ∧ avgSepF .double [.fin (-400), .fin (-401)] = .ninf :=
  ⟨(c120_sep_violated .double [400, 0] (by simp)).1 ⟨400, by simp, by linarith [double_log_big]⟩,
    (c120_sep_violated .double [-400, -401] (by simp)).2.1 (by
      intro a ha
      have := double_log_tiny
      rcases List.mem_pair.1 ha with rfl | rfl <;> linarith)⟩

/-- C120: `avgFun_Coefficients_Sep` is exact as long as the logarithms are of moderate size. Missing: other ones
(`c120_sep_violated`). -/
theorem c120_sep_partial (R : FloatRange) (l : List ℝ) (hl : l ≠ []) (Δ : ℝ) (hΔ : ∀ a ∈ l, |2 * a| ≤ Δ)
    (hb : l.length * Real.exp Δ ≤ R.big) (ht : R.tiny ≤ Real.exp (-Δ)) (b : List ℂ) :
    avgSepF R (l.map .fin) = .fin (avgSep (l.map fun a : ℝ => (a : ℂ)) b).re := by
  have hbig := R.big_pos
  have hn : (0 : ℝ) < l.length := by exact_mod_cast List.length_pos_iff.2 hl
  have hn1 : (1 : ℝ) ≤ l.length := by exact_mod_cast List.length_pos_iff.2 hl
  have hre : (avgSep (l.map fun a : ℝ => (a : ℂ)) b).re
      = 1 / 2 * Real.log ((l.map fun a => Real.exp (2 * a)).sum / l.length) := by
    unfold avgSep
    simp only [List.map_map, Function.comp_def, Complex.ofReal_re, List.length_map]
    rw [Complex.add_re, Complex.mul_re, Complex.mul_re]
    norm_num
  have hle : ∀ a ∈ l, Real.exp (-Δ) ≤ Real.exp (2 * a) ∧ Real.exp (2 * a) ≤ Real.exp Δ :=
    fun a ha => ⟨Real.exp_le_exp.2 (abs_le.1 (hΔ a ha)).1, Real.exp_le_exp.2 (abs_le.1 (hΔ a ha)).2⟩
  have hs : (l.map fun a => flushExp R (2 * a)) = l.map fun a => Real.exp (2 * a) :=
    List.map_congr_left fun a ha => flushExp_eq R (ht.trans (hle a ha).1)
  set T := (l.map fun a => Real.exp (2 * a)).sum with hT
  have h2 : T ≤ l.length * Real.exp Δ := by
    have := List.sum_le_card_nsmul (l.map fun a => Real.exp (2 * a)) (Real.exp Δ) (by
      intro x hx
      obtain ⟨a, ha, rfl⟩ := List.mem_map.1 hx
      exact (hle a ha).2)
    rwa [List.length_map, nsmul_eq_mul] at this
  have h3 : l.length * Real.exp (-Δ) ≤ T := by
    have := List.card_nsmul_le_sum (l.map fun a => Real.exp (2 * a)) (Real.exp (-Δ)) (by
      intro x hx
      obtain ⟨a, ha, rfl⟩ := List.mem_map.1 hx
      exact (hle a ha).1)
    rwa [List.length_map, nsmul_eq_mul] at this
  have hTpos : 0 < T := lt_of_lt_of_le (by positivity) h3
  have hmean : 0 < T / l.length := by positivity
  have hlow : R.tiny ≤ T / l.length := ht.trans ((le_div_iff₀ hn).2 (by linarith))
  have hup : T / l.length ≤ R.big := (div_le_self hTpos.le hn1).trans (h2.trans hb)
  unfold avgSepF
  rw [avgSepF_sum, hs, ← hT, clip_fin R (by rw [abs_of_pos hTpos]; linarith), hre]
  simp only [Dbl.div, List.length_map, Dbl.quotient, if_neg hn.ne']
  rw [round_fin R (by rw [abs_of_pos hmean]; exact hlow), clip_fin R (by rw [abs_of_pos hmean]; exact hup)]
  simp only [Dbl.log, if_neg hmean.ne', if_pos hmean, Dbl.mul]
  norm_num

example : avgSepF .double [.fin 300, .fin (-1)] = .fin (avgSep [((300 : ℝ) : ℂ), ((-1 : ℝ) : ℂ)] []).re := by
  have h650 := exp_650
  have h1 : 1 / 2 ^ 975 ≤ Real.exp (-650) := by
    rw [Real.exp_neg, one_div]
    exact inv_anti₀ (Real.exp_pos _) h650
  exact c120_sep_partial .double [300, -1] (by simp) 650 (by
    intro a ha
    rcases List.mem_pair.1 ha with rfl | rfl <;> norm_num)
    (by
      calc _ = 2 * Real.exp 650 := by norm_num
        _ ≤ 2 * 2 ^ 975 := by linarith
        _ ≤ _ := by norm_num [FloatRange.double, dblMax])
    (by
      calc FloatRange.double.tiny ≤ 1 / 2 ^ 975 := by norm_num [FloatRange.double]
        _ ≤ _ := h1) []

/-! ## Local estimators -/

/-- C120: local values are finite and exact, in whatever batch, if no ratio of amplitudes is too large, including those of
configurations whose matrix element is zero. Missing: other ones (`c120_padding_violated`). -/
theorem c120_oloc_partial {S : Type} (R : FloatRange) (kernel : S → List (S × ℂ)) (logPsi : S → ℂ) (numOps : ℕ)
    (samples : List S) (hops : ∀ s ∈ samples, (kernel s).length = numOps)
    (hr : ∀ s ∈ samples, ∀ e ∈ kernel s, Real.exp ((logPsi e.1).re - (logPsi s).re) ≤ R.big) :
    oLocOnF R kernel logPsi samples = samples.map fun s => some (((kernel s).filter fun e => isNonzero e.2).map fun e =>
      e.2 * Complex.exp (logPsi e.1 - logPsi s)).sum := by
  obtain ⟨hlen, hrow⟩ := getSPrimes_rows kernel samples numOps hops
  unfold oLocOnF
  apply List.ext_getElem
  · simp [hlen]
  · intro k h1 h2
    simp only [List.length_zipWith, List.length_map] at h1 h2
    rw [List.getElem_zipWith, List.getElem_map]
    obtain ⟨pad, hp, he⟩ := hrow k (by omega) (by omega)
    rw [he]
    have hmem := List.getElem_mem h2
    unfold oLocRowF
    rw [mapM_some_eq _ (fun e => e.2 * Complex.exp (logPsi e.1 - logPsi samples[k]))]
    · rw [Option.map_some, List.map_append, List.sum_append, List.sum_eq_zero (l := pad.map _), add_zero]
      intro x hx
      obtain ⟨e, h, rfl⟩ := List.mem_map.1 hx
      rw [(hp e h).1, zero_mul]
    · intro e he
      have : Real.exp ((logPsi e.1).re - (logPsi samples[k]).re) ≤ R.big := by
        rcases List.mem_append.1 he with h | h
        · exact hr _ hmem e (List.mem_filter.1 h).1
        · obtain ⟨e', he', h'⟩ := List.mem_map.1 (hp e h).2
          rw [← h']
          exact hr _ hmem e' he'
      rw [ratioF, if_neg (not_lt.2 this)]
      rfl

/-- The same operator as below with amplitudes `1` and `e^600`, together in one batch. -/
example : ∀ s ∈ [false, true], ∀ e ∈ (if s then [(true, (1 : ℂ)), (false, 1)] else [(false, 1), (true, 0)]),
    Real.exp (((if e.1 then 600 else 0 : ℝ) : ℂ).re - ((if s then 600 else 0 : ℝ) : ℂ).re) ≤ FloatRange.double.big := by
  have h650 := exp_650
  have hle : ∀ x : ℝ, x ≤ 650 → Real.exp x ≤ FloatRange.double.big := fun x hx =>
    (Real.exp_le_exp.2 hx).trans (h650.trans (by norm_num [FloatRange.double, dblMax]))
  intro s _ e he
  refine hle _ ?_
  rw [Complex.ofReal_re, Complex.ofReal_re]
  split <;> split <;> norm_num

theorem getSPrimes_alone {S : Type} (kernel : S → List (S × ℂ)) (s : S) (numOps : ℕ) (hops : (kernel s).length = numOps) :
    getSPrimes kernel [s] = [(kernel s).filter fun e => isNonzero e.2] := by
  obtain ⟨_, hrow⟩ := getSPrimes_rows kernel [s] numOps (by simpa using hops)
  obtain ⟨pad, _, he⟩ := hrow 0 (by simp) (by simp [getSPrimes])
  simp only [List.getElem_cons_zero] at he
  have hl : ((getSPrimes kernel [s])[0]'(by simp [getSPrimes])).length
      ≤ ((kernel s).filter fun e => isNonzero e.2).length := by
    simp only [getSPrimes, List.map_cons, List.map_nil, List.foldl_cons, List.foldl_nil, List.zipWith_cons_cons,
      List.zipWith_nil_right, List.getElem_cons_zero, List.length_zip]
    refine (min_le_left _ _).trans ?_
    simp only [gatherIdx]
    refine (List.length_filterMap_le _ _).trans ((List.length_take_le _ _).trans ?_)
    rw [findNonzero_eq]
    simp [nzPos_length]
  rw [he, List.length_append] at hl
  have hp : pad = [] := List.length_eq_zero_iff.1 (by omega)
  rw [hp, List.append_nil] at he
  have h1 : (getSPrimes kernel [s]).length = 1 := by simp [getSPrimes]
  obtain ⟨r, hr⟩ := List.length_eq_one_iff.1 h1
  simp only [hr, List.getElem_cons_zero] at he ⊢
  rw [he]

/-- C120 fails: the local value of a sample depends on the rest of its batch. If some sample in the batch has more matrix
elements than `s`, and the amplitude of the last configuration the operator lists for `s` is too large relative to that of
`s` (though its matrix element is zero), then the local value is infinite or NaN; alone it is finite and right. -/
theorem c120_padding_violated {S : Type} (R : FloatRange) (kernel : S → List (S × ℂ)) (logPsi : S → ℂ) (numOps : ℕ)
    (hops : ∀ s, (kernel s).length = numOps) (samples : List S) (k : ℕ) (s : S) (hk : samples[k]? = some s)
    (last : S × ℂ) (hlast : (kernel s).getLast? = some last)
    (hmate : ∃ b ∈ samples, ((kernel s).filter fun e => isNonzero e.2).length
      < ((kernel b).filter fun e => isNonzero e.2).length)
    (hbig : R.big < Real.exp ((logPsi last.1).re - (logPsi s).re))
    (hr : ∀ e ∈ kernel s, isNonzero e.2 = true → Real.exp ((logPsi e.1).re - (logPsi s).re) ≤ R.big) :
    (oLocOnF R kernel logPsi samples)[k]? = some none ∧
    oLocOnF R kernel logPsi [s] = [some (((kernel s).filter fun e => isNonzero e.2).map fun e =>
      e.2 * Complex.exp (logPsi e.1 - logPsi s)).sum] := by
  obtain ⟨hk1, rfl⟩ := List.getElem?_eq_some_iff.1 hk
  constructor
  · obtain ⟨hk', hmem⟩ := getSPrimes_pad kernel samples numOps (fun s _ => hops s) k hk1 last hlast hmate
    unfold oLocOnF
    rw [List.getElem?_eq_getElem (by rw [List.length_zipWith]; omega), List.getElem_zipWith]
    unfold oLocRowF
    rw [mapM_none_of _ _ ⟨_, hmem, by rw [ratioF, if_pos hbig]; rfl⟩]
    rfl
  · rw [oLocOnF, getSPrimes_alone kernel _ numOps (hops _)]
    simp only [List.zipWith_cons_cons, List.zipWith_nil_right]
    unfold oLocRowF
    rw [mapM_some_eq _ (fun e => e.2 * Complex.exp (logPsi e.1 - logPsi samples[k]))]
    · rfl
    · intro e he
      obtain ⟨h1, h2⟩ := List.mem_filter.1 he
      rw [ratioF, if_neg (not_lt.2 (hr e h1 h2))]
      rfl

/-- In double precision: an operator on one site that flips `true` to `false` only, and amplitudes `1` of `false` and `e^800`
of `true`. The local value of `false` is 1 if it is alone in its batch, and NaN if it is together with `true`. -/
example : ∃ (kernel : Bool → List (Bool × ℂ)) (logPsi : Bool → ℂ),
    (oLocOnF .double kernel logPsi [false, true])[0]? = some none ∧ oLocOnF .double kernel logPsi [false] = [some 1] := by
  have hb := double_log_big
  have n1 : isNonzero 1 = true := by norm_num [isNonzero]
  have n0 : isNonzero 0 = false := by norm_num [isNonzero]
  have hbig : FloatRange.double.big < Real.exp 800 :=
    (Real.log_lt_iff_lt_exp FloatRange.double.big_pos).1 (by linarith)
  have h := c120_padding_violated .double (fun b => if b then [(true, 1), (false, 1)] else [(false, 1), (true, 0)])
    (fun b : Bool => if b then 800 else 0) 2 (by intro s; cases s <;> rfl) [false, true] 0 false rfl (true, 0) rfl
    ⟨true, by simp, by simp [n1, n0]⟩ (by simpa using hbig) (by
      intro e he hn
      simp only [Bool.false_eq_true, if_false, List.mem_cons, List.not_mem_nil, or_false] at he
      rcases he with rfl | rfl
      · simpa using FloatRange.double.big_gt.le
      · simp [n0] at hn)
  refine ⟨_, _, h.1, h.2.trans ?_⟩
  simp [n1, n0]

end JVMC
