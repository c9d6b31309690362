import Verif.Lemmas.Rounding
import Verif.Lemmas.Mpi

/-! # Property C125: rounding errors of sums, means, variances and weights -/

namespace JVMC

open Spec

variable {r : Rounding}

/-- **C125**, sums: whatever the rounding and the order of the additions, the value of `global_sum` is the exact sum of numbers
that differ from the given ones by at most `n + d + k - 3` relative errors, for `n` numbers per device, `d` devices and `k`
ranks; so its error is at most `(1+u)^(n+d+k-3) - 1` times the sum of the magnitudes. -/
theorem c125_sum (world : List (List (List ℝ))) (v : ℝ) (hv : GlobalSumR r world v) (n d k : ℕ) (hw : AtMost n d k world) :
    (∃ w, SameUpTo (fun x => x) r.u (n + d + k - 3) world w ∧ (everything w).sum = v) ∧
    |v - (everything world).sum| ≤ ((1 + r.u) ^ (n + d + k - 3) - 1) * sabs (everything world) := by
  obtain ⟨w, h, rfl⟩ := globalSum_near hv hw
  have hk : n - 1 + (d - 1) + (k - 1) = n + d + k - 3 := by have := hw.pos; omega
  rw [hk] at h
  refine ⟨⟨w, h, rfl⟩, ?_⟩
  have := forall₂_sum_abs r (everything_same h)
  rwa [List.map_id'] at this

/-- **C125**, means: the value of `global_mean` is the exact mean of data that differ from the given ones by at most
`n + d + k - 2` relative errors. -/
theorem c125_mean (world : List (List (List (ℝ × ℝ)))) (v : ℝ) (hv : GlobalMeanR r world v) (n d k : ℕ)
    (hw : AtMost n d k world) :
    (∃ w, SameUpTo (fun s => s.1 * s.2) r.u (n + d + k - 2) world w ∧ (everything w).sum = v) ∧
    |v - wsum (everything world)| ≤ ((1 + r.u) ^ (n + d + k - 2) - 1) * wabs (everything world) := by
  refine ⟨?_, globalMeanR_err hv hw⟩
  obtain ⟨w, h, rfl⟩ := globalMean_near hv hw
  have hk : n + (d - 1) + (k - 1) = n + d + k - 2 := by have := hw.pos; omega
  rw [hk] at h
  exact ⟨w, h, rfl⟩

/-- **C125**, means of complex data. -/
theorem c125_mean_complex (world : List (List (List (ℝ × ℂ)))) (v : ℂ) (hv : GlobalMeanC r world v) (n d k : ℕ)
    (hw : AtMost n d k world) (hp : ∀ s ∈ everything world, 0 ≤ s.1) :
    ‖v - wmean (everything world)‖ ≤
      ((1 + r.u) ^ (n + d + k - 2) - 1) * ((everything world).map fun s => s.1 * ‖s.2‖).sum :=
  globalMeanC_err hv hw hp

/-- **C125**, layouts: the values that two ranks receive, in one call or in two calls with the same samples on other numbers of
ranks and devices, differ by at most the sum of the two error bounds. -/
theorem c125_layouts (w₁ w₂ : List (List (List (ℝ × ℝ)))) (hperm : (everything w₁).Perm (everything w₂)) (v₁ v₂ : ℝ)
    (h₁ : GlobalMeanR r w₁ v₁) (h₂ : GlobalMeanR r w₂ v₂) (n₁ d₁ k₁ n₂ d₂ k₂ : ℕ) (hw₁ : AtMost n₁ d₁ k₁ w₁)
    (hw₂ : AtMost n₂ d₂ k₂ w₂) :
    |v₁ - v₂| ≤ ((1 + r.u) ^ (n₁ + d₁ + k₁ - 2) + (1 + r.u) ^ (n₂ + d₂ + k₂ - 2) - 2) * wabs (everything w₁) := by
  have a := globalMeanR_err h₁ hw₁
  have b := globalMeanR_err h₂ hw₂
  have e1 : wsum (everything w₂) = wsum (everything w₁) := (hperm.symm.map _).sum_eq
  have e2 : wabs (everything w₂) = wabs (everything w₁) := (hperm.symm.map _).sum_eq
  rw [e1, e2] at b
  rw [abs_le] at a b ⊢
  constructor <;> linarith [a.1, a.2, b.1, b.2]

/-- **C125**, variances, one device per rank: the value of `global_variance` is not negative, and it is the variance up to the
errors of the mean and `n + k + 3` relative errors. In particular there is no cancellation: a small variance of large data is
not lost in the rounding errors of their squares. -/
theorem c125_variance (world : List (List (List (ℝ × ℂ)))) (means : List ℂ) (v : ℝ) (hv : GlobalVarR r world means v)
    (n k : ℕ) (hw : AtMost n 1 k world) (hp : ∀ s ∈ everything world, 0 ≤ s.1) (V W ε : ℝ)
    (hV : V = spreadAround (everything world) (wmean (everything world))) (hW : W = ((everything world).map Prod.fst).sum)
    (hε : ε = ((1 + r.u) ^ (n + k - 1) - 1) * ((everything world).map fun s => s.1 * ‖s.2‖).sum) :
    0 ≤ v ∧ (1 - r.u) ^ (n + k + 3) * (V - 2 * ε * Real.sqrt (V * W)) ≤ v ∧
      v ≤ (1 + r.u) ^ (n + k + 3) * (V + 2 * ε * Real.sqrt (V * W) + ε ^ 2 * W) := by
  have hm : ∀ m ∈ means, ‖m - wmean (everything world)‖ ≤ ε := by
    intro m hm
    have := globalMeanC_err (hv.1 m hm) hw hp
    rw [hε]
    have hk : n + 1 + k - 2 = n + k - 1 := by omega
    rwa [hk] at this
  have hε0 : 0 ≤ ε := by
    rw [hε]
    apply mul_nonneg
    · linarith [one_le_pow₀ (one_le_hi r) (n := n + k - 1)]
    · exact list_sum_nonneg' fun s hs => mul_nonneg (hp s hs) (norm_nonneg _)
  have hb := globalVar_bounds hv hw hp
  obtain ⟨-, locals, -, hlen, -⟩ := hv
  have hs := spreadOwn_shift hlen hp hm
  have hc := sum_dist_le hp (wmean (everything world))
  rw [← hV, ← hW] at hc
  rw [← hV, ← hW] at hs
  have hlo := pow_pos (lo_pos r) (n + k + 3)
  have hhi := pow_pos (hi_pos r) (n + k + 3)
  have h2 := mul_le_mul_of_nonneg_left hc (mul_nonneg (by norm_num : (0:ℝ) ≤ 2) hε0)
  refine ⟨?_, ?_, ?_⟩
  · refine le_trans (mul_nonneg hlo.le ?_) hb.1
    unfold spreadOwn
    refine list_sum_nonneg' fun dm hdm => spreadAround_nonneg (fun s hs' => hp s ?_) _
    unfold everything
    rw [List.mem_flatten] at hs' ⊢
    obtain ⟨dev, hd, hs'⟩ := hs'
    exact ⟨dev, List.mem_flatten.mpr ⟨dm.1, (List.of_mem_zip hdm).1, hd⟩, hs'⟩
  · refine le_trans (mul_le_mul_of_nonneg_left ?_ hlo.le) hb.1
    linarith [hs.1]
  · refine hb.2.trans (mul_le_mul_of_nonneg_left ?_ hhi.le)
    linarith [hs.2]

/-- **C125**, weights: the weights that the samplers return are the normalised weights up to `n + d + k - 2` relative errors, and
so is their sum. -/
theorem c125_weights (world ps : List (List (List ℝ))) (h : NormalizeR r world ps) (n d k : ℕ) (hw : AtMost n d k world)
    (h0 : ∀ q ∈ everything world, 0 ≤ q) (hQ : 0 < (everything world).sum) (lo hi : ℝ)
    (hlo : lo = (1 - r.u) / (1 + r.u) ^ (n + d + k - 3)) (hhi : hi = (1 + r.u) / (1 - r.u) ^ (n + d + k - 3)) :
    List.Forall₂ (fun q p => lo * (q / (everything world).sum) ≤ p ∧ p ≤ hi * (q / (everything world).sum))
      (everything world) (everything ps) ∧
    lo ≤ (everything ps).sum ∧ (everything ps).sum ≤ hi := by
  have key : List.Forall₂ (fun q p => lo * (q / (everything world).sum) ≤ p ∧ p ≤ hi * (q / (everything world).sum))
      (everything world) (everything ps) := by
    have h1 : List.Forall₂ (List.Forall₂ (List.Forall₂ fun q p => 0 ≤ q →
        lo * (q / (everything world).sum) ≤ p ∧ p ≤ hi * (q / (everything world).sum))) world ps := by
      refine List.Forall₂.imp ?_ h
      rintro data p ⟨nrm, hn, hd⟩
      have hb := globalSumR_bounds hn hw h0
      refine hd.imp fun dev p' hdev => hdev.imp fun q y hy hq => ?_
      rw [hlo, hhi]
      exact normalize_bounds hq hQ hb.1 hb.2 hy
    have h2 := List.rel_flatten (List.rel_flatten h1)
    exact forall₂_of_mem h2 h0
  refine ⟨key, ?_⟩
  have hs := forall₂_sum_le key
  have e : ∀ c : ℝ, ((everything world).map fun q => c * (q / (everything world).sum)).sum = c := by
    intro c
    have : (fun q : ℝ => c * (q / (everything world).sum)) = fun q => c / (everything world).sum * q := by
      funext q
      ring
    rw [this, List.sum_map_mul_left, List.map_id']
    field_simp
  rw [e, e] at hs
  exact hs

/-- **C125**, expectation values: the mean of data with the weights of a sampler, both computed with rounding errors, is the exact
expectation value up to the relative errors of the weights, the products and the sums. -/
theorem c125_expectation (world : List (List (List (ℝ × ℝ)))) (v : ℝ) (h : ExpectationR r world v) (n d k : ℕ)
    (hw : AtMost n d k world) (h0 : ∀ s ∈ everything world, 0 ≤ s.1) (Q : ℝ)
    (hQ : Q = ((everything world).map Prod.fst).sum) (hQ0 : 0 < Q) :
    |v - ((everything world).map fun s => s.1 / Q * s.2).sum| ≤
      ((1 + r.u) ^ (n + d + k - 1) / (1 - r.u) ^ (n + d + k - 3) - 1) *
        ((everything world).map fun s => s.1 / Q * |s.2|).sum := by
  obtain ⟨w, hn, hv⟩ := h
  have hww : AtMost n d k w := by
    have hl2 : List.Forall₂ (fun rk rk' : List (List (ℝ × ℝ)) => List.Forall₂ (fun dev dev' => dev.length = dev'.length) rk rk')
        world w := hn.imp fun _ _ ⟨_, _, h⟩ => h.imp fun _ _ h => h.length_eq
    refine ⟨?_, ?_, ?_, hw.pos⟩
    · intro rk hrk dev hdev
      obtain ⟨rk', m1, g1⟩ := forall₂_mem_right hl2 rk hrk
      obtain ⟨dev', m2, g2⟩ := forall₂_mem_right g1 dev hdev
      rw [← g2]
      exact hw.samples rk' m1 dev' m2
    · intro rk hrk
      obtain ⟨rk', m1, g1⟩ := forall₂_mem_right hl2 rk hrk
      rw [← g1.length_eq]
      exact hw.devices rk' m1
    · rw [← hn.length_eq]
      exact hw.ranks
  obtain ⟨z, hz, rfl⟩ := globalMean_near hv hww
  have hk : n + (d - 1) + (k - 1) = n + d + k - 2 := by have := hw.pos; omega
  rw [hk] at hz
  have hz' := everything_same hz
  have h1 : List.Forall₂ (List.Forall₂ (List.Forall₂ fun s t : ℝ × ℝ => 0 ≤ s.1 →
      ((1 - r.u) / (1 + r.u) ^ (n + d + k - 3) * (s.1 / Q) ≤ t.1 ∧ t.1 ≤ (1 + r.u) / (1 - r.u) ^ (n + d + k - 3) * (s.1 / Q))
        ∧ t.2 = s.2)) world w := by
    refine List.Forall₂.imp ?_ hn
    rintro data p ⟨nrm, hg, hd⟩
    have hb := globalSumR_bounds hg (atMost_map _ hw) (by
      rw [everything_map]
      intro q hq
      obtain ⟨s, hs, rfl⟩ := List.mem_map.mp hq
      exact h0 s hs)
    rw [everything_map, ← hQ] at hb
    refine hd.imp fun dev p' hdev => hdev.imp fun s t hst hs => ⟨?_, hst.2⟩
    exact normalize_bounds hs hQ0 hb.1 hb.2 hst.1
  have h2 := forall₂_of_mem (List.rel_flatten (List.rel_flatten h1)) h0
  change List.Forall₂ _ (everything world) (everything w) at h2
  have hf := factor_bounds r (n + d + k - 1) (n + d + k - 3)
  have hj : n + d + k - 1 = 1 + (n + d + k - 2) := by have := hw.pos; omega
  clear hz hn hv hww h1 hw hk
  generalize everything world = l at *
  generalize everything w = l' at *
  generalize everything z = y at *
  have hlo := lo_pos r
  have hhi := hi_pos r
  clear hQ
  induction h2 generalizing y with
  | nil => cases hz'; simp
  | @cons s t l l' hst _ ih =>
    cases hz' with
    | @cons _ y0 _ y hy hys =>
    have i := ih (fun s hs => h0 s (by simp [hs])) y hys
    obtain ⟨θ, t1, t2, rfl⟩ := hy
    obtain ⟨⟨b1, b2⟩, e⟩ := hst
    have hs0 : 0 ≤ s.1 / Q := div_nonneg (h0 s (by simp)) hQ0.le
    have hθ0 : 0 ≤ θ := le_trans (pow_pos hlo _).le t1
    have ht0 : 0 ≤ t.1 := le_trans (mul_nonneg (div_nonneg hlo.le (pow_pos hhi _).le) hs0) b1
    have key : |θ * (t.1 * t.2) - s.1 / Q * s.2| ≤
        ((1 + r.u) ^ (n + d + k - 1) / (1 - r.u) ^ (n + d + k - 3) - 1) * (s.1 / Q * |s.2|) := by
      rw [e]
      have e1 : θ * (t.1 * s.2) - s.1 / Q * s.2 = (θ * t.1 - s.1 / Q) * s.2 := by ring
      rw [e1, abs_mul, ← mul_assoc]
      apply mul_le_mul_of_nonneg_right _ (abs_nonneg _)
      have u1 : θ * t.1 ≤ (1 + r.u) ^ (n + d + k - 1) / (1 - r.u) ^ (n + d + k - 3) * (s.1 / Q) := by
        have := mul_le_mul t2 b2 ht0 (pow_pos hhi _).le
        refine this.trans (le_of_eq ?_)
        rw [hj, pow_add, pow_one]
        ring
      have u2 : (1 - r.u) ^ (n + d + k - 1) / (1 + r.u) ^ (n + d + k - 3) * (s.1 / Q) ≤ θ * t.1 := by
        have := mul_le_mul t1 b1 (mul_nonneg (div_nonneg hlo.le (pow_pos hhi _).le) hs0) hθ0
        refine le_trans (le_of_eq ?_) this
        rw [hj, pow_add, pow_one]
        ring
      have u3 := mul_le_mul_of_nonneg_right hf hs0
      rw [abs_le]
      constructor <;> nlinarith [u1, u2, u3]
    simp only [List.map_cons, List.sum_cons]
    calc _ = |_| := by congr 1; exact add_sub_add_comm _ _ _ _
      _ ≤ _ := abs_add_le _ _
      _ ≤ _ := add_le_add key i
      _ = _ := by ring

/-- **C125**, exact arithmetic: without rounding errors there is exactly one value, that of the exact model (C03). -/
theorem c125_exact (hu : r.u = 0) (world : List (List (List (ℝ × ℝ)))) (hne : world ≠ []) (v : ℝ) :
    GlobalMeanR r world v ↔ globalMean world = .ok (world.map fun _ => v) := by
  have honly : ∀ v', GlobalMeanR r world v' → v' = wsum (everything world) := by
    intro v' h
    obtain ⟨n, d, k, hw⟩ := atMost_exists world
    have := globalMeanR_err h hw
    rw [hu, add_zero, one_pow, sub_self, zero_mul] at this
    exact sub_eq_zero.mp (abs_eq_zero.mp (le_antisymm this (abs_nonneg _)))
  have hval : (∀ rk ∈ world, rk ≠ []) → globalMean world = .ok (world.map fun _ => wsum (everything world)) := by
    intro h
    rw [globalMean_eq world h]
    unfold Spec.wMean Spec.allSamples wsum everything
    simp [smul_eq_mul]
  constructor
  · intro h
    rw [honly v h]
    exact hval (globalMeanR_devices h)
  · intro h
    have hd : ∀ rk ∈ world, rk ≠ [] := by
      rintro rk hrk rfl
      have : globalMean world = .error .indexError := by
        unfold globalMean globalSum
        rw [mapM_error (fun data => pyHead (sumUpPmapd data)) .indexError (world.map meanHelper) []
          (List.mem_map.mpr ⟨[], hrk, rfl⟩) rfl]
        · rfl
        · intro b _
          cases b with
          | nil => left; rfl
          | cons x xs => right; exact ⟨_, rfl⟩
      rw [this] at h
      cases h
    obtain ⟨v', hv'⟩ := globalMeanR_exists r hd
    have e := hval hd
    rw [h] at e
    obtain ⟨rk, rest, rfl⟩ := List.exists_cons_of_ne_nil hne
    have e2 : v = wsum (everything (rk :: rest)) := by
      have := Except.ok.inj e
      simp only [List.map_cons, List.cons.injEq] at this
      exact this.1
    rw [e2, ← honly v' hv']
    exact hv'

/-- **C125**, double precision: for less than `2^52` additions the error of `global_mean` is at most
`2^-52 (n + d + k)` times the mean of the magnitudes. -/
theorem c125_double (world : List (List (List (ℝ × ℝ)))) (v : ℝ) (hv : GlobalMeanR Rounding.double world v) (n d k : ℕ)
    (hw : AtMost n d k world) (hn : n + d + k ≤ 2 ^ 53) :
    |v - wsum (everything world)| ≤ (2 : ℝ) ^ (-52 : ℤ) * (n + d + k) * wabs (everything world) := by
  refine (globalMeanR_err hv hw).trans (mul_le_mul_of_nonneg_right ?_ ?_)
  · have hm : ((n + d + k - 2 : ℕ) : ℝ) ≤ n + d + k := by
      have : n + d + k - 2 ≤ n + d + k := Nat.sub_le _ _
      exact_mod_cast this
    have hn' : (n : ℝ) + d + k ≤ 2 ^ 53 := by exact_mod_cast hn
    have hu : Rounding.double.u = (2 : ℝ) ^ (-53 : ℤ) := rfl
    have h1 : ((n + d + k - 2 : ℕ) : ℝ) * Rounding.double.u ≤ 1 := by
      rw [hu]
      calc _ ≤ (2 : ℝ) ^ 53 * (2 : ℝ) ^ (-53 : ℤ) := mul_le_mul_of_nonneg_right (hm.trans hn') (by positivity)
        _ = 1 := by norm_num
    have h2 := pow_double_bound Rounding.double.u_nonneg h1
    refine h2.trans ?_
    rw [hu]
    have e : (2 : ℝ) ^ (-52 : ℤ) = 2 * (2 : ℝ) ^ (-53 : ℤ) := by norm_num
    rw [e]
    have := mul_le_mul_of_nonneg_right hm (show (0 : ℝ) ≤ 2 * (2 : ℝ) ^ (-53 : ℤ) by positivity)
    linarith
  · exact list_sum_nonneg' fun s _ => abs_nonneg _

/-- **C125**, existence: all of these have values whenever every rank has a device, for every rounding. -/
theorem c125_returns (r : Rounding) :
    (∀ world : List (List (List ℝ)), (∀ rk ∈ world, rk ≠ []) → (∃ v, GlobalSumR r world v) ∧ ∃ ps, NormalizeR r world ps) ∧
    (∀ world : List (List (List (ℝ × ℝ))), (∀ rk ∈ world, rk ≠ []) →
      (∃ v, GlobalMeanR r world v) ∧ ∃ v, ExpectationR r world v) ∧
    (∀ world : List (List (List (ℝ × ℂ))), (∀ rk ∈ world, rk ≠ []) →
      (∃ v, GlobalMeanC r world v) ∧ ∃ means v, GlobalVarR r world means v) :=
  ⟨fun _ h => ⟨globalSumR_exists r h, normalizeR_exists r h⟩, fun _ h => ⟨globalMeanR_exists r h, expectationR_exists r h⟩,
    fun _ h => ⟨globalMeanC_exists r h, globalVarR_exists r h⟩⟩

/-- Two ranks with one device each and three samples, in double precision: all hypotheses are met. -/
example : ∃ v, GlobalMeanR Rounding.double [[[(1 / 2, 3), (1 / 4, -8)]], [[(1 / 4, 5)]]] v ∧
    |v - 3 / 4| ≤ (2 : ℝ) ^ (-52 : ℤ) * 5 * (19 / 4) := by
  obtain ⟨v, hv⟩ := ((c125_returns Rounding.double).2.1 [[[(1 / 2, 3), (1 / 4, -8)]], [[(1 / 4, 5)]]] (by simp)).1
  refine ⟨v, hv, ?_⟩
  have := c125_double _ v hv 2 1 2 ⟨by simp, by simp, by simp, by simp⟩ (by norm_num)
  simp only [everything, wsum, wabs, List.flatten_cons, List.flatten_nil, List.append_nil, List.cons_append, List.nil_append,
    List.map_cons, List.map_nil, List.sum_cons, List.sum_nil] at this
  norm_num [abs_of_pos, abs_of_neg] at this ⊢
  exact this

/-- Weights and data of the same ranks, and a variance. -/
example : (∃ ps, NormalizeR Rounding.double [[[2, 3]], [[5]]] ps ∧
      (1 - Rounding.double.u) / (1 + Rounding.double.u) ^ 2 ≤ (everything ps).sum) ∧
    (∃ v, ExpectationR Rounding.double [[[(2, 3), (3, -8)]], [[(5, 5)]]] v) ∧
    (∃ means v, GlobalVarR Rounding.double [[[(1 / 2, Complex.I), (1 / 4, 2)]], [[(1 / 4, 5)]]] means v ∧ 0 ≤ v) := by
  refine ⟨?_, ((c125_returns _).2.1 _ (by simp)).2, ?_⟩
  · obtain ⟨ps, hp⟩ := ((c125_returns Rounding.double).1 [[[2, 3]], [[5]]] (by simp)).2
    exact ⟨ps, hp, (c125_weights _ ps hp 2 1 2 ⟨by simp, by simp, by simp, by simp⟩ (by simp [everything])
      (by norm_num [everything]) _ _ rfl rfl).2.1⟩
  · obtain ⟨means, v, hv⟩ := ((c125_returns Rounding.double).2.2
      [[[(1 / 2, Complex.I), (1 / 4, 2)]], [[(1 / 4, 5)]]] (by simp)).2
    exact ⟨means, v, hv, (c125_variance _ means v hv 2 2 ⟨by simp, by simp, by simp, by simp⟩ (by simp [everything])
      _ _ _ rfl rfl rfl).1⟩

/-- **C125** does not hold bit by bit: the same three samples on two devices of a rank have another mean in double precision if
the devices hold other parts of them. -/
theorem c125_bitwise_violated : ∃ (w₁ w₂ : List (List (List (ℝ × ℝ)))) (v₁ v₂ : ℝ),
    (everything w₁).Perm (everything w₂) ∧ GlobalMeanR Rounding.double w₁ v₁ ∧ GlobalMeanR Rounding.double w₂ v₂ ∧
    (∀ v, GlobalMeanR Rounding.double w₁ v → |v - wsum (everything w₁)| ≤ (2 : ℝ) ^ (-52 : ℤ) * 5 * wabs (everything w₁)) ∧
    v₁ ≠ v₂ := by
  obtain ⟨e1, e2, e3⟩ := roundDouble_order
  have rd : ∀ x : ℝ, Rounding.double.Rd (1 * x) x := fun x => Or.inr (one_mul x).symm
  refine ⟨[[[(1, 1), (1, 3 / 2 ^ 55)], [(1, 3 / 2 ^ 55)]]], [[[(1, 1)], [(1, 3 / 2 ^ 55), (1, 3 / 2 ^ 55)]]], 1,
    1 + 1 / 2 ^ 52, ?_, ?_, ?_, ?_, ?_⟩
  · exact List.Perm.refl _
  · refine ⟨[[[1], [3 / 2 ^ 55]]], .cons (.cons ⟨1, ?_, rfl⟩ (.cons ⟨_, ?_, rfl⟩ .nil)) .nil, [1],
      .cons ⟨[1, 3 / 2 ^ 55], by simp, .cons (.one _) (.cons (.one _) .nil), ?_⟩ .nil, .one _⟩
    · refine ⟨[1, 3 / 2 ^ 55], .cons (rd _) (.cons (rd _) .nil), ?_⟩
      have := Sums.add (r := Rounding.double) (l := [1]) (m := [3 / 2 ^ 55]) (by simp) (by simp) (.one _) (.one _)
      change Sums _ _ (roundDouble _) at this
      rw [e1] at this
      exact this
    · exact ⟨[3 / 2 ^ 55], .cons (rd _) .nil, .one _⟩
    · have := Sums.add (r := Rounding.double) (l := [1]) (m := [3 / 2 ^ 55]) (by simp) (by simp) (.one _) (.one _)
      change Sums _ _ (roundDouble _) at this
      rw [e1] at this
      exact this
  · refine ⟨[[[1], [3 / 2 ^ 54]]], .cons (.cons ⟨1, ?_, rfl⟩ (.cons ⟨_, ?_, rfl⟩ .nil)) .nil, [1 + 1 / 2 ^ 52],
      .cons ⟨[1, 3 / 2 ^ 54], by simp, .cons (.one _) (.cons (.one _) .nil), ?_⟩ .nil, .one _⟩
    · exact ⟨[1], .cons (rd _) .nil, .one _⟩
    · refine ⟨[3 / 2 ^ 55, 3 / 2 ^ 55], .cons (rd _) (.cons (rd _) .nil), ?_⟩
      have := Sums.add (r := Rounding.double) (l := [3 / 2 ^ 55]) (m := [3 / 2 ^ 55]) (by simp) (by simp) (.one _) (.one _)
      change Sums _ _ (roundDouble _) at this
      rw [e2] at this
      exact this
    · have := Sums.add (r := Rounding.double) (l := [1]) (m := [3 / 2 ^ 54]) (by simp) (by simp) (.one _) (.one _)
      change Sums _ _ (roundDouble _) at this
      rw [e3] at this
      exact this
  · intro v hv
    have := c125_double _ v hv 2 2 1 ⟨by simp, by simp, by simp, by simp⟩ (by norm_num)
    norm_num at this ⊢
    exact this
  · norm_num

end JVMC
