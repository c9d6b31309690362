import Verif.Lemmas.LocalRounding
import Verif.Model.Operator
import Verif.Props.Rounding

/-! # Property C135: rounding errors of local estimators and measurements

"Local estimators, and the means of observables computed from them, are right up to a known multiple of the rounding error,
whatever order XLA and MPI add in." -/

namespace JVMC

open Spec

variable {r : Rounding}

/-- **C135**, local estimators: the computed value differs from `∑ O_{s s'} ψ(s') / ψ(s)` by at most a relative error of
`∑ |O_{s s'} ψ(s') / ψ(s)|` that depends on the errors `a` of the logarithmic amplitudes, `b` of the matrix elements, `v` of the
exponential function, the rounding error `u`, the largest difference `D` of logarithmic amplitudes and the number `n` of
terms. -/
theorem c135_local (e : ℂ → ℂ) (a b v D : ℝ) (hv : 0 ≤ v) (hb : 0 ≤ b) (he : CExpWithin v e) (logS logS' : ℂ)
    (row row' : List (ℂ × ℂ)) (h : RowWithin a b D logS logS' row row') (x : ℂ) (hx : OLocR r e logS' row' x) (n : ℕ)
    (hn : row.length ≤ n) (hn1 : 1 ≤ n) :
    ‖x - localSum logS row‖ ≤ ((1 + r.u) ^ n * termFactor r.u a b v D - 1) * localAbs logS row :=
  oloc_err hv hb he h hx n hn hn1

/-- **C135**, exact arithmetic: without rounding errors the only value is that of the exact model (C26, C29). -/
theorem c135_exact {S : Type} (hu : r.u = 0) (row : List (S × ℂ)) (logS : ℂ) (logPsiSP : S → ℂ) (x : ℂ) :
    OLocR r Complex.exp logS (row.map fun q => (q.2, logPsiSP q.1)) x ↔ x = oLocRow row logS logPsiSP := by
  have hsum : localSum logS (row.map fun q => (q.2, logPsiSP q.1)) = oLocRow row logS logPsiSP := by
    unfold localSum oLocRow
    rw [List.map_map]
    rfl
  obtain ⟨D, hD0, hD⟩ : ∃ D : ℝ, 0 ≤ D ∧ ∀ q ∈ row, ‖logPsiSP q.1 - logS‖ ≤ D := by
    clear hsum
    induction row with
    | nil => exact ⟨0, le_rfl, by simp⟩
    | cons q l ih =>
      obtain ⟨D, h0, h⟩ := ih
      refine ⟨max D ‖logPsiSP q.1 - logS‖, h0.trans (le_max_left _ _), ?_⟩
      intro q' hq'
      rcases List.mem_cons.mp hq' with rfl | hq'
      · exact le_max_right _ _
      · exact (h q' hq').trans (le_max_left _ _)
  have honly : ∀ x, OLocR r Complex.exp logS (row.map fun q => (q.2, logPsiSP q.1)) x → x = oLocRow row logS logPsiSP := by
    intro x hx
    have h := c135_local (r := r) Complex.exp 0 0 0 D le_rfl le_rfl (fun z => by simp) logS logS _ _
      ⟨by simp, List.forall₂_same.mpr fun p hp => by
        obtain ⟨q, hq, rfl⟩ := List.mem_map.mp hp
        exact ⟨by simp, by simp, hD q hq⟩⟩ x hx (row.length + 1) (by simp) (by omega)
    rw [hu, hsum] at h
    unfold termFactor at h
    norm_num at h
    exact sub_eq_zero.mp h
  refine ⟨honly x, ?_⟩
  rintro rfl
  obtain ⟨ts, hts⟩ := forall₂_exists (R := OLocTermR r Complex.exp logS) (l := row.map fun q => (q.2, logPsiSP q.1)) fun p _ =>
    ⟨⟨_, _⟩, ⟨r.rnd (p.2.re - logS.re), r.rnd (p.2.im - logS.im)⟩, ⟨.inl rfl, .inl rfl⟩,
      _, _, _, _, .inl rfl, .inl rfl, .inl rfl, .inl rfl, .inl rfl, .inl rfl⟩
  obtain ⟨y, hy⟩ := sums_exists r (ts.map Complex.re)
  obtain ⟨y', hy'⟩ := sums_exists r (ts.map Complex.im)
  have h : OLocR r Complex.exp logS (row.map fun q => (q.2, logPsiSP q.1)) ⟨y, y'⟩ := ⟨ts, hts, hy, hy'⟩
  rw [← honly _ h]
  exact h

/-- There is an exact arithmetic. -/
example := c135_exact (S := ℕ) (r := ⟨id, 0, le_rfl, by norm_num, by simp⟩) rfl [(3, 2), (5, Complex.I)] 1 (fun s => s)

private theorem exp_bound {x : ℝ} (h0 : 0 ≤ x) (h1 : x ≤ 1) : Real.exp x - 1 ≤ 2 * x := by
  have := Real.abs_exp_sub_one_le (x := x) (by rwa [abs_of_nonneg h0])
  rw [abs_of_nonneg h0] at this
  exact (le_abs_self _).trans this

/-- **C135**, the factor to first order: all errors add up. -/
theorem c135_linear (u a b v D : ℝ) (n : ℕ) (hu : 0 ≤ u) (hu1 : u ≤ 1) (ha : 0 ≤ a) (hb : 0 ≤ b) (hv : 0 ≤ v) (hD : 0 ≤ D)
    (x : ℝ) (hx : x = (n + 6) * u + b + v + 2 * a + u * (D + 2 * a)) (h1 : x ≤ 1) :
    (1 + u) ^ n * termFactor u a b v D - 1 ≤ 2 * x := by
  have h0 : 0 ≤ x := by rw [hx]; positivity
  refine le_trans ?_ (exp_bound h0 h1)
  have e1 : (1 + u) ^ n ≤ Real.exp (n * u) := by
    rw [Real.exp_nat_mul]
    exact pow_le_pow_left₀ (by linarith) (by linarith [Real.add_one_le_exp u]) n
  have e2 : 1 + b ≤ Real.exp b := by linarith [Real.add_one_le_exp b]
  have e3 : 1 + v ≤ Real.exp v := by linarith [Real.add_one_le_exp v]
  have e4 : 1 + 2 * ((1 + u) ^ 2 - 1) ≤ Real.exp (6 * u) := by
    have := Real.add_one_le_exp (6 * u)
    nlinarith
  have hT : termFactor u a b v D ≤ Real.exp b * Real.exp v * Real.exp (2 * a + u * (D + 2 * a)) * Real.exp (6 * u) := by
    unfold termFactor
    have f1 : (1 + b) * (1 + v) ≤ Real.exp b * Real.exp v := mul_le_mul e2 e3 (by linarith) (Real.exp_pos _).le
    have f2 := mul_le_mul_of_nonneg_right f1 (Real.exp_pos (2 * a + u * (D + 2 * a))).le
    exact mul_le_mul f2 e4 (by nlinarith) (by positivity)
  have hT0 : 0 ≤ termFactor u a b v D := by linarith [termFactor_ge_one hu ha hb hv hD]
  have := mul_le_mul e1 hT hT0 (Real.exp_pos _).le
  rw [← Real.exp_add, ← Real.exp_add, ← Real.exp_add, ← Real.exp_add] at this
  have hsum : n * u + (b + v + (2 * a + u * (D + 2 * a)) + 6 * u) = x := by rw [hx]; ring
  rw [hsum] at this
  linarith

private theorem forall₂_comp {A B C : Type} {P : A → B → Prop} {Q : B → C → Prop} {T : A → C → Prop}
    (hPQ : ∀ x y z, P x y → Q y z → T x z) {l : List A} {l' : List B} {l'' : List C} (h : List.Forall₂ P l l')
    (h' : List.Forall₂ Q l' l'') : List.Forall₂ T l l'' := by
  induction h generalizing l'' with
  | nil => cases h'; exact .nil
  | cons h1 _ ih =>
    cases h' with
    | cons h2 h3 => exact .cons (hPQ _ _ _ h1 h2) (ih h3)

/-- What is computed for a sample approximates what should be computed. -/
def InputNear (a b D : ℝ) (s s' : OLocInput) : Prop := s'.weight = s.weight ∧ RowWithin a b D s.logS s'.logS s.row s'.row

/-- **C135**, measurements: the mean of the local estimators over all samples of all ranks and devices, computed from inputs
`world'` that approximate `world`, differs from the exact mean by at most a relative error of
`∑ p ∑ |O_{s s'} ψ(s') / ψ(s)|`. (`n` samples per device, `d` devices, `k` ranks, `m` terms.) -/
theorem c135_measured (e : ℂ → ℂ) (a b v D : ℝ) (ha : 0 ≤ a) (hD : 0 ≤ D) (hv : 0 ≤ v) (hb : 0 ≤ b) (he : CExpWithin v e)
    (world world' : List (List (List OLocInput))) (hnear : List.Forall₂ (List.Forall₂ (List.Forall₂ (InputNear a b D))) world world')
    (hp : ∀ s ∈ everything world, 0 ≤ s.weight) (m : ℕ) (hm1 : 1 ≤ m) (hm : ∀ s ∈ everything world, s.row.length ≤ m)
    (x : ℂ) (hx : MeasuredR r e world' x) (n d k : ℕ) (hw : AtMost n d k world) :
    ‖x - ((everything world).map fun s => (s.weight : ℂ) * localSum s.logS s.row).sum‖
      ≤ ((1 + r.u) ^ (n + d + k - 2) * ((1 + r.u) ^ m * termFactor r.u a b v D) - 1)
        * ((everything world).map fun s => s.weight * localAbs s.logS s.row).sum := by
  obtain ⟨data, hdata, hmean⟩ := hx
  set G := (1 + r.u) ^ m * termFactor r.u a b v D with hG
  have hG1 : 1 ≤ G := one_le_mul_of_one_le_of_one_le (one_le_pow₀ (one_le_hi r)) (termFactor_ge_one r.u_nonneg ha hb hv hD)
  -- every datum is near the exact local estimator
  let R : OLocInput → ℝ × ℂ → Prop := fun s y => y.1 = s.weight ∧ (s.row.length ≤ m →
    ‖y.2 - localSum s.logS s.row‖ ≤ (G - 1) * localAbs s.logS s.row)
  have comp1 : ∀ {s s' : OLocInput} {y : ℝ × ℂ}, InputNear a b D s s' → (y.1 = s'.weight ∧ OLocR r e s'.logS s'.row y.2) → R s y := by
    intro s s' y h1 h2
    exact ⟨h2.1.trans h1.1, fun hl => c135_local e a b v D hv hb he _ _ _ _ h1.2 _ h2.2 m hl hm1⟩
  let Q : OLocInput → ℝ × ℂ → Prop := fun s y => y.1 = s.weight ∧ OLocR r e s.logS s.row y.2
  have c1 : ∀ s s' y, InputNear a b D s s' → Q s' y → R s y := fun _ _ _ h1 h2 => comp1 h1 h2
  have c2 : ∀ l l' l'', List.Forall₂ (InputNear a b D) l l' → List.Forall₂ Q l' l'' → List.Forall₂ R l l'' :=
    fun _ _ _ h1 h2 => forall₂_comp c1 h1 h2
  have c3 : ∀ l l' l'', List.Forall₂ (List.Forall₂ (InputNear a b D)) l l' → List.Forall₂ (List.Forall₂ Q) l' l'' →
      List.Forall₂ (List.Forall₂ R) l l'' := fun _ _ _ h1 h2 => forall₂_comp c2 h1 h2
  have hall : List.Forall₂ (List.Forall₂ (List.Forall₂ R)) world data := forall₂_comp c3 hnear hdata
  have hflat : List.Forall₂ R (everything world) (everything data) := by
    exact List.rel_flatten (List.rel_flatten hall)
  -- the layout of the data is that of the samples
  have hwd : AtMost n d k data := by
    refine ⟨?_, ?_, ?_, hw.pos⟩
    · intro rk hrk dev hdev
      obtain ⟨rk', m1, g1⟩ := forall₂_mem_right hall rk hrk
      obtain ⟨dev', m2, g2⟩ := forall₂_mem_right g1 dev hdev
      rw [← g2.length_eq]
      exact hw.samples rk' m1 dev' m2
    · intro rk hrk
      obtain ⟨rk', m1, g1⟩ := forall₂_mem_right hall rk hrk
      rw [← g1.length_eq]
      exact hw.devices rk' m1
    · rw [← hall.length_eq]
      exact hw.ranks
  have sums : ∀ (l : List OLocInput) (l' : List (ℝ × ℂ)), List.Forall₂ R l l' → (∀ s ∈ l, 0 ≤ s.weight) →
      (∀ s ∈ l, s.row.length ≤ m) →
      ‖wmean l' - (l.map fun s => (s.weight : ℂ) * localSum s.logS s.row).sum‖
          ≤ (G - 1) * (l.map fun s => s.weight * localAbs s.logS s.row).sum ∧
        (l'.map fun y => y.1 * ‖y.2‖).sum ≤ G * (l.map fun s => s.weight * localAbs s.logS s.row).sum ∧
        ∀ y ∈ l', 0 ≤ y.1 := by
    intro l l' h
    induction h with
    | nil => simp [wmean]
    | @cons s y l l' hy _ ih =>
      intro h0 hl
      obtain ⟨i1, i2, i3⟩ := ih (fun s hs => h0 s (by simp [hs])) (fun s hs => hl s (by simp [hs]))
      have hs0 := h0 s (by simp)
      have herr := hy.2 (hl s (by simp))
      have habs : ‖localSum s.logS s.row‖ ≤ localAbs s.logS s.row := list_norm_sum_le _ _
      refine ⟨?_, ?_, ?_⟩
      · unfold wmean at i1 ⊢
        simp only [List.map_cons, List.sum_cons]
        rw [hy.1]
        have e1 : (s.weight : ℂ) * y.2 + (l'.map fun s => (s.1 : ℂ) * s.2).sum
            - ((s.weight : ℂ) * localSum s.logS s.row + (l.map fun s => (s.weight : ℂ) * localSum s.logS s.row).sum)
            = (s.weight : ℂ) * (y.2 - localSum s.logS s.row)
              + ((l'.map fun s => (s.1 : ℂ) * s.2).sum - (l.map fun s => (s.weight : ℂ) * localSum s.logS s.row).sum) := by ring
        rw [e1]
        refine (norm_add_le _ _).trans ?_
        rw [norm_mul, Complex.norm_real, Real.norm_eq_abs, abs_of_nonneg hs0, mul_add]
        have := mul_le_mul_of_nonneg_left herr hs0
        linarith
      · simp only [List.map_cons, List.sum_cons]
        rw [hy.1, mul_add]
        have h1 : ‖y.2‖ ≤ G * localAbs s.logS s.row := by
          have := norm_sub_norm_le y.2 (localSum s.logS s.row)
          linarith
        have := mul_le_mul_of_nonneg_left h1 hs0
        linarith
      · intro z hz
        rcases List.mem_cons.mp hz with rfl | hz
        · rw [hy.1]; exact hs0
        · exact i3 z hz
  obtain ⟨k1, k2, k3⟩ := sums _ _ hflat hp hm
  have k4 := globalMeanC_err hmean hwd k3
  have hq1 : 1 ≤ (1 + r.u) ^ (n + d + k - 2) := one_le_pow₀ (one_le_hi r)
  have k5 := mul_le_mul_of_nonneg_left k2 (by linarith : 0 ≤ (1 + r.u) ^ (n + d + k - 2) - 1)
  have k6 := norm_sub_le_norm_sub_add_norm_sub x (wmean (everything data))
    ((everything world).map fun s => (s.weight : ℂ) * localSum s.logS s.row).sum
  nlinarith

/-- **C135**, values exist: for all inputs and every rounding there are values of the local estimator, and of the measurement
if every rank has a device. -/
theorem c135_returns (e : ℂ → ℂ) :
    (∀ (logS : ℂ) (row : List (ℂ × ℂ)), ∃ x, OLocR r e logS row x) ∧
    ∀ world : List (List (List OLocInput)), (∀ rk ∈ world, rk ≠ []) → ∃ x, MeasuredR r e world x := by
  have hloc : ∀ (logS : ℂ) (row : List (ℂ × ℂ)), ∃ x, OLocR r e logS row x := by
    intro logS row
    obtain ⟨ts, hts⟩ := forall₂_exists (R := OLocTermR r e logS) (l := row) fun p _ =>
      ⟨⟨_, _⟩, ⟨r.rnd (p.2.re - logS.re), r.rnd (p.2.im - logS.im)⟩, ⟨.inl rfl, .inl rfl⟩,
        _, _, _, _, .inl rfl, .inl rfl, .inl rfl, .inl rfl, .inl rfl, .inl rfl⟩
    obtain ⟨x, hx⟩ := sums_exists r (ts.map Complex.re)
    obtain ⟨y, hy⟩ := sums_exists r (ts.map Complex.im)
    exact ⟨⟨x, y⟩, ts, hts, hx, hy⟩
  refine ⟨hloc, fun world hne => ?_⟩
  obtain ⟨data, hdata⟩ := forall₂_exists (R := List.Forall₂ (List.Forall₂ fun (s : OLocInput) (x : ℝ × ℂ) =>
      x.1 = s.weight ∧ OLocR r e s.logS s.row x.2)) (l := world) fun rk _ =>
    forall₂_exists fun dev _ => forall₂_exists fun s _ => by
      obtain ⟨x, hx⟩ := hloc s.logS s.row
      exact ⟨(s.weight, x), rfl, hx⟩
  have hne' : ∀ rk ∈ data, rk ≠ [] := by
    intro rk hrk
    obtain ⟨rk', m1, g1⟩ := forall₂_mem_right hdata rk hrk
    intro h0
    have := g1.length_eq
    rw [h0] at this
    exact hne rk' m1 (List.length_eq_zero_iff.mp this)
  obtain ⟨x, hx⟩ := globalMeanC_exists r hne'
  exact ⟨x, data, hdata, hx⟩

/-- **C135**, eigenstates: if all exact local estimators are equal to the eigenvalue `E` (C78) and the computed ones differ from
it by at most `ε`, the reported variance is of the order of the square of the errors, also if the weights add up to one only up
to `τ`. One device per rank. (`ε'` is the bound of C125 for the mean.) -/
theorem c135_eigenstate (world : List (List (List (ℝ × ℂ)))) (means : List ℂ) (v : ℝ) (hv : GlobalVarR r world means v)
    (n k : ℕ) (hw : AtMost n 1 k world) (hp : ∀ s ∈ everything world, 0 ≤ s.1) (E : ℂ) (ε τ W ε' : ℝ) (hε0 : 0 ≤ ε)
    (hE : ∀ s ∈ everything world, ‖s.2 - E‖ ≤ ε) (hW : W = ((everything world).map Prod.fst).sum) (hτ : |W - 1| ≤ τ)
    (hε' : ε' = ((1 + r.u) ^ (n + k - 1) - 1) * ((everything world).map fun s => s.1 * ‖s.2‖).sum) :
    v ≤ (1 + r.u) ^ (n + k + 3) * (W * (ε + W * ε + τ * ‖E‖ + ε') ^ 2) := by
  have h := (c125_variance world means v hv n k hw hp _ W ε' rfl hW hε').2.2
  refine h.trans (mul_le_mul_of_nonneg_left ?_ (pow_nonneg (by linarith [r.u_nonneg]) _))
  have hW0 : 0 ≤ W := by
    rw [hW]
    exact list_sum_nonneg' hp
  have hε'0 : 0 ≤ ε' := by
    rw [hε']
    refine mul_nonneg (by linarith [one_le_pow₀ (one_le_hi r) (n := n + k - 1)]) (list_sum_nonneg' fun s hs => ?_)
    exact mul_nonneg (hp s hs) (norm_nonneg _)
  clear h hε' hv hw
  generalize everything world = l at *
  have hτ0 : 0 ≤ τ := (abs_nonneg _).trans hτ
  -- the mean is near the eigenvalue
  have hm : ‖wmean l - W * E‖ ≤ W * ε := by
    rw [hW]
    unfold wmean
    clear hτ hW hW0
    induction l with
    | nil => simp
    | cons s l ih =>
      simp only [List.map_cons, List.sum_cons]
      have e1 : (s.1 : ℂ) * s.2 + (l.map fun s => (s.1 : ℂ) * s.2).sum - ((s.1 + (l.map Prod.fst).sum : ℝ) : ℂ) * E
          = (s.1 : ℂ) * (s.2 - E) + ((l.map fun s => (s.1 : ℂ) * s.2).sum - ((l.map Prod.fst).sum : ℝ) * E) := by
        push_cast
        ring
      rw [e1, add_mul]
      refine (norm_add_le _ _).trans (add_le_add ?_ (ih (fun s hs => hp s (by simp [hs])) fun s hs => hE s (by simp [hs])))
      have hs0 := hp s (by simp)
      rw [norm_mul, Complex.norm_real, Real.norm_eq_abs, abs_of_nonneg hs0]
      exact mul_le_mul_of_nonneg_left (hE s (by simp)) hs0
  have hmE : ‖E - wmean l‖ ≤ τ * ‖E‖ + W * ε := by
    have e1 : E - wmean l = ((1 - W : ℝ) : ℂ) * E - (wmean l - W * E) := by push_cast; ring
    rw [e1]
    refine (norm_sub_le _ _).trans (add_le_add ?_ hm)
    rw [norm_mul, Complex.norm_real, Real.norm_eq_abs, abs_sub_comm]
    exact mul_le_mul_of_nonneg_right hτ (norm_nonneg _)
  set B := ε + W * ε + τ * ‖E‖ with hB
  have hB0 : 0 ≤ B := by rw [hB]; positivity
  have hV : spreadAround l (wmean l) ≤ W * B ^ 2 := by
    rw [hW]
    have hdist : ∀ s ∈ l, Complex.normSq (s.2 - wmean l) ≤ B ^ 2 := by
      intro s hs
      rw [← Complex.sq_norm]
      refine pow_le_pow_left₀ (norm_nonneg _) ?_ 2
      have := norm_sub_le_norm_sub_add_norm_sub s.2 E (wmean l)
      have h2 := hE s hs
      rw [hB]
      linarith
    unfold spreadAround
    generalize wmean l = m at hdist
    clear hW hmE hm hτ hW0 hB
    induction l with
    | nil => simp
    | cons s l ih =>
      simp only [List.map_cons, List.sum_cons]
      rw [add_mul]
      refine add_le_add (mul_le_mul_of_nonneg_left (hdist s (by simp)) (hp s (by simp))) ?_
      exact ih (fun s hs => hp s (by simp [hs])) (fun s hs => hE s (by simp [hs])) fun s hs => hdist s (by simp [hs])
  have hV0 : 0 ≤ spreadAround l (wmean l) := spreadAround_nonneg hp _
  have hsq : Real.sqrt (spreadAround l (wmean l) * W) ≤ W * B := by
    refine Real.sqrt_le_iff.mpr ⟨by positivity, ?_⟩
    calc spreadAround l (wmean l) * W ≤ W * B ^ 2 * W := mul_le_mul_of_nonneg_right hV hW0
      _ = (W * B) ^ 2 := by ring
  have h3 := mul_le_mul_of_nonneg_left hsq (by positivity : 0 ≤ 2 * ε')
  nlinarith

/-- Two samples with local energies near 3, in double precision. -/
example : ∃ means v, GlobalVarR Rounding.double [[[(1 / 2, 3), (1 / 2, 3 + 1 / 1000)]]] means v ∧
    v ≤ (1 + Rounding.double.u) ^ 6 * (1 * (1 / 1000 + 1 * (1 / 1000) + 0 * ‖(3 : ℂ)‖
      + ((1 + Rounding.double.u) ^ 2 - 1) * ((everything [[[((1 / 2 : ℝ), (3 : ℂ)), (1 / 2, 3 + 1 / 1000)]]]).map
          fun s => s.1 * ‖s.2‖).sum) ^ 2) := by
  obtain ⟨means, v, hv⟩ := ((c125_returns Rounding.double).2.2 [[[(1 / 2, 3), (1 / 2, 3 + 1 / 1000)]]] (by simp)).2
  refine ⟨means, v, hv, ?_⟩
  refine c135_eigenstate _ means v hv 2 1 ⟨by simp, by simp, by simp, by simp⟩ (by simp [everything]) 3 (1 / 1000) 0 1 _ (by norm_num)
    ?_ (by norm_num [everything]) (by norm_num) rfl
  intro s hs
  simp only [everything, List.flatten_cons, List.flatten_nil, List.append_nil, List.mem_cons, List.not_mem_nil, or_false] at hs
  rcases hs with rfl | rfl <;> norm_num

/-- A sample of a two-site Ising model in double precision: the diagonal element -1 and two spin flips of strength 3/10, with
logarithmic amplitudes that have an error of 1/2^40. -/
example : ∃ x, OLocR Rounding.double Complex.exp (1 + 1 / 2 ^ 40) [(-1, 1), (3 / 10, 2), (3 / 10, Complex.I)] x ∧
    ‖x - localSum 1 [(-1, 1), (3 / 10, 2), (3 / 10, Complex.I)]‖
      ≤ 1 / 2 ^ 37 * localAbs 1 [(-1, 1), (3 / 10, 2), (3 / 10, Complex.I)] := by
  obtain ⟨x, hx⟩ := (c135_returns (r := Rounding.double) Complex.exp).1 (1 + 1 / 2 ^ 40) [(-1, 1), (3 / 10, 2), (3 / 10, Complex.I)]
  refine ⟨x, hx, ?_⟩
  have hI : ‖Complex.I - 1‖ ≤ 2 := by
    refine (norm_sub_le _ _).trans ?_
    norm_num
  have h := c135_local (r := Rounding.double) Complex.exp (1 / 2 ^ 40) 0 0 2 le_rfl le_rfl (fun z => by simp) 1 (1 + 1 / 2 ^ 40)
    [(-1, 1), (3 / 10, 2), (3 / 10, Complex.I)] _ ⟨by norm_num, .cons ⟨by simp, by simp, by norm_num⟩ (.cons ⟨by simp, by simp, by norm_num⟩
      (.cons ⟨by simp, by simp, hI⟩ .nil))⟩ x hx 3 le_rfl (by norm_num)
  refine h.trans (mul_le_mul_of_nonneg_right ?_ (list_sum_nonneg' fun _ _ => norm_nonneg _))
  have hu : Rounding.double.u = (2 : ℝ) ^ (-53 : ℤ) := rfl
  rw [hu]
  refine (c135_linear _ _ _ _ _ 3 (by positivity) (by norm_num) (by norm_num) le_rfl le_rfl (by norm_num) _ rfl (by norm_num)).trans ?_
  norm_num

/-- Three samples on two ranks, exact inputs, in double precision. -/
example : ∃ x, MeasuredR Rounding.double Complex.exp
      [[[⟨1 / 2, 1, [(-1, 1), (3 / 10, 2)]⟩, ⟨1 / 4, 2, [(1, 2), (3 / 10, 1)]⟩]], [[⟨1 / 4, 0, [(1 / 3, 0)]⟩]]] x ∧
    ‖x - (1 / 2 * localSum 1 [(-1, 1), (3 / 10, 2)] + (1 / 4 * localSum 2 [(1, 2), (3 / 10, 1)] + 1 / 4 * localSum 0 [(1 / 3, 0)]))‖
      ≤ ((1 + Rounding.double.u) ^ 3 * ((1 + Rounding.double.u) ^ 2 * termFactor Rounding.double.u 0 0 0 1) - 1)
        * (1 / 2 * localAbs 1 [(-1, 1), (3 / 10, 2)] + (1 / 4 * localAbs 2 [(1, 2), (3 / 10, 1)] + 1 / 4 * localAbs 0 [(1 / 3, 0)])) := by
  obtain ⟨x, hx⟩ := (c135_returns (r := Rounding.double) Complex.exp).2
    [[[⟨1 / 2, 1, [(-1, 1), (3 / 10, 2)]⟩, ⟨1 / 4, 2, [(1, 2), (3 / 10, 1)]⟩]], [[⟨1 / 4, 0, [(1 / 3, 0)]⟩]]] (by simp)
  refine ⟨x, hx, ?_⟩
  have h := c135_measured (r := Rounding.double) Complex.exp 0 0 0 1 le_rfl zero_le_one le_rfl le_rfl (fun z => by simp) _ _
    (List.forall₂_same.mpr fun rk hrk => List.forall₂_same.mpr fun dev hdev => List.forall₂_same.mpr fun s hs =>
      ⟨rfl, by simp, List.forall₂_same.mpr fun p hp => ⟨by simp, by simp, ?_⟩⟩) ?_ 2 (by norm_num) ?_ x hx 2 1 2
    ⟨by simp, by simp, by simp, by simp⟩
  · simpa [everything] using h
  · simp only [List.mem_cons, List.not_mem_nil, or_false] at hrk
    rcases hrk with rfl | rfl
    · simp only [List.mem_cons, List.not_mem_nil, or_false] at hdev
      subst hdev
      simp only [List.mem_cons, List.not_mem_nil, or_false] at hs
      rcases hs with rfl | rfl
      · simp only [List.mem_cons, List.not_mem_nil, or_false] at hp
        rcases hp with rfl | rfl <;> norm_num
      · simp only [List.mem_cons, List.not_mem_nil, or_false] at hp
        rcases hp with rfl | rfl <;> norm_num
    · simp only [List.mem_cons, List.not_mem_nil, or_false] at hdev
      subst hdev
      simp only [List.mem_cons, List.not_mem_nil, or_false] at hs
      subst hs
      simp only [List.mem_cons, List.not_mem_nil, or_false] at hp
      subst hp
      norm_num
  · simp [everything]
  · simp [everything]

end JVMC
