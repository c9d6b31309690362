import Verif.Model.MinsrSearch
import Verif.Props.HoloTdvp
import Verif.Props.MinSR
import Verif.Props.Descent

/-!
# Lemmas for C110
-/

namespace JVMC

open Spec Matrix

/-! ## Flattening -/

/-- What becomes of entry `k` of a complex vector after `set_parameters` and `get_parameters`, for leaves of the
given sizes. -/
noncomputable def foldedEntry (sizes : List ℕ) (P : List ℂ) (k : ℕ) : ℝ :=
  (P.getD k 0).re + (if isReIdx sizes k then -1 else 1) * (P.getD (partnerIdx sizes k) 0).im

theorem zipC_getD (x y : List ℂ) (h : x.length = y.length) (k : ℕ) :
    (List.zipWith (fun a b => a + Complex.I * b) x y).getD k 0 = x.getD k 0 + Complex.I * y.getD k 0 := by
  induction x generalizing y k with
  | nil =>
    cases y with
    | nil => simp
    | cons b y => simp at h
  | cons a x ih =>
    cases y with
    | nil => simp at h
    | cons b y =>
      cases k with
      | zero => simp
      | succ k =>
        have := ih y (by simpa using h) k
        simpa using this

theorem getD_map_re (z : List ℂ) (k : ℕ) : (z.map Complex.re).getD k 0 = (z.getD k 0).re := by
  by_cases h : k < z.length <;> simp [List.getD_eq_getElem?_getD, h]

theorem getD_map_im (z : List ℂ) (k : ℕ) : (z.map Complex.im).getD k 0 = (z.getD k 0).im := by
  by_cases h : k < z.length <;> simp [List.getD_eq_getElem?_getD, h]

theorem unflattenCpxC_ok (sizes : List ℕ) : ∀ (pre P post : List ℂ), P.length = 2 * sizes.sum →
    ∃ L, unflattenCpxC sizes pre.length (pre ++ (P ++ post)) = .ok L ∧ L.map List.length = sizes ∧
      ∀ k < P.length, (flatC L).getD k 0 = foldedEntry sizes P k := by
  induction sizes with
  | nil => exact fun pre P post h => ⟨[], rfl, rfl, fun k hk => by simp at h; simp [h] at hk⟩
  | cons a rest ih =>
    intro pre P post h
    rw [List.sum_cons] at h
    obtain ⟨x, y, Q, rfl, hx, hy⟩ : ∃ x y Q, P = x ++ (y ++ Q) ∧ x.length = a ∧ y.length = a := by
      refine ⟨P.take a, (P.drop a).take a, (P.drop a).drop a, by simp, ?_, ?_⟩
      · rw [List.length_take]; omega
      · rw [List.length_take, List.length_drop]; omega
    have hQ : Q.length = 2 * rest.sum := by
      rw [List.length_append, List.length_append] at h
      omega
    obtain ⟨L, h1, h2, h3⟩ := ih (pre ++ (x ++ y)) Q post hQ
    set z := List.zipWith (fun a b => a + Complex.I * b) x y with hz
    have hzl : z.length = a := by rw [hz, List.length_zipWith, hx, hy, min_self]
    refine ⟨z :: L, ?_, by rw [List.map_cons, hzl, h2], ?_⟩
    · have s1 : pySlice (pre ++ (x ++ (y ++ Q) ++ post)) pre.length (pre.length + a) = x := by
        have := pySlice_mid pre x (y ++ (Q ++ post))
        rw [hx] at this
        simpa only [List.append_assoc] using this
      have s2 : pySlice (pre ++ (x ++ (y ++ Q) ++ post)) (pre.length + a) (pre.length + 2 * a) = y := by
        have := pySlice_mid (pre ++ x) y (Q ++ post)
        rw [List.length_append, hx, hy] at this
        rw [two_mul, ← add_assoc]
        simpa only [List.append_assoc] using this
      have s3 : unflattenCpxC rest (pre.length + 2 * a) (pre ++ (x ++ (y ++ Q) ++ post)) = .ok L := by
        rw [List.length_append, List.length_append, hx, hy] at h1
        rw [two_mul]
        simpa only [List.append_assoc] using h1
      have hr : reshapeTo a z = .ok z := by simp [reshapeTo, hzl]
      have s4 : addImagC x y = .ok z := by
        unfold addImagC
        rw [if_pos (by rw [hx, hy])]
      simp only [unflattenCpxC]
      rw [s1, s2, s4, s3]
      show (reshapeTo a z >>= fun leaf => (Except.ok L >>= fun rest => pure (leaf :: rest))) = _
      rw [hr]
      rfl
    · intro k hk
      rw [flatC_cons]
      have hzr : (z.map Complex.re).length = a := by rw [List.length_map, hzl]
      have hzi : (z.map Complex.im).length = a := by rw [List.length_map, hzl]
      by_cases c1 : k < a
      · have e1 : isReIdx (a :: rest) k = true := by simp [isReIdx, c1]
        have e2 : partnerIdx (a :: rest) k = k + a := by simp [partnerIdx, c1]
        unfold foldedEntry
        rw [e1, e2, List.getD_append _ _ _ _ (by rw [hzr]; exact c1), getD_map_re, hz,
          zipC_getD x y (by rw [hx, hy]), List.getD_append x _ _ _ (by rw [hx]; exact c1),
          List.getD_append_right x _ _ _ (by rw [hx]; omega), hx, Nat.add_sub_cancel,
          List.getD_append y _ _ _ (by rw [hy]; exact c1)]
        simp
      · by_cases c2 : k < 2 * a
        · have e1 : isReIdx (a :: rest) k = false := by simp [isReIdx, c1, c2]
          have e2 : partnerIdx (a :: rest) k = k - a := by simp [partnerIdx, c1, c2]
          unfold foldedEntry
          rw [e1, e2, List.getD_append_right _ _ _ _ (by rw [hzr]; omega), hzr,
            List.getD_append _ _ _ _ (by rw [hzi]; omega), getD_map_im, hz, zipC_getD x y (by rw [hx, hy]),
            List.getD_append_right x _ _ k (by rw [hx]; omega), hx,
            List.getD_append y _ _ (k - a) (by rw [hy]; omega), List.getD_append x _ _ (k - a) (by rw [hx]; omega)]
          simp
          ring
        · have e1 : isReIdx (a :: rest) k = isReIdx rest (k - 2 * a) := by simp [isReIdx, c1, c2]
          have e2 : partnerIdx (a :: rest) k = 2 * a + partnerIdx rest (k - 2 * a) := by
            simp [partnerIdx, c1, c2]
          have h5 : ∀ j, (x ++ (y ++ Q)).getD (2 * a + j) 0 = Q.getD j 0 := fun j => by
            rw [List.getD_append_right _ _ _ _ (by rw [hx]; omega), hx,
              List.getD_append_right _ _ _ _ (by rw [hy]; omega), hy, show 2 * a + j - a - a = j by omega]
          have h6 : (x ++ (y ++ Q)).getD k 0 = Q.getD (k - 2 * a) 0 := by
            rw [← h5, show 2 * a + (k - 2 * a) = k by omega]
          rw [List.getD_append_right _ _ _ _ (by rw [hzr]; omega), hzr,
            List.getD_append_right _ _ _ _ (by rw [hzi]; omega), hzi]
          have h4 := h3 (k - 2 * a) (by
            rw [List.length_append, List.length_append] at hk
            omega)
          rw [show k - a - a = k - 2 * a by omega, h4]
          unfold foldedEntry
          rw [e1, e2, h5, h6]

theorem flatC_eq_folded {sizes : List ℕ} {L : List (List ℂ)} {P : List ℂ} (hP : P.length = 2 * sizes.sum)
    (hL : L.map List.length = sizes) (h : ∀ k < P.length, (flatC L).getD k 0 = foldedEntry sizes P k) :
    flatC L = (List.range P.length).map fun k => foldedEntry sizes P k := by
  have hl : (flatC L).length = P.length := by
    rw [flatC_length, List.sum_map_mul_left, hL, hP]
  apply List.ext_getElem
  · simp [hl]
  · intro k h1 h2
    have := h k (by omega)
    rw [List.getD_eq_getElem _ _ h1] at this
    simp [this]

/-- `set_parameters` with a complex vector, complex networks. -/
theorem setC_call {n : ℕ} {p₀ : Params} (hp₀ : (flattenParams p₀).length = n + 1) (hc : p₀.isReal = false)
    {ops : List NqsOp} (hops : ∀ op ∈ ops, op.Fits p₀) (hinit : nqsRun p₀ ops ≠ none) (P : Fin (n + 1) → ℂ) :
    (setParametersC (List.ofFn P)).call (nqsRun p₀ ops)
      = (.ok (), nqsRun p₀ (ops ++ [.set (.vec (List.ofFn fun k : Fin (n + 1) =>
          foldedEntry p₀.sizes (List.ofFn P) k))])) := by
  obtain ⟨st, hst⟩ := Option.ne_none_iff_exists'.mp hinit
  have hw := wf_run p₀ ops hops st hst
  have hlen : (List.ofFn P).length = 2 * p₀.sizes.sum := by
    rw [List.length_ofFn, ← hp₀, flatten_length_params, hc]
    rfl
  obtain ⟨L, h1, h2, h3⟩ := unflattenCpxC_ok p₀.sizes [] (List.ofFn P) [] hlen
  have h4 := flatC_eq_folded hlen h2 h3
  have h5 : (List.ofFn fun k : Fin (n + 1) => foldedEntry p₀.sizes (List.ofFn P) k) = flattenParams (.cpx L) := by
    change _ = flatC L
    rw [h4, List.length_ofFn]
    apply List.ext_getElem
    · simp
    · intro k h1 h2
      simp [-List.ofFn_succ]
  have hu : paramUnflattenC st.realParams st.sizes (List.ofFn P) = .ok (.cpx L) := by
    rw [hw.1, hw.2.1, hc]
    unfold paramUnflattenC
    simp only [List.length_nil, List.nil_append, List.append_nil] at h1
    simp only [h1, Bool.false_eq_true, if_false]
    rfl
  have hv : paramUnflatten st.realParams st.sizes (flattenParams (.cpx L)) = .ok (.cpx L) := by
    rw [hw.1, hw.2.1, hc, ← h2]
    exact flattenParams_unflatten (.cpx L)
  have happ : nqsRun p₀ (ops ++ [.set (.vec (flattenParams (.cpx L)))])
      = ((setParameters (.vec (flattenParams (.cpx L)))).call (nqsRun p₀ ops)).2 := by
    unfold nqsRun
    rw [List.foldl_append]
    rfl
  rw [h5, happ, hst, call_setVec, hv]
  unfold setParametersC
  change (match paramUnflattenC st.realParams st.sizes (List.ofFn P) with
    | .error e => (throw e : PsiM Unit)
    | .ok p => setParams p).call (some st) = _
  rw [hu]
  rfl

/-! ## Linear algebra of one step -/

section Step

variable {n : ℕ}

theorem keptProj_idem {N : ℕ} (tol : ℝ) (V : Matrix (Fin N) (Fin N) ℂ) (ev : Fin N → ℝ) (hV : Vᴴ * V = 1) :
    keptProj tol ev V * keptProj tol ev V = keptProj tol ev V := by
  classical
  unfold keptProj
  rw [Matrix.mul_assoc (V * _), ← Matrix.mul_assoc Vᴴ, ← Matrix.mul_assoc Vᴴ, hV, Matrix.one_mul,
    ← Matrix.mul_assoc, Matrix.mul_assoc V, diagonal_mul_diagonal]
  congr 3
  funext k
  split_ifs <;> simp

theorem normSq_add_sum {N : ℕ} (z e : Fin N → ℂ) :
    ∑ a, Complex.normSq (z a + e a) = ∑ a, Complex.normSq (z a) + ∑ a, Complex.normSq (e a)
      + 2 * (∑ a, (starRingEnd ℂ) (z a) * e a).re := by
  rw [Complex.re_sum, Finset.mul_sum, ← Finset.sum_add_distrib, ← Finset.sum_add_distrib]
  refine Finset.sum_congr rfl fun a _ => ?_
  rw [Complex.normSq_add]
  congr 2
  simp [Complex.mul_re]

/-- Distances in terms of arrays. -/
theorem tdvpDistance_array (l : List (ℝ × (Fin 1 → ℂ) × (Fin (n + 1) → ℂ))) (hw : ∀ s ∈ l, 0 ≤ s.1) (x : ℂ)
    (v : Fin (n + 1) → ℝ) :
    tdvpDistance l x v = ∑ a, Complex.normSq ((sampleX l *ᵥ fun k => (v k : ℂ)) a + x * sampleE l a) := by
  unfold tdvpDistance
  rw [← Fin.sum_univ_fun_getElem]
  refine Finset.sum_congr rfl fun a _ => ?_
  have h0 : 0 ≤ l[a.1].1 := hw _ (List.getElem_mem _)
  have : (sampleX l *ᵥ fun k => (v k : ℂ)) a + x * sampleE l a
      = (Real.sqrt l[a.1].1 : ℂ) * (∑ k, (v k : ℂ) * dGrad l l[a.1] k + x * dEloc l l[a.1]) := by
    unfold sampleX sampleE
    simp only [Matrix.mulVec, dotProduct, Matrix.of_apply, Fin.getElem_fin]
    rw [mul_add, Finset.mul_sum]
    congr 1
    · refine Finset.sum_congr rfl fun k _ => ?_
      ring
    · ring
  rw [this, Complex.normSq_mul, Complex.normSq_ofReal, Real.mul_self_sqrt h0]
  rfl

/-- The velocities of the real and imaginary parts of the parameters that a complex update amounts to. -/
noncomputable def foldedVelocity (sizes : List ℕ) (u : Fin (n + 1) → ℂ) (k : Fin (n + 1)) : ℝ :=
  foldedEntry sizes (List.ofFn u) k

theorem foldedEntry_step (sizes : List ℕ) (θ : Fin (n + 1) → ℝ) (dt : ℝ) (u : Fin (n + 1) → ℂ)
    (hs : n + 1 = 2 * sizes.sum) (k : Fin (n + 1)) :
    foldedEntry sizes (List.ofFn ((fun i => ((θ i : ℝ) : ℂ)) + dt • u)) k
      = (θ + dt • foldedVelocity sizes u) k := by
  have hp : partnerIdx sizes k < n + 1 := by
    have := (partnerIdx_spec sizes k (by have := k.isLt; omega)).1
    omega
  have hg : ∀ (f : Fin (n + 1) → ℂ) (j : ℕ) (hj : j < n + 1), (List.ofFn f).getD j 0 = f ⟨j, hj⟩ := by
    intro f j hj
    rw [List.getD_eq_getElem _ _ (by simpa using hj), List.getElem_ofFn]
  unfold foldedVelocity foldedEntry
  rw [Pi.add_apply, Pi.smul_apply, hg _ _ k.isLt, hg _ _ hp, hg _ _ k.isLt, hg _ _ hp]
  simp
  split_ifs <;> ring

variable {partner : Fin (n + 1) → Fin (n + 1)} {isRe : Fin (n + 1) → Bool}

theorem sampleX_partner (hp : IsPairing partner isRe) (l : List (ℝ × (Fin 1 → ℂ) × (Fin (n + 1) → ℂ)))
    (hl : ∀ s ∈ l, HoloGrad partner isRe s.2.2) (a : Fin l.length) (k : Fin (n + 1)) :
    sampleX l a (partner k) = (holoSign isRe k : ℂ) * Complex.I * sampleX l a k := by
  have h := holo_partner hp (hl _ (List.getElem_mem a.2)) k
  unfold sampleX dGrad
  rw [Matrix.of_apply, Matrix.of_apply, wMean_partner hp l hl]
  simp only [Fin.getElem_fin] at h ⊢
  rw [h]
  ring

/-- The real velocities move the samples like the complex update. -/
theorem real_velocity (hp : IsPairing partner isRe) (l : List (ℝ × (Fin 1 → ℂ) × (Fin (n + 1) → ℂ)))
    (hl : ∀ s ∈ l, HoloGrad partner isRe s.2.2) (y : Fin l.length → ℂ) {u : Fin (n + 1) → ℂ}
    (hu : u = -((sampleX l)ᴴ *ᵥ y)) :
    (∀ k, u (partner k) = -((holoSign isRe k : ℂ) * Complex.I) * u k) ∧
    (sampleX l *ᵥ fun k => ((2 * (u k).re : ℝ) : ℂ)) = sampleX l *ᵥ u := by
  have h1 : ∀ k, u (partner k) = -((holoSign isRe k : ℂ) * Complex.I) * u k := by
    intro k
    rw [hu]
    simp only [Pi.neg_apply, Matrix.mulVec, dotProduct, Matrix.conjTranspose_apply]
    simp_rw [sampleX_partner hp l hl]
    rw [mul_neg, neg_inj, Finset.mul_sum]
    refine Finset.sum_congr rfl fun a _ => ?_
    simp only [RCLike.star_def, map_mul, Complex.conj_ofReal, Complex.conj_I]
    ring
  refine ⟨h1, ?_⟩
  funext a
  simp only [Matrix.mulVec, dotProduct]
  have h2 : ∀ k, ((2 * (u k).re : ℝ) : ℂ) = u k + (starRingEnd ℂ) (u k) := fun k => by
    rw [Complex.add_conj]
  simp only [h2, mul_add, Finset.sum_add_distrib]
  have h3 : ∑ k, sampleX l a k * (starRingEnd ℂ) (u k) = 0 := by
    have h4 := Equiv.sum_comp (Function.Involutive.toPerm partner hp.invol)
      fun k => sampleX l a k * (starRingEnd ℂ) (u k)
    have h5 : ∀ k, sampleX l a (partner k) * (starRingEnd ℂ) (u (partner k))
        = -(sampleX l a k * (starRingEnd ℂ) (u k)) := by
      intro k
      rw [sampleX_partner hp l hl, h1]
      simp only [map_mul, map_neg, Complex.conj_ofReal, Complex.conj_I]
      have h6 : (holoSign isRe k : ℂ) * (holoSign isRe k : ℂ) = 1 := by exact_mod_cast holoSign_sq isRe k
      linear_combination (sampleX l a k * (starRingEnd ℂ) (u k)) * ((holoSign isRe k : ℂ) * (holoSign isRe k : ℂ))
        * Complex.I_mul_I - (sampleX l a k * (starRingEnd ℂ) (u k)) * h6
    have h8 : ∑ k, sampleX l a (partner k) * (starRingEnd ℂ) (u (partner k))
        = ∑ k, sampleX l a k * (starRingEnd ℂ) (u k) := h4
    rw [Finset.sum_congr rfl fun k _ => h5 k, Finset.sum_neg_distrib] at h8
    have h7 : (2 : ℂ) * ∑ k, sampleX l a k * (starRingEnd ℂ) (u k) = 0 := by linear_combination -h8
    simpa using h7
  rw [h3, add_zero]

/-- Pythagoras for the update, with any cutoff. -/
theorem minsr_pythagoras (cfg : MinSRCfg) (heigh : cfg.EighCorrect) (ht : 0 ≤ cfg.pinvTol)
    (l : List (ℝ × (Fin 1 → ℂ) × (Fin (n + 1) → ℂ))) (hw : ∀ s ∈ l, 0 ≤ s.1) (v : Fin (n + 1) → ℝ)
    {u : Fin (n + 1) → ℂ}
    (hu : u = -((sampleX l)ᴴ *ᵥ (pinvHermitian cfg.eigh cfg.pinvTol (kernelOf l) *ᵥ sampleE l)))
    (hv : (sampleX l *ᵥ fun k => (v k : ℂ)) = sampleX l *ᵥ u) :
    tdvpDistance l 1 v + tdvpDistance l 0 v = tdvpDistance l 1 0 := by
  have he := heigh _ _ (kernel_hermitian l)
  have hP := mul_pinv cfg.eigh cfg.pinvTol ht _ he
  set K := keptProj cfg.pinvTol (cfg.eigh _ (kernelOf l)).1 (cfg.eigh _ (kernelOf l)).2 with hK
  have hz : (sampleX l *ᵥ fun k => (v k : ℂ)) = -(K *ᵥ sampleE l) := by
    rw [hv, hu, Matrix.mulVec_neg, Matrix.mulVec_mulVec, ← kernelOf_eq, Matrix.mulVec_mulVec, hP]
  rw [tdvpDistance_array l hw, tdvpDistance_array l hw, tdvpDistance_array l hw]
  have h0 : (sampleX l *ᵥ fun k => (((0 : Fin (n + 1) → ℝ) k : ℝ) : ℂ)) = 0 := by
    funext a
    simp [Matrix.mulVec, dotProduct]
  rw [h0, hz]
  simp only [one_mul, zero_mul, add_zero, Pi.zero_apply, zero_add]
  rw [normSq_add_sum]
  have h1 : ∑ a, (starRingEnd ℂ) ((-(K *ᵥ sampleE l)) a) * sampleE l a
      = -((∑ a, Complex.normSq ((-(K *ᵥ sampleE l)) a) : ℝ) : ℂ) := by
    have h2 : star (K *ᵥ sampleE l) ⬝ᵥ sampleE l = star (K *ᵥ sampleE l) ⬝ᵥ (K *ᵥ sampleE l) := by
      rw [Matrix.star_mulVec, keptProj_herm, ← Matrix.dotProduct_mulVec, ← Matrix.dotProduct_mulVec,
        Matrix.mulVec_mulVec, keptProj_idem _ _ _ he.unitary]
    have h3 : ∑ a, (starRingEnd ℂ) ((-(K *ᵥ sampleE l)) a) * sampleE l a = -(star (K *ᵥ sampleE l) ⬝ᵥ sampleE l) := by
      simp [dotProduct]
    have h4 : ((∑ a, Complex.normSq ((-(K *ᵥ sampleE l)) a) : ℝ) : ℂ) = star (K *ᵥ sampleE l) ⬝ᵥ (K *ᵥ sampleE l) := by
      push_cast
      simp only [dotProduct, Pi.neg_apply]
      refine Finset.sum_congr rfl fun a _ => ?_
      rw [Complex.normSq_eq_conj_mul_self]
      simp
    rw [h3, h2, h4]
  rw [h1, Complex.neg_re, Complex.ofReal_re]
  ring

/-- The rate of change of the sampled energy is minus twice the squared speed. -/
theorem minsr_rate {l : List (ℝ × (Fin 1 → ℂ) × (Fin (n + 1) → ℂ))} {v : Fin (n + 1) → ℝ}
    (h : tdvpDistance l 1 v + tdvpDistance l 0 v = tdvpDistance l 1 0) :
    sampledRate l v = -2 * tdvpDistance l 0 v := by
  have h1 := distance_split l 1 v
  have h2 := distance_split l 0 v
  have h3 : tdvpDistance l 0 0 = 0 := by simp [tdvpDistance]
  have h4 : (∑ i, (v i : ℂ) * (-(1 : ℂ) * specF l i)).re = -∑ k, v k * (specF l k).re := by
    rw [Complex.re_sum, ← Finset.sum_neg_distrib]
    refine Finset.sum_congr rfl fun k _ => ?_
    rw [Complex.re_ofReal_mul, neg_one_mul, Complex.neg_re]
    ring
  have h5 : (∑ i, (v i : ℂ) * (-(0 : ℂ) * specF l i)).re = 0 := by simp
  rw [h4] at h1
  rw [h5, h3] at h2
  unfold sampledRate
  linarith

end Step

end JVMC
