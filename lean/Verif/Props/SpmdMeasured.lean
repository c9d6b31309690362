import Verif.Props.SpmdRun

/-!
# What the ranks measure in a simulation

C105: the values in the records, and the weighted samples from which `TDVP` works, are those of all ranks together.
-/

namespace JVMC

open Spec

variable {N n K : ℕ}

/-- The weights a list `ps` (found from `d` entry by entry) next to `d`. -/
theorem zipWith_weights {A B : Type} (f : A → ℝ) (g : ℝ → A → B) (d : List (List A)) :
    List.zipWith (List.zipWith g) (d.map fun dev => dev.map f) d = d.map fun dev => dev.map fun e => g (f e) e := by
  rw [List.zipWith_map_left, List.zipWith_self]
  apply List.map_congr_left
  intro dev _
  rw [List.zipWith_map_left, List.zipWith_self]

theorem mapM_get {A B : Type} {f : A → Except PyErr B} {xs : List A} {ls : List B} (h : xs.mapM f = .ok ls) :
    ls.length = xs.length ∧ ∀ (i : ℕ) (a : A), xs[i]? = some a → ∃ b : B, ls[i]? = some b ∧ f a = .ok b := by
  induction xs generalizing ls with
  | nil =>
    obtain rfl : [] = ls := Except.ok.inj h
    simp
  | cons x xs ih =>
    rw [List.mapM_cons] at h
    obtain ⟨b, hb, h⟩ := except_bind_ok h
    obtain ⟨bs, hbs, h⟩ := except_bind_ok h
    obtain rfl := Except.ok.inj h
    obtain ⟨h1, h2⟩ := ih hbs
    refine ⟨by simp [h1], fun i a hi => ?_⟩
    cases i with
    | zero => exact ⟨b, by simp, by simp at hi; rw [← hi]; exact hb⟩
    | succ i => simpa using h2 i a (by simpa using hi)

theorem measures_means [NeZero N] {X : Type} (ns : Option ℕ) (q : Fin N → List (List ℝ)) (hq : ∀ r, q r ≠ [])
    (d : Fin N → List (List (X × (Fin K → ℂ)))) (hd : ∀ r, d r ≠ []) :
    ∃ ms : List MeasResult,
      Lockstep (fun r => measureManyR ns ((List.finRange K).map fun k => opData k (q r) (d r))) (fun _ => ms) ∧
      ms.length = K ∧
      ∀ k : Fin K, ∃ m, ms[k.val]? = some m ∧
        m.mean = (wMean (allSamples (List.ofFn fun r => opData k (q r) (d r))) 0).re := by
  obtain ⟨ls, ms, h1, h2, l⟩ := measures_runs (K := K) ns q hq d hd
  obtain ⟨a1, a2⟩ := mapM_get h1
  obtain ⟨b1, b2⟩ := mapM_get (h2 0)
  refine ⟨ms, l, by rw [b1, a1]; simp, fun k => ?_⟩
  obtain ⟨lk, hlk, hm⟩ := a2 k.val (List.zipWith (opData k) (List.ofFn q) (List.ofFn d)) (by simp)
  obtain ⟨m, hmk, hr⟩ := b2 k.val lk hlk
  refine ⟨m, hmk, ?_⟩
  rw [ofFn_zipWith] at hm
  obtain ⟨res, hres, -, hmean⟩ := measureOne_mean ns (List.ofFn fun r => opData k (q r) (d r)) (by
    intro rk hrk
    obtain ⟨r, rfl⟩ := List.mem_ofFn.mp hrk
    intro hc
    unfold opData at hc
    rcases List.zipWith_eq_nil_iff.mp hc with h | h
    · exact hq r h
    · exact hd r h)
  obtain rfl : lk = res := Except.ok.inj (hm.symm.trans hres)
  refine hmean m ?_
  unfold atRank at hr
  split at hr
  · rename_i a ha
    obtain rfl := Except.ok.inj hr
    exact List.mem_of_getElem? ha
  · cases hr

/-- The part of `exactSample_eq` in terms of what each rank gets. -/
theorem exactSample_each [NeZero N] {X : Type} (lpf : ℝ) (hf : lpf ≠ 0) (ln : ℝ) (d : Fin N → List (List (ExactEntry × X)))
    (hdev : ∀ r, d r ≠ []) (hne : ∃ e ∈ allSamples (List.ofFn d), e.1.1 = true) :
    ∃ (ln' : ℝ) (q : Fin N → List (List ℝ)),
      Lockstep (fun r => exactSampleR lpf ln ((d r).map fun dev => dev.map Prod.fst)) (fun r => (ln', q r)) ∧
      ∀ r, q r = (d r).map fun dev => dev.map fun e =>
        if e.1.1 then Real.exp (e.1.2.re / lpf)
          / (((allSamples (List.ofFn d)).filter fun e => e.1.1).map fun e => Real.exp (e.1.2.re / lpf)).sum else 0 := by
  have hall : keptLogPsi (List.ofFn fun r => (d r).map fun dev => dev.map Prod.fst)
      = ((allSamples (List.ofFn d)).filter fun e => e.1.1).map fun e => e.1.2 := by
    unfold keptLogPsi
    have : (List.ofFn fun r => (d r).map fun dev => dev.map Prod.fst)
        = (List.ofFn d).map fun rk => rk.map fun dev => dev.map Prod.fst := by
      rw [List.map_ofFn]
      rfl
    rw [this, allSamples_map, List.filter_map, List.map_map]
    rfl
  have h := exactSample_eq lpf ln hf (List.ofFn fun r => (d r).map fun dev => dev.map Prod.fst) (by
    intro rk hrk
    obtain ⟨r, rfl⟩ := List.mem_ofFn.mp hrk
    simpa using hdev r) (by
    rw [hall]
    obtain ⟨e, he, hk⟩ := hne
    intro hc
    have : e ∈ (allSamples (List.ofFn d)).filter fun e => e.1.1 := List.mem_filter.mpr ⟨he, hk⟩
    rw [List.map_eq_nil_iff.mp hc] at this
    cases this)
  obtain ⟨q, hq, l⟩ := exactSample_ranks h
  refine ⟨_, q, l, fun r => ?_⟩
  unfold bornWorld at hq
  rw [List.map_ofFn] at hq
  rw [← congrFun (List.ofFn_injective hq) r]
  simp only [Function.comp, List.map_map]
  apply List.map_congr_left
  intro dev _
  simp only [Function.comp, List.map_map]
  apply List.map_congr_left
  intro e _
  simp only [Function.comp, bornProb, partitionSum, hall, List.map_map]
  rfl

theorem mcmcWeights_each {X : Type} (lpf mu : ℝ) (d : Fin N → List (List (ℂ × X)))
    (hdev : ∀ r, d r ≠ []) :
    ∃ q : Fin N → List (List ℝ),
      Lockstep (fun r => mcmcWeightsR lpf mu ((d r).map fun dev => dev.map Prod.fst)) q ∧
      ∀ r, q r = (d r).map fun dev => dev.map fun e => Real.exp ((1 / lpf - mu) * e.1.re)
          / ((allSamples (List.ofFn d)).map fun e => Real.exp ((1 / lpf - mu) * e.1.re)).sum := by
  set w : World ℝ := List.ofFn fun r => (d r).map fun dev => dev.map fun e => Real.exp ((1 / lpf - mu) * e.1.re) with hw
  have hs := globalSum_eq w (by
    intro x hx
    obtain ⟨r, rfl⟩ := List.mem_ofFn.mp hx
    simpa using hdev r)
  have hsum : (allSamples w).sum = ((allSamples (List.ofFn d)).map fun e => Real.exp ((1 / lpf - mu) * e.1.re)).sum := by
    have : w = (List.ofFn d).map fun rk => rk.map fun dev => dev.map fun e => Real.exp ((1 / lpf - mu) * e.1.re) := by
      rw [List.map_ofFn]
      rfl
    rw [this, allSamples_map]
  have h : mcmcWeights lpf mu (List.ofFn fun r => (d r).map fun dev => dev.map Prod.fst)
      = .ok (List.ofFn fun r => (d r).map fun dev => dev.map fun e => Real.exp ((1 / lpf - mu) * e.1.re)
          / ((allSamples (List.ofFn d)).map fun e => Real.exp ((1 / lpf - mu) * e.1.re)).sum) := by
    have hw' : (List.ofFn fun r => (d r).map fun dev => dev.map Prod.fst).map (fun rk => rk.map fun dev =>
        dev.map fun z : ℂ => Real.exp ((1 / lpf - mu) * z.re)) = w := by
      rw [List.map_ofFn, hw]
      congr 1
      funext r
      simp [Function.comp_def]
    unfold mcmcWeights
    rw [hw']
    change Except.bind (globalSum w) _ = _
    rw [hs, hw, List.map_ofFn]
    show Except.ok _ = Except.ok _
    rw [ofFn_zip, List.map_ofFn, ← hw, hsum]
    congr 2
    funext r
    simp [Function.comp_def]
  obtain ⟨q, hq, l⟩ := mcmcWeights_ranks h
  exact ⟨q, l, fun r => (congrFun (List.ofFn_injective hq) r).symm⟩

theorem allSamples_each {A B : Type} (f : A → B) (d : Fin N → List (List A)) :
    allSamples (List.ofFn fun r => (d r).map fun dev => dev.map f) = (allSamples (List.ofFn d)).map f := by
  have : (List.ofFn fun r => (d r).map fun dev => dev.map f)
      = (List.ofFn d).map fun rk => rk.map fun dev => dev.map f := by
    rw [List.map_ofFn]
    rfl
  rw [this, allSamples_map]

theorem wMean_one {A : Type} (w : A → ℝ) (g : A → ℂ) (l : List A) :
    (wMean (l.map fun e => (w e, fun _ : Fin 1 => g e)) 0).re = (l.map fun e => w e * (g e).re).sum := by
  induction l with
  | nil => simp [wMean]
  | cons e l ih =>
    simp only [wMean, List.map_cons, List.sum_cons, List.map_map] at ih ⊢
    rw [Pi.add_apply, Complex.add_re, ih]
    simp

/-- For cases: a state of the basis, on which the observable is `z`, and a padded entry. -/
noncomputable def demoTwo (z : ℂ) (_ : Params) : List (List (ExactEntry × (Fin 1 → ℂ))) :=
  [[((true, 1), ![z]), ((false, 1), ![7])]]

/-- For cases: two samples, on which the observable is `z`. -/
noncomputable def demoDraws (z : ℂ) (_ : Params) : List (List (ℂ × (Fin 1 → ℂ))) × ℂ :=
  ([[(1, ![z])], [(3, ![z])]], 0)

/-- **C105**: what `measure` returns on the ranks with `ExactSampler`. Under every timing of the ranks, all of them get
a list with one result per operator, and the mean of operator `k` is the expectation value with the weights
`exp(Re log ψ / f)` in all entries of the basis that are not padding, of all ranks and devices. -/
theorem c105_measured_exact [NeZero N] {β : Type} (lpf : ℝ) (hf : lpf ≠ 0)
    (obs : β → Params → List (List (ExactEntry × (Fin K → ℂ)))) (p : Params) (part : Fin N → β) (lastNorm : ℝ)
    (hdev : ∀ r, obs (part r) p ≠ [])
    (hne : ∃ e ∈ allSamples (List.ofFn fun r => obs (part r) p), e.1.1 = true) :
    ∃ (res : List MeasResult) (ln : ℝ),
      AlwaysReturns (fun r => exactObsR lpf obs p (part r, lastNorm)) (fun r => (res, (part r, ln))) ∧
      res.length = K ∧
      ∀ k : Fin K, ∃ m, res[k.val]? = some m ∧
        m.mean = (((allSamples (List.ofFn fun r => obs (part r) p)).filter fun e => e.1.1).map fun e =>
            Real.exp (e.1.2.re / lpf) * (e.2 k).re).sum
          / (((allSamples (List.ofFn fun r => obs (part r) p)).filter fun e => e.1.1).map fun e =>
            Real.exp (e.1.2.re / lpf)).sum := by
  obtain ⟨ln, q, lq, hq⟩ := exactSample_each lpf hf lastNorm (fun r => obs (part r) p) hdev hne
  obtain ⟨ms, lm, hlen, hms⟩ := measures_means (K := K) none q
    (fun r hc => hdev r (by simpa [hq r] using hc)) (fun r => obs (part r) p) hdev
  refine ⟨ms, ln, lockstep_always (lockstep_seq lq (lockstep_seq lm (lockstep_pure _))), hlen, fun k => ?_⟩
  obtain ⟨m, hm, hmean⟩ := hms k
  refine ⟨m, hm, hmean.trans ?_⟩
  unfold opData
  simp only [hq, zipWith_weights, allSamples_each]
  rw [wMean_one]
  generalize (List.map (fun e : ExactEntry × (Fin K → ℂ) => Real.exp (e.1.2.re / lpf)) _).sum = Z
  generalize allSamples (List.ofFn fun r => obs (part r) p) = E
  clear hms hmean hm hne hq
  induction E with
  | nil => simp
  | cons e E ih =>
    rw [List.map_cons, List.sum_cons, ih, List.filter_cons]
    split_ifs
    · rw [List.map_cons, List.sum_cons]
      ring
    · ring

/-- **C105**: what `measure` returns on the ranks with `MCSampler`: the mean of operator `k` is the average of the local
values of all samples of all ranks, with the weights `exp((1/f - mu) Re log ψ)`. -/
theorem c105_measured_mcmc [NeZero N] {σ : Type} (lpf mu : ℝ) (num : ℕ)
    (draw : σ → Params → List (List (ℂ × (Fin K → ℂ))) × σ) (p : Params) (sm : Fin N → σ)
    (hdev : ∀ r, (draw (sm r) p).1 ≠ []) :
    ∃ res : List MeasResult,
      AlwaysReturns (fun r => mcmcObsR lpf mu num draw p (sm r)) (fun r => (res, (draw (sm r) p).2)) ∧
      res.length = K ∧
      ∀ k : Fin K, ∃ m, res[k.val]? = some m ∧
        m.mean = ((allSamples (List.ofFn fun r => (draw (sm r) p).1)).map fun e =>
            Real.exp ((1 / lpf - mu) * e.1.re) * (e.2 k).re).sum
          / ((allSamples (List.ofFn fun r => (draw (sm r) p).1)).map fun e =>
            Real.exp ((1 / lpf - mu) * e.1.re)).sum := by
  obtain ⟨q, lq, hq⟩ := mcmcWeights_each lpf mu (fun r => (draw (sm r) p).1) hdev
  obtain ⟨ms, lm, hlen, hms⟩ := measures_means (K := K) (some num) q
    (fun r hc => hdev r (by simpa [hq r] using hc)) (fun r => (draw (sm r) p).1) hdev
  refine ⟨ms, lockstep_always (lockstep_seq lq (lockstep_seq lm (lockstep_pure _))), hlen, fun k => ?_⟩
  obtain ⟨m, hm, hmean⟩ := hms k
  refine ⟨m, hm, hmean.trans ?_⟩
  unfold opData
  simp only [hq, zipWith_weights, allSamples_each]
  rw [wMean_one]
  generalize (List.map (fun e : ℂ × (Fin K → ℂ) => Real.exp ((1 / lpf - mu) * e.1.re)) _).sum = Z
  generalize allSamples (List.ofFn fun r => (draw (sm r) p).1) = E
  clear hms hmean hm hq
  induction E with
  | nil => simp
  | cons e E ih =>
    rw [List.map_cons, List.sum_cons, ih, List.map_cons, List.sum_cons]
    ring

/-- **C105**: the data from which `TDVP` forms its equation with `ExactSampler`: every rank gets the local energies and
gradients of its entries, each with the weight `exp(Re log ψ / f)` relative to all ranks, or zero for padding. -/
theorem c105_samples_exact [NeZero N] {β : Type} (lpf : ℝ) (hf : lpf ≠ 0)
    (loc : β → Params → ℝ → List (List (ExactEntry × (Fin 1 → ℂ) × (Fin (n + 1) → ℂ)))) (p : Params) (t : ℝ)
    (part : Fin N → β) (lastNorm : ℝ) (hdev : ∀ r, loc (part r) p t ≠ [])
    (hne : ∃ e ∈ allSamples (List.ofFn fun r => loc (part r) p t), e.1.1 = true) :
    ∃ ln : ℝ, AlwaysReturns (fun r => (exactEnvR lpf loc).measure p (part r, lastNorm) t) fun r =>
      ((loc (part r) p t).map fun dev => dev.map fun e =>
        (if e.1.1 then Real.exp (e.1.2.re / lpf)
            / (((allSamples (List.ofFn fun r => loc (part r) p t)).filter fun e => e.1.1).map fun e =>
              Real.exp (e.1.2.re / lpf)).sum
          else 0, e.2.1, e.2.2),
        (part r, ln)) := by
  obtain ⟨ln, q, lq, hq⟩ := exactSample_each lpf hf lastNorm (fun r => loc (part r) p t) hdev hne
  refine ⟨ln, lockstep_always ?_⟩
  have h : (fun r => ((loc (part r) p t).map fun dev => dev.map fun e =>
        (if e.1.1 then Real.exp (e.1.2.re / lpf)
            / (((allSamples (List.ofFn fun r => loc (part r) p t)).filter fun e => e.1.1).map fun e =>
              Real.exp (e.1.2.re / lpf)).sum
          else 0, e.2.1, e.2.2), (part r, ln))) = fun r => (withWeights (q r) (loc (part r) p t), (part r, ln)) := by
    funext r
    simp only [withWeights, hq, zipWith_weights]
  rw [h]
  exact lockstep_seq lq (lockstep_pure _)

/-- **C105**: the data from which `TDVP` forms its equation with `MCSampler`: every rank gets the local energies and
gradients of its samples, each with the weight `exp((1/f - mu) Re log ψ)` relative to the samples of all ranks. -/
theorem c105_samples_mcmc {σ : Type} (lpf mu : ℝ)
    (draw : σ → Params → ℝ → List (List (ℂ × (Fin 1 → ℂ) × (Fin (n + 1) → ℂ))) × σ) (p : Params) (t : ℝ)
    (sm : Fin N → σ) (hdev : ∀ r, (draw (sm r) p t).1 ≠ []) :
    AlwaysReturns (fun r => (mcmcEnvR lpf mu draw).measure p (sm r) t) fun r =>
      ((draw (sm r) p t).1.map fun dev => dev.map fun e =>
        (Real.exp ((1 / lpf - mu) * e.1.re)
            / ((allSamples (List.ofFn fun r => (draw (sm r) p t).1)).map fun e =>
              Real.exp ((1 / lpf - mu) * e.1.re)).sum, e.2.1, e.2.2),
        (draw (sm r) p t).2) := by
  obtain ⟨q, lq, hq⟩ := mcmcWeights_each lpf mu (fun r => (draw (sm r) p t).1) hdev
  have h : (fun r => ((draw (sm r) p t).1.map fun dev => dev.map fun e =>
        (Real.exp ((1 / lpf - mu) * e.1.re)
            / ((allSamples (List.ofFn fun r => (draw (sm r) p t).1)).map fun e =>
              Real.exp ((1 / lpf - mu) * e.1.re)).sum, e.2.1, e.2.2), (draw (sm r) p t).2))
      = fun r => (withWeights (q r) (draw (sm r) p t).1, (draw (sm r) p t).2) := by
    funext r
    simp only [withWeights, hq, zipWith_weights]
  rw [h]
  exact lockstep_always (lockstep_seq lq (lockstep_pure _))

/-- Case: two ranks with one basis state each, on which the observable is 2 and 4; both states have the same
probability. -/
example : ∃ (res : List MeasResult) (ln : ℝ),
    AlwaysReturns (fun r : Fin 2 => exactObsR 2 demoTwo (.real []) (![2, 4] r, 0)) (fun r => (res, (![2, 4] r, ln))) ∧
    ∃ m, res[0]? = some m ∧ m.mean = 3 := by
  obtain ⟨res, ln, h1, -, h3⟩ := c105_measured_exact (N := 2) (K := 1) 2 (by norm_num) demoTwo (.real []) ![2, 4] 0
    (fun r => by simp [demoTwo]) ⟨((true, 1), ![2]), by simp [demoTwo, allSamples]⟩
  refine ⟨res, ln, h1, ?_⟩
  obtain ⟨m, hm, he⟩ := h3 0
  refine ⟨m, hm, he.trans ?_⟩
  simp [demoTwo, allSamples]
  have := (Real.exp_pos (1 / 2)).ne'
  field_simp
  norm_num

/-- Case: four samples on two ranks, all with the same weight. -/
example : ∃ res : List MeasResult,
    AlwaysReturns (fun r : Fin 2 => mcmcObsR 2 (1 / 2) 3 demoDraws (.real []) (![2, 4] r))
      (fun _ => (res, 0)) ∧
    ∃ m, res[0]? = some m ∧ m.mean = 3 := by
  obtain ⟨res, h1, -, h3⟩ := c105_measured_mcmc (N := 2) (K := 1) 2 (1 / 2) 3 demoDraws (.real []) ![2, 4]
    (fun r => by simp [demoDraws])
  refine ⟨res, h1, ?_⟩
  obtain ⟨m, hm, he⟩ := h3 0
  refine ⟨m, hm, he.trans ?_⟩
  simp [demoDraws, allSamples]
  norm_num

end JVMC
