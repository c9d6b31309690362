import Mathlib.Analysis.Calculus.Deriv.Slope
import Verif.Lemmas.Pipeline
import Verif.Lemmas.TdvpFlow
import Verif.Props.BranchFree
import Verif.Props.Measure
import Verif.Props.Tdvp

/-!
# C77-C80: what a whole measurement or TDVP step computes

`expect O ψ`, `spread O ψ`, `BornWeights`, `Represents` are defined in `Spec/Variational`.
-/

namespace JVMC

open Spec Matrix

/-! ## Samples -/

/-- The weighted configurations of a sample. -/
def weighted {S : Type} (w : World (S × ℂ × ℝ)) : List (ℝ × S) :=
  (allSamples w).map fun x => (x.2.2, x.1)

/-- What every sampler returns: all ranks have devices, all devices have samples, and the amplitudes
are those of the network. -/
structure SamplesOf {S : Type} (logPsi : S → ℂ) (w : World (S × ℂ × ℝ)) : Prop where
  devices : ∀ rk ∈ w, rk ≠ []
  nonempty : ∀ rk ∈ w, ∀ dev ∈ rk, dev ≠ []
  amplitudes : ∀ x ∈ allSamples w, x.2.1 = logPsi x.1

/-- C77: the exact sampler returns every configuration with its Born probability, for every number of
ranks and devices for which the split of the basis is even (see C09), whatever was sampled before. -/
theorem c77_exact_sampler (d N D s : ℕ) [NeZero d] (hl : 2 ≤ d) (hD : 0 < D) (hs : 0 < s)
    (hbig : s ≤ d ^ N)
    (hdiv : ∀ r < s, ∀ n g, distributeSampling s r (d ^ N) none 1 = .ok (n, g) → D ∣ n)
    (lastNorm : ℝ) (logPsi : (Fin N → Fin d) → ℂ) :
    ∃ ln' w, exactSampleWorld d N D s (toConfig N d) (1 / 2) lastNorm logPsi = .ok (ln', w) ∧
      List.length w = s ∧ (∀ rk ∈ w, rk.length = D) ∧ SamplesOf logPsi w ∧
      BornWeights (fun c => Complex.exp (logPsi c)) (weighted w) := by
  obtain ⟨W, basis, ln', hb, hlen, hdev, hfull, hkept, hw⟩ :=
    exactSampleWorld_eq d N D s hl hD hs (toConfig N d) (1 / 2) lastNorm (by norm_num) logPsi
  obtain ⟨basis', hb', hnd, hcount, hcov⟩ := c09_exactly_once_divisible d N D s hl hD hs hdiv
  obtain rfl := Except.ok.inj (hb.symm.trans hb')
  refine ⟨ln', _, hw, by simpa [World.map] using hlen, ?_, ⟨?_, ?_, ?_⟩, ?_⟩
  · intro rk hrk
    obtain ⟨rk', h', rfl⟩ := List.mem_map.mp hrk
    rw [List.length_map]
    exact hdev rk' h'
  · apply World.map_ne
    intro rk hrk he
    have := hdev rk hrk
    rw [he] at this
    simp at this
    omega
  · intro rk hrk dev hd
    obtain ⟨rk', h', rfl⟩ := List.mem_map.mp hrk
    obtain ⟨dev', h'', rfl⟩ := List.mem_map.mp hd
    simpa using hfull hbig rk' h' dev' h''
  · intro x hx
    rw [allSamples_wmap] at hx
    obtain ⟨e, _, rfl⟩ := List.mem_map.mp hx
    rfl
  · have hdn : (basis.map (toConfig N d)).Nodup := by
      apply List.Nodup.map_on _ hnd
      intro x hx y hy h
      exact toConfig_inj N d x y ((hcov x).1 hx) ((hcov y).1 hy) h
    have hall : ∀ c, c ∈ basis.map (toConfig N d) := by
      intro c
      obtain ⟨l, hl, rfl⟩ := toConfig_surj N d c
      exact List.mem_map.mpr ⟨l, (hcov l).2 hl, rfl⟩
    have hexp : ∀ z : ℂ, Real.exp (z.re / (1 / 2)) = Complex.normSq (Complex.exp z) := by
      intro z
      rw [Complex.normSq_eq_norm_sq, Complex.norm_exp, sq, ← Real.exp_add]
      congr 1
      ring
    have hZ : partitionSum (1 / 2) (basis.map fun c => logPsi (toConfig N d c))
        = norm2 fun c => Complex.exp (logPsi c) := by
      unfold partitionSum norm2
      have h1 := List.sum_toFinset (fun c => Complex.normSq (Complex.exp (logPsi c))) hdn
      rw [show (basis.map (toConfig N d)).toFinset = Finset.univ from
        Finset.eq_univ_iff_forall.2 fun c => List.mem_toFinset.2 (hall c)] at h1
      rw [h1, List.map_map, List.map_map]
      simp only [Function.comp_def, hexp]
    have hwt : weighted (World.map (fun e => (toConfig N d e.2, logPsi (toConfig N d e.2),
        if e.1 = true then bornProb (1 / 2) (basis.map fun c => logPsi (toConfig N d c))
          (logPsi (toConfig N d e.2)) else 0)) W)
        = (allSamples W).map fun e => ((if e.1 then (fun c => Complex.normSq (Complex.exp (logPsi c))
          / norm2 fun c => Complex.exp (logPsi c)) (toConfig N d e.2) else 0), toConfig N d e.2) := by
      unfold weighted
      rw [allSamples_wmap, List.map_map]
      apply List.map_congr_left
      intro e _
      simp only [Function.comp_apply, bornProb, hZ, hexp]
    rw [hwt]
    constructor
    · intro x hx
      obtain ⟨e, _, rfl⟩ := List.mem_map.mp hx
      dsimp only
      split
      · exact div_nonneg (Complex.normSq_nonneg _)
          (Finset.sum_nonneg fun _ _ => Complex.normSq_nonneg _)
      · exact le_rfl
    · intro c
      refine (weight_kept (allSamples W) (toConfig N d) (fun c => Complex.normSq
        (Complex.exp (logPsi c)) / norm2 fun c => Complex.exp (logPsi c)) c).trans ?_
      rw [hkept, List.count_eq_one_of_mem hdn (hall c)]
      simp

/-- Non-vacuity: three spins on two ranks with two devices each. -/
example : 2 ≤ 2 ^ 3 ∧ ∀ r < 2, ∀ n g, distributeSampling 2 r (2 ^ 3) none 1 = .ok (n, g) → 2 ∣ n := by
  refine ⟨by norm_num, ?_⟩
  intro r hr n g h
  rcases (by omega : r = 0 ∨ r = 1) with rfl | rfl <;>
  · simp [distributeSampling, samplesPerProcess] at h
    omega

/-! ## Operators -/

/-- The matrix elements an operator object returns for a configuration are those of `O`, equally many
for all configurations (the number of operator strings), and none is non-zero but below `10⁻⁶` (see
C28). -/
structure OperatorOf {C : Type} [Fintype C] [DecidableEq C] (kernel : C → List (C × ℂ))
    (O : Matrix C C ℂ) : Prop where
  elements : Represents kernel O
  shape : ∃ numOps, ∀ s, (kernel s).length = numOps
  above : ∀ s, AboveThreshold (kernel s)

/-- Branch-free operators are of this kind. -/
theorem operatorOf_branchFree {N d : ℕ} [NeZero N] (strs : List (List (LocalOp N d)))
    (pfs : List ℂ) (hlen : pfs.length = strs.length)
    (hf : ∀ ops ∈ strs, ∀ o ∈ ops, o.fermionic = true → d = 2)
    (hd : ∀ ops ∈ strs, ∀ o ∈ ops, o.diag = true → o.map = id)
    (habove : ∀ s, AboveThreshold (branchFreeKernel strs pfs s)) :
    OperatorOf (branchFreeKernel strs pfs)
      (sumOfProducts (pfs.zip (strs.map fun ops => (ops.map opMatrix).reverse))) := by
  refine ⟨fun s s' => c26_reversed_product strs pfs hlen hf hd s s', ⟨strs.length, fun s => ?_⟩, habove⟩
  simp [branchFreeKernel, kernelMasked, mergeDiag_length, rawSPrimes, hlen]

section

variable {C : Type} [Fintype C] [DecidableEq C] {kernel : C → List (C × ℂ)} {O : Matrix C C ℂ}

theorem local_eq (hk : OperatorOf kernel O) (logPsi : C → ℂ) (s : C) :
    ((kernel s).map fun e => e.2 * Complex.exp (logPsi e.1 - logPsi s)).sum
      = localValue O (fun c => Complex.exp (logPsi c)) s := by
  have h := applyTo_elementOf (kernel s) fun c => Complex.exp (logPsi c) / Complex.exp (logPsi s)
  unfold applyTo at h
  simp only [Complex.exp_sub]
  rw [h]
  unfold localValue mulVec dotProduct
  rw [Finset.sum_div]
  apply Finset.sum_congr rfl
  intro s' _
  rw [hk.elements s s']
  ring

/-- `get_O_loc` returns `(O ψ)(s) / ψ(s)` for every sample, for every batch size. -/
theorem getOLoc_local (hk : OperatorOf kernel O) (psi : Net C) (hlog : psi.logarithmic = true)
    (zeroCfg : C) (b : ℤ) (samples : List C) (hn : samples ≠ []) (logPsiS : List ℂ)
    (hl : logPsiS = samples.map psi.val) :
    getOLoc kernel psi zeroCfg b samples (some logPsiS)
      = some (samples.map (localValue O fun c => Complex.exp (psi.val c))) := by
  obtain ⟨numOps, hops⟩ := hk.shape
  rw [c29_batched_eq_unbatched_partial kernel psi hlog zeroCfg samples hn (some logPsiS) (by
    intro l h
    rw [← Option.some.inj h, hl, List.length_map]) numOps hops b]
  unfold getOLoc
  have hval : psi.logPsiSP = psi.val := by
    funext s; simp [Net.logPsiSP, hlog]
  dsimp only [Option.getD_some]
  rw [if_neg (by omega), hval, c28_local_estimator_partial kernel samples logPsiS psi.val numOps
    (fun s _ => hops s) (fun s _ => hk.above s), hl, List.zipWith_map_right, List.zipWith_self]
  congr 1
  apply List.map_congr_left
  intro s _
  exact local_eq hk psi.val s

theorem oLocWorld_eq (hk : OperatorOf kernel O) (psi : Net C) (hlog : psi.logarithmic = true)
    (zeroCfg : C) (b : ℤ) (w : World (C × ℂ × ℝ)) (hw : SamplesOf psi.val w) :
    oLocWorld kernel psi zeroCfg b w = .ok (World.map (fun x =>
      (x.2.2, fun _ => localValue O (fun c => Complex.exp (psi.val c)) x.1)) w) := by
  unfold oLocWorld World.map
  apply mapM_ok
  intro rk hrk
  apply mapM_ok
  intro dev hdev
  have hne := hw.nonempty rk hrk dev hdev
  have hamp : dev.map (fun x => x.2.1) = (dev.map fun x => x.1).map psi.val := by
    rw [List.map_map]
    apply List.map_congr_left
    intro x hx
    exact hw.amplitudes x (List.mem_flatten.2 ⟨dev, List.mem_flatten.2 ⟨rk, hrk, hdev⟩, hx⟩)
  rw [getOLoc_local hk psi hlog zeroCfg b (dev.map fun x => x.1) (by simpa using hne) _ hamp]
  dsimp only
  rw [List.map_map, List.zipWith_map_right, List.zipWith_self]
  rfl

/-! ## Averages over exactly weighted samples -/

theorem wMean_born (w : World (C × ℂ × ℝ)) (ψ : C → ℂ) (hb : BornWeights ψ (weighted w)) {ι : Type}
    (f : C → ι → ℂ) (i : ι) :
    wMean (allSamples (World.map (fun x => (x.2.2, f x.1)) w)) i
      = ∑ s, ((Complex.normSq (ψ s) / norm2 ψ : ℝ) : ℂ) * f s i := by
  have h := sum_weighted (weighted w) fun s => f s i
  simp only [hb.born] at h
  rw [← h]
  unfold wMean weighted
  rw [allSamples_wmap, List.map_map, List.map_map]
  induction allSamples w with
  | nil => simp
  | cons a l ih =>
    rw [List.map_cons, List.sum_cons, List.map_cons, List.sum_cons, ← ih, Pi.add_apply]
    simp

theorem wVar_born (w : World (C × ℂ × ℝ)) (ψ : C → ℂ) (hb : BornWeights ψ (weighted w)) {ι : Type}
    (f : C → ι → ℂ) (i : ι) :
    wVar (allSamples (World.map (fun x => (x.2.2, f x.1)) w)) i
      = ∑ s, Complex.normSq (ψ s) / norm2 ψ * Complex.normSq (f s i
        - ∑ s', ((Complex.normSq (ψ s') / norm2 ψ : ℝ) : ℂ) * f s' i) := by
  unfold wVar
  rw [wMean_born w ψ hb f i, allSamples_wmap, List.map_map]
  generalize ∑ s', ((Complex.normSq (ψ s') / norm2 ψ : ℝ) : ℂ) * f s' i = m
  have h := sum_weighted_real (weighted w) fun s => Complex.normSq (f s i - m)
  simp only [hb.born] at h
  rw [← h]
  unfold weighted
  rw [List.map_map]
  rfl

theorem measureOne_mean (n : Option ℕ) (world : World (ℝ × (Fin 1 → ℂ))) (h : ∀ r ∈ world, r ≠ []) :
    ∃ res, measureOne n world = .ok res ∧ res.length = List.length world ∧
      ∀ r ∈ res, r.mean = (wMean (allSamples world) 0).re := by
  have hv : ∃ v, globalVariance world = .ok v ∧ v.length = List.length world := by
    unfold globalVariance
    rw [globalMean_eq world h]
    change ∃ v, Except.bind (List.mapM _ _) _ = _ ∧ _
    rw [mapM_ok _ (fun dm => ((sumSqPmapd dm.2 dm.1).head?).getD 0)]
    · refine ⟨_, rfl, ?_⟩
      simp [allreduceSum]
    · intro dm hdm
      have : dm.1 ≠ [] := h dm.1 (List.of_mem_zip hdm).1
      obtain ⟨a, l, hal⟩ := List.exists_cons_of_ne_nil this
      rw [hal]
      rfl
  obtain ⟨v, hv, hvl⟩ := hv
  unfold measureOne
  rw [globalMean_eq world h, hv]
  refine ⟨_, rfl, by simp [hvl], ?_⟩
  intro r hr
  obtain ⟨i, hi, rfl⟩ := List.mem_iff_getElem.mp hr
  rw [List.getElem_zipWith, List.getElem_map]

/-! ## C77 — expectation values -/

/-- C77: with exactly weighted samples, on any number of ranks and devices and for every batch size of
the local estimator, `measure` reports on every rank the real part of `⟨ψ|O|ψ⟩ / ⟨ψ|ψ⟩`. -/
theorem c77_mean (hk : OperatorOf kernel O) (psi : Net C) (hlog : psi.logarithmic = true)
    (zeroCfg : C) (b : ℤ) (n : Option ℕ) (w : World (C × ℂ × ℝ)) (hw : SamplesOf psi.val w)
    (hb : BornWeights (fun c => Complex.exp (psi.val c)) (weighted w)) :
    ∃ res, measureOp kernel psi zeroCfg b n w = .ok res ∧ res.length = List.length w ∧
      ∀ r ∈ res, r.mean = (expect O fun c => Complex.exp (psi.val c)).re := by
  unfold measureOp
  rw [oLocWorld_eq hk psi hlog zeroCfg b w hw]
  change ∃ res, measureOne n _ = _ ∧ _
  obtain ⟨res, h1, h2, h3⟩ := measureOne_mean n (World.map (fun x =>
      (x.2.2, fun _ => localValue O (fun c => Complex.exp (psi.val c)) x.1)) w)
      (World.map_ne _ _ hw.devices)
  refine ⟨res, h1, by rw [h2]; simp [World.map], fun r hr => ?_⟩
  rw [h3 r hr, wMean_born w _ hb (fun s _ => localValue O (fun c => Complex.exp (psi.val c)) s) 0,
    born_mean O _ fun s => Complex.exp_ne_zero _]

/-- C77: with exact sampling on one device per rank, `measure` reports the expectation value, the
variance `‖O ψ‖² / ‖ψ‖² - |⟨O⟩|²` and the error zero. Missing: the variance on several devices per
rank, which is wrong (`c62_measure_violated`). -/
theorem c77_measure_partial [Nonempty C] (hk : OperatorOf kernel O) (psi : Net C)
    (hlog : psi.logarithmic = true) (zeroCfg : C) (b : ℤ) (w : World (C × ℂ × ℝ))
    (hw : SamplesOf psi.val w) (hone : ∀ rk ∈ w, rk.length = 1)
    (hb : BornWeights (fun c => Complex.exp (psi.val c)) (weighted w)) :
    ∃ res, measureOp kernel psi zeroCfg b none w = .ok res ∧
      ∀ r ∈ res, r.mean = (expect O fun c => Complex.exp (psi.val c)).re ∧
        r.variance = spread O (fun c => Complex.exp (psi.val c)) ∧ r.mcError = 0 := by
  have hne : ∀ s, Complex.exp (psi.val s) ≠ 0 := fun s => Complex.exp_ne_zero _
  unfold measureOp
  rw [oLocWorld_eq hk psi hlog zeroCfg b w hw]
  change ∃ res, measureOne none _ = _ ∧ _
  obtain ⟨res, h1, h2⟩ := c62_measure_exact (World.map (fun x =>
      (x.2.2, fun _ => localValue O (fun c => Complex.exp (psi.val c)) x.1)) w) (by
    intro rk hrk
    obtain ⟨rk', h', rfl⟩ := List.mem_map.mp hrk
    rw [List.length_map]
    exact hone rk' h')
  refine ⟨res, h1, fun r hr => ?_⟩
  obtain ⟨e1, e2, e3⟩ := h2 r hr
  refine ⟨?_, ?_, e3⟩
  · rw [e1, wMean_born w _ hb (fun s _ => localValue O (fun c => Complex.exp (psi.val c)) s) 0,
      born_mean O _ hne]
  · rw [e2, wVar_born w _ hb (fun s _ => localValue O (fun c => Complex.exp (psi.val c)) s) 0]
    have hZ := norm2_pos (fun c => Complex.exp (psi.val c)) (Classical.arbitrary C) (hne _)
    rw [born_mean O _ hne, weighted_variance _ _ (born_total _ hZ) _ (born_mean O _ hne),
      born_second O _ hne]
    rfl

end

/-- C77: with the exact sampler, `measure` gives the expectation value of a branch-free operator, for
every variational wave function, every even split of the basis over ranks and devices and every batch
size. (The operator is the sum of the operator strings, see C26 for the order of factors.) -/
theorem c77_exact_measurement {N d : ℕ} [NeZero N] [NeZero d] (strs : List (List (LocalOp N d)))
    (pfs : List ℂ) (hlen : pfs.length = strs.length)
    (hf : ∀ ops ∈ strs, ∀ o ∈ ops, o.fermionic = true → d = 2)
    (hd : ∀ ops ∈ strs, ∀ o ∈ ops, o.diag = true → o.map = id)
    (habove : ∀ s, AboveThreshold (branchFreeKernel strs pfs s))
    (D ranks : ℕ) (hl : 2 ≤ d) (hD : 0 < D) (hs : 0 < ranks) (hbig : ranks ≤ d ^ N)
    (hdiv : ∀ r < ranks, ∀ n g, distributeSampling ranks r (d ^ N) none 1 = .ok (n, g) → D ∣ n)
    (lastNorm : ℝ) (logPsi : Config N d → ℂ) (zeroCfg : Config N d) (b : ℤ) :
    ∃ ln' w res, exactSampleWorld d N D ranks (toConfig N d) (1 / 2) lastNorm logPsi = .ok (ln', w) ∧
      measureOp (branchFreeKernel strs pfs) ⟨logPsi, true⟩ zeroCfg b none w = .ok res ∧
      res.length = ranks ∧ ∀ r ∈ res, r.mean = (expect (sumOfProducts (pfs.zip (strs.map fun ops =>
        (ops.map opMatrix).reverse))) fun c => Complex.exp (logPsi c)).re := by
  obtain ⟨ln', w, h1, h2, _, h4, h5⟩ := c77_exact_sampler d N D ranks hl hD hs hbig hdiv lastNorm logPsi
  obtain ⟨res, e1, e2, e3⟩ := c77_mean (operatorOf_branchFree strs pfs hlen hf hd habove)
    ⟨logPsi, true⟩ rfl zeroCfg b none w h4 h5
  exact ⟨ln', w, res, h1, e1, e2.trans h2, e3⟩

/-- Non-vacuity: two spins with `-Sz(0)Sz(1) + 3 Sx(0)` on two ranks. -/
example (logPsi : Config 2 2 → ℂ) := c77_exact_measurement [[opSz 0, opSz 1], [opSx 0]] [-1, 3] rfl
  (by simp [opSz, opSx])
  (by
    have : arr2 (0 : Fin 2) 1 = id := by funext x; fin_cases x <;> rfl
    simp [opSz, opSx, this])
  ising_above 1 2 le_rfl one_pos two_pos (by norm_num) (fun _ _ n _ _ => one_dvd n) 0 logPsi ![0, 0] 3

/-! ## C78 — zero variance -/

section

variable {C : Type} [Fintype C] [DecidableEq C] {kernel : C → List (C × ℂ)} {O : Matrix C C ℂ}

/-- C78: if the network represents an eigenstate, the local estimator is the eigenvalue on every
sample, however the samples were obtained and for every batch size. -/
theorem c78_constant_estimator (hk : OperatorOf kernel O) (psi : Net C)
    (hlog : psi.logarithmic = true) (E : ℂ)
    (heig : (O *ᵥ fun c => Complex.exp (psi.val c)) = E • fun c => Complex.exp (psi.val c))
    (zeroCfg : C) (b : ℤ) (samples : List C) (hn : samples ≠ []) :
    getOLoc kernel psi zeroCfg b samples (some (samples.map psi.val))
      = some (samples.map fun _ => E) := by
  rw [getOLoc_local hk psi hlog zeroCfg b samples hn _ rfl]
  congr 1
  apply List.map_congr_left
  intro s _
  unfold localValue
  rw [heig, Pi.smul_apply, smul_eq_mul, mul_div_cancel_right₀ _ (Complex.exp_ne_zero _)]

/-- C78: conversely, with exact sampling on one device per rank, a reported variance of zero means that
the network represents an eigenstate, with the reported mean as (real part of the) eigenvalue. -/
theorem c78_zero_variance_iff [Nonempty C] (hk : OperatorOf kernel O) (psi : Net C)
    (hlog : psi.logarithmic = true) (zeroCfg : C) (b : ℤ) (w : World (C × ℂ × ℝ))
    (hw : SamplesOf psi.val w) (hone : ∀ rk ∈ w, rk.length = 1)
    (hb : BornWeights (fun c => Complex.exp (psi.val c)) (weighted w)) :
    ∃ res, measureOp kernel psi zeroCfg b none w = .ok res ∧ ∀ r ∈ res,
      (r.variance = 0 ↔ ∃ E : ℂ, (O *ᵥ fun c => Complex.exp (psi.val c))
        = E • fun c => Complex.exp (psi.val c)) ∧
      ∀ E : ℂ, (O *ᵥ fun c => Complex.exp (psi.val c)) = E • (fun c => Complex.exp (psi.val c)) →
        r.mean = E.re := by
  obtain ⟨res, h1, h2⟩ := c77_measure_partial hk psi hlog zeroCfg b w hw hone hb
  refine ⟨res, h1, fun r hr => ?_⟩
  obtain ⟨e1, e2, _⟩ := h2 r hr
  set ψ : C → ℂ := fun c => Complex.exp (psi.val c) with hψ
  have hne : ∀ s, ψ s ≠ 0 := fun s => Complex.exp_ne_zero _
  have hZ := norm2_pos ψ (Classical.arbitrary C) (hne _)
  have hvar : spread O ψ = ∑ s, Complex.normSq (ψ s) / norm2 ψ
      * Complex.normSq (localValue O ψ s - expect O ψ) := by
    rw [weighted_variance _ _ (born_total _ hZ) _ (born_mean O _ hne), born_second O _ hne]
    rfl
  have hmean : ∀ E : ℂ, (O *ᵥ ψ) = E • ψ → expect O ψ = E := by
    intro E hE
    have hloc : ∀ s, localValue O ψ s = E := by
      intro s
      unfold localValue
      rw [hE, Pi.smul_apply, smul_eq_mul, mul_div_cancel_right₀ _ (hne s)]
    rw [← born_mean O ψ hne]
    simp only [hloc]
    rw [← Finset.sum_mul, ← Complex.ofReal_sum, born_total ψ hZ, Complex.ofReal_one, one_mul]
  refine ⟨?_, fun E hE => by rw [e1, hmean E hE]⟩
  rw [e2, hvar]
  constructor
  · intro h0
    refine ⟨expect O ψ, ?_⟩
    have hall := (Finset.sum_eq_zero_iff_of_nonneg (fun s _ => mul_nonneg
      (div_nonneg (Complex.normSq_nonneg _) hZ.le) (Complex.normSq_nonneg _))).1 h0
    funext s
    have hs := hall s (Finset.mem_univ s)
    have hp : Complex.normSq (ψ s) / norm2 ψ ≠ 0 :=
      (div_pos (Complex.normSq_pos.2 (hne s)) hZ).ne'
    have := Complex.normSq_eq_zero.1 ((mul_eq_zero.1 hs).resolve_left hp)
    have h3 : localValue O ψ s = expect O ψ := sub_eq_zero.1 this
    unfold localValue at h3
    rw [div_eq_iff (hne s)] at h3
    exact h3
  · rintro ⟨E, hE⟩
    apply Finset.sum_eq_zero
    intro s _
    have : localValue O ψ s = E := by
      unfold localValue
      rw [hE, Pi.smul_apply, smul_eq_mul, mul_div_cancel_right₀ _ (hne s)]
    rw [this, hmean E hE]
    simp

/-! ## One TDVP step -/

variable {n : ℕ}

/-- Weights, local energies and gradients of a sample. -/
noncomputable def tdvpJoint (O : Matrix C C ℂ) (ψ : C → ℂ) (grads : C → Fin (n + 1) → ℂ)
    (w : World (C × ℂ × ℝ)) : World (ℝ × (Fin 1 → ℂ) × (Fin (n + 1) → ℂ)) :=
  World.map (fun x => (x.2.2, (fun _ => localValue O ψ x.1), grads x.1)) w

theorem solveSamples_input (hk : OperatorOf kernel O) (psi : Net C) (hlog : psi.logarithmic = true)
    (zeroCfg : C) (b : ℤ) (w : World (C × ℂ × ℝ)) (hw : SamplesOf psi.val w)
    (hpos : ∀ x ∈ allSamples w, 0 ≤ x.2.2) (cfg : TdvpCfg n) (r : ℕ) (hr : r < List.length w)
    (grads : C → Fin (n + 1) → ℂ) :
    ∃ E G, TdvpInput (tdvpJoint O (fun c => Complex.exp (psi.val c)) grads w) r E G ∧
      ∀ at₀, tdvpSolveSamples cfg r kernel psi zeroCfg b grads w at₀
        = tdvpSolve cfg r (some (E, G)) at₀ := by
  set ψ : C → ℂ := fun c => Complex.exp (psi.val c) with hψ
  obtain ⟨E, G, hi⟩ := tdvpInput_exists (tdvpJoint O ψ grads w) r
    (World.map_ne _ _ hw.devices) (by
      intro s hs
      unfold tdvpJoint at hs
      rw [allSamples_wmap] at hs
      obtain ⟨x, hx, rfl⟩ := List.mem_map.mp hs
      exact hpos x hx) (by simpa [tdvpJoint, World.map] using hr)
  refine ⟨E, G, hi, fun at₀ => ?_⟩
  unfold tdvpSolveSamples
  rw [oLocWorld_eq hk psi hlog zeroCfg b w hw]
  change Except.bind (SObs.create (World.map (fun x => (x.2.2, fun _ => localValue O ψ x.1)) w)) _ = _
  have hE := hi.data.1
  have hG := hi.data.2
  unfold tdvpJoint at hE hG
  rw [World.map_map] at hE hG
  rw [hE]
  change Except.bind (SObs.create (World.map (fun x => (x.2.2, grads x.1)) w)) _ = _
  rw [hG]
  rfl

theorem specF_born (O : Matrix C C ℂ) (ψ : C → ℂ) (hne : ∀ s, ψ s ≠ 0) (grads : C → Fin (n + 1) → ℂ)
    (w : World (C × ℂ × ℝ)) (hb : BornWeights ψ (weighted w)) (i : Fin (n + 1)) :
    specF (allSamples (tdvpJoint O ψ grads w)) i = bornCov O ψ fun s => grads s i := by
  have m1 := wMean_born w ψ hb grads i
  have m2 := wMean_born w ψ hb (fun s (_ : Fin 1) => localValue O ψ s) 0
  rw [born_mean O ψ hne] at m2
  unfold specF wCross tdvpJoint bornCov
  rw [allSamples_wmap] at m1 m2 ⊢
  simp only [List.map_map, Function.comp_def] at m1 m2 ⊢
  rw [m1, m2]
  have h := sum_weighted (weighted w) fun s => (starRingEnd ℂ) (grads s i
    - ∑ s', ((Complex.normSq (ψ s') / norm2 ψ : ℝ) : ℂ) * grads s' i) * (localValue O ψ s - expect O ψ)
  simp only [hb.born] at h
  rw [← h]
  unfold weighted
  rw [List.map_map]
  rfl

/-! ## C78 — eigenstates are stationary -/

/-- C78: at an eigenstate the force vanishes for all samples whose weights add up to one. -/
theorem force_eigenstate (l : List (ℝ × (Fin 1 → ℂ) × (Fin (n + 1) → ℂ)))
    (hone : (l.map fun s => s.1).sum = 1) (E : ℂ) (hE : ∀ s ∈ l, s.2.1 0 = E) :
    (∀ s ∈ l, s.2.1 0 - wMean (l.map fun s => (s.1, s.2.1)) 0 = 0) ∧ specF l = 0 := by
  have h0 : wMean (l.map fun s => (s.1, s.2.1)) 0 = E :=
    wMean_const (n := 0) l (fun s => s.1) (fun s => s.2.1) 0 E hE hone
  have hd : ∀ s ∈ l, s.2.1 0 - wMean (l.map fun s => (s.1, s.2.1)) 0 = 0 := by
    intro s hs
    rw [h0, hE s hs, sub_self]
  refine ⟨hd, ?_⟩
  funext j
  unfold specF wCross
  apply List.sum_eq_zero
  intro x hx
  simp only [List.map_map, List.mem_map, Function.comp_apply] at hx
  obtain ⟨s, hs, rfl⟩ := hx
  have := hd s hs
  simp only [Function.comp_def]
  rw [this]
  simp

/-- The hypotheses of the two theorems below: the network represents an eigenstate, and the samples
(exact or Monte Carlo) have non-negative weights that add up to one. -/
structure AtEigenstate (kernel : C → List (C × ℂ)) (O : Matrix C C ℂ) (psi : Net C) (E : ℂ)
    (w : World (C × ℂ × ℝ)) : Prop where
  operator : OperatorOf kernel O
  logarithmic : psi.logarithmic = true
  eigenstate : (O *ᵥ fun c => Complex.exp (psi.val c)) = E • fun c => Complex.exp (psi.val c)
  samples : SamplesOf psi.val w
  nonneg : ∀ x ∈ allSamples w, 0 ≤ x.2.2
  total : ((allSamples w).map fun x => x.2.2).sum = 1

theorem AtEigenstate.joint {psi : Net C} {E : ℂ} {w : World (C × ℂ × ℝ)}
    (h : AtEigenstate kernel O psi E w) (grads : C → Fin (n + 1) → ℂ) :
    ((allSamples (tdvpJoint O (fun c => Complex.exp (psi.val c)) grads w)).map fun s => s.1).sum = 1 ∧
      ∀ s ∈ allSamples (tdvpJoint O (fun c => Complex.exp (psi.val c)) grads w), s.2.1 0 = E := by
  unfold tdvpJoint
  rw [allSamples_wmap]
  constructor
  · rw [List.map_map]
    exact h.total
  · intro s hs
    obtain ⟨x, _, rfl⟩ := List.mem_map.mp hs
    change localValue O (fun c => Complex.exp (psi.val c)) x.1 = E
    unfold localValue
    rw [h.eigenstate, Pi.smul_apply, smul_eq_mul, mul_div_cancel_right₀ _ (Complex.exp_ne_zero _)]

/-- C78: at an eigenstate the parameters do not move: whenever `solve` returns a numerical update it is
zero, for every sample, gradient, regularisation and eigensolver. -/
theorem c78_stationary (psi : Net C) (E : ℂ) (w : World (C × ℂ × ℝ))
    (hst : AtEigenstate kernel O psi E w) (cfg : TdvpCfg n) (grads : C → Fin (n + 1) → ℂ)
    (zeroCfg : C) (b : ℤ) (r : ℕ) (hr : r < List.length w) (at₀ at₁ : TdvpAttrs n) (res : SolveRes n)
    (hres : tdvpSolveSamples cfg r kernel psi zeroCfg b grads w at₀ = .ok (res, at₁))
    (u : Fin (n + 1) → ℝ) (hu : res.update = some u) : u = 0 := by
  obtain ⟨Eo, G, hi, heq⟩ := solveSamples_input hst.operator psi hst.logarithmic zeroCfg b w
    hst.samples hst.nonneg cfg r hr grads
  rw [heq] at hres
  obtain ⟨snr, p, _, hp, hup, _⟩ := solve_pinv cfg r _ Eo G hi at₀ at₁ res hres u hu
  obtain ⟨h1, h2⟩ := hst.joint grads
  have hF : specQF cfg (allSamples (tdvpJoint O (fun c => Complex.exp (psi.val c)) grads w)) = 0 := by
    funext k
    unfold specQF
    rw [(force_eigenstate _ h1 E h2).2]
    simp [q_zero]
  rw [hup, hF, mulVec_zero]
  funext i
  simp [mulVec, dotProduct]

/-- C78 is violated with a Monte Carlo sampler: at an eigenstate signal and noise both vanish, and the
update is not zero but NaN in all components. -/
theorem c78_monte_carlo_violated (psi : Net C) (E : ℂ) (w : World (C × ℂ × ℝ))
    (hst : AtEigenstate kernel O psi E w) (hpos : ∀ x ∈ allSamples w, 0 < x.2.2)
    (cfg : TdvpCfg n) (hmc : cfg.isExact = false) (grads : C → Fin (n + 1) → ℂ)
    (zeroCfg : C) (b : ℤ) (r : ℕ) (hr : r < List.length w) (at₀ at₁ : TdvpAttrs n) (res : SolveRes n)
    (hres : tdvpSolveSamples cfg r kernel psi zeroCfg b grads w at₀ = .ok (res, at₁)) :
    res.update = none := by
  obtain ⟨Eo, G, hi, heq⟩ := solveSamples_input hst.operator psi hst.logarithmic zeroCfg b w
    hst.samples hst.nonneg cfg r hr grads
  rw [heq] at hres
  obtain ⟨h1, h2⟩ := hst.joint grads
  have hpos' : ∀ s ∈ allSamples (tdvpJoint O (fun c => Complex.exp (psi.val c)) grads w), 0 < s.1 := by
    intro s hs
    unfold tdvpJoint at hs
    rw [allSamples_wmap] at hs
    obtain ⟨x, hx, rfl⟩ := List.mem_map.mp hs
    exact hpos x hx
  set l := allSamples (tdvpJoint O (fun c => Complex.exp (psi.val c)) grads w) with hl
  obtain ⟨hd, hF⟩ := force_eigenstate l h1 E h2
  have hQF : specQF cfg l = 0 := by
    funext k
    unfold specQF
    rw [hF]
    simp [q_zero]
  obtain ⟨snr, s₀, hsnr, _, _, _, hup⟩ := solve_ok cfg r _ Eo G hi at₀ at₁ res hres
  rw [tdvpSnr_eq cfg r _ hi.devices hpos' hi.rank Eo G hi.data] at hsnr
  have hnan : snr 0 = .nan := by
    rw [← Except.ok.inj hsnr]
    have e1 : (tdvpEigenbasis cfg (specQS cfg l) (specQF cfg l)).VtF 0 = 0 := by
      change ((cfg.eigh (specQS cfg l)).2ᴴ *ᵥ specQF cfg l) 0 = 0
      rw [hQF, mulVec_zero]
      rfl
    have e2 : wVar (forceSamples cfg (tdvpEigenbasis cfg (specQS cfg l) (specQF cfg l)).V l) 0 = 0 := by
      generalize (tdvpEigenbasis cfg (specQS cfg l) (specQF cfg l)).V = V
      have hz : ∀ t ∈ forceSamples cfg V l, t.2 0 = 0 := by
        intro t ht
        obtain ⟨s, hs, rfl⟩ := List.mem_map.mp ht
        dsimp only
        apply Finset.sum_eq_zero
        intro i _
        rw [hd s hs]
        simp [q_zero]
      have hm : wMean (forceSamples cfg V l) 0 = 0 := by
        rw [wMean_apply]
        apply List.sum_eq_zero
        intro x hx
        obtain ⟨t, ht, rfl⟩ := List.mem_map.mp hx
        rw [hz t ht, mul_zero]
      unfold wVar
      apply List.sum_eq_zero
      intro x hx
      obtain ⟨t, ht, rfl⟩ := List.mem_map.mp hx
      rw [hz t ht, hm]
      simp
    simp only [← hl, e1, e2]
    simp [Num.quot, Num.sqrt]
  have hreg : ∀ c, tdvpRegularizer cfg (tdvpEigenbasis cfg (specQS cfg l) (specQF cfg l)) snr c 0 = none := by
    intro c
    unfold tdvpRegularizer
    rw [hnan, hmc]
    cases (Num.under (max c cfg.pinvCutoff) (Num.quot
      |(tdvpEigenbasis cfg (specQS cfg l) (specQF cfg l)).ev 0|
      |(tdvpEigenbasis cfg (specQS cfg l) (specQF cfg l)).ev (Fin.last n)|)).damp <;> rfl
  have hall : allFinite (fun a => (tdvpRegularizer cfg (tdvpEigenbasis cfg (specQS cfg l) (specQF cfg l))
      snr (s₀.cutoff * (4 / 5)) a).map fun g =>
        (tdvpEigenbasis cfg (specQS cfg l) (specQF cfg l)).invEv a * g) = none :=
    allFinite_none _ 0 (by rw [hreg]; rfl)
  have hup := Except.ok.inj hup
  rw [← hup]
  change Option.map _ (allFinite (fun a => (tdvpRegularizer cfg (tdvpEigenbasis cfg (specQS cfg l)
      (specQF cfg l)) snr (s₀.cutoff * (4 / 5)) a).map fun g =>
        (tdvpEigenbasis cfg (specQS cfg l) (specQF cfg l)).invEv a * g)) = none
  rw [hall]
  rfl

omit [DecidableEq C] in
/-- The derivative of the energy in the direction of real velocities `u`. -/
theorem energy_derivative [Nonempty C] (hO : O.IsHermitian) (logPsi : (Fin (n + 1) → ℝ) → C → ℂ)
    (θ u : Fin (n + 1) → ℝ) (hdiff : ∀ s, DifferentiableAt ℝ (fun p => logPsi p s) θ)
    (grads : C → Fin (n + 1) → ℂ)
    (hgrad : ∀ s k, grads s k = fderiv ℝ (fun p => logPsi p s) θ (Pi.single k 1)) :
    HasDerivAt (fun τ : ℝ => expect O fun c => Complex.exp (logPsi (θ + τ • u) c))
      ((2 * ∑ k, u k * (bornCov O (fun c => Complex.exp (logPsi θ c)) fun s => grads s k).re : ℝ) : ℂ)
      0 := by
  have hL : ∀ s, HasDerivAt (fun τ : ℝ => logPsi (θ + τ • u) s) (∑ k, (u k : ℂ) * grads s k) 0 := by
    intro s
    have h1 : HasDerivAt (fun τ : ℝ => θ + τ • u) u 0 := by
      have := ((hasDerivAt_id (0 : ℝ)).smul_const u).const_add θ
      simpa using this
    have h2 : HasFDerivAt (fun p => logPsi p s) (fderiv ℝ (fun p => logPsi p s) θ)
        (θ + (0 : ℝ) • u) := by
      rw [zero_smul, add_zero]
      exact (hdiff s).hasFDerivAt
    have h3 := h2.comp_hasDerivAt (0 : ℝ) h1
    refine h3.congr_deriv ?_
    have hu : u = ∑ k, u k • (Pi.single k (1 : ℝ) : Fin (n + 1) → ℝ) := by
      funext i
      simp [Finset.sum_apply, Pi.single_apply]
    conv_lhs => rw [hu]
    rw [map_sum]
    apply Finset.sum_congr rfl
    intro k _
    rw [map_smul, hgrad s k]
    simp
  have h := hasDerivAt_expect O hO (fun τ s => logPsi (θ + τ • u) s)
    (fun s => ∑ k, (u k : ℂ) * grads s k) 0 hL
  refine h.congr_deriv ?_
  congr 2
  have e0 : (fun s => Complex.exp (logPsi (θ + (0 : ℝ) • u) s))
      = fun s => Complex.exp (logPsi θ s) := by
    rw [zero_smul, add_zero]
  rw [e0]
  generalize (fun s => Complex.exp (logPsi θ s)) = ψ
  have : bornCov O ψ (fun s => ∑ k, (u k : ℂ) * grads s k)
      = ∑ k, (u k : ℂ) * bornCov O ψ fun s => grads s k := by
    unfold bornCov
    have hr : ∀ A : Fin (n + 1) → C → ℂ, ∑ k, (u k : ℂ) * ∑ s, A k s = ∑ s, ∑ k, (u k : ℂ) * A k s := by
      intro A
      simp only [Finset.mul_sum]
      exact Finset.sum_comm
    rw [hr]
    apply Finset.sum_congr rfl
    intro s _
    have e1 : ∑ s', ((Complex.normSq (ψ s') / norm2 ψ : ℝ) : ℂ) * ∑ k, ((u k : ℂ) * grads s' k)
        = ∑ k, (u k : ℂ) * ∑ s', ((Complex.normSq (ψ s') / norm2 ψ : ℝ) : ℂ) * grads s' k := by
      simp only [Finset.mul_sum]
      rw [Finset.sum_comm]
      apply Finset.sum_congr rfl
      intro k _
      apply Finset.sum_congr rfl
      intro s' _
      ring
    rw [e1, ← Finset.sum_sub_distrib, map_sum, Finset.sum_mul, Finset.mul_sum]
    apply Finset.sum_congr rfl
    intro k _
    rw [← mul_sub, map_mul, Complex.conj_ofReal]
    ring
  rw [this, Complex.re_sum]
  exact Finset.sum_congr rfl fun k _ => Complex.re_ofReal_mul _ _

/-! ## C79 — imaginary-time steps lower the energy -/

/-- The situation of C79 and C80: exactly weighted samples of `exp(log ψ_θ)`, a Hermitian Hamiltonian,
a differentiable network with gradients `grads`. -/
structure TdvpStep (kernel : C → List (C × ℂ)) (O : Matrix C C ℂ)
    (logPsi : (Fin (n + 1) → ℝ) → C → ℂ) (θ : Fin (n + 1) → ℝ) (grads : C → Fin (n + 1) → ℂ)
    (w : World (C × ℂ × ℝ)) : Prop where
  operator : OperatorOf kernel O
  hermitian : O.IsHermitian
  differentiable : ∀ s, DifferentiableAt ℝ (fun p => logPsi p s) θ
  gradients : ∀ s k, grads s k = fderiv ℝ (fun p => logPsi p s) θ (Pi.single k 1)
  samples : SamplesOf (logPsi θ) w
  weights : BornWeights (fun c => Complex.exp (logPsi θ c)) (weighted w)

theorem TdvpStep.nonneg {logPsi : (Fin (n + 1) → ℝ) → C → ℂ} {θ : Fin (n + 1) → ℝ}
    {grads : C → Fin (n + 1) → ℂ} {w : World (C × ℂ × ℝ)}
    (h : TdvpStep kernel O logPsi θ grads w) : ∀ x ∈ allSamples w, 0 ≤ x.2.2 :=
  fun x hx => h.weights.nonneg (x.2.2, x.1) (List.mem_map.mpr ⟨x, hx, rfl⟩)

/-- C79: with exactly weighted samples, a positive prefactor (imaginary time evolution, ground state
search) and `makeReal="real"`, whenever `solve` returns a numerical update, for every regularisation,
diagonal shift and signal-to-noise damping: the energy does not grow in the direction of the update,
and it falls unless the update is zero. -/
theorem c79_energy_decreases [Nonempty C] (logPsi : (Fin (n + 1) → ℝ) → C → ℂ)
    (θ : Fin (n + 1) → ℝ) (grads : C → Fin (n + 1) → ℂ) (w : World (C × ℂ × ℝ))
    (hst : TdvpStep kernel O logPsi θ grads w) (cfg : TdvpCfg n) (heigh : EighCorrect cfg)
    (hq : cfg.makeReal ≠ "imag") (x : ℝ) (hx : 0 < x) (hpre : cfg.rhsPrefactor = (x : ℂ))
    (hshift : 0 ≤ cfg.diagonalShift) (zeroCfg : C) (b : ℤ) (r : ℕ) (hr : r < List.length w)
    (at₀ at₁ : TdvpAttrs n) (res : SolveRes n)
    (hres : tdvpSolveSamples cfg r kernel ⟨logPsi θ, true⟩ zeroCfg b grads w at₀ = .ok (res, at₁))
    (u : Fin (n + 1) → ℝ) (hu : res.update = some u) :
    ∃ e : ℝ, HasDerivAt (fun τ : ℝ => expect O fun c => Complex.exp (logPsi (θ + τ • u) c)) (e : ℂ) 0 ∧
      e ≤ 0 ∧ (u ≠ 0 → e < 0) := by
  obtain ⟨E, G, hi, heq⟩ := solveSamples_input hst.operator ⟨logPsi θ, true⟩ rfl zeroCfg b w hst.samples
    hst.nonneg cfg r hr grads
  rw [heq] at hres
  obtain ⟨snr, p, _, hp, hup, _⟩ := solve_pinv cfg r _ E G hi at₀ at₁ res hres u hu
  set ψ : C → ℂ := fun c => Complex.exp (logPsi θ c) with hψ
  set l := allSamples (tdvpJoint O ψ grads w) with hl
  have hp0 := pinv_nonneg cfg heigh hq hshift l hi.weights snr _ p hp
  refine ⟨_, energy_derivative hst.hermitian logPsi θ u hst.differentiable grads hst.gradients, ?_⟩
  have hF : ∀ k, specQF cfg l k = ((-x * (bornCov O ψ fun s => grads s k).re : ℝ) : ℂ) := by
    intro k
    unfold specQF TdvpCfg.q
    rw [if_neg hq, specF_born O ψ (fun s => Complex.exp_ne_zero _) grads w hst.weights k, hpre,
      show -(x : ℂ) = ((-x : ℝ) : ℂ) by push_cast; ring, Complex.re_ofReal_mul]
  set V := (cfg.eigh (specQS cfg l)).2 with hV
  have hquad := congrArg Complex.re (pinv_quad V p (specQF cfg l))
  rw [Complex.ofReal_re, Complex.re_sum] at hquad
  have hsum : ∑ k, p k * Complex.normSq ((Vᴴ *ᵥ specQF cfg l) k)
      = -x * ∑ k, u k * (bornCov O ψ fun s => grads s k).re := by
    rw [← hquad, Finset.mul_sum]
    apply Finset.sum_congr rfl
    intro k _
    rw [hF k, Complex.conj_ofReal, Complex.re_ofReal_mul, hup]
    ring
  have hnn : ∀ k, 0 ≤ p k * Complex.normSq ((Vᴴ *ᵥ specQF cfg l) k) :=
    fun k => mul_nonneg (hp0 k) (Complex.normSq_nonneg _)
  have hsum0 : 0 ≤ ∑ k, p k * Complex.normSq ((Vᴴ *ᵥ specQF cfg l) k) :=
    Finset.sum_nonneg fun k _ => hnn k
  constructor
  · rw [hsum] at hsum0
    nlinarith
  · intro hu0
    have hpos : 0 < ∑ k, p k * Complex.normSq ((Vᴴ *ᵥ specQF cfg l) k) := by
      refine lt_of_le_of_ne hsum0 fun h => hu0 ?_
      have hz := (Finset.sum_eq_zero_iff_of_nonneg fun k _ => hnn k).1 h.symm
      have hz' : (fun k => (p k : ℂ) * (Vᴴ *ᵥ specQF cfg l) k) = 0 := by
        funext k
        rcases mul_eq_zero.1 (hz k (Finset.mem_univ k)) with h1 | h1
        · rw [h1]; simp
        · rw [Complex.normSq_eq_zero.1 h1]; simp
      rw [hup, hz', mulVec_zero]
      rfl
    rw [hsum] at hpos
    nlinarith

/-- C79: a sufficiently short step lowers the energy. -/
theorem c79_short_step [Nonempty C] (logPsi : (Fin (n + 1) → ℝ) → C → ℂ)
    (θ : Fin (n + 1) → ℝ) (grads : C → Fin (n + 1) → ℂ) (w : World (C × ℂ × ℝ))
    (hst : TdvpStep kernel O logPsi θ grads w) (cfg : TdvpCfg n) (heigh : EighCorrect cfg)
    (hq : cfg.makeReal ≠ "imag") (x : ℝ) (hx : 0 < x) (hpre : cfg.rhsPrefactor = (x : ℂ))
    (hshift : 0 ≤ cfg.diagonalShift) (zeroCfg : C) (b : ℤ) (r : ℕ) (hr : r < List.length w)
    (at₀ at₁ : TdvpAttrs n) (res : SolveRes n)
    (hres : tdvpSolveSamples cfg r kernel ⟨logPsi θ, true⟩ zeroCfg b grads w at₀ = .ok (res, at₁))
    (u : Fin (n + 1) → ℝ) (hu : res.update = some u) (hu0 : u ≠ 0) :
    ∃ δ : ℝ, 0 < δ ∧ ∀ τ : ℝ, 0 < τ → τ < δ →
      (expect O fun c => Complex.exp (logPsi (θ + τ • u) c)).re
        < (expect O fun c => Complex.exp (logPsi θ c)).re := by
  obtain ⟨e, h1, _, h2⟩ := c79_energy_decreases logPsi θ grads w hst cfg heigh hq x hx hpre hshift
    zeroCfg b r hr at₀ at₁ res hres u hu
  have hre : HasDerivAt (fun τ : ℝ => (expect O fun c => Complex.exp (logPsi (θ + τ • u) c)).re) e 0 := by
    have := (Complex.reCLM.hasFDerivAt).comp_hasDerivAt (0 : ℝ) h1
    exact this
  have hlt := h2 hu0
  have hev := (hasDerivAt_iff_tendsto_slope.1 hre).eventually (gt_mem_nhds hlt)
  rw [eventually_nhdsWithin_iff, Metric.eventually_nhds_iff] at hev
  obtain ⟨δ, hδ, hδ'⟩ := hev
  refine ⟨δ, hδ, fun τ h0 hτ => ?_⟩
  have hs := hδ' (y := τ) (by rw [Real.dist_eq, sub_zero, abs_of_pos h0]; exact hτ) h0.ne'
  rw [slope_def_field, sub_zero, div_lt_iff₀ h0, zero_mul, zero_smul, add_zero] at hs
  linarith

/-! ## C80 — real-time steps conserve the energy -/

/-- C80: with exactly weighted samples, an imaginary prefactor (real time evolution) and
`makeReal="imag"`, whenever `solve` returns a numerical update, the derivative of the energy in its
direction is exactly zero, for every regularisation, diagonal shift and signal-to-noise damping, and
whatever the eigensolver returns. -/
theorem c80_energy_conserved [Nonempty C] (logPsi : (Fin (n + 1) → ℝ) → C → ℂ)
    (θ : Fin (n + 1) → ℝ) (grads : C → Fin (n + 1) → ℂ) (w : World (C × ℂ × ℝ))
    (hst : TdvpStep kernel O logPsi θ grads w) (cfg : TdvpCfg n)
    (hq : cfg.makeReal = "imag") (y : ℝ) (hy : y ≠ 0) (hpre : cfg.rhsPrefactor = Complex.I * (y : ℂ))
    (zeroCfg : C) (b : ℤ) (r : ℕ) (hr : r < List.length w)
    (at₀ at₁ : TdvpAttrs n) (res : SolveRes n)
    (hres : tdvpSolveSamples cfg r kernel ⟨logPsi θ, true⟩ zeroCfg b grads w at₀ = .ok (res, at₁))
    (u : Fin (n + 1) → ℝ) (hu : res.update = some u) :
    HasDerivAt (fun τ : ℝ => expect O fun c => Complex.exp (logPsi (θ + τ • u) c)) 0 0 := by
  obtain ⟨E, G, hi, heq⟩ := solveSamples_input hst.operator ⟨logPsi θ, true⟩ rfl zeroCfg b w hst.samples
    hst.nonneg cfg r hr grads
  rw [heq] at hres
  obtain ⟨snr, p, _, hp, hup, _⟩ := solve_pinv cfg r _ E G hi at₀ at₁ res hres u hu
  set ψ : C → ℂ := fun c => Complex.exp (logPsi θ c) with hψ
  set l := allSamples (tdvpJoint O ψ grads w) with hl
  refine (energy_derivative hst.hermitian logPsi θ u hst.differentiable grads
    hst.gradients).congr_deriv ?_
  have hF : ∀ k, specQF cfg l k = Complex.I * ((-y * (bornCov O ψ fun s => grads s k).re : ℝ) : ℂ) := by
    intro k
    unfold specQF TdvpCfg.q
    rw [if_pos hq, specF_born O ψ (fun s => Complex.exp_ne_zero _) grads w hst.weights k, hpre]
    generalize (bornCov O ψ fun s => grads s k) = z
    apply Complex.ext
    · simp
    · simp; ring
  set V := (cfg.eigh (specQS cfg l)).2 with hV
  have hquad := congrArg Complex.im (pinv_quad V p (specQF cfg l))
  rw [Complex.ofReal_im, Complex.im_sum] at hquad
  have hsum : y * ∑ k, u k * (bornCov O ψ fun s => grads s k).re = 0 := by
    rw [← hquad, Finset.mul_sum]
    apply Finset.sum_congr rfl
    intro k _
    have hz : u k = ((V *ᵥ fun k => (p k : ℂ) * (Vᴴ *ᵥ specQF cfg l) k) k).re := congrFun hup k
    rw [hz, hF k]
    generalize (V *ᵥ fun k => (p k : ℂ) * (Vᴴ *ᵥ specQF cfg l) k) k = z
    simp
    ring
  rw [(mul_eq_zero.1 hsum).resolve_left hy]
  simp

end

/-! ## Cases -/

/-- One spin with the Hamiltonian `σz' + σx`. -/
noncomputable def spinKernel (s : Fin 2) : List (Fin 2 × ℂ) := [(s, if s = 0 then 1 else -1), (1 - s, 1)]

noncomputable def spinMatrix : Matrix (Fin 2) (Fin 2) ℂ := !![1, 1; 1, -1]

theorem spin_operator : OperatorOf spinKernel spinMatrix := by
  refine ⟨?_, ⟨2, fun _ => rfl⟩, ?_⟩
  · intro s s'
    fin_cases s <;> fin_cases s' <;> simp [spinKernel, spinMatrix, elementOf]
  · intro s e he
    right
    fin_cases s <;> simp [spinKernel] at he <;> rcases he with rfl | rfl <;> norm_num

/-- `log ψ(s) = (θ₀ + i θ₁) s`. -/
noncomputable def spinLog (θ : Fin 2 → ℝ) (s : Fin 2) : ℂ := (θ 0 + θ 1 * Complex.I) * (s.val : ℂ)

/-- Two ranks with one device each, at `θ = 0`. -/
noncomputable def spinWorld : World (Fin 2 × ℂ × ℝ) := [[[(0, 0, 1 / 2)]], [[(1, 0, 1 / 2)]]]

theorem spin_samples : SamplesOf (spinLog 0) spinWorld := by
  refine ⟨?_, ?_, ?_⟩
  · simp [spinWorld]
  · simp [spinWorld]
  · simp [spinWorld, allSamples, spinLog]

theorem spin_weights : BornWeights (fun c => Complex.exp (spinLog 0 c)) (weighted spinWorld) := by
  have h : weighted spinWorld = [(1 / 2, 0), (1 / 2, 1)] := rfl
  have h2 : (fun c => Complex.exp (spinLog 0 c)) = fun _ => 1 := by
    funext c
    simp [spinLog]
  rw [h, h2]
  constructor
  · simp
  · intro s
    fin_cases s <;> simp [weightOf, norm2]

/-- Case for `c77_mean` and `c77_measure_partial`. -/
example := c77_measure_partial spin_operator ⟨spinLog 0, true⟩ rfl 0 1 spinWorld spin_samples
  (by simp [spinWorld]) spin_weights

/-- `spinLog` is linear in the parameters. -/
noncomputable def spinLinear (s : Fin 2) : (Fin 2 → ℝ) →ₗ[ℝ] ℂ where
  toFun p := spinLog p s
  map_add' p q := by simp [spinLog]; ring
  map_smul' a p := by simp [spinLog]; ring

theorem spin_step : TdvpStep spinKernel spinMatrix spinLog 0 (fun s => ![(s.val : ℂ), Complex.I * s.val])
    spinWorld := by
  have hf : ∀ s : Fin 2, HasFDerivAt (fun p => spinLog p s)
      (LinearMap.toContinuousLinearMap (spinLinear s)) 0 := fun s =>
    (LinearMap.toContinuousLinearMap (spinLinear s)).hasFDerivAt
  refine ⟨spin_operator, ?_, fun s => (hf s).differentiableAt, ?_, spin_samples, spin_weights⟩
  · ext i j
    fin_cases i <;> fin_cases j <;> simp [spinMatrix, Matrix.conjTranspose_apply]
  · intro s k
    rw [(hf s).fderiv]
    change _ = spinLog (Pi.single k 1) s
    fin_cases k <;> simp [spinLog]

theorem spin_joint : allSamples (tdvpJoint spinMatrix (fun c => Complex.exp (spinLog 0 c))
    (fun s => ![(s.val : ℂ), Complex.I * s.val]) spinWorld)
      = [(1 / 2, fun _ => 2, ![0, 0]), (1 / 2, fun _ => 0, ![1, Complex.I])] := by
  have h2 : (fun c => Complex.exp (spinLog 0 c)) = fun _ => 1 := by
    funext c
    simp [spinLog]
  rw [h2]
  have e0 : localValue spinMatrix (fun _ => 1) 0 = 2 := by
    simp [localValue, spinMatrix, mulVec, dotProduct]
    norm_num
  have e1 : localValue spinMatrix (fun _ => 1) 1 = 0 := by
    simp [localValue, spinMatrix, mulVec, dotProduct]
  simp [tdvpJoint, spinWorld, allSamples, World.map, e0, e1]

noncomputable def spinCfg : TdvpCfg 1 := ⟨2, 1e-8, 1e-6, "real", 1, 0, false, true, 2, someEigh⟩

theorem spinQS : specQS spinCfg [(1 / 2, fun _ => 2, ![0, 0]), (1 / 2, fun _ => 0, ![1, Complex.I])]
    = Matrix.diagonal fun _ => (1 / 4 : ℂ) := by
  unfold specQS
  rw [if_neg (by norm_num [spinCfg])]
  ext i j
  fin_cases i <;> fin_cases j <;> simp [specS, wCross, wMean, TdvpCfg.q, spinCfg] <;> norm_num

theorem spinQF : specQF spinCfg [(1 / 2, fun _ => 2, ![0, 0]), (1 / 2, fun _ => 0, ![1, Complex.I])]
    = ![1 / 2, 0] := by
  funext i
  fin_cases i <;> simp [specQF, specF, wCross, wMean, TdvpCfg.q, spinCfg]
  norm_num

/-- `solve` returns a non-zero update. -/
theorem spin_update : ∃ res at₁ u, tdvpSolveSamples spinCfg 1 spinKernel ⟨spinLog 0, true⟩ 0 1
    (fun s => ![(s.val : ℂ), Complex.I * s.val]) spinWorld {} = .ok (res, at₁) ∧
      res.update = some u ∧ u ≠ 0 := by
  obtain ⟨E, G, hi, heq⟩ := solveSamples_input spin_operator ⟨spinLog 0, true⟩ rfl 0 1 spinWorld
    spin_samples spin_step.nonneg spinCfg 1 (by simp [spinWorld]) (fun s => ![(s.val : ℂ), Complex.I * s.val])
  have heqn := getTdvpEquation_eq spinCfg 1 _ hi.devices hi.weights hi.rank E G hi.data {}
  rw [spin_joint, spinQS, spinQF] at heqn
  have hE : EighCorrect spinCfg := someEigh_correct _ rfl
  obtain ⟨res, at₁, hres⟩ := c45_returns_partial spinCfg (by norm_num [spinCfg]) (by norm_num [spinCfg])
    (by norm_num [spinCfg]) 1 _ E G hi {}
  have hH : (Matrix.diagonal fun _ => (1 / 4 : ℂ) : Matrix (Fin 2) (Fin 2) ℂ).IsHermitian := by
    ext i j
    fin_cases i <;> fin_cases j <;> simp
  obtain ⟨hun, hdec, _⟩ := hE _ hH
  set V := (spinCfg.eigh (Matrix.diagonal fun _ => (1 / 4 : ℂ))).2 with hV
  set ev := (spinCfg.eigh (Matrix.diagonal fun _ => (1 / 4 : ℂ))).1 with hev
  have hev4 : ∀ k, ev k = 1 / 4 := by
    intro k
    have h1 := congrArg (fun M => Vᴴ * M) hdec
    rw [← Matrix.mul_assoc, ← Matrix.mul_assoc, hun, Matrix.one_mul,
      show (Matrix.diagonal fun _ => (1 / 4 : ℂ) : Matrix (Fin 2) (Fin 2) ℂ) = (1 / 4 : ℂ) • 1 by
        ext i j; simp [Matrix.diagonal, Matrix.one_apply], Matrix.mul_smul, Matrix.smul_mul,
      Matrix.mul_one, hun] at h1
    have h2 := congrFun (congrFun h1 k) k
    simp only [Matrix.smul_apply, Matrix.one_apply_eq, Matrix.diagonal_apply_eq, smul_eq_mul,
      mul_one] at h2
    have h3 := congrArg Complex.re h2
    simp only [Complex.ofReal_re] at h3
    rw [← h3]
    norm_num
  have hu := c45_formula spinCfg 1 _ E G hi {} at₁ _ _ _ heqn res hres ev V rfl
    (by rw [hev4]; norm_num) (by norm_num [spinCfg]) (fun _ => 0) (Or.inl rfl)
  refine ⟨res, at₁, _, by rw [heq]; exact hres, hu, fun h0 => ?_⟩
  have h1 := congrFun h0 0
  have hVV : V * Vᴴ = 1 := mul_eq_one_comm.mp hun
  have key : ∀ d : ℝ, (∑ k, V 0 k * (d : ℂ) * ∑ j, (starRingEnd ℂ) (V j k) * ![1 / 2, 0] j).re
      = d / 2 := by
    intro d
    have e1 := congrFun (congrFun hVV 0) 0
    rw [Matrix.mul_apply, Fin.sum_univ_two, Matrix.one_apply_eq] at e1
    simp only [Matrix.conjTranspose_apply] at e1
    have e2 : ∑ k, V 0 k * (d : ℂ) * ∑ j, (starRingEnd ℂ) (V j k) * ![1 / 2, 0] j
        = (d : ℂ) / 2 * (V 0 0 * star (V 0 0) + V 0 1 * star (V 0 1)) := by
      simp [Fin.sum_univ_two]
      ring
    rw [e2, e1, mul_one, show (d : ℂ) / 2 = ((d / 2 : ℝ) : ℂ) by push_cast; ring, Complex.ofReal_re]
  simp only [hev4] at h1
  rw [key] at h1
  have hp : 0 ≤ (res.cutoff / (|(1 / 4 : ℝ)| / |(1 / 4 : ℝ)|)) ^ 6 := by positivity
  have hp' : 0 < 1 / (1 + (res.cutoff / (|(1 / 4 : ℝ)| / |(1 / 4 : ℝ)|)) ^ 6) := by positivity
  rw [if_pos (by norm_num), if_pos (by rfl)] at h1
  change _ = (0 : ℝ) at h1
  nlinarith

/-- Case for C79. -/
example : ∃ (u : Fin 2 → ℝ) (δ : ℝ), 0 < δ ∧ ∀ τ : ℝ, 0 < τ → τ < δ →
    (expect spinMatrix fun c => Complex.exp (spinLog (0 + τ • u) c)).re
      < (expect spinMatrix fun c => Complex.exp (spinLog 0 c)).re := by
  obtain ⟨res, at₁, u, h1, h2, h3⟩ := spin_update
  obtain ⟨δ, h⟩ := c79_short_step spinLog 0 _ spinWorld spin_step spinCfg (someEigh_correct _ rfl)
    (by simp [spinCfg]) 1 one_pos (by simp [spinCfg]) (by simp [spinCfg]) 0 1 1 (by simp [spinWorld])
    {} at₁ res h1 u h2 h3
  exact ⟨u, δ, h⟩

noncomputable def spinRealTime : TdvpCfg 1 :=
  ⟨2, 1e-8, 1e-6, "imag", Complex.I, 0, false, true, 2, someEigh⟩

theorem spinQS' : specQS spinRealTime [(1 / 2, fun _ => 2, ![0, 0]), (1 / 2, fun _ => 0, ![1, Complex.I])]
    = !![0, Complex.I / 4; -Complex.I / 4, 0] := by
  unfold specQS
  rw [if_neg (by norm_num [spinRealTime])]
  ext i j
  fin_cases i <;> fin_cases j <;> simp [specS, wCross, wMean, TdvpCfg.q, spinRealTime, map_ofNat] <;>
    ring

/-- Case for C80: `solve` returns a numerical update. -/
example : ∃ res at₁ u, tdvpSolveSamples spinRealTime 1 spinKernel ⟨spinLog 0, true⟩ 0 1
    (fun s => ![(s.val : ℂ), Complex.I * s.val]) spinWorld {} = .ok (res, at₁) ∧
      res.update = some u ∧
      HasDerivAt (fun τ : ℝ => expect spinMatrix fun c => Complex.exp (spinLog (0 + τ • u) c)) 0 0 := by
  obtain ⟨E, G, hi, heq⟩ := solveSamples_input spin_operator ⟨spinLog 0, true⟩ rfl 0 1 spinWorld
    spin_samples spin_step.nonneg spinRealTime 1 (by simp [spinWorld])
    (fun s => ![(s.val : ℂ), Complex.I * s.val])
  have heqn := getTdvpEquation_eq spinRealTime 1 _ hi.devices hi.weights hi.rank E G hi.data {}
  rw [spin_joint, spinQS'] at heqn
  have hE : EighCorrect spinRealTime := someEigh_correct _ rfl
  obtain ⟨res, at₁, hres⟩ := c45_returns_partial spinRealTime (by norm_num [spinRealTime])
    (by norm_num [spinRealTime]) (by norm_num [spinRealTime]) 1 _ E G hi {}
  have hH : (!![0, Complex.I / 4; -Complex.I / 4, 0] : Matrix (Fin 2) (Fin 2) ℂ).IsHermitian := by
    rw [← spinQS']
    exact specQS_hermitian _ _
  obtain ⟨hun, hdec, _⟩ := hE _ hH
  set V := (spinRealTime.eigh !![0, Complex.I / 4; -Complex.I / 4, 0]).2 with hV
  set ev := (spinRealTime.eigh !![0, Complex.I / 4; -Complex.I / 4, 0]).1 with hev
  have hmax : ev (Fin.last 1) ≠ 0 := by
    intro h0
    have h1 := congrFun (congrFun hdec 0) (Fin.last 1)
    have h2 := congrFun (congrFun hdec 1) (Fin.last 1)
    have h3 := congrFun (congrFun hun (Fin.last 1)) (Fin.last 1)
    rw [Matrix.mul_diagonal, h0] at h1 h2
    simp [Matrix.mul_apply, Fin.sum_univ_two, Matrix.cons_val_zero] at h1 h2 h3
    rw [h1, h2] at h3
    simp at h3
  have hu := c45_formula spinRealTime 1 _ E G hi {} at₁ _ _ _ heqn res hres ev V rfl
    hmax (by norm_num [spinRealTime]) (fun _ => 0) (Or.inl rfl)
  rw [← heq] at hres
  exact ⟨res, at₁, _, hres, hu, c80_energy_conserved spinLog 0 _ spinWorld spin_step spinRealTime rfl 1
    one_ne_zero (by simp [spinRealTime]) 0 1 1 (by simp [spinWorld]) {} at₁ res hres _ hu⟩

/-- The Hamiltonian `σx`, for which the state at `θ = 0` is an eigenstate. -/
theorem spin_eigenstate : AtEigenstate (fun s : Fin 2 => [(1 - s, (1 : ℂ))]) !![0, 1; 1, 0]
    ⟨spinLog 0, true⟩ 1 spinWorld := by
  refine ⟨⟨?_, ⟨1, fun _ => rfl⟩, ?_⟩, rfl, ?_, spin_samples, ?_, ?_⟩
  · intro s s'
    fin_cases s <;> fin_cases s' <;> simp [elementOf]
  · intro s e he
    right
    simp at he
    subst he
    norm_num
  · funext s
    fin_cases s <;> simp [spinLog, mulVec, dotProduct]
  · simp [spinWorld, allSamples]
  · simp [spinWorld, allSamples]
    norm_num

/-- Cases of `c77_mean`, `c78_constant_estimator` and `c78_zero_variance_iff`. -/
example := c77_mean spin_operator ⟨spinLog 0, true⟩ rfl 0 1 none spinWorld spin_samples spin_weights

example := c78_constant_estimator spin_eigenstate.operator ⟨spinLog 0, true⟩ rfl 1 spin_eigenstate.eigenstate 0 1 [0, 1, 1]
  (by simp)

example := c78_zero_variance_iff spin_eigenstate.operator ⟨spinLog 0, true⟩ rfl 0 1 spinWorld spin_samples
  (by simp [spinWorld]) spin_weights

/-- Case for C78, with exact and with Monte Carlo weights. -/
example (cfg : TdvpCfg 1) (hc : 0 < cfg.pinvCutoff) (hc' : cfg.pinvCutoff < 1e-2)
    (ht : cfg.pinvTol < 1) : ∃ res at₁, tdvpSolveSamples cfg 1 (fun s : Fin 2 => [(1 - s, (1 : ℂ))])
      ⟨spinLog 0, true⟩ 0 1 (fun s => ![(s.val : ℂ), Complex.I * s.val]) spinWorld {} = .ok (res, at₁) ∧
        (cfg.isExact = false → res.update = none) := by
  have h := spin_eigenstate
  obtain ⟨E, G, hi, heq⟩ := solveSamples_input h.operator ⟨spinLog 0, true⟩ rfl 0 1 spinWorld
    h.samples h.nonneg cfg 1 (by simp [spinWorld]) (fun s => ![(s.val : ℂ), Complex.I * s.val])
  obtain ⟨res, at₁, hres⟩ := c45_returns_partial cfg hc hc' ht 1 _ E G hi {}
  rw [← heq] at hres
  exact ⟨res, at₁, hres, fun hmc => c78_monte_carlo_violated _ 1 spinWorld h
    (by simp [spinWorld, allSamples]) cfg hmc _ 0 1 1 (by simp [spinWorld]) {} at₁ res hres⟩

end JVMC
