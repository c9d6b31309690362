import Mathlib.Algebra.BigOperators.Ring.List
import Verif.Lemmas.Pipeline
import Verif.Model.MCSampler
import Verif.Model.MinSR
import Verif.Model.Pipeline
import Verif.Props.Operator

/-!
# C95: normalisation and global phase of the wave function do not matter

`ψ'(s) = e^c ψ(s)`, i.e. `log ψ' = log ψ + c`, for a complex number `c` that may depend on the
parameters (a different normalisation of the same ansatz).
-/

namespace JVMC

open Spec

/-! ## Samplers -/

section sums

theorem mapM_except_map {A B C : Type} (f : A → Except PyErr B) (g : B → C) (l : List A) :
    l.mapM (fun a => (f a).map g) = (l.mapM f).map (List.map g) := by
  induction l with
  | nil => rfl
  | cons a l ih =>
    rw [List.mapM_cons, List.mapM_cons, ih]
    cases f a with
    | error e => rfl
    | ok b => cases l.mapM f <;> rfl

theorem pyHead_map {A B : Type} (g : A → B) (l : List A) : pyHead (l.map g) = (pyHead l).map g := by
  cases l <;> rfl

theorem sum_scale (k : ℝ) (l : List ℝ) : (l.map fun x => k * x).sum = k * l.sum := by
  rw [List.sum_map_mul_left, List.map_id']

theorem globalSum_scale (k : ℝ) (w : World ℝ) :
    globalSum (World.map (fun x => k * x) w) = (globalSum w).map (List.map fun x => k * x) := by
  have h1 : ∀ data : List (List ℝ), pyHead (sumUpPmapd (data.map fun dev =>
      List.map (fun x => k * x) dev)) = (pyHead (sumUpPmapd data)).map (fun x => k * x) := by
    intro data
    rw [← pyHead_map]
    congr 1
    simp only [sumUpPmapd, List.map_map, Function.comp_def, sum_scale]
    have : (data.map fun x => k * x.sum).sum = k * (data.map List.sum).sum := by
      rw [← sum_scale, List.map_map]
      rfl
    rw [this]
  unfold globalSum World.map
  simp only [List.mapM_map, Function.comp_def, h1]
  rw [mapM_except_map]
  cases List.mapM (fun data => pyHead (sumUpPmapd data)) w with
  | error e => rfl
  | ok v =>
    simp only [Except.map, allreduceSum]
    change Except.ok _ = Except.ok _
    simp only [List.map_map, Function.comp_def, sum_scale]

theorem wmap_wmap {A B C : Type} (g : B → C) (f : A → B) (w : World A) :
    World.map g (World.map f w) = World.map (fun x => g (f x)) w := by
  simp [World.map, Function.comp_def]

end sums

section samplers

variable {S P K : Type}

theorem exactSample_shift (f : ℝ) (hf : f ≠ 0) (ln ln' : ℝ) (c : ℂ) (w : World ExactEntry) :
    (exactSample f ln' (World.map (fun e => (e.1, e.2 + c)) w)).map Prod.snd
      = (exactSample f ln w).map Prod.snd := by
  set k := Real.exp ((c.re - ln' + ln) / f) with hk
  have hkpos : 0 < k := Real.exp_pos _
  have hu : ∀ e : ExactEntry, exactUnnormalised f ln' (e.1, e.2 + c)
      = k * exactUnnormalised f ln e := by
    intro e
    unfold exactUnnormalised
    by_cases h : e.1 = true
    · simp only [h, if_true, hk, ← Real.exp_add]
      congr 1
      simp
      field_simp
      ring
    · simp [h]
  have e1 : ∀ (l : ℝ) (v : World ExactEntry), exactSample f l v = (do
      let nrms ← globalSum (World.map (exactUnnormalised f l) v)
      match nrms with
      | [] => .error .indexError
      | nrm :: _ => return (l + f * Real.log nrm,
          World.map (fun x => x / nrm) (World.map (exactUnnormalised f l) v))) := fun _ _ => rfl
  have e2 : World.map (exactUnnormalised f ln') (World.map (fun e => (e.1, e.2 + c)) w)
      = World.map (fun x => k * x) (World.map (exactUnnormalised f ln) w) := by
    rw [wmap_wmap, wmap_wmap]
    simp only [hu]
  rw [e1, e1, e2, globalSum_scale]
  generalize World.map (exactUnnormalised f ln) w = v
  cases globalSum v with
  | error e => rfl
  | ok nrms =>
    cases nrms with
    | nil => rfl
    | cons nrm rest =>
      change Except.ok _ = Except.ok _
      congr 1
      change World.map (fun x => x / (k * nrm)) (World.map (fun x => k * x) v)
        = World.map (fun x => x / nrm) v
      rw [wmap_wmap]
      congr 1
      funext x
      rw [mul_div_mul_left _ _ hkpos.ne']

theorem zipWith_congr_right {A B C : Type} (f g : A → B → C) (h : ∀ a b, f a b = g a b)
    (l : List A) (m : List B) : List.zipWith f l m = List.zipWith g l m := by
  have : f = g := by funext a b; exact h a b
  rw [this]

/-- `ExactSampler.sample` with the wave function `e^c ψ` and any stored normalisation returns the
configurations and probabilities it returns for `ψ`. -/
theorem c95_exact (lDim N deviceCount commSize : ℕ) (decode : List ℕ → S) (f : ℝ) (hf : f ≠ 0)
    (ln ln' : ℝ) (logPsi : S → ℂ) (c : ℂ) :
    (exactSampleWorld lDim N deviceCount commSize decode f ln' fun s => logPsi s + c).map Prod.snd
      = (exactSampleWorld lDim N deviceCount commSize decode f ln logPsi).map
        (fun r => World.map (fun x => (x.1, x.2.1 + c, x.2.2)) r.2) := by
  unfold exactSampleWorld
  cases exactBasisWorld lDim N deviceCount commSize with
  | error e => rfl
  | ok basis =>
    have h := exactSample_shift f hf ln ln' c
      (World.map (fun e => (e.1, logPsi (decode e.2))) basis)
    rw [wmap_wmap] at h
    change Except.map _ (Except.bind (exactSample f ln' (World.map (fun e =>
      (e.1, logPsi (decode e.2) + c)) basis)) _) = Except.map _ (Except.bind (exactSample f ln
        (World.map (fun e => (e.1, logPsi (decode e.2))) basis)) _)
    revert h
    generalize exactSample f ln' (World.map (fun e => (e.1, logPsi (decode e.2) + c)) basis) = x
    generalize exactSample f ln (World.map (fun e => (e.1, logPsi (decode e.2))) basis) = y
    intro h
    cases x with
    | error e =>
      cases y with
      | error e' =>
        simp only [Except.map, Except.error.injEq] at h
        subst h
        rfl
      | ok y => simp [Except.map] at h
    | ok x =>
      cases y with
      | error e' => simp [Except.map] at h
      | ok y =>
        simp only [Except.map, Except.ok.injEq] at h
        obtain ⟨x1, x2⟩ := x
        obtain ⟨y1, y2⟩ := y
        simp only at h
        subst h
        change Except.ok _ = Except.ok _
        simp only [World.map, List.map_zipWith]

/-- The sampler state without the cached logarithms of probabilities. -/
def ChainState.visible (d : ChainState S K) : List S × K × ℕ × ℕ :=
  (d.states, d.key, d.numProposed, d.numAccepted)

/-- Two sampler states that differ by a constant in the cached logarithms. -/
def ShiftedChain (b : ℝ) (d d' : ChainState S K) : Prop :=
  d'.visible = d.visible ∧ d'.logAccProb = d.logAccProb.map (· + b)

/-- A sampler for the wave function with another normalisation. -/
def McConfig.shift (c : McConfig S P K) (a : P → ℝ) : McConfig S P K :=
  { c with netRe := fun p s => c.netRe p s + a p }

theorem zipWith_shift_select (b : ℝ) (acc : List Bool) (x y : List ℝ) :
    List.zipWith (fun (a : Bool) (no : ℝ × ℝ) => if a then no.1 else no.2) acc
        ((x.map (· + b)).zip (y.map (· + b)))
      = (List.zipWith (fun (a : Bool) (no : ℝ × ℝ) => if a then no.1 else no.2) acc
        (x.zip y)).map (· + b) := by
  rw [List.zip_map, List.zipWith_map_right, List.map_zipWith]
  apply zipWith_congr_right
  rintro (_ | _) ⟨p, q⟩ <;> rfl

theorem shifted_update (c : McConfig S P K) (a : P → ℝ) (params : P) (d d' : ChainState S K)
    (h : ShiftedChain (c.mu * a params) d d') :
    ShiftedChain (c.mu * a params) (performMcUpdate c params d)
      (performMcUpdate (c.shift a) params d') := by
  obtain ⟨hv, hl⟩ := h
  obtain ⟨st, la, key, np, na⟩ := d
  obtain ⟨st', la', key', np', na'⟩ := d'
  simp only [ChainState.visible, Prod.mk.injEq] at hv
  obtain ⟨rfl, rfl, rfl, rfl⟩ := hv
  simp only at hl
  subst hl
  have hnew : ∀ l : List S, (l.map fun y => c.mu * (c.netRe params y + a params))
      = (l.map fun y => c.mu * c.netRe params y).map (· + c.mu * a params) := by
    intro l
    rw [List.map_map]
    apply List.map_congr_left
    intro y _
    simp [mul_add]
  have hP : ∀ x y : List ℝ, List.zipWith (fun new old => Real.exp (new - old))
      (x.map (· + c.mu * a params)) (y.map (· + c.mu * a params))
      = List.zipWith (fun new old => Real.exp (new - old)) x y := by
    intro x y
    rw [List.zipWith_map]
    apply zipWith_congr_right
    intro p q
    congr 1
    ring
  constructor
  · simp only [ChainState.visible, performMcUpdate, McConfig.shift, hnew, hP]
    rfl
  · simp only [performMcUpdate, McConfig.shift, hnew, hP, zipWith_shift_select]
    rfl

theorem shifted_sweep (c : McConfig S P K) (a : P → ℝ) (params : P) (n : ℕ) (d d' : ChainState S K)
    (h : ShiftedChain (c.mu * a params) d d') :
    ShiftedChain (c.mu * a params) (sweep c params n d) (sweep (c.shift a) params n d') := by
  unfold sweep
  induction n generalizing d d' with
  | zero => exact h
  | succ n ih => exact ih _ _ (shifted_update c a params d d' h)

theorem shifted_collect (c : McConfig S P K) (a : P → ℝ) (params : P) (n : ℕ)
    (d d' : ChainState S K) (h : ShiftedChain (c.mu * a params) d d') :
    ShiftedChain (c.mu * a params) (collect c params n d).1 (collect (c.shift a) params n d').1 ∧
      (collect (c.shift a) params n d').2 = (collect c params n d).2 := by
  induction n generalizing d d' with
  | zero => exact ⟨h, rfl⟩
  | succ n ih =>
    have h1 := shifted_sweep c a params c.sweepSteps d d' h
    have h2 := ih _ _ h1
    have h3 : (sweep (c.shift a) params c.sweepSteps d').states
        = (sweep c params c.sweepSteps d).states := congrArg Prod.fst h1.1
    refine ⟨h2.1, ?_⟩
    change (sweep (c.shift a) params c.sweepSteps d').states ::
        (collect (c.shift a) params n (sweep (c.shift a) params c.sweepSteps d')).2 = _
    rw [h2.2, h3]
    rfl

theorem shifted_getSamples (c : McConfig S P K) (a : P → ℝ) (params : P) (n : ℕ)
    (d d' : ChainState S K) (h : d'.visible = d.visible) :
    (getSamples (c.shift a) params n (mcInit (c.shift a) params d')).1.visible
        = (getSamples c params n (mcInit c params d)).1.visible ∧
      (getSamples (c.shift a) params n (mcInit (c.shift a) params d')).2
        = (getSamples c params n (mcInit c params d)).2 := by
  obtain ⟨st, la, key, np, na⟩ := d
  obtain ⟨st', la', key', np', na'⟩ := d'
  simp only [ChainState.visible, Prod.mk.injEq] at h
  obtain ⟨rfl, rfl, rfl, rfl⟩ := h
  have h0 : ShiftedChain (c.mu * a params) (mcInit c params ⟨st', la, key', np', na'⟩)
      (mcInit (c.shift a) params ⟨st', la', key', np', na'⟩) := by
    refine ⟨rfl, ?_⟩
    simp [mcInit, McConfig.shift, mul_add]
  have h1 := shifted_collect c a params n _ _
    (shifted_sweep c a params (c.thermSweeps * c.sweepSteps) _ _ h0)
  exact ⟨h1.1.1, congrArg List.flatten h1.2⟩

/-- `MCSampler.sample` with the wave function `e^c ψ` (`a = Re c`, which may depend on the
parameters): the same configurations for every random number generator, and the same states of the
chains, keys and counters afterwards. -/
theorem c95_mcmc (c : McConfig S P K) (a : P → ℝ) (commSize rank : ℕ) (params : P)
    (numSamples multipleOf : ℕ) (devs devs' : List (ChainState S K))
    (h : devs'.map ChainState.visible = devs.map ChainState.visible) :
    (getSamplesMcmc (c.shift a) commSize rank params numSamples multipleOf devs').map
        (fun r => (r.1.map ChainState.visible, r.2))
      = (getSamplesMcmc c commSize rank params numSamples multipleOf devs).map
        (fun r => (r.1.map ChainState.visible, r.2)) := by
  have hlen : devs'.length = devs.length := by simpa using congrArg List.length h
  unfold getSamplesMcmc
  change Except.map _ (Except.bind (distributeSampling commSize rank numSamples
    (some devs'.length) (Nat.lcm c.numChains multipleOf)) _) = _
  rw [hlen]
  change _ = Except.map _ (Except.bind (distributeSampling commSize rank numSamples
    (some devs.length) (Nat.lcm c.numChains multipleOf)) _)
  cases distributeSampling commSize rank numSamples (some devs.length)
    (Nat.lcm c.numChains multipleOf) with
  | error e => rfl
  | ok r =>
    obtain ⟨n, glob⟩ := r
    change Except.ok _ = Except.ok _
    congr 1
    simp only [List.map_map, Function.comp_def, Prod.mk.injEq, and_true]
    clear hlen
    induction devs generalizing devs' with
    | nil =>
      obtain rfl : devs' = [] := by simpa using h
      simp
    | cons d devs ih =>
      cases devs' with
      | nil => simp at h
      | cons d' devs' =>
        simp only [List.map_cons, List.cons.injEq] at h
        have h1 := shifted_getSamples c a params n d d' h.1
        have h2 := ih devs' h.2
        simp only [List.map_cons, h1.1, h1.2, h2.1, h2.2, and_self]

/-- The same after any history of calls. -/
theorem c95_mcmc_history (c : McConfig S P K) (a : P → ℝ) (commSize rank : ℕ)
    (calls : List (P × ℕ × ℕ)) (devs devs' : List (ChainState S K))
    (h : devs'.map ChainState.visible = devs.map ChainState.visible) :
    (mcRun (c.shift a) commSize rank devs' calls).map (List.map ChainState.visible)
      = (mcRun c commSize rank devs calls).map (List.map ChainState.visible) := by
  induction calls generalizing devs devs' with
  | nil => simpa [mcRun, Except.map] using h
  | cons call calls ih =>
    obtain ⟨params, n, m⟩ := call
    have h1 := c95_mcmc c a commSize rank params n m devs devs' h
    unfold mcRun
    change Except.map _ (Except.bind (getSamplesMcmc (c.shift a) commSize rank params n m devs') _)
      = Except.map _ (Except.bind (getSamplesMcmc c commSize rank params n m devs) _)
    revert h1
    generalize getSamplesMcmc (c.shift a) commSize rank params n m devs' = x
    generalize getSamplesMcmc c commSize rank params n m devs = y
    intro h1
    cases x with
    | error e =>
      cases y with
      | error e' =>
        simp only [Except.map, Except.error.injEq] at h1
        subst h1
        rfl
      | ok y => simp [Except.map] at h1
    | ok x =>
      cases y with
      | error e' => simp [Except.map] at h1
      | ok y =>
        simp only [Except.map, Except.ok.injEq, Prod.mk.injEq] at h1
        exact ih _ _ h1.1

/-- The weights of the samples of a Markov chain are those for `ψ`. -/
theorem c95_mcmc_weights (f mu : ℝ) (world : World ℂ) (c : ℂ) :
    mcmcWeights f mu (World.map (· + c) world) = mcmcWeights f mu world := by
  set k := Real.exp ((1 / f - mu) * c.re) with hk
  have hkpos : 0 < k := Real.exp_pos _
  have e1 : ∀ v : World ℂ, mcmcWeights f mu v = (do
      let nrms ← globalSum (World.map (fun z : ℂ => Real.exp ((1 / f - mu) * z.re)) v)
      return ((World.map (fun z : ℂ => Real.exp ((1 / f - mu) * z.re)) v).zip nrms).map fun pn =>
        pn.1.map fun dev => dev.map fun x => x / pn.2) := fun _ => rfl
  have e2 : World.map (fun z : ℂ => Real.exp ((1 / f - mu) * z.re)) (World.map (· + c) world)
      = World.map (fun x => k * x)
        (World.map (fun z : ℂ => Real.exp ((1 / f - mu) * z.re)) world) := by
    rw [wmap_wmap, wmap_wmap]
    congr 1
    funext z
    rw [hk, ← Real.exp_add, Complex.add_re]
    congr 1
    ring
  rw [e1, e1, e2, globalSum_scale]
  generalize World.map (fun z : ℂ => Real.exp ((1 / f - mu) * z.re)) world = v
  cases globalSum v with
  | error e => rfl
  | ok nrms =>
    change Except.ok _ = Except.ok _
    congr 1
    change List.map _ (List.zip (List.map _ v) (List.map _ nrms)) = _
    rw [List.zip_map, List.map_map]
    apply List.map_congr_left
    rintro ⟨p, n⟩ _
    simp only [Function.comp_def, Prod.map, List.map_map]
    apply List.map_congr_left
    intro dev _
    apply List.map_congr_left
    intro x _
    rw [mul_div_mul_left _ _ hkpos.ne']

end samplers

/-! ## Local estimators -/

section estimators

variable {S : Type}

theorem oLocRow_shift (row : List (S × ℂ)) (l c : ℂ) (f : S → ℂ) :
    oLocRow row (l + c) (fun s => f s + c) = oLocRow row l f := by
  unfold oLocRow
  congr 1
  apply List.map_congr_left
  intro e _
  congr 2
  ring

theorem oLocOn_shift (kernel : S → List (S × ℂ)) (f : S → ℂ) (c : ℂ) (samples : List S)
    (l : List ℂ) :
    oLocOn kernel (fun s => f s + c) samples (l.map (· + c)) = oLocOn kernel f samples l := by
  unfold oLocOn
  rw [List.zipWith_map_right]
  apply zipWith_congr_right
  intro row x
  exact oLocRow_shift row x c f

/-- `get_O_loc` with the (logarithmic) wave function `e^c ψ`: the same values, for every batch size,
whether the coefficients of the samples are passed or computed. -/
theorem c95_local (kernel : S → List (S × ℂ)) (val : S → ℂ) (c : ℂ) (zeroCfg : S) (b : ℤ)
    (samples : List S) (logPsiS : Option (List ℂ))
    (hlen : ∀ l, logPsiS = some l → l.length = samples.length)
    (numOps : ℕ) (hops : ∀ s, (kernel s).length = numOps) :
    getOLoc kernel ⟨fun s => val s + c, true⟩ zeroCfg b samples (logPsiS.map (List.map (· + c)))
      = getOLoc kernel ⟨val, true⟩ zeroCfg b samples logPsiS := by
  have hun : getOLoc kernel ⟨fun s => val s + c, true⟩ zeroCfg (-1) samples
      (logPsiS.map (List.map (· + c))) = getOLoc kernel ⟨val, true⟩ zeroCfg (-1) samples logPsiS := by
    have e : (Option.map (List.map (· + c)) logPsiS).getD (samples.map fun s => val s + c)
        = (logPsiS.getD (samples.map val)).map (· + c) := by
      cases logPsiS with
      | none => simp
      | some l => rfl
    unfold getOLoc
    dsimp only
    rw [if_neg (by omega), if_neg (by omega), e]
    congr 1
    exact oLocOn_shift kernel val c samples _
  by_cases hn : samples = []
  · subst hn
    by_cases hb : 0 < b
    · unfold getOLoc
      dsimp only
      rw [if_pos hb, if_pos hb]
      simp [getOLocBatched, oLocPlan, oLocLoop]
    · have h1 : ∀ (psi : Net S) (l : Option (List ℂ)), getOLoc kernel psi zeroCfg b [] l
          = getOLoc kernel psi zeroCfg (-1) [] l := by
        intro psi l
        unfold getOLoc
        dsimp only
        rw [if_neg hb, if_neg (by omega)]
      rw [h1, h1, hun]
  · rw [c29_batched_eq_unbatched_partial kernel _ rfl zeroCfg samples hn _ ?_ numOps hops b,
      c29_batched_eq_unbatched_partial kernel _ rfl zeroCfg samples hn _ hlen numOps hops b, hun]
    intro l hl
    cases logPsiS with
    | none => simp at hl
    | some l' =>
      simp only [Option.map_some, Option.some.injEq] at hl
      rw [← hl, List.length_map, hlen l' rfl]

/-- All local values of the samples of a sampler. -/
theorem c95_local_world (kernel : S → List (S × ℂ)) (val : S → ℂ) (c : ℂ) (zeroCfg : S) (b : ℤ)
    (samples : World (S × ℂ × ℝ)) (numOps : ℕ) (hops : ∀ s, (kernel s).length = numOps) :
    oLocWorld kernel ⟨fun s => val s + c, true⟩ zeroCfg b
        (World.map (fun x => (x.1, x.2.1 + c, x.2.2)) samples)
      = oLocWorld kernel ⟨val, true⟩ zeroCfg b samples := by
  unfold oLocWorld World.map
  rw [List.mapM_map]
  congr 1
  funext rk
  simp only [Function.comp_def]
  rw [List.mapM_map]
  congr 1
  funext dev
  have h := c95_local kernel val c zeroCfg b (dev.map fun x => x.1) (some (dev.map fun x => x.2.1))
    (by intro l hl; rw [← Option.some.inj hl]; simp) numOps hops
  simp only [Function.comp_def, List.map_map, Option.map_some] at h ⊢
  rw [h]
  cases getOLoc kernel ⟨val, true⟩ zeroCfg b (dev.map fun x => x.1)
    (some (dev.map fun x => x.2.1)) with
  | none => rfl
  | some o => simp only [List.zipWith_map_left]

/-- `measure` with the wave function `e^c ψ` and an exact sampler (with any stored normalisation):
the result for `ψ`. -/
theorem c95_measure_exact (lDim N deviceCount commSize : ℕ) (decode : List ℕ → S) (f : ℝ)
    (hf : f ≠ 0) (ln ln' : ℝ) (logPsi : S → ℂ) (c : ℂ) (kernel : S → List (S × ℂ)) (numOps : ℕ)
    (hops : ∀ s, (kernel s).length = numOps) (zeroCfg : S) (b : ℤ) (numSamples : Option ℕ) :
    (do let r ← exactSampleWorld lDim N deviceCount commSize decode f ln' fun s => logPsi s + c
        measureOp kernel ⟨fun s => logPsi s + c, true⟩ zeroCfg b numSamples r.2)
      = (do let r ← exactSampleWorld lDim N deviceCount commSize decode f ln logPsi
            measureOp kernel ⟨logPsi, true⟩ zeroCfg b numSamples r.2) := by
  have h := c95_exact lDim N deviceCount commSize decode f hf ln ln' logPsi c
  revert h
  generalize (exactSampleWorld lDim N deviceCount commSize decode f ln' fun s => logPsi s + c) = x
  generalize exactSampleWorld lDim N deviceCount commSize decode f ln logPsi = y
  intro h
  cases x with
  | error e =>
    cases y with
    | error e' =>
      simp only [Except.map, Except.error.injEq] at h
      subst h
      rfl
    | ok y => simp [Except.map] at h
  | ok x =>
    cases y with
    | error e' => simp [Except.map] at h
    | ok y =>
      simp only [Except.map, Except.ok.injEq] at h
      change measureOp _ _ _ _ _ x.2 = measureOp _ _ _ _ _ y.2
      rw [h]
      unfold measureOp
      rw [c95_local_world kernel logPsi c zeroCfg b y.2 numOps hops]

end estimators

/-! ## Gradients -/

section gradients

/-- All partial derivatives of a function of real parameters exist. -/
def PartialsReal (f : List (List ℝ) → ℂ) (L : List (List ℝ)) : Prop :=
  ∀ l j : ℕ, DifferentiableAt ℝ (fun t : ℝ => f (setEntry L l j ((leafOf L l).getD j 0 + t))) 0

/-- All partial derivatives with respect to real and imaginary parts of the parameters exist. -/
def PartialsCpx (f : List (List ℂ) → ℂ) (L : List (List ℂ)) : Prop :=
  ∀ l j : ℕ,
    DifferentiableAt ℝ (fun t : ℝ => f (setEntry L l j ((leafOf L l).getD j 0 + (t : ℂ)))) 0 ∧
    DifferentiableAt ℝ
      (fun t : ℝ => f (setEntry L l j ((leafOf L l).getD j 0 + Complex.I * (t : ℂ)))) 0

theorem diff_re {g : ℝ → ℂ} (h : DifferentiableAt ℝ g 0) :
    DifferentiableAt ℝ (fun t => (g t).re) 0 :=
  Complex.reCLM.differentiableAt.comp 0 h

theorem diff_im {g : ℝ → ℂ} (h : DifferentiableAt ℝ g 0) :
    DifferentiableAt ℝ (fun t => (g t).im) 0 :=
  Complex.imCLM.differentiableAt.comp 0 h

theorem zipWith_map_map_self {A B C D : Type} (f : B → C → D) (g : A → B) (h : A → C) (l : List A) :
    List.zipWith f (l.map g) (l.map h) = l.map fun a => f (g a) (h a) := by
  induction l <;> simp_all

theorem zipWith_flatMap_flatMap {A B C D : Type} (op : B → C → D) (f : A → List B)
    (g : A → List C) (h : ∀ a, (f a).length = (g a).length) (l : List A) :
    List.zipWith op (l.flatMap f) (l.flatMap g) = l.flatMap fun a => List.zipWith op (f a) (g a) := by
  induction l with
  | nil => rfl
  | cons a l ih =>
    rw [List.flatMap_cons, List.flatMap_cons, List.zipWith_append (h a), ih, List.flatMap_cons]

/-- The gradient with respect to real parameters, entry by entry. -/
theorem gradientsReal_rows (mode : GradMode) (f : List (List ℝ) → ℂ) (L : List (List ℝ)) :
    gradientsReal mode f L = (List.range L.length).flatMap fun l =>
      let D := fun j => deriv (fun t : ℝ => (f (setEntry L l j ((leafOf L l).getD j 0 + t))).re) 0
      let E := fun j => deriv (fun t : ℝ => (f (setEntry L l j ((leafOf L l).getD j 0 + t))).im) 0
      let js := List.range (leafOf L l).length
      match mode with
      | .holo => js.map (fun j => ((D j : ℝ) : ℂ)) ++ js.map fun j => Complex.I * ((D j : ℝ) : ℂ)
      | .real => js.map fun j => ((D j : ℝ) : ℂ) + Complex.I * ((E j : ℝ) : ℂ)
      | .cpxNonholo => js.map (fun j => ((D j : ℝ) : ℂ) + Complex.I * ((E j : ℝ) : ℂ))
          ++ js.map fun _ => ((0 : ℝ) : ℂ) + Complex.I * ((0 : ℝ) : ℂ) := by
  cases mode with
  | holo =>
    change flatGradientHoloReal f L = _
    unfold flatGradientHoloReal jaxGradReal
    rw [List.flatMap_map]
    simp only [List.map_map, Function.comp_def]
  | real =>
    change flatGradient f L = _
    unfold flatGradient jaxGradReal
    rw [← List.flatMap_def, ← List.flatMap_def, zipWith_flatMap_flatMap _ _ _ (by simp)]
    simp only [zipWith_map_map_self]
  | cpxNonholo =>
    unfold gradientsReal jaxGradReal
    simp only
    rw [List.flatMap_map, List.flatMap_map, zipWith_flatMap_flatMap _ _ _ (by simp)]
    apply List.flatMap_congr
    intro l _
    rw [List.zipWith_append (by simp), List.map_map, List.map_map, zipWith_map_map_self,
      zipWith_map_map_self]
    rfl

/-- The gradient with respect to complex parameters, entry by entry. -/
theorem gradientsCpx_rows (mode : GradMode) (f : List (List ℂ) → ℂ) (L : List (List ℂ)) :
    gradientsCpx mode f L = (List.range L.length).flatMap fun l =>
      let D := fun j => (⟨deriv (fun t : ℝ =>
            (f (setEntry L l j ((leafOf L l).getD j 0 + (t : ℂ)))).re) 0,
          -deriv (fun t : ℝ =>
            (f (setEntry L l j ((leafOf L l).getD j 0 + Complex.I * (t : ℂ)))).re) 0⟩ : ℂ)
      let E := fun j => (⟨deriv (fun t : ℝ =>
            (f (setEntry L l j ((leafOf L l).getD j 0 + (t : ℂ)))).im) 0,
          -deriv (fun t : ℝ =>
            (f (setEntry L l j ((leafOf L l).getD j 0 + Complex.I * (t : ℂ)))).im) 0⟩ : ℂ)
      let js := List.range (leafOf L l).length
      match mode with
      | .holo => js.map D ++ js.map fun j => Complex.I * D j
      | .real => js.map fun j => D j + Complex.I * E j
      | .cpxNonholo => js.map (fun j => (((D j).re : ℝ) : ℂ) + Complex.I * (((E j).re : ℝ) : ℂ))
          ++ js.map fun j => ((-(D j).im : ℝ) : ℂ) + Complex.I * ((-(E j).im : ℝ) : ℂ) := by
  cases mode with
  | holo =>
    change flatGradientHolo f L = _
    unfold flatGradientHolo jaxGradCpx
    rw [List.flatMap_map]
    simp only [List.map_map, Function.comp_def]
  | real =>
    unfold gradientsCpx jaxGradCpx
    simp only
    rw [← List.flatMap_def, ← List.flatMap_def, zipWith_flatMap_flatMap _ _ _ (by simp)]
    simp only [zipWith_map_map_self]
  | cpxNonholo =>
    change flatGradientCpxNonholo f L = _
    unfold flatGradientCpxNonholo jaxGradCpx
    simp only
    rw [List.flatMap_map, List.flatMap_map, zipWith_flatMap_flatMap _ _ _ (by simp)]
    apply List.flatMap_congr
    intro l _
    rw [List.zipWith_append (by simp)]
    simp only [List.map_map, zipWith_map_map_self]
    rfl

/-- The gradients of `log ψ + c(θ)` are those of `log ψ`, shifted by a vector that does not depend on
the configuration (it is computed from `c` alone): real parameters. -/
theorem c95_gradients_real (mode : GradMode) (f c : List (List ℝ) → ℂ) (L : List (List ℝ))
    (hf : PartialsReal f L) (hc : PartialsReal c L) :
    gradientsReal mode (fun p => f p + c p) L
      = List.zipWith (· + ·) (gradientsReal mode f L) (gradientsReal mode c L) := by
  rw [gradientsReal_rows, gradientsReal_rows, gradientsReal_rows,
    zipWith_flatMap_flatMap _ _ _ (by intro l; cases mode <;> simp)]
  apply List.flatMap_congr
  intro l _
  have hD : ∀ j, deriv (fun t : ℝ => (f (setEntry L l j ((leafOf L l).getD j 0 + t))
        + c (setEntry L l j ((leafOf L l).getD j 0 + t))).re) 0
      = deriv (fun t : ℝ => (f (setEntry L l j ((leafOf L l).getD j 0 + t))).re) 0
        + deriv (fun t : ℝ => (c (setEntry L l j ((leafOf L l).getD j 0 + t))).re) 0 :=
    fun j => deriv_fun_add (diff_re (hf l j)) (diff_re (hc l j))
  have hE : ∀ j, deriv (fun t : ℝ => (f (setEntry L l j ((leafOf L l).getD j 0 + t))
        + c (setEntry L l j ((leafOf L l).getD j 0 + t))).im) 0
      = deriv (fun t : ℝ => (f (setEntry L l j ((leafOf L l).getD j 0 + t))).im) 0
        + deriv (fun t : ℝ => (c (setEntry L l j ((leafOf L l).getD j 0 + t))).im) 0 :=
    fun j => deriv_fun_add (diff_im (hf l j)) (diff_im (hc l j))
  cases mode with
  | holo =>
    simp only [hD]
    rw [List.zipWith_append (by simp), zipWith_map_map_self, zipWith_map_map_self]
    congr 1 <;> (apply List.map_congr_left; intro j _; push_cast; ring)
  | real =>
    simp only [hD, hE, zipWith_map_map_self]
    apply List.map_congr_left; intro j _; push_cast; ring
  | cpxNonholo =>
    simp only [hD, hE]
    rw [List.zipWith_append (by simp), zipWith_map_map_self, zipWith_map_map_self]
    congr 1 <;> (apply List.map_congr_left; intro j _; push_cast; ring)

/-- The same for complex parameters. -/
theorem c95_gradients_cpx (mode : GradMode) (f c : List (List ℂ) → ℂ) (L : List (List ℂ))
    (hf : PartialsCpx f L) (hc : PartialsCpx c L) :
    gradientsCpx mode (fun p => f p + c p) L
      = List.zipWith (· + ·) (gradientsCpx mode f L) (gradientsCpx mode c L) := by
  rw [gradientsCpx_rows, gradientsCpx_rows, gradientsCpx_rows,
    zipWith_flatMap_flatMap _ _ _ (by intro l; cases mode <;> simp)]
  apply List.flatMap_congr
  intro l _
  have h1 : ∀ j, deriv (fun t : ℝ => (f (setEntry L l j ((leafOf L l).getD j 0 + (t : ℂ)))
        + c (setEntry L l j ((leafOf L l).getD j 0 + (t : ℂ)))).re) 0
      = deriv (fun t : ℝ => (f (setEntry L l j ((leafOf L l).getD j 0 + (t : ℂ)))).re) 0
        + deriv (fun t : ℝ => (c (setEntry L l j ((leafOf L l).getD j 0 + (t : ℂ)))).re) 0 :=
    fun j => deriv_fun_add (diff_re (hf l j).1) (diff_re (hc l j).1)
  have h2 : ∀ j, deriv (fun t : ℝ => (f (setEntry L l j ((leafOf L l).getD j 0 + (t : ℂ)))
        + c (setEntry L l j ((leafOf L l).getD j 0 + (t : ℂ)))).im) 0
      = deriv (fun t : ℝ => (f (setEntry L l j ((leafOf L l).getD j 0 + (t : ℂ)))).im) 0
        + deriv (fun t : ℝ => (c (setEntry L l j ((leafOf L l).getD j 0 + (t : ℂ)))).im) 0 :=
    fun j => deriv_fun_add (diff_im (hf l j).1) (diff_im (hc l j).1)
  have h3 : ∀ j, deriv (fun t : ℝ => (f (setEntry L l j ((leafOf L l).getD j 0 + Complex.I * (t : ℂ)))
        + c (setEntry L l j ((leafOf L l).getD j 0 + Complex.I * (t : ℂ)))).re) 0
      = deriv (fun t : ℝ => (f (setEntry L l j ((leafOf L l).getD j 0 + Complex.I * (t : ℂ)))).re) 0
        + deriv (fun t : ℝ => (c (setEntry L l j ((leafOf L l).getD j 0 + Complex.I * (t : ℂ)))).re) 0 :=
    fun j => deriv_fun_add (diff_re (hf l j).2) (diff_re (hc l j).2)
  have h4 : ∀ j, deriv (fun t : ℝ => (f (setEntry L l j ((leafOf L l).getD j 0 + Complex.I * (t : ℂ)))
        + c (setEntry L l j ((leafOf L l).getD j 0 + Complex.I * (t : ℂ)))).im) 0
      = deriv (fun t : ℝ => (f (setEntry L l j ((leafOf L l).getD j 0 + Complex.I * (t : ℂ)))).im) 0
        + deriv (fun t : ℝ => (c (setEntry L l j ((leafOf L l).getD j 0 + Complex.I * (t : ℂ)))).im) 0 :=
    fun j => deriv_fun_add (diff_im (hf l j).2) (diff_im (hc l j).2)
  have hadd : ∀ a b c d : ℝ, (⟨a + b, -(c + d)⟩ : ℂ) = ⟨a, -c⟩ + ⟨b, -d⟩ := by
    intro a b c d
    apply Complex.ext
    · rfl
    · change -(c + d) = -c + -d
      ring
  cases mode with
  | holo =>
    simp only [h1, h3, hadd]
    rw [List.zipWith_append (by simp), zipWith_map_map_self, zipWith_map_map_self]
    congr 1
    apply List.map_congr_left; intro j _; ring
  | real =>
    simp only [h1, h2, h3, h4, hadd, zipWith_map_map_self]
    apply List.map_congr_left; intro j _; ring
  | cpxNonholo =>
    simp only [h1, h2, h3, h4]
    rw [List.zipWith_append (by simp), zipWith_map_map_self, zipWith_map_map_self]
    congr 1 <;> (apply List.map_congr_left; intro j _; push_cast; ring)

end gradients

/-! ## Solvers -/

section solvers

variable {n : ℕ} {ι : Type}

/-- Total weight of all samples. -/
theorem wMean_shift (l : List (ℝ × (ι → ℂ))) (v : ι → ℂ) (h : (l.map Prod.fst).sum = 1) :
    wMean (l.map fun s => (s.1, fun i => s.2 i + v i)) = fun i => wMean l i + v i := by
  funext i
  rw [wMean_apply, wMean_apply]
  rw [List.map_map]
  have : ∀ m : List (ℝ × (ι → ℂ)), (m.map ((fun s : ℝ × (ι → ℂ) => (s.1 : ℂ) * s.2 i)
        ∘ fun s => (s.1, fun i => s.2 i + v i))).sum
      = (m.map fun s => (s.1 : ℂ) * s.2 i).sum + ((m.map Prod.fst).sum : ℂ) * v i := by
    intro m
    induction m with
    | nil => simp
    | cons s m ih =>
      rw [List.map_cons, List.sum_cons, ih]
      simp
      ring
  rw [this, h]
  simp

/-- Observations shifted by a constant: the same centred data, a shifted mean. -/
theorem create_shift (w : World (ℝ × (ι → ℂ))) (v : ι → ℂ)
    (h1 : ((allSamples w).map Prod.fst).sum = 1) (hne : ∀ r ∈ w, r ≠ []) (a : SObs ι)
    (ha : SObs.create w = .ok a) :
    SObs.create (World.map (fun s => (s.1, fun i => s.2 i + v i)) w)
      = .ok ⟨a.rows, a.mean.map fun m => fun i => m i + v i⟩ := by
  rw [create_eq w hne] at ha
  obtain rfl := Except.ok.inj ha
  rw [create_eq _ (World.map_ne _ _ hne), allSamples_wmap, wMean_shift _ v h1, wmap_wmap]
  congr 2
  · congr 1
    funext s
    simp
  · unfold World.map
    rw [List.map_map, List.map_map]
    rfl

/-- `a` with another mean. -/
def SObs.shiftMean (a : SObs ι) (v : ι → ℂ) : SObs ι :=
  ⟨a.rows, a.mean.map fun m => fun i => m i + v i⟩

theorem subset_shift (a : SObs ι) (v : ι → ℂ) (start stop step : Option ℤ) :
    (a.shiftMean v).subset start stop step
      = (a.subset start stop step).map (Option.map fun b => b.shiftMean v) := by
  unfold SObs.subset
  change Except.bind (List.mapM (fun rk => rk.mapM fun dev => sliceList start stop step dev) a.rows) _
    = Except.map _ (Except.bind
      (List.mapM (fun rk => rk.mapM fun dev => sliceList start stop step dev) a.rows) _)
  cases List.mapM (fun rk => rk.mapM fun dev => sliceList start stop step dev) a.rows with
  | error e => rfl
  | ok sel =>
    change Except.bind (globalSum (World.map (fun s => s.1) sel)) _
      = Except.map _ (Except.bind (globalSum (World.map (fun s => s.1) sel)) _)
    cases globalSum (World.map (fun s => s.1) sel) with
    | error e => rfl
    | ok norms =>
      simp only [Except.bind]
      change Except.bind (globalSum _) _ = Except.map _ (Except.bind (globalSum _) _)
      generalize hrows : (List.zipWith (fun rk (n : ℝ) => List.map (fun dev => List.map (fun s =>
        ((s.1 / n, fun i => s.2 i / (Real.sqrt n : ℂ)) : ℝ × (ι → ℂ))) dev) rk) sel norms) = rows
      generalize globalSum (List.map (fun rk => List.map (fun dev =>
        [(List.map (fun s : ℝ × (ι → ℂ) => fun i => (Real.sqrt s.1 : ℂ) * s.2 i) dev).sum]) rk) rows)
        = sh
      cases sh with
      | error e => rfl
      | ok shifts =>
        simp only [Except.bind]
        have hm : List.zipWith (fun x m => fun i => x i + m i) shifts (a.shiftMean v).mean
            = (List.zipWith (fun x m => fun i => x i + m i) shifts a.mean).map
              fun m => fun i => m i + v i := by
          unfold SObs.shiftMean
          rw [List.zipWith_map_right, List.map_zipWith]
          apply zipWith_congr_right
          intro x m
          funext i
          ring
        split_ifs with hall
        · rw [hm]
          change Except.ok (some _) = Except.ok (some _)
          congr 2
          unfold SObs.shiftMean
          simp only
          congr 1
          rw [List.zip_map, List.zipWith_map_right]
          apply zipWith_congr_right
          rintro rk ⟨m1, m2⟩
          simp
        · rfl

theorem getTdvpEquation_rows (cfg : TdvpCfg n) (r : ℕ) (E : SObs (Fin 1))
    (G G' : SObs (Fin (n + 1))) (h : G'.rows = G.rows) (at₀ : TdvpAttrs n) :
    getTdvpEquation cfg r (some (E, G')) at₀ = getTdvpEquation cfg r (some (E, G)) at₀ := by
  have h1 : ∀ {κ : Type} (b : SObs κ), G'.covar b = G.covar b := by
    intro κ b
    unfold SObs.covar
    rw [h]
  have h2 : G.covar G' = G.covar G := by
    unfold SObs.covar
    rw [h]
  unfold getTdvpEquation
  simp only [h1, h2]

theorem tdvpSnr_rows (cfg : TdvpCfg n) (r : ℕ) (E : SObs (Fin 1))
    (G G' : SObs (Fin (n + 1))) (h : G'.rows = G.rows) (sp : TdvpSpectrum n) :
    tdvpSnr cfg r E G' sp = tdvpSnr cfg r E G sp := by
  have h1 : G'.covarData E = G.covarData E := by
    unfold SObs.covarData
    rw [h]
  unfold tdvpSnr
  rw [h1]

theorem tdvpSolve_rows (cfg : TdvpCfg n) (r : ℕ) (E : SObs (Fin 1))
    (G G' : SObs (Fin (n + 1))) (h : G'.rows = G.rows) (at₀ : TdvpAttrs n) :
    tdvpSolve cfg r (some (E, G')) at₀ = tdvpSolve cfg r (some (E, G)) at₀ := by
  unfold tdvpSolve
  rw [getTdvpEquation_rows cfg r E G G' h at₀]
  congr 1
  funext x
  obtain ⟨eq, at₁⟩ := x
  cases eq with
  | none => rfl
  | some SF =>
    simp only [tdvpSnr_rows cfg r E G G' h]

theorem crossValidate_shift (cfg : TdvpCfg n) (r : ℕ) (E : SObs (Fin 1))
    (G : SObs (Fin (n + 1))) (v : Fin (n + 1) → ℂ) (md : TdvpMeta n) (at₀ : TdvpAttrs n) :
    crossValidate cfg r E (G.shiftMean v) md at₀ = crossValidate cfg r E G md at₀ := by
  have hs : ∀ (x : Flt (SObs (Fin 1))) (y : Flt (SObs (Fin (n + 1)))) (a : TdvpAttrs n),
      tdvpSolve cfg r (bothFinite x (y.map fun b => b.shiftMean v)) a
        = tdvpSolve cfg r (bothFinite x y) a := by
    intro x y a
    cases x with
    | none => rfl
    | some x =>
      cases y with
      | none => rfl
      | some y => exact tdvpSolve_rows cfg r x y (y.shiftMean v) rfl a
  have he : ∀ (x : Flt (SObs (Fin 1))) (y : Flt (SObs (Fin (n + 1)))) (a : TdvpAttrs n),
      getTdvpEquation cfg r (bothFinite x (y.map fun b => b.shiftMean v)) a
        = getTdvpEquation cfg r (bothFinite x y) a := by
    intro x y a
    cases x with
    | none => rfl
    | some x =>
      cases y with
      | none => rfl
      | some y => exact getTdvpEquation_rows cfg r x y (y.shiftMean v) rfl a
  unfold crossValidate
  simp only [subset_shift, tdvpSolve_rows cfg r E G (G.shiftMean v) rfl,
    getTdvpEquation_rows cfg r E G (G.shiftMean v) rfl]
  cases E.subset (some 0) none (some 2) with
  | error e => rfl
  | ok E1 =>
    cases G.subset (some 0) none (some 2) with
    | error e => rfl
    | ok G1 =>
      cases E.subset (some 1) none (some 2) with
      | error e => rfl
      | ok E2 =>
        cases G.subset (some 1) none (some 2) with
        | error e => rfl
        | ok G2 =>
          change Except.bind (tdvpSolve cfg r (bothFinite E1 (Option.map _ G1)) at₀) _
            = Except.bind (tdvpSolve cfg r (bothFinite E1 G1) at₀) _
          rw [hs]
          cases tdvpSolve cfg r (bothFinite E1 G1) at₀ with
          | error e => rfl
          | ok r1 =>
            change Except.bind (getTdvpEquation cfg r (bothFinite E2 (Option.map _ G2)) r1.2) _
              = Except.bind (getTdvpEquation cfg r (bothFinite E2 G2) r1.2) _
            rw [he]

/-- The measurements at every parameter, sampler state and time with the gradients shifted by a
vector that depends on the parameters only. -/
def TdvpEnv.shift {smp : Type} (env : TdvpEnv n smp) (v : Params → Fin (n + 1) → ℂ) :
    TdvpEnv n smp :=
  ⟨fun p sm t => (env.measure p sm t).map fun r =>
    (World.map (fun s => (s.1, s.2.1, fun i => s.2.2 i + v p i)) r.1, r.2)⟩

/-- The weights a sampler returns add up to one, and every rank has a device. -/
def TdvpEnv.Normalised {smp : Type} (env : TdvpEnv n smp) : Prop :=
  ∀ p sm t joint sm', env.measure p sm t = .ok (joint, sm') →
    ((allSamples joint).map Prod.fst).sum = 1 ∧ ∀ rk ∈ joint, rk ≠ []

theorem env_shift_create {smp : Type} (env : TdvpEnv n smp) (hn : env.Normalised)
    (v : Params → Fin (n + 1) → ℂ) (p : Params) (sm : smp) (t : ℝ)
    (joint : World (ℝ × (Fin 1 → ℂ) × (Fin (n + 1) → ℂ))) (sm' : smp)
    (h : env.measure p sm t = .ok (joint, sm')) :
    ∃ (E : SObs (Fin 1)) (G : SObs (Fin (n + 1))),
      SObs.create (World.map (fun s => (s.1, s.2.1)) joint) = .ok E ∧
      SObs.create (World.map (fun s => (s.1, s.2.2)) joint) = .ok G ∧
      SObs.create (World.map (fun s => (s.1, s.2.1)) (World.map
        (fun s => (s.1, s.2.1, fun i => s.2.2 i + v p i)) joint)) = .ok E ∧
      SObs.create (World.map (fun s => (s.1, s.2.2)) (World.map
        (fun s => (s.1, s.2.1, fun i => s.2.2 i + v p i)) joint)) = .ok (G.shiftMean (v p)) := by
  obtain ⟨h1, h2⟩ := hn p sm t joint sm' h
  have hE := create_eq (World.map (fun s : ℝ × (Fin 1 → ℂ) × (Fin (n + 1) → ℂ) => (s.1, s.2.1)) joint)
    (World.map_ne _ _ h2)
  have hG := create_eq (World.map (fun s : ℝ × (Fin 1 → ℂ) × (Fin (n + 1) → ℂ) => (s.1, s.2.2)) joint)
    (World.map_ne _ _ h2)
  refine ⟨_, _, hE, hG, ?_, ?_⟩
  · rw [wmap_wmap]
    exact hE
  · have := create_shift (World.map (fun s => (s.1, s.2.2)) joint) (v p) (by
      rw [allSamples_wmap, List.map_map]
      exact h1) (World.map_ne _ _ h2) _ hG
    rw [wmap_wmap] at this ⊢
    exact this

/-- `TDVP.__call__` for `e^{c(θ)} ψ`: updates, attributes, sampler state and parameters of `psi` are
those for `ψ`, with and without cross validation. -/
theorem c95_tdvp {smp : Type} (env : TdvpEnv n smp) (hn : env.Normalised)
    (v : Params → Fin (n + 1) → ℂ) (cfg : TdvpCfg n) (r : ℕ) (netParameters : List ℝ) (t : ℝ)
    (intStep : Option ℕ) (sm : smp) (at₀ : TdvpAttrs n) :
    tdvpCall (env.shift v) cfg r netParameters t intStep sm at₀
      = tdvpCall env cfg r netParameters t intStep sm at₀ := by
  unfold tdvpCall
  congr 1
  funext tmp
  congr 1
  funext _
  congr 1
  funext params
  cases params with
  | none => rfl
  | some p =>
    simp only [TdvpEnv.shift]
    cases hm : env.measure p sm t with
    | error e => rfl
    | ok js =>
      obtain ⟨joint, sm'⟩ := js
      obtain ⟨E, G, hE, hG, hE', hG'⟩ := env_shift_create env hn v p sm t joint sm' hm
      simp only [Except.map, PsiM.lift, pure_bind, hE, hG, hE', hG']
      rw [tdvpSolve_rows cfg r E G (G.shiftMean (v p)) rfl at₀]
      simp only [crossValidate_shift]

/-- The same for `MinSR.__call__`. -/
theorem c95_minsr {smp : Type} (env : TdvpEnv n smp) (hn : env.Normalised)
    (v : Params → Fin (n + 1) → ℂ) (cfg : MinSRCfg) (r : ℕ) (netParameters : List ℝ) (t : ℝ)
    (intStep : Option ℕ) (sm : smp) (at₀ : MinSRAttrs) :
    minsrCall (env.shift v) cfg r netParameters t intStep sm at₀
      = minsrCall env cfg r netParameters t intStep sm at₀ := by
  have hsolve : ∀ (E : SObs (Fin 1)) (G : SObs (Fin (n + 1))) (w : Fin (n + 1) → ℂ),
      minsrSolve cfg r E (G.shiftMean w) = minsrSolve cfg r E G := fun _ _ _ => rfl
  unfold minsrCall
  congr 1
  funext tmp
  congr 1
  funext _
  congr 1
  funext params
  cases params with
  | none => rfl
  | some p =>
    simp only [TdvpEnv.shift]
    cases hm : env.measure p sm t with
    | error e => rfl
    | ok js =>
      obtain ⟨joint, sm'⟩ := js
      obtain ⟨E, G, hE, hG, hE', hG'⟩ := env_shift_create env hn v p sm t joint sm' hm
      simp only [Except.map, PsiM.lift, pure_bind, hE, hG, hE', hG', hsolve]

/-- The weights of the exact sampler add up to one. -/
theorem exact_weights_total {S : Type} (lDim N D s : ℕ) (hl : 2 ≤ lDim) (hD : 0 < D) (hs : 0 < s)
    (decode : List ℕ → S) (f ln : ℝ) (hf : f ≠ 0) (logPsi : S → ℂ) :
    ∃ (ln' : ℝ) (W : World (S × ℂ × ℝ)),
      exactSampleWorld lDim N D s decode f ln logPsi = .ok (ln', W) ∧
      (∀ rk ∈ W, rk ≠ []) ∧ ((allSamples W).map fun x => x.2.2).sum = 1 := by
  obtain ⟨W, basis, ln', hb, hlen, hdev, -, hkept, heq⟩ :=
    exactSampleWorld_eq lDim N D s hl hD hs decode f ln hf logPsi
  refine ⟨_, _, heq, World.map_ne _ _ ?_, ?_⟩
  · intro rk hrk he
    have := hdev rk hrk
    rw [he] at this
    simp at this
    omega
  · obtain ⟨basis', hb', hcov⟩ := c09_every_config_covered lDim N D s hl hD hs
    obtain rfl := Except.ok.inj (hb.symm.trans hb')
    have hne : basis ≠ [] := by
      intro h
      have := (hcov (List.replicate N 0)).2 ⟨by simp, by
        intro x hx
        rw [List.eq_of_mem_replicate hx]
        omega⟩
      rw [h] at this
      simp at this
    have h1 : ∀ (l : List (Bool × List ℕ)) (g : List ℕ → ℝ),
        (l.map fun e => if e.1 then g e.2 else 0).sum
          = (((l.filter (·.1)).map (·.2)).map g).sum := by
      intro l g
      induction l with
      | nil => rfl
      | cons e l ih =>
        obtain ⟨b, c⟩ := e
        cases b <;> simp [ih]
    rw [allSamples_wmap, List.map_map]
    simp only [Function.comp_def]
    rw [h1 _ fun c => bornProb f (basis.map fun c => logPsi (decode c)) (logPsi (decode c)), hkept]
    unfold bornProb
    have hpos : 0 < partitionSum f (basis.map fun c => logPsi (decode c)) := by
      unfold partitionSum
      apply List.sum_pos
      · intro x hx
        obtain ⟨z, _, rfl⟩ := List.mem_map.mp hx
        exact Real.exp_pos _
      · simpa using hne
    have h2 : ∀ (l : List (List ℕ)) (Z : ℝ), (l.map fun c => Real.exp ((logPsi (decode c)).re / f) / Z).sum
        = (l.map fun c => Real.exp ((logPsi (decode c)).re / f)).sum / Z := by
      intro l Z
      induction l with
      | nil => simp
      | cons c l ih => simp only [List.map_cons, List.sum_cons, ih, add_div]
    rw [h2]
    have h3 : (basis.map fun c => Real.exp ((logPsi (decode c)).re / f)).sum
        = partitionSum f (basis.map fun c => logPsi (decode c)) := by
      unfold partitionSum
      rw [List.map_map]
      rfl
    rw [h3, div_self hpos.ne']

/-- From sampling to the update, with the exact sampler: `log ψ + c`, with gradients shifted
accordingly by `v` and any stored normalisation, leads to the result for `ψ`. -/
theorem c95_tdvp_exact {S : Type} (lDim N D s : ℕ) (hl : 2 ≤ lDim) (hD : 0 < D) (hs : 0 < s)
    (decode : List ℕ → S) (f ln ln' : ℝ) (hf : f ≠ 0) (logPsi : S → ℂ) (c : ℂ)
    (kernel : S → List (S × ℂ)) (numOps : ℕ) (hops : ∀ s, (kernel s).length = numOps) (zeroCfg : S)
    (b : ℤ) (grads : S → Fin (n + 1) → ℂ) (v : Fin (n + 1) → ℂ) (cfg : TdvpCfg n) (r : ℕ)
    (at₀ : TdvpAttrs n) :
    (do let w ← exactSampleWorld lDim N D s decode f ln' fun s => logPsi s + c
        tdvpSolveSamples cfg r kernel ⟨fun s => logPsi s + c, true⟩ zeroCfg b
          (fun s i => grads s i + v i) w.2 at₀)
      = (do let w ← exactSampleWorld lDim N D s decode f ln logPsi
            tdvpSolveSamples cfg r kernel ⟨logPsi, true⟩ zeroCfg b grads w.2 at₀) := by
  obtain ⟨l1, W, hW, hne, htot⟩ := exact_weights_total lDim N D s hl hD hs decode f ln hf logPsi
  have h := c95_exact lDim N D s decode f hf ln ln' logPsi c
  rw [hW] at h
  obtain ⟨l2, W', hW', -, -⟩ := exact_weights_total lDim N D s hl hD hs decode f ln' hf
    fun s => logPsi s + c
  rw [hW'] at h
  simp only [Except.map, Except.ok.injEq] at h
  rw [hW, hW']
  change tdvpSolveSamples cfg r kernel ⟨fun s => logPsi s + c, true⟩ zeroCfg b
          (fun s i => grads s i + v i) W' at₀
    = tdvpSolveSamples cfg r kernel ⟨logPsi, true⟩ zeroCfg b grads W at₀
  rw [h]
  unfold tdvpSolveSamples
  rw [c95_local_world kernel logPsi c zeroCfg b W numOps hops]
  obtain ⟨G, hG⟩ : ∃ G : SObs (Fin (n + 1)),
      SObs.create (World.map (fun x : S × ℂ × ℝ => (x.2.2, grads x.1)) W) = .ok G :=
    ⟨_, create_eq _ (World.map_ne _ _ hne)⟩
  have hG' := create_shift (World.map (fun x : S × ℂ × ℝ => (x.2.2, grads x.1)) W) v (by
    rw [allSamples_wmap, List.map_map]
    exact htot) (World.map_ne _ _ hne) _ hG
  rw [wmap_wmap] at hG'
  rw [wmap_wmap, hG, hG']
  cases oLocWorld kernel ⟨logPsi, true⟩ zeroCfg b W with
  | error e => rfl
  | ok o =>
    cases ho : SObs.create o with
    | error e =>
      change Except.bind (SObs.create o) _ = Except.bind (SObs.create o) _
      rw [ho]
      rfl
    | ok E =>
      change Except.bind (SObs.create o) _ = Except.bind (SObs.create o) _
      rw [ho]
      exact tdvpSolve_rows cfg r E G (G.shiftMean v) rfl at₀

end solvers

/-! ## The hypotheses can be met -/

/-- A measurement with two samples of weight `1/2`. -/
example : ∃ env : TdvpEnv 0 Unit, env.Normalised ∧
    (∃ p sm t joint sm', env.measure p sm t = .ok (joint, sm') ∧ (allSamples joint).length = 2) ∧
    ∃ v : Params → Fin 1 → ℂ, ∀ p, v p 0 ≠ 0 := by
  refine ⟨⟨fun _ _ _ => .ok ([[[(1 / 2, fun _ => 3, fun _ => Complex.I),
    (1 / 2, fun _ => 1, fun _ => 2)]]], ())⟩, ?_, ⟨.real [], (), 0, _, _, rfl, by simp [allSamples]⟩,
    fun _ _ => 5, fun _ => by norm_num⟩
  intro p sm t joint sm' h
  simp only [Except.ok.injEq, Prod.mk.injEq] at h
  obtain ⟨rfl, _⟩ := h
  refine ⟨by simp [allSamples]; norm_num, by simp⟩

/-- `log ψ = s θ` and `c = θ²`: the gradients `s` become `s + 2θ`. -/
example (s : ℂ) (θ : ℝ) :
    gradientsReal .real (fun p => s * (((leafOf p 0).getD 0 0 : ℝ) : ℂ)
        + (((leafOf p 0).getD 0 0 : ℝ) : ℂ) ^ 2) [[θ]]
      = List.zipWith (· + ·)
        (gradientsReal .real (fun p => s * (((leafOf p 0).getD 0 0 : ℝ) : ℂ)) [[θ]])
        (gradientsReal .real (fun p => (((leafOf p 0).getD 0 0 : ℝ) : ℂ) ^ 2) [[θ]]) := by
  have h0 : ∀ l j : ℕ, DifferentiableAt ℝ (fun t : ℝ => (((leafOf (setEntry [[θ]] l j
      ((leafOf [[θ]] l).getD j 0 + t)) 0).getD 0 0 : ℝ) : ℂ)) 0 := by
    intro l j
    have hof : ∀ g : ℝ → ℝ, DifferentiableAt ℝ g 0 → DifferentiableAt ℝ (fun t => ((g t : ℝ) : ℂ)) 0 :=
      fun g hg => Complex.ofRealCLM.differentiableAt.comp 0 hg
    apply hof
    rcases l with _ | l
    · rcases j with _ | j
      · simpa [leafOf, setEntry] using differentiableAt_id.const_add θ
      · simp [leafOf, setEntry]
    · simp [leafOf, setEntry]
  exact c95_gradients_real .real (fun p => s * (((leafOf p 0).getD 0 0 : ℝ) : ℂ))
    (fun p => (((leafOf p 0).getD 0 0 : ℝ) : ℂ) ^ 2) [[θ]] (fun l j => (h0 l j).const_mul s)
    (fun l j => by
      simp only [pow_two]
      exact (h0 l j).mul (h0 l j))

/-- Two chains started from different cached probabilities. -/
example : ∃ (c : McConfig Bool ℝ ℕ) (a : ℝ → ℝ) (devs devs' : List (ChainState Bool ℕ)),
    devs'.map ChainState.visible = devs.map ChainState.visible ∧ devs ≠ devs' ∧ a 1 ≠ 0 ∧
    c.numChains = 2 := by
  refine ⟨⟨⟨fun k n i => k + n + i, fun _ _ => 1 / 2⟩, fun _ s => !s, fun p s => if s then p else 0,
    2, 1, 1, 2⟩, fun p => p, [⟨[true, false], [2, 0], 0, 0, 0⟩], [⟨[true, false], [4, 2], 0, 0, 0⟩],
    rfl, by simp, by norm_num, rfl⟩

end JVMC
