import Verif.Model.SamplerCache

/-! # Property C85: every `sample` call uses the current settings of the sampler

"Attributes of an MCSampler that are set between two `sample` calls (mu, sweepSteps,
thermalizationSweeps, updateProposer) take effect in the next call, whatever the history of calls
and the functions compiled in it." -/

namespace JVMC

variable {S P K : Type}

/-- What a call is to run with: the proposer, net, exponent and numbers of sweeps that the user has
set before this call. -/
def freshConfig (e : SamplerEnv S K) (a : SamplerAttrs S P K) : McConfig S P K :=
  { rng := e.rng, numChains := e.numChains, proposer := e.proposers a.proposerId, netRe := a.netRe,
    mu := a.mu, thermSweeps := a.thermSweeps, sweepSteps := a.sweepSteps }

/-- The history without any compiled function: every call runs with the attributes current at that
call. -/
noncomputable def runFresh (e : SamplerEnv S K) (commSize rank : ℕ) :
    List (ChainState S K) → List (SampleCall S P K) → Except PyErr (List (List (List S)))
  | _, [] => .ok []
  | devs, q :: qs => do
    let (devs', samples, _) ←
      getSamplesMcmc (freshConfig e q.attrs) commSize rank q.params q.numSamples q.multipleOf devs
    let rest ← runFresh e commSize rank devs' qs
    return samples :: rest

private theorem runFresh_cons (e : SamplerEnv S K) (s r : ℕ) (devs devs' : List (ChainState S K))
    (q : SampleCall S P K) (qs : List (SampleCall S P K)) (samples : List (List S)) (g : ℕ)
    (rest : List (List (List S)))
    (h1 : getSamplesMcmc (freshConfig e q.attrs) s r q.params q.numSamples q.multipleOf devs
      = .ok (devs', samples, g))
    (h2 : runFresh e s r devs' qs = .ok rest) :
    runFresh e s r devs (q :: qs) = .ok (samples :: rest) := by
  unfold runFresh
  rw [h1]
  change Except.bind (runFresh e s r devs' qs) _ = _
  rw [h2]
  rfl

/-- The number of samples per device of a call (`none`: the call raises). -/
def perDevice (e : SamplerEnv S K) (s r devices : ℕ) (q : SampleCall S P K) : Option ℕ :=
  ((distributeSampling s r q.numSamples (some devices) (Nat.lcm e.numChains q.multipleOf)).toOption).map
    Prod.fst

/-- The caches hold nothing that differs from the settings of the given calls. -/
private def CacheOk (e : SamplerEnv S K) (s r d : ℕ) (calls : List (SampleCall S P K))
    (c : SamplerCache S P) : Prop :=
  (∀ x ∈ c.nets, ∀ q ∈ calls, perDevice e s r d q = some x.1 → x.2 = q.attrs.netRe) ∧
  ∀ x ∈ c.mus, ∀ q ∈ calls, perDevice e s r d q = some x.1.numSamples →
    q.attrs.thermSweeps = x.1.thermSweeps → q.attrs.sweepSteps = x.1.sweepSteps →
    q.attrs.proposerId = x.1.proposerId → x.2 = q.attrs.mu

private theorem lookup_val {α β : Type} [DecidableEq α] (l : List (α × β)) (v d : β) (k : α)
    (h : ∀ x ∈ l, x.1 = k → x.2 = v) (hd : d = v) : (l.lookup k).getD d = v := by
  induction l with
  | nil => simpa using hd
  | cons x l ih =>
    rw [List.lookup_cons]
    split
    · rename_i hk
      have : k = x.1 := by simpa using hk
      simpa using h x (by simp) this.symm
    · exact ih fun y hy => h y (by simp [hy])

private theorem insert_val {α β : Type} (l : List (α × β)) (d : β) (k : α) (p : α × β → Prop)
    (h : ∀ x ∈ l, p x) (hd : p (k, d)) (b : Bool) : ∀ x ∈ (if b then l else (k, d) :: l), p x := by
  cases b
  · intro x hx
    rcases List.mem_cons.mp hx with rfl | hx
    · exact hd
    · exact h x hx
  · exact h

/-- **C85**, for every history in which calls with the same number of samples per device have the
same network, and those that also have the same `thermalizationSweeps`, `sweepSteps` and update
proposer have the same `mu`: every call uses the settings it finds, as if nothing had been compiled
before. `sweepSteps`, `thermalizationSweeps`, the proposer, parameters and numbers of samples may
change in every way, and `mu` and the network together with them.

What is missing: `mu` (and the network) changed with nothing else, see `c85_stale_mu`. -/
theorem c85_current_settings_partial (e : SamplerEnv S K) (s r : ℕ)
    (devs : List (ChainState S K)) (calls : List (SampleCall S P K))
    (hnet : ∀ q ∈ calls, ∀ q' ∈ calls, ∀ n,
      perDevice e s r devs.length q = some n → perDevice e s r devs.length q' = some n →
      q.attrs.netRe = q'.attrs.netRe)
    (hmu : ∀ q ∈ calls, ∀ q' ∈ calls, ∀ n,
      perDevice e s r devs.length q = some n → perDevice e s r devs.length q' = some n →
      q.attrs.thermSweeps = q'.attrs.thermSweeps → q.attrs.sweepSteps = q'.attrs.sweepSteps →
      q.attrs.proposerId = q'.attrs.proposerId → q.attrs.mu = q'.attrs.mu) :
    runCached e s r SamplerCache.empty devs calls = runFresh e s r devs calls := by
  suffices hgen : ∀ (cache : SamplerCache S P), CacheOk e s r devs.length calls cache →
      runCached e s r cache devs calls = runFresh e s r devs calls from
    hgen _ ⟨by simp [SamplerCache.empty], by simp [SamplerCache.empty]⟩
  generalize hd : devs.length = d at hnet hmu ⊢
  induction calls generalizing devs with
  | nil => intro _ _; rfl
  | cons q qs ih =>
    intro cache hc
    have hq : q ∈ q :: qs := List.mem_cons_self
    unfold runCached runFresh sampleCached getSamplesMcmc
    have hnc : (freshConfig e q.attrs).numChains = e.numChains := rfl
    rw [hnc, hd]
    cases hx : distributeSampling s r q.numSamples (some d) (Nat.lcm e.numChains q.multipleOf) with
    | error err => rfl
    | ok x =>
      obtain ⟨n, glob⟩ := x
      have hper : perDevice e s r d q = some n := by
        unfold perDevice; rw [hx]; rfl
      change Except.bind (runCached e s r _ _ qs) _ = Except.bind (runFresh e s r _ qs) _
      dsimp only
      rw [lookup_val _ q.attrs.netRe q.attrs.netRe n
          (insert_val cache.nets q.attrs.netRe n (fun x => x.1 = n → x.2 = q.attrs.netRe)
            (fun x hx hk => hc.1 x hx q hq (by rw [hk]; exact hper)) (fun _ => rfl) _) rfl,
        lookup_val _ q.attrs.mu q.attrs.mu
          (⟨n, q.attrs.thermSweeps, q.attrs.sweepSteps, q.attrs.proposerId, e.numChains⟩ : CompileKey)
          (insert_val cache.mus q.attrs.mu _ (fun x => x.1 = ⟨n, q.attrs.thermSweeps,
              q.attrs.sweepSteps, q.attrs.proposerId, e.numChains⟩ → x.2 = q.attrs.mu)
            (fun x hx hk => hc.2 x hx q hq (by rw [hk]; exact hper) (by rw [hk]) (by rw [hk])
              (by rw [hk])) (fun _ => rfl) _) rfl]
      have := ih ((devs.map (mcInit (freshConfig e q.attrs) q.params)).map
          (fun x => (getSamples (freshConfig e q.attrs) q.params n x).1)) (by simpa using hd)
        (fun a ha b hb => hnet a (List.mem_cons_of_mem _ ha) b (List.mem_cons_of_mem _ hb))
        (fun a ha b hb => hmu a (List.mem_cons_of_mem _ ha) b (List.mem_cons_of_mem _ hb))
        ⟨if (cache.nets.lookup n).isSome then cache.nets else (n, q.attrs.netRe) :: cache.nets,
          if (cache.mus.lookup ⟨n, q.attrs.thermSweeps, q.attrs.sweepSteps, q.attrs.proposerId,
              e.numChains⟩).isSome then cache.mus
            else (⟨n, q.attrs.thermSweeps, q.attrs.sweepSteps, q.attrs.proposerId, e.numChains⟩,
              q.attrs.mu) :: cache.mus⟩
        ⟨insert_val _ _ _ _
            (fun x hx q' hq' => hc.1 x hx q' (List.mem_cons_of_mem _ hq'))
            (fun q' hq' h => hnet q hq q' (List.mem_cons_of_mem _ hq') n hper h) _,
          insert_val _ _ _ _
            (fun x hx q' hq' => hc.2 x hx q' (List.mem_cons_of_mem _ hq'))
            (fun q' hq' h h1 h2 h3 => hmu q hq q' (List.mem_cons_of_mem _ hq') n hper h h1.symm
              h2.symm h3.symm) _⟩
      simp only [List.map_map, Function.comp_def] at this ⊢
      exact congrArg (fun z => Except.bind z _) this

/-- **C85 is violated**, in general: after a first call with exponent `mu`, setting another exponent
`mu'` has no effect on the sweeps of a second call for the same number of samples. They accept and
reject with `mu`, while the cached log-probability they start from (and the weights of the samples)
are computed with `mu'`. -/
theorem c85_stale_mu (e : SamplerEnv S K) (s r : ℕ) (a : SamplerAttrs S P K) (mu' : ℝ) (p p' : P)
    (N m n glob : ℕ) (devs : List (ChainState S K))
    (hd : distributeSampling s r N (some devs.length) (Nat.lcm e.numChains m) = .ok (n, glob)) :
    runCached e s r SamplerCache.empty devs [⟨a, p, N, m⟩, ⟨{ a with mu := mu' }, p', N, m⟩]
      = .ok [devs.map fun d => (getSamples (a.config e) p n (mcInit (a.config e) p d)).2,
          devs.map fun d => (getSamples (a.config e) p' n
            (mcInit (SamplerAttrs.config e { a with mu := mu' }) p'
              (getSamples (a.config e) p n (mcInit (a.config e) p d)).1)).2] := by
  have h1 : sampleCached e (SamplerCache.empty (S := S) (P := P)) a s r p N m devs
      = .ok (⟨[(n, a.netRe)], [(⟨n, a.thermSweeps, a.sweepSteps, a.proposerId, e.numChains⟩, a.mu)]⟩,
          devs.map (fun d => (getSamples (a.config e) p n (mcInit (a.config e) p d)).1),
          devs.map (fun d => (getSamples (a.config e) p n (mcInit (a.config e) p d)).2), glob) := by
    unfold sampleCached
    rw [hd]
    change Except.ok _ = Except.ok _
    simp [SamplerCache.empty, SamplerAttrs.config]
  have h2 : ∀ devs' : List (ChainState S K), devs'.length = devs.length →
      sampleCached e (⟨[(n, a.netRe)],
        [(⟨n, a.thermSweeps, a.sweepSteps, a.proposerId, e.numChains⟩, a.mu)]⟩ : SamplerCache S P)
        { a with mu := mu' } s r p' N m devs'
      = .ok (⟨[(n, a.netRe)], [(⟨n, a.thermSweeps, a.sweepSteps, a.proposerId, e.numChains⟩, a.mu)]⟩,
          devs'.map (fun d => (getSamples (a.config e) p' n
            (mcInit (SamplerAttrs.config e { a with mu := mu' }) p' d)).1),
          devs'.map (fun d => (getSamples (a.config e) p' n
            (mcInit (SamplerAttrs.config e { a with mu := mu' }) p' d)).2), glob) := by
    intro devs' hl
    unfold sampleCached
    rw [hl, hd]
    change Except.ok _ = Except.ok _
    simp [SamplerAttrs.config]
  unfold runCached
  rw [h1]
  change Except.bind (runCached e s r _ _ [⟨{ a with mu := mu' }, p', N, m⟩]) _ = _
  unfold runCached
  dsimp only
  rw [h2 _ (by simp)]
  change Except.ok _ = Except.ok _
  simp [Function.comp_def]

/-- Two configurations, one chain that proposes to change to the other one, all Bernoulli variates
are `1/2`. -/
noncomputable def twoStateEnv : SamplerEnv Bool Unit where
  rng := { split := fun _ _ _ => (), uniform := fun _ _ => 1 / 2 }
  proposers := fun _ _ b => !b
  numChains := 1

/-- `Re log ψ` is `1` and `-1` on the two configurations; sweeps of one update. -/
def twoStateAttrs (mu : ℝ) : SamplerAttrs Bool Unit Unit where
  netRe := fun _ b => if b then 1 else -1
  mu := mu
  thermSweeps := 0
  sweepSteps := 1
  proposerId := 0

/-- **C85 is violated**: a sampler called with `mu = 2` and then with `mu = 0` (uniform sampling;
every update is accepted) rejects an update in the second call. -/
theorem c85_violated :
    ∃ (e : SamplerEnv Bool Unit) (devs : List (ChainState Bool Unit))
      (calls : List (SampleCall Bool Unit Unit)),
      runCached e 1 0 SamplerCache.empty devs calls = .ok [[[true]], [[true]]] ∧
      runFresh e 1 0 devs calls = .ok [[[true]], [[false]]] := by
  have he2 : ¬ (1 / 2 < Real.exp (-2)) := by
    rw [not_lt]
    have h1 : Real.exp (-2) * Real.exp 2 = 1 := by rw [← Real.exp_add]; norm_num
    have h2 : (2 : ℝ) + 1 ≤ Real.exp 2 := Real.add_one_le_exp 2
    have h3 := Real.exp_pos (-2)
    nlinarith
  have he1 : (1 : ℝ) / 2 < Real.exp 4 := by
    have : (4 : ℝ) + 1 ≤ Real.exp 4 := Real.add_one_le_exp 4
    linarith
  have hds : distributeSampling 1 0 1 (some 1) (Nat.lcm 1 1) = .ok (1, 1) := by decide
  -- first call: the chain moves from `false` to `true`
  have c1 : ∀ lp k np na, getSamples ((twoStateAttrs 2).config twoStateEnv) () 1
      (mcInit ((twoStateAttrs 2).config twoStateEnv) () ⟨[false], lp, k, np, na⟩)
      = (⟨[true], [2], (), 1, 1⟩, [true]) := by
    intro lp k np na
    simp [getSamples, collect, sweep, performMcUpdate, mcInit, twoStateAttrs, SamplerAttrs.config,
      twoStateEnv]
    rw [one_div] at he1
    norm_num
    simp [he1]
  -- second call with the stale exponent: the move back is rejected
  have c2 : ∀ lp k np na, (getSamples ((twoStateAttrs 2).config twoStateEnv) () 1
      (mcInit (SamplerAttrs.config twoStateEnv { twoStateAttrs 2 with mu := 0 }) ()
        ⟨[true], lp, k, np, na⟩)).2 = [true] := by
    intro lp k np na
    simp [getSamples, collect, sweep, performMcUpdate, mcInit, twoStateAttrs, SamplerAttrs.config,
      twoStateEnv]
    norm_num at he2 ⊢
    exact he2
  -- second call with the current exponent: it is accepted
  have c3 : ∀ lp k np na, (getSamples ((twoStateAttrs 0).config twoStateEnv) () 1
      (mcInit ((twoStateAttrs 0).config twoStateEnv) () ⟨[true], lp, k, np, na⟩)).2 = [false] := by
    intro lp k np na
    simp [getSamples, collect, sweep, performMcUpdate, mcInit, twoStateAttrs, SamplerAttrs.config,
      twoStateEnv]
    norm_num
  refine ⟨twoStateEnv, [⟨[false], [], (), 0, 0⟩],
    [⟨twoStateAttrs 2, (), 1, 1⟩, ⟨{ twoStateAttrs 2 with mu := 0 }, (), 1, 1⟩], ?_, ?_⟩
  · rw [c85_stale_mu twoStateEnv 1 0 (twoStateAttrs 2) 0 () () 1 1 1 1 [⟨[false], [], (), 0, 0⟩] hds]
    simp only [List.map_cons, List.map_nil, c1, c2]
  · have hds' : ∀ (m n : ℕ), m = 1 → n = 1 →
        distributeSampling 1 0 1 (some m) (Nat.lcm n 1) = .ok (1, 1) := by
      rintro m n rfl rfl; exact hds
    have g1 : getSamplesMcmc ((twoStateAttrs 2).config twoStateEnv) 1 0 () 1 1
        [⟨[false], [], (), 0, 0⟩] = .ok ([⟨[true], [2], (), 1, 1⟩], [[true]], 1) := by
      unfold getSamplesMcmc
      rw [hds' (List.length _) (McConfig.numChains _) rfl rfl]
      change Except.ok _ = Except.ok _
      simp only [List.map_cons, List.map_nil, c1]
    have g2 : ∃ d, getSamplesMcmc ((twoStateAttrs 0).config twoStateEnv) 1 0 () 1 1
        [⟨[true], [2], (), 1, 1⟩] = .ok (d, [[false]], 1) := by
      refine ⟨[(getSamples ((twoStateAttrs 0).config twoStateEnv) () 1
        (mcInit ((twoStateAttrs 0).config twoStateEnv) () ⟨[true], [2], (), 1, 1⟩)).1], ?_⟩
      unfold getSamplesMcmc
      rw [hds' (List.length _) (McConfig.numChains _) rfl rfl]
      change Except.ok _ = Except.ok _
      simp only [List.map_cons, List.map_nil, c3]
    obtain ⟨d, g2⟩ := g2
    exact runFresh_cons _ _ _ _ _ _ _ _ _ _ g1 (runFresh_cons _ _ _ _ _ _ _ _ _ _ g2 rfl)

/-- The hypotheses of `c85_current_settings_partial`: two calls for the same number of samples, the
second with another exponent and another number of updates per sweep. -/
example : ∀ q ∈ [(⟨twoStateAttrs 2, (), 1, 1⟩ : SampleCall Bool Unit Unit),
    ⟨{ twoStateAttrs 1 with sweepSteps := 3 }, (), 1, 1⟩],
    ∀ q' ∈ [(⟨twoStateAttrs 2, (), 1, 1⟩ : SampleCall Bool Unit Unit),
    ⟨{ twoStateAttrs 1 with sweepSteps := 3 }, (), 1, 1⟩],
    perDevice twoStateEnv 1 0 1 q = some 1 ∧ q.attrs.netRe = q'.attrs.netRe ∧
    (q.attrs.sweepSteps = q'.attrs.sweepSteps → q.attrs.mu = q'.attrs.mu) := by
  intro q hq q' hq'
  simp only [List.mem_cons, List.not_mem_nil, or_false] at hq hq'
  have hds : distributeSampling 1 0 1 (some 1) (Nat.lcm 1 1) = .ok (1, 1) := by decide
  have hp : ∀ q : SampleCall Bool Unit Unit, q.numSamples = 1 → q.multipleOf = 1 →
      perDevice twoStateEnv 1 0 1 q = some 1 := by
    intro q h1 h2
    unfold perDevice
    rw [h1, h2]
    change ((distributeSampling 1 0 1 (some 1) (Nat.lcm 1 1)).toOption).map Prod.fst = _
    rw [hds]; rfl
  rcases hq with rfl | rfl <;> rcases hq' with rfl | rfl <;>
    exact ⟨hp _ rfl rfl, rfl, by simp [twoStateAttrs]⟩

end JVMC
