import Verif.Props.McmcSampling
import Verif.Spec.Draws

/-!
# The distribution of Markov chain samples

`samplesLaw`, `mcmcConfigWorld` (`Model/McmcSampling`) are distributions. Here: they are the distributions of what
`_get_samples_mcmc` (as a function of the random keys, `Model/MCSampler`) returns if the moves and numbers drawn with
the keys are independent and uniform.
-/

namespace JVMC

open Spec MeasureTheory

/-! ## Means -/

/-- A mean only depends on the values at outcomes that satisfy `P`. -/
def LocalTo {A : Type} (m : (A → ℝ) → ℝ) (P : A → Prop) : Prop := ∀ F G : A → ℝ, (∀ a, P a → F a = G a) → m F = m G

theorem localTo_listMean {A : Type} (P : A → Prop) (ms : List ((A → ℝ) → ℝ)) (h : ∀ m ∈ ms, LocalTo m P) :
    LocalTo (listMean ms) fun l => l.length = ms.length ∧ ∀ a ∈ l, P a := by
  induction ms with
  | nil =>
    intro F G hFG
    exact hFG [] (by simp)
  | cons m ms ih =>
    intro F G hFG
    apply h m (by simp)
    intro a ha
    apply ih fun m' hm' => h m' (by simp [hm'])
    intro l hl
    apply hFG
    refine ⟨by simp [hl.1], ?_⟩
    simpa using ⟨ha, hl.2⟩

theorem listMean_append {A : Type} (ms ms' : List ((A → ℝ) → ℝ)) (F : List A → ℝ) :
    listMean (ms ++ ms') F = listMean ms fun l => listMean ms' fun l' => F (l ++ l') := by
  induction ms generalizing F with
  | nil => rfl
  | cons m ms ih =>
    simp only [List.cons_append, listMean, ih]

theorem listMean_each {ι A B : Type} (m : ι → (B → ℝ) → ℝ) (d : ι → WDist A) (run : ι → B → A) (is : List ι)
    (h : ∀ i ∈ is, ∀ F : A → ℝ, m i (fun b => F (run i b)) = average (d i) F) (F : List A → ℝ) :
    listMean (is.map m) (fun l => F (List.zipWith run is l)) = average (WDist.each (is.map d)) F := by
  induction is generalizing F with
  | nil =>
    rw [List.map_nil, List.map_nil, WDist.each, average_pure]
    rfl
  | cons i is ih =>
    rw [List.map_cons, List.map_cons, WDist.each, average_bind, listMean]
    simp only [List.zipWith_cons_cons, average_map]
    have hi : ∀ a, listMean (is.map m) (fun l => F (a :: List.zipWith run is l))
        = average (WDist.each (is.map d)) fun l => F (a :: l) := fun a =>
      ih (fun j hj => h j (by simp [hj])) fun l => F (a :: l)
    simp only [hi]
    exact h i (by simp) fun a => average (WDist.each (is.map d)) fun l => F (a :: l)

theorem localTo_drawMean {Ω : Type} (W : Finset Ω) (C : ℕ) : LocalTo (drawMean W C) fun d => ∀ i, d.1 i ∈ W := by
  intro F G h
  unfold drawMean
  congr 1
  apply Finset.sum_congr rfl
  intro ω hω
  have : (fun u => F (ω, u)) = fun u => G (ω, u) := funext fun u => h _ (Fintype.mem_piFinset.mp hω)
  rw [this]

/-! ## One update -/

/-- An update of all chains with given draws. -/
noncomputable def drawUpdate {Ω S : Type} {C : ℕ} (propose : Ω → S → S) (lw : S → ℝ) (d : Draw Ω C) (s : Fin C → S) :
    Fin C → S := fun i => metropolisStep propose lw (d.1 i) (d.2 i) (s i)

theorem drawUpdate_mem {Ω S : Type} {C : ℕ} {W : Finset Ω} {propose : Ω → S → S} {lw : S → ℝ} {X : Finset S}
    (hX : ∀ ω ∈ W, ∀ s ∈ X, propose ω s ∈ X) {d : Draw Ω C} (hd : ∀ i, d.1 i ∈ W) {s : Fin C → S} (hs : ∀ i, s i ∈ X) :
    ∀ i, drawUpdate propose lw d s i ∈ X := by
  intro i
  unfold drawUpdate metropolisStep
  split_ifs
  · exact hX _ (hd i) _ (hs i)
  · exact hs i

theorem measurable_step {Ω S : Type} (propose : Ω → S → S) (lw : S → ℝ) (ω : Ω) (s t : S) :
    MeasurableSet {u : ℝ | 0 ≤ u ∧ u < 1 ∧ metropolisStep propose lw ω u s = t} := by
  have : {u : ℝ | 0 ≤ u ∧ u < 1 ∧ metropolisStep propose lw ω u s = t}
      = Set.Ico 0 1 ∩ ((Set.Iio (Real.exp (lw (propose ω s)) / Real.exp (lw s)) ∩ {_u : ℝ | propose ω s = t})
        ∪ ((Set.Iio (Real.exp (lw (propose ω s)) / Real.exp (lw s)))ᶜ ∩ {_u : ℝ | s = t})) := by
    ext u
    simp only [metropolisStep, Set.mem_ofPred_eq, Set.mem_inter_iff, Set.mem_Ico, Set.mem_union, Set.mem_Iio,
      Set.mem_compl_iff]
    by_cases h : u < Real.exp (lw (propose ω s)) / Real.exp (lw s) <;> simp [h, and_assoc]
  rw [this]
  exact measurableSet_Ico.inter ((measurableSet_Iio.inter (MeasurableSet.const _)).union
    (measurableSet_Iio.compl.inter (MeasurableSet.const _)))

/-- The distribution after one update. -/
theorem drawMean_update {Ω S : Type} [DecidableEq S] {C : ℕ} (W : Finset Ω) (propose : Ω → S → S) (lw : S → ℝ) (X : Finset S)
    (hX : ∀ ω ∈ W, ∀ s ∈ X, propose ω s ∈ X) (s : Fin C → S) (hs : ∀ i, s i ∈ X) (G : (Fin C → S) → ℝ) :
    drawMean W C (fun d => G (drawUpdate propose lw d s)) = average (updateLaw W (metropolisStep propose lw) X s) G := by
  rw [average_update]
  unfold drawMean transProb
  simp only [div_mul_eq_mul_div]
  rw [← Finset.sum_div]
  congr 1
  simp only [Finset.sum_mul]
  rw [Finset.sum_comm]
  apply Finset.sum_congr rfl
  intro ω hω
  have hω := Fintype.mem_piFinset.mp hω
  set A : (Fin C → S) → Set (Fin C → ℝ) := fun t =>
    {u | ∀ i, 0 ≤ u i ∧ u i < 1 ∧ metropolisStep propose lw (ω i) (u i) (s i) = t i} with hA
  set Q : Set (Fin C → ℝ) := {u | ∀ i, 0 ≤ u i ∧ u i < 1} with hQ
  have hAm : ∀ t, MeasurableSet (A t) := by
    intro t
    have : A t = Set.univ.pi fun i => {u : ℝ | 0 ≤ u ∧ u < 1 ∧ metropolisStep propose lw (ω i) u (s i) = t i} := by
      ext u
      simp [hA]
    rw [this]
    exact MeasurableSet.univ_pi fun i => measurable_step _ _ _ _ _
  have hQe : Q = Set.univ.pi fun _ => Set.Ico (0 : ℝ) 1 := by
    ext u
    simp [hQ]
  have hQm : MeasurableSet Q := by
    rw [hQe]
    exact MeasurableSet.univ_pi fun _ => measurableSet_Ico
  have hQv : volume Q = 1 := by
    rw [hQe, Real.volume_pi_Ico]
    simp
  have hsub : ∀ t, A t ⊆ Q := fun t u hu i => ⟨(hu i).1, (hu i).2.1⟩
  have hind : ∀ u ∈ Q, G (drawUpdate propose lw (ω, u) s)
      = ∑ t ∈ Fintype.piFinset (fun _ : Fin C => X), (A t).indicator (fun _ => G t) u := by
    intro u hu
    rw [Finset.sum_eq_single (drawUpdate propose lw (ω, u) s)]
    · rw [Set.indicator_of_mem]
      exact fun i => ⟨(hu i).1, (hu i).2, rfl⟩
    · intro t _ ht
      rw [Set.indicator_of_notMem]
      intro h
      exact ht (funext fun i => (h i).2.2.symm)
    · intro h
      exact absurd (Fintype.mem_piFinset.mpr (drawUpdate_mem (lw := lw) hX (d := (ω, u)) hω hs)) h
  rw [setIntegral_congr_fun hQm hind, integral_finsetSum]
  · apply Finset.sum_congr rfl
    intro t _
    rw [integral_indicator (hAm t), setIntegral_const, Measure.real, Measure.restrict_apply' hQm,
      Set.inter_eq_left.mpr (hsub t), smul_eq_mul]
  · intro t _
    apply Integrable.indicator _ (hAm t)
    exact integrableOn_const (by rw [hQv]; simp)

/-! ## Sequences of updates -/

section

variable {Ω S : Type} [DecidableEq S] {C : ℕ} (W : Finset Ω) (propose : Ω → S → S) (lw : S → ℝ) (X : Finset S)

theorem localTo_tape (T : ℕ) : LocalTo (listMean (List.replicate T (drawMean W C))) fun l =>
    l.length = T ∧ ∀ d ∈ l, ∀ i, d.1 i ∈ W := by
  have := localTo_listMean (fun d : Draw Ω C => ∀ i, d.1 i ∈ W) (List.replicate T (drawMean W C))
    fun m hm => by rw [List.eq_of_mem_replicate hm]; exact localTo_drawMean W C
  simpa using this

variable (hX : ∀ ω ∈ W, ∀ s ∈ X, propose ω s ∈ X)

omit [DecidableEq S] in
include hX in
theorem foldl_mem (l : List (Draw Ω C)) (hl : ∀ d ∈ l, ∀ i, d.1 i ∈ W) (s : Fin C → S) (hs : ∀ i, s i ∈ X) :
    ∀ i, l.foldl (fun s d => drawUpdate propose lw d s) s i ∈ X := by
  induction l generalizing s with
  | nil => exact hs
  | cons d l ih =>
    exact ih (fun d' hd' => hl d' (by simp [hd'])) _ (drawUpdate_mem hX (hl d (by simp)) hs)

include hX in
theorem tape_iter (k : ℕ) (s : Fin C → S) (hs : ∀ i, s i ∈ X) (F : (Fin C → S) → ℝ) :
    listMean (List.replicate k (drawMean W C)) (fun l => F (l.foldl (fun s d => drawUpdate propose lw d s) s))
      = average (iterLaw (updateLaw W (metropolisStep propose lw) X) k s) F := by
  induction k generalizing s with
  | zero =>
    rw [iterLaw, average_pure]
    rfl
  | succ k ih =>
    rw [List.replicate_succ, listMean, average_iter_succ, ← drawMean_update W propose lw X hX s hs]
    apply localTo_drawMean
    intro d hd
    exact ih _ (drawUpdate_mem hX hd hs)

/-- The configurations collected with given draws. -/
noncomputable def collectDraws (sweepSteps : ℕ) : ℕ → List (Draw Ω C) → (Fin C → S) → List (Fin C → S)
  | 0, _, _ => []
  | n + 1, l, s =>
    let s' := (l.take sweepSteps).foldl (fun s d => drawUpdate propose lw d s) s
    s' :: collectDraws sweepSteps n (l.drop sweepSteps) s'

include hX in
theorem tape_collect (sw n : ℕ) (s : Fin C → S) (hs : ∀ i, s i ∈ X) (F : List (Fin C → S) → ℝ) :
    listMean (List.replicate (n * sw) (drawMean W C)) (fun l => F (collectDraws propose lw sw n l s))
      = average (collectLaw (iterLaw (updateLaw W (metropolisStep propose lw) X) sw) n s) F := by
  induction n generalizing s F with
  | zero =>
    rw [Nat.zero_mul, collectLaw, average_pure]
    rfl
  | succ n ih =>
    rw [Nat.succ_mul, Nat.add_comm, List.replicate_add, listMean_append, average_collect_succ,
      ← tape_iter W propose lw X hX sw s hs]
    apply localTo_tape
    intro l hl
    have hmem := foldl_mem W propose lw X hX l hl.2 s hs
    rw [← ih _ hmem]
    congr 1
    funext l'
    simp only [collectDraws, ← hl.1, List.take_left', List.drop_left']

/-- What `_get_samples` returns with given draws. -/
noncomputable def sampleDraws (therm sweepSteps n : ℕ) (l : List (Draw Ω C)) (s : Fin C → S) : List S :=
  ((collectDraws propose lw sweepSteps n (l.drop (therm * sweepSteps))
    ((l.take (therm * sweepSteps)).foldl (fun s d => drawUpdate propose lw d s) s)).map List.ofFn).flatten

include hX in
theorem tape_samples (therm sw n : ℕ) (s : Fin C → S) (hs : ∀ i, s i ∈ X) (F : List S → ℝ) :
    listMean (List.replicate ((therm + n) * sw) (drawMean W C)) (fun l => F (sampleDraws propose lw therm sw n l s))
      = average (samplesLaw W (metropolisStep propose lw) X therm sw n s) F := by
  rw [Nat.add_mul, List.replicate_add, listMean_append]
  unfold samplesLaw
  rw [average_bind, ← tape_iter W propose lw X hX (therm * sw) s hs]
  apply localTo_tape
  intro l hl
  have hmem := foldl_mem W propose lw X hX l hl.2 s hs
  rw [average_map, ← tape_collect W propose lw X hX sw n _ hmem]
  congr 1
  funext l'
  simp only [sampleDraws, ← hl.1, List.take_left', List.drop_left']

end

/-! ## The code -/

/-- `keyOf l` is a key with which the sampler `c` draws the moves and numbers `l`, one element for every update of the
`C` chains. -/
structure DrawsWith {S P K Ω : Type} (c : McConfig S P K) (propose : Ω → S → S) (C : ℕ) (keyOf : List (Draw Ω C) → K) :
    Prop where
  move : ∀ d l (i : Fin C) s, c.proposer (c.rng.split (keyOf (d :: l)) (C + 1) i) s = propose (d.1 i) s
  dice : ∀ d l (i : Fin C), c.rng.uniform (c.rng.split (c.rng.split (keyOf (d :: l)) (C + 1) C) 2 0) i = d.2 i
  next : ∀ d l, c.rng.split (c.rng.split (keyOf (d :: l)) (C + 1) C) 2 1 = keyOf l

section

variable {S P K Ω : Type} {C : ℕ} {c : McConfig S P K} {propose : Ω → S → S} {keyOf : List (Draw Ω C) → K}
  (hc : DrawsWith c propose C keyOf) (params : P)

include hc in
theorem update_draws (x : Draw Ω C) (l : List (Draw Ω C)) (s : Fin C → S) (d : ChainState S K)
    (hco : Coherent c params d) (hst : d.states = List.ofFn s) (hkey : d.key = keyOf (x :: l)) :
    Coherent c params (performMcUpdate c params d) ∧
    (performMcUpdate c params d).states
      = List.ofFn (drawUpdate propose (fun y => c.mu * c.netRe params y) x s) ∧
    (performMcUpdate c params d).key = keyOf l := by
  have hlen : d.states.length = C := by rw [hst, List.length_ofFn]
  refine ⟨coherent_update c params d hco, ?_, ?_⟩
  · rw [c16_update_is_metropolis c params d hco, hlen, hkey, hst]
    apply List.ext_getElem
    · simp
    · intro i h1 h2
      have hi : i < C := by simpa using h2
      simp only [List.getElem_mapIdx, List.getElem_ofFn]
      unfold drawUpdate metropolisStep
      rw [hc.move x l ⟨i, hi⟩, hc.dice x l ⟨i, hi⟩]
  · unfold performMcUpdate
    dsimp only
    rw [hlen, hkey, hc.next]

include hc in
theorem iterate_draws (x l : List (Draw Ω C)) (s : Fin C → S) (d : ChainState S K)
    (hco : Coherent c params d) (hst : d.states = List.ofFn s) (hkey : d.key = keyOf (x ++ l)) :
    Coherent c params ((performMcUpdate c params)^[x.length] d) ∧
    ((performMcUpdate c params)^[x.length] d).states
      = List.ofFn (x.foldl (fun s d => drawUpdate propose (fun y => c.mu * c.netRe params y) d s) s) ∧
    ((performMcUpdate c params)^[x.length] d).key = keyOf l := by
  induction x generalizing s d with
  | nil => exact ⟨hco, hst, hkey⟩
  | cons a x ih =>
    obtain ⟨h1, h2, h3⟩ := update_draws hc params a (x ++ l) s d hco hst hkey
    rw [List.length_cons, Function.iterate_succ_apply]
    exact ih _ _ h1 h2 h3

include hc in
theorem collect_draws (n : ℕ) (l : List (Draw Ω C)) (hl : n * c.sweepSteps ≤ l.length) (s : Fin C → S) (d : ChainState S K)
    (hco : Coherent c params d) (hst : d.states = List.ofFn s) (hkey : d.key = keyOf l) :
    (collect c params n d).2
      = (collectDraws propose (fun y => c.mu * c.netRe params y) c.sweepSteps n l s).map List.ofFn := by
  induction n generalizing l s d with
  | zero => rfl
  | succ n ih =>
    rw [Nat.succ_mul] at hl
    have hk : (l.take c.sweepSteps).length = c.sweepSteps := by
      rw [List.length_take]
      omega
    obtain ⟨h1, h2, h3⟩ := iterate_draws hc params (l.take c.sweepSteps) (l.drop c.sweepSteps) s d hco hst
      (by rw [List.take_append_drop]; exact hkey)
    rw [hk] at h1 h2 h3
    have := ih (l.drop c.sweepSteps) (by rw [List.length_drop]; omega) _ _ h1 h2 h3
    simp only [collect, collectDraws, List.map_cons, sweep]
    rw [this, h2]

include hc in
theorem getSamples_draws (n : ℕ) (l : List (Draw Ω C)) (hl : (c.thermSweeps + n) * c.sweepSteps ≤ l.length) (s : Fin C → S)
    (d : ChainState S K) (hst : d.states = List.ofFn s) (hkey : d.key = keyOf l) :
    (getSamples c params n (mcInit c params d)).2
      = sampleDraws propose (fun y => c.mu * c.netRe params y) c.thermSweeps c.sweepSteps n l s := by
  rw [Nat.add_mul] at hl
  have hk : (l.take (c.thermSweeps * c.sweepSteps)).length = c.thermSweeps * c.sweepSteps := by
    rw [List.length_take]
    omega
  obtain ⟨h1, h2, h3⟩ := iterate_draws hc params (l.take (c.thermSweeps * c.sweepSteps))
    (l.drop (c.thermSweeps * c.sweepSteps)) s (mcInit c params d) (coherent_mcInit c params d) hst
    (by rw [List.take_append_drop]; exact hkey)
  rw [hk] at h1 h2 h3
  simp only [getSamples, sampleDraws, sweep]
  rw [collect_draws hc params n _ (by rw [List.length_drop]; omega) _ _ h1 h2 h3]

end

/-- C93, link to the code: if the moves and numbers that all devices of all ranks draw with their keys are independent and
uniform, `mcmcConfigWorld` is the distribution of the configurations that `_get_samples_mcmc` returns on the ranks, whatever
the other attributes of the samplers are. -/
theorem c93_distribution {S P K Ω : Type} [DecidableEq S] (c : McConfig S P K) (W : Finset Ω) (propose : Ω → S → S)
    (keyOf : List (Draw Ω c.numChains) → K) (hc : DrawsWith c propose c.numChains keyOf) (params : P) (X : Finset S)
    (hX : ∀ ω ∈ W, ∀ s ∈ X, propose ω s ∈ X) (s D m : ℕ) (hs : 0 < s) (hD : 0 < D) (hnc : 0 < c.numChains)
    (hm : 0 < m) (N : ℕ) (states : ℕ → List (Fin c.numChains → S)) (hst : ∀ r < s, (states r).length = D)
    (hin : ∀ r < s, ∀ st ∈ states r, ∀ i, st i ∈ X) :
    ∃ (L : WDist (World S)) (n : ℕ → ℕ) (run : ℕ → List (List (Draw Ω c.numChains)) → List (List S)),
      mcmcConfigWorld s c.numChains W (metropolisStep propose fun x => c.mu * c.netRe params x) X c.thermSweeps
        c.sweepSteps N m states = .ok L ∧
      (∀ r < s, ∀ (draws : List (List (Draw Ω c.numChains))) (devs : List (ChainState S K)),
        draws.length = D → (∀ l ∈ draws, l.length = n r) →
        devs.map (fun d => d.states) = (states r).map List.ofFn → devs.map (fun d => d.key) = draws.map keyOf →
        ∃ devs' glob, getSamplesMcmc c s r params N m devs = .ok (devs', run r draws, glob)) ∧
      ∀ F : World S → ℝ,
        listMean ((List.range s).map fun r =>
            listMean (List.replicate D (listMean (List.replicate (n r) (drawMean W c.numChains)))))
          (fun draws => F (List.zipWith run (List.range s) draws)) = average L F := by
  have hlcm : 0 < Nat.lcm c.numChains m := Nat.lcm_pos hnc hm
  obtain ⟨ns, glob, h1, h2, h3, _⟩ := c01_distribute_sampling_devices s N D (Nat.lcm c.numChains m) hs hD hlcm
  set lw : S → ℝ := fun x => c.mu * c.netRe params x with hlw
  refine ⟨WDist.each ((List.range s).map fun r =>
    WDist.each ((states r).map (samplesLaw W (metropolisStep propose lw) X c.thermSweeps c.sweepSteps (ns r)))),
    fun r => (c.thermSweeps + ns r) * c.sweepSteps,
    fun r draws => List.zipWith (fun st l => sampleDraws propose lw c.thermSweeps c.sweepSteps (ns r) l st)
      (states r) draws, ?_, ?_, ?_⟩
  · unfold mcmcConfigWorld
    rw [mapM_ok _ (fun r => WDist.each ((states r).map
      (samplesLaw W (metropolisStep propose lw) X c.thermSweeps c.sweepSteps (ns r))))]
    · rfl
    · intro r hr
      rw [hst r (List.mem_range.mp hr), h1 r (List.mem_range.mp hr)]
      rfl
  · intro r hr draws devs hdl hln hdst hkeys
    have hdevs : devs.length = D := by
      have := congrArg List.length hdst
      rw [List.length_map, List.length_map, hst r hr] at this
      exact this
    unfold getSamplesMcmc
    rw [hdevs, h1 r hr]
    refine ⟨((devs.map (mcInit c params)).map (getSamples c params (ns r))).map Prod.fst, glob, ?_⟩
    change Except.ok (_, ((devs.map (mcInit c params)).map (getSamples c params (ns r))).map Prod.snd, glob) = Except.ok _
    congr 3
    rw [List.map_map, List.map_map]
    apply List.ext_getElem
    · simp [hdevs, hdl, hst r hr]
    · intro i hi1 hi2
      have hi : i < devs.length := by simpa using hi1
      have hid : i < draws.length := by omega
      have his : i < (states r).length := by rw [hst r hr]; omega
      simp only [List.getElem_map, List.getElem_zipWith, Function.comp_apply]
      apply getSamples_draws hc params (ns r) draws[i] (hln _ (List.getElem_mem hid)).ge
      · have := List.getElem_of_eq hdst (show i < (devs.map fun d => d.states).length by simpa using hi)
        simpa using this
      · have := List.getElem_of_eq hkeys (show i < (devs.map fun d => d.key).length by simpa using hi)
        simpa using this
  · intro F
    apply listMean_each (fun r => listMean (List.replicate D (listMean
      (List.replicate ((c.thermSweeps + ns r) * c.sweepSteps) (drawMean W c.numChains)))))
    intro r hr F
    have hr := List.mem_range.mp hr
    have key := listMean_each (fun _ : Fin c.numChains → S => listMean
        (List.replicate ((c.thermSweeps + ns r) * c.sweepSteps) (drawMean W c.numChains)))
      (samplesLaw W (metropolisStep propose lw) X c.thermSweeps c.sweepSteps (ns r))
      (fun st l => sampleDraws propose lw c.thermSweeps c.sweepSteps (ns r) l st) (states r)
      (fun st hst F => tape_samples W propose lw X hX _ _ _ st (hin r hr st hst) F) F
    rw [← key, List.map_const', hst r hr]

/-! ## Such keys exist -/

/-- A key is the list of the draws to come, with the position at which it has been split. -/
abbrev TapeKey (Ω : Type) (C : ℕ) : Type := List (Draw Ω C) × ℕ

/-- For every sequence of draws there is a key: keys that are lists of draws. -/
theorem drawsWith_tape {S P Ω : Type} [Inhabited Ω] (C : ℕ) (propose : Ω → S → S) (netRe : P → S → ℝ) (mu : ℝ)
    (therm sweepSteps numChains : ℕ) :
    DrawsWith (K := TapeKey Ω C)
      { rng := ⟨fun k n i => if n = C + 1 ∧ k.2 = 0 then (k.1, i + 1) else if i = 0 then k else (k.1.tail, 0),
          fun k i => match k.1 with
            | [] => 0
            | d :: _ => if h : i < C then d.2 ⟨i, h⟩ else 0⟩
        proposer := fun k s => match k.1 with
          | [] => s
          | d :: _ => if h : k.2 - 1 < C then propose (d.1 ⟨k.2 - 1, h⟩) s else s
        netRe := netRe, mu := mu, thermSweeps := therm, sweepSteps := sweepSteps, numChains := numChains }
      propose C fun l => (l, 0) := by
  refine ⟨?_, ?_, ?_⟩
  · intro d l i s
    simp [i.isLt]
  · intro d l i
    simp [i.isLt]
  · intro d l
    simp

/-- Two sites, three chains on each of two devices of one rank, 5 samples. -/
example : ∃ (L : WDist (World (List ℤ))) (n : ℕ → ℕ) (run : ℕ → List (List (Draw ℕ 3)) → List (List (List ℤ))),
    mcmcConfigWorld 1 3 (spinFlipDraws 2) (metropolisStep proposeSpinFlip fun x => 2 * (x.sum : ℝ)) (spinConfigs 2) 4 2 5 1
      (fun _ => List.replicate 2 fun _ => [0, 0]) = .ok L ∧
    ∀ F : World (List ℤ) → ℝ,
      listMean ((List.range 1).map fun r => listMean (List.replicate 2 (listMean (List.replicate (n r)
        (drawMean (spinFlipDraws 2) 3))))) (fun draws => F (List.zipWith run (List.range 1) draws)) = average L F := by
  obtain ⟨L, n, run, h1, _, h3⟩ := c93_distribution (P := Unit) (K := TapeKey ℕ 3) _ (spinFlipDraws 2) proposeSpinFlip _
    (drawsWith_tape 3 proposeSpinFlip (fun _ x => (x.sum : ℝ)) 2 4 2 3) () (spinConfigs 2) (spinFlip_moves 2 (by norm_num)).2.1 1 2 1
    (by norm_num) (by norm_num) (by norm_num) (by norm_num) 5 (fun _ => List.replicate 2 fun _ => [0, 0])
    (fun _ _ => by simp) (fun _ _ st hst i => by
      rw [List.eq_of_mem_replicate hst, mem_spinConfigs, ← bin_iff]
      refine ⟨?_, rfl⟩
      intro x hx
      simp at hx
      omega)
  exact ⟨L, n, run, h1, h3⟩

end JVMC
