import Verif.Props.Stats

/-! # Property C123: chains of operations on statistics objects -/

namespace JVMC

open Spec

variable {ι κ μ ν : Type}

/-- A sequence of calls on a `SampledObs`, each on the result of the one before: `select`, `transform` with a function of
one observation, `subset`, and `covar_data` of the object with itself. -/
inductive StatChain : Type → Type → Type 1 where
  | done {ι : Type} : StatChain ι ι
  | select {ι κ μ : Type} (ixs : κ → ι) (rest : StatChain κ μ) : StatChain ι μ
  | transform {ι κ μ : Type} (f : (ι → ℂ) → κ → ℂ) (rest : StatChain κ μ) : StatChain ι μ
  | subset {ι μ : Type} (start stop step : Option ℤ) (rest : StatChain ι μ) : StatChain ι μ
  | covarData {ι μ : Type} (rest : StatChain (ι × ι) μ) : StatChain ι μ

/-- The calls of the code one after the other; `none` is an object all of whose numbers are NaN, it stays that way. -/
noncomputable def StatChain.run : {ι μ : Type} → StatChain ι μ → SObs ι → Except PyErr (Option (SObs μ))
  | _, _, .done, o => .ok (some o)
  | _, _, .select ixs rest, o => rest.run (o.select ixs)
  | _, _, .transform f rest, o => do
    match ← o.transform fun dev => dev.map fun x => x.map f with
    | none => return none
    | some o' => rest.run o'
  | _, _, .subset start stop step rest, o => do
    match ← o.subset start stop step with
    | none => return none
    | some o' => rest.run o'
  | _, _, .covarData rest, o => do
    match ← o.covarData o with
    | none => return none
    | some o' => rest.run o'

/-- What the chain means for the samples themselves, one (weight, observation) after the other: components are chosen,
functions applied, slices of the samples of every device taken and their weights divided by what is left of the total,
observations replaced by the products of their deviations from the mean. Nothing is left if a slice is empty on all
devices; a slice with step zero is an error. -/
noncomputable def StatChain.samples : {ι μ : Type} → StatChain ι μ → World (ℝ × (ι → ℂ)) →
    Except PyErr (Option (World (ℝ × (μ → ℂ))))
  | _, _, .done, w => .ok (some w)
  | _, _, .select ixs rest, w => rest.samples (w.map fun s => (s.1, fun k => s.2 (ixs k)))
  | _, _, .transform f rest, w => rest.samples (w.map fun s => (s.1, f s.2))
  | _, _, .subset start stop step rest, w =>
    if step = some 0 then .error .valueError
    else if (allSamples (w.slice start stop step)).isEmpty then .ok none
    else rest.samples ((w.slice start stop step).map fun s =>
      (s.1 / ((allSamples (w.slice start stop step)).map fun s => s.1).sum, s.2))
  | ι, _, .covarData rest, w => rest.samples (w.map fun s => (s.1, fun ik : ι × ι =>
      (starRingEnd ℂ) (s.2 ik.1 - wMean (allSamples w) ik.1) * (s.2 ik.2 - wMean (allSamples w) ik.2)))

theorem sum_pos_of_pos {A : Type} (l : List (ℝ × A)) (h : ∀ s ∈ l, 0 < s.1) (hne : l ≠ []) :
    0 < (l.map fun s => s.1).sum := by
  induction l with
  | nil => exact absurd rfl hne
  | cons a l ih =>
    rw [List.map_cons, List.sum_cons]
    have h1 := h a List.mem_cons_self
    by_cases hl : l = []
    · rw [hl]; simpa using h1
    · have := ih (fun s hs => h s (List.mem_cons_of_mem _ hs)) hl
      linarith

/-- An empty selection: the weights add up to zero and everything is NaN. -/
theorem subset_empty (world : World (ℝ × (ι → ℂ))) (hw0 : world ≠ []) (h : ∀ r ∈ world, r ≠ [])
    (start stop step : Option ℤ) (hs : step ≠ some 0) (he : allSamples (world.slice start stop step) = []) (o : SObs ι)
    (ho : SObs.create world = .ok o) : o.subset start stop step = .ok none := by
  have hsl := slice_ne start stop step world h
  rw [create_eq world h] at ho
  obtain rfl := Except.ok.inj ho
  unfold SObs.subset
  dsimp only
  rw [sel_eq _ _ _ _ hs]
  change Except.bind (globalSum _) _ = _
  rw [World.map_map, globalSum_wmap _ _ hsl, he]
  change Except.bind (globalSum _) _ = _
  set m := wMean (allSamples world)
  set sel := world.slice start stop step with hsel
  simp only [List.map_nil, List.sum_nil]
  have hc1 : List.map (fun _ => (0 : ℝ)) sel = List.map (fun _ => (0 : ℝ))
      (World.map (fun s => (s.1, fun i => (Real.sqrt s.1 : ℂ) * (s.2 i - m i))) sel) := by
    rw [World.const_map]
  rw [hc1, zipWith_map_self]
  have hrows : (List.map (fun rk => List.map (fun dev => List.map (fun s : ℝ × (ι → ℂ) =>
      (s.1 / 0, fun i => s.2 i / (Real.sqrt 0 : ℂ))) dev) rk)
      (World.map (fun s => (s.1, fun i => (Real.sqrt s.1 : ℂ) * (s.2 i - m i))) sel))
      = World.map (fun s => (s.1 / 0, fun i =>
        (Real.sqrt s.1 : ℂ) * (s.2 i - m i) / (Real.sqrt 0 : ℂ))) sel := by
    exact World.map_map _ _ _
  rw [hrows, globalSum_dev _ _ (World.map_ne _ _ hsl)]
  change (if _ then _ else _) = _
  rw [if_neg]
  · rfl
  · rw [World.const_map]
    intro hall
    have hlen : List.length sel = List.length world := by
      rw [hsel]; unfold World.slice; simp
    cases hse : sel with
    | nil =>
      rw [hse] at hlen
      exact hw0 (List.length_eq_zero_iff.mp hlen.symm)
    | cons a l =>
      rw [hse] at hall
      simp at hall

theorem subset_step_zero (world : World (ℝ × (ι → ℂ))) (hw0 : world ≠ []) (h : ∀ r ∈ world, r ≠ [])
    (start stop : Option ℤ) (o : SObs ι) (ho : SObs.create world = .ok o) :
    o.subset start stop (some 0) = .error .valueError := by
  rw [create_eq world h] at ho
  obtain rfl := Except.ok.inj ho
  cases world with
  | nil => exact absurd rfl hw0
  | cons r rs =>
    cases r with
    | nil => exact absurd rfl (h [] List.mem_cons_self)
    | cons dev devs => rfl

theorem chain_run (c : StatChain ι μ) (world : World (ℝ × (ι → ℂ))) (hw0 : world ≠ []) (h : ∀ r ∈ world, r ≠ [])
    (hw : ∀ s ∈ allSamples world, 0 < s.1) (o : SObs ι) (ho : SObs.create world = .ok o) :
    c.run o = (c.samples world).bind fun w => match w with
        | none => .ok none
        | some w => (SObs.create w).map some := by
  have hmap : ∀ {A B : Type} (f : A → B) (w : World A), w ≠ [] → w.map f ≠ [] := by
    intro A B f w hne hc
    exact hne (List.map_eq_nil_iff.mp hc)
  induction c with
  | done =>
    change Except.ok (some o) = Except.map some (SObs.create world)
    rw [ho]
    rfl
  | select ixs rest ih =>
    obtain ⟨o', ho', hsel⟩ := c67_select world h ixs
    obtain rfl := Except.ok.inj (ho.symm.trans ho')
    exact ih _ (hmap _ _ hw0) (World.map_ne _ _ h) (by
      intro s hs
      rw [allSamples_wmap] at hs
      obtain ⟨t, ht, rfl⟩ := List.mem_map.mp hs
      exact hw t ht) _ hsel
  | transform f rest ih =>
    obtain ⟨o', o'', ho', htr, hcr⟩ := c43_transform_partial world h hw f
    obtain rfl := Except.ok.inj (ho.symm.trans ho')
    rw [StatChain.run, htr]
    exact ih _ (hmap _ _ hw0) (World.map_ne _ _ h) (by
      intro s hs
      rw [allSamples_wmap] at hs
      obtain ⟨t, ht, rfl⟩ := List.mem_map.mp hs
      exact hw t ht) _ hcr
  | subset start stop step rest ih =>
    rw [StatChain.run, StatChain.samples]
    by_cases hs : step = some 0
    · subst hs
      rw [subset_step_zero world hw0 h start stop o ho, if_pos rfl]
      rfl
    · rw [if_neg hs]
      by_cases he : allSamples (world.slice start stop step) = []
      · rw [subset_empty world hw0 h start stop step hs he o ho, if_pos (by rw [he]; rfl)]
        rfl
      · have hws : ∀ s ∈ allSamples (world.slice start stop step), 0 < s.1 := fun s hs' =>
          hw s (slice_mem start stop step world s hs')
        have hpos := sum_pos_of_pos _ hws he
        obtain ⟨o', o'', ho', hsub, hcr⟩ := c42_subset world h (fun s hs => (hw s hs).le) start stop step hs hpos
        obtain rfl := Except.ok.inj (ho.symm.trans ho')
        rw [hsub, if_neg (by simpa using he)]
        refine ih _ (hmap _ _ ?_) (World.map_ne _ _ (slice_ne start stop step world h)) ?_ _ hcr
        · intro hc
          exact hw0 (List.map_eq_nil_iff.mp hc)
        · intro s hs
          rw [allSamples_wmap] at hs
          obtain ⟨t, ht, rfl⟩ := List.mem_map.mp hs
          exact div_pos (hws t ht) hpos
  | @covarData ι μ rest ih =>
    obtain ⟨a, b, o', ha, hb, hcd, hcr⟩ := covarData_eq (World.map (fun s : ℝ × (ι → ℂ) => (s.1, s.2, s.2)) world)
      (World.map_ne _ _ h) (by
        intro s hs
        rw [allSamples_wmap] at hs
        obtain ⟨t, ht, rfl⟩ := List.mem_map.mp hs
        exact hw t ht)
    have hid : World.map (fun s : ℝ × (ι → ℂ) => (s.1, s.2)) world = world := by
      unfold World.map
      simp
    rw [World.map_map] at ha hb hcr
    rw [allSamples_wmap, List.map_map, List.map_map] at hcr
    simp only [Function.comp_def, Prod.mk.eta, List.map_id'] at ha hb hcr
    simp only [Prod.mk.eta] at hid
    rw [hid] at ha hb
    obtain rfl := Except.ok.inj (ho.symm.trans ha)
    obtain rfl := Except.ok.inj (ho.symm.trans hb)
    rw [StatChain.run, hcd]
    exact ih _ (hmap _ _ hw0) (World.map_ne _ _ h) (by
      intro s hs
      rw [allSamples_wmap] at hs
      obtain ⟨t, ht, rfl⟩ := List.mem_map.mp hs
      exact hw t ht) _ hcr

/-- **C123**: every chain of calls on a statistics object gives the object which would have been built from the samples
the chain stands for - on all ranks, for every distribution of the samples over ranks and devices and all positive
weights. The numbers are NaN exactly if a slice leaves no samples, and the only exception is the one for a slice with
step zero. -/
theorem c123_chain (c : StatChain ι μ) (world : World (ℝ × (ι → ℂ))) (hw0 : world ≠ []) (h : ∀ r ∈ world, r ≠ [])
    (hw : ∀ s ∈ allSamples world, 0 < s.1) :
    ∃ o, SObs.create world = .ok o ∧
      c.run o = (c.samples world).bind fun w => match w with
        | none => .ok none
        | some w => (SObs.create w).map some :=
  ⟨_, create_eq world h, chain_run c world hw0 h hw _ (create_eq world h)⟩

/-- Case: squares of the observations of every second sample, from two ranks with one and two devices; samples are
left. -/
example : (∃ o, SObs.create exampleWorld = .ok o ∧
      (StatChain.subset (some 0) none (some 2) (.transform (fun x i => x i ^ 2) .done)).run o
        = ((StatChain.subset (some 0) none (some 2) (.transform (fun x i => x i ^ 2) .done)).samples exampleWorld).bind
          fun w => match w with
            | none => .ok none
            | some w => (SObs.create w).map some) ∧
    allSamples (exampleWorld.slice (some 0) none (some 2)) ≠ [] := by
  refine ⟨c123_chain _ exampleWorld (by simp [exampleWorld]) (by simp [exampleWorld]) ?_, ?_⟩
  · simp only [allSamples, exampleWorld]
    norm_num
  · simp only [allSamples, exampleWorld, World.slice, List.map_cons, List.map_nil, List.length_cons,
      List.length_nil, show sliceIndices (some 0) none ((some 2 : Option ℤ).getD 1) (0 + 1) = [0] by decide]
    simp [List.filterMap]

/-- Components may be chosen before or after samples: `o.select(i).subset(s)` and `o.subset(s).select(i)` are the same
object, for every slice. -/
theorem c123_select_subset (world : World (ℝ × (ι → ℂ))) (hw0 : world ≠ []) (h : ∀ r ∈ world, r ≠ [])
    (hw : ∀ s ∈ allSamples world, 0 < s.1) (ixs : κ → ι) (start stop step : Option ℤ) :
    ∃ o, SObs.create world = .ok o ∧
      (StatChain.select ixs (.subset start stop step .done)).run o
        = (StatChain.subset start stop step (.select ixs .done)).run o := by
  refine ⟨_, create_eq world h, ?_⟩
  rw [chain_run _ world hw0 h hw _ (create_eq world h), chain_run _ world hw0 h hw _ (create_eq world h)]
  congr 1
  simp only [StatChain.samples]
  have hsl : (World.map (fun s : ℝ × (ι → ℂ) => (s.1, fun k => s.2 (ixs k))) world).slice start stop step
      = World.map (fun s => (s.1, fun k => s.2 (ixs k))) (world.slice start stop step) := by
    unfold World.slice World.map
    simp only [List.map_map, Function.comp_def, List.length_map, List.map_filterMap, List.getElem?_map]
  rw [hsl, allSamples_wmap, List.map_map, World.map_map, World.map_map, List.isEmpty_map]
  rfl

/-- Selecting twice is selecting once. -/
theorem c123_select_select (o : SObs ι) (ixs : κ → ι) (jxs : μ → κ) :
    (o.select ixs).select jxs = o.select (ixs ∘ jxs) := by
  unfold SObs.select
  dsimp only
  rw [World.map_map, List.map_map]
  rfl

end JVMC
