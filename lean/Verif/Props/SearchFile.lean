import Verif.Lemmas.SearchFile
import Verif.Props.Descent
import Verif.Props.MeasureAll

/-!
# The record of a ground state search in the output file (C126)
-/

namespace JVMC

open Spec

variable {P W : Type} [AddCommGroup P] [Module ℝ P]

/-! ## Searches and files in general -/

/-- **C126**: writing to a file does not influence the search: if a search with an output manager returns, the same
search without file returns, after the same number of steps, in the same state. -/
theorem c126_unaffected (api : GsApi P ObsDict W) (numSteps : ℤ) (tol stepSize : ℝ) (record : Bool) (shift : ℝ) (w : W)
    (om : OmState) (x : GsFileState W)
    (h : groundStateSearchFile api numSteps tol stepSize record shift w om = .ok x) :
    ∃ s, groundStateSearch api numSteps tol stepSize record shift w = .ok s ∧
      x = ⟨s.n, s.varE, s.delta, s.shift, s.w, x.om⟩ := by
  obtain ⟨s, om', h1, _, rfl⟩ := (searchFile_iff api numSteps tol stepSize record shift w om x).1 h
  exact ⟨s, h1, rfl⟩

theorem hasForm_names {form : List (String × ℕ)} {obs : ObsDict} (h : HasForm form obs) :
    obs.map Prod.fst = form.map Prod.fst := by
  rw [← h, List.map_map]
  rfl

theorem hasForm_length {form : List (String × ℕ)} (hn : (form.map Prod.fst).Nodup) {obs obs' : ObsDict}
    (h : HasForm form obs) (h' : HasForm form obs') {e e' : String × List (List MeasResult)} (he : e ∈ obs) (he' : e' ∈ obs')
    (hee : e.1 = e'.1) : e.2.length = e'.2.length := by
  have h1 : (e.1, e.2.length) ∈ form := by
    rw [← h]; exact List.mem_map.2 ⟨e, he, rfl⟩
  have h2 : (e'.1, e'.2.length) ∈ form := by
    rw [← h']; exact List.mem_map.2 ⟨e', he', rfl⟩
  rw [hee] at h1
  have := List.inj_on_of_nodup_map hn h1 h2 rfl
  exact (Prod.mk.inj this).2

/-- What a list of records leaves in the file. -/
theorem records_written (form : List (String × ℕ)) (hnames : GoodNames (form.map Prod.fst)) (fs : Option H5File)
    (group : HName) (hgroup : GroupPath group.path) (pre : List OmOp) (hpre : ∀ op ∈ pre, Natural op)
    (hs : SameShapes (intended group.path pre)) (H : List String) (hH : H = pre.foldl selected group.path)
    (hfree : ∀ x ∈ intended group.path pre, ¬ (H ++ ["observables"]) <+: x.1) (n : ℕ) (obs : ℕ → ObsDict)
    (hobs : ∀ k ≤ n, HasForm form (obs k)) :
    ∃ om, writeLog (omRun (omInit fs group false).2 pre) ((List.range (n + 1)).map fun k => (k, obs k)) = .ok om ∧
      rowsAt om.log.now (H ++ ["observables", "times"]) = (List.range (n + 1)).map (fun k : ℕ => NdArr.row (scalarArr (k : ℝ))) ∧
      (∀ key name f, (name, f) ∈ reported → ∀ (vals : ℕ → List (List MeasResult)) (xs : ℕ → List ℝ),
        (∀ k ≤ n, (key, vals k) ∈ obs k ∧ OnRank0 f (vals k) (xs k)) →
        rowsAt om.log.now (H ++ ["observables", key, name]) = (List.range (n + 1)).map fun k => NdArr.row (vecArr (xs k))) ∧
      ∀ q, ¬ (H ++ ["observables"]) <+: q →
        rowsAt om.log.now q = rowsAt (omRun (omInit fs group false).2 pre).log.now q := by
  set log := (List.range (n + 1)).map fun k => (k, obs k) with hlog
  have hform : ∀ e ∈ log, HasForm form e.2 := by
    intro e he
    obtain ⟨k, hk, rfl⟩ := List.mem_map.1 he
    rw [List.mem_range] at hk
    exact hobs k (by omega)
  have hnm : ∀ e ∈ log, e.2.map Prod.fst = form.map Prod.fst := fun e he => hasForm_names (hform e he)
  set new := log.map fun e => obsOp e.1 e.2 with hnew
  have hnat : ∀ op ∈ new, Natural op := by
    intro op hop
    obtain ⟨e, he, rfl⟩ := List.mem_map.1 hop
    exact obsOp_natural _ _ (by rw [hnm e he]; exact hnames.nonempty) (by rw [hnm e he]; exact hnames.times)
  have hall : ∀ op ∈ pre ++ new, Natural op := by
    intro op hop
    rcases List.mem_append.1 hop with h | h
    · exact hpre op h
    · exact hnat op h
  have hint : intended group.path (pre ++ new)
      = intended group.path pre ++ log.flatMap fun e => opRows H (obsOp e.1 e.2) := by
    rw [intended_append, ← hH, intended_obsOps]
  -- the rows of the search
  have hrow : ∀ x ∈ log.flatMap fun e => opRows H (obsOp e.1 e.2), (H ++ ["observables"]) <+: x.1 ∧
      ((x.1 = H ++ ["observables", "times"] ∧ x.2.shape = []) ∨
        ∃ c ∈ form, ∃ name, x.1 = H ++ ["observables", c.1, name] ∧ x.2.shape = [c.2]) := by
    intro x hx
    obtain ⟨e, he, hx⟩ := List.mem_flatMap.1 hx
    rcases obsOp_rows H e.1 e.2 (by rw [hnm e he]; exact hnames.nonempty) x hx with h | ⟨c, hc, name, f, _, h1, h2⟩
    · refine ⟨?_, .inl h⟩
      rw [h.1]
      exact ⟨["times"], by simp⟩
    · refine ⟨?_, .inr ⟨(c.1, c.2.length), ?_, name, h1, h2⟩⟩
      · rw [h1]
        exact ⟨[c.1, name], by simp⟩
      · have := hform e he
        rw [← this]
        exact List.mem_map.2 ⟨c, hc, rfl⟩
  have hshapes : SameShapes (intended group.path (pre ++ new)) := by
    rw [hint]
    intro x hx y hy hxy
    rcases List.mem_append.1 hx with h1 | h1 <;> rcases List.mem_append.1 hy with h2 | h2
    · exact hs x h1 y h2 hxy
    · exact absurd (hxy ▸ (hrow y h2).1) (hfree x h1)
    · exact absurd (hxy ▸ (hrow x h1).1) (hfree y h2)
    · rcases (hrow x h1).2 with ⟨p1, p2⟩ | ⟨c, hc, name, p1, p2⟩ <;>
        rcases (hrow y h2).2 with ⟨q1, q2⟩ | ⟨c', hc', name', q1, q2⟩
      · rw [p2, q2]
      · rw [p1, q1] at hxy
        simp at hxy
      · rw [p1, q1] at hxy
        simp at hxy
      · rw [p1, q1] at hxy
        have hcc : c.1 = c'.1 := by
          have := List.append_cancel_left hxy
          simp at this
          exact this.1
        rw [p2, q2]
        have := List.inj_on_of_nodup_map hnames.nodup hc hc' hcc
        rw [this]
  obtain ⟨-, hk, hr, -⟩ := c52_rows_partial fs group hgroup (pre ++ new) hall hshapes
  obtain ⟨-, -, hr0, -⟩ := c52_rows_partial fs group hgroup pre hpre hs
  have hrun : omRun (omInit fs group false).2 (pre ++ new) = omRun (omRun (omInit fs group false).2 pre) new :=
    List.foldl_append
  have hH' : GroupPath H := by
    rw [hH]
    clear hfree hr hr0 hk hshapes hint hall hrun hs hH hrow
    have : ∀ (pre : List OmOp) G, GroupPath G → (∀ op ∈ pre, Natural op) → GroupPath (pre.foldl selected G) := by
      intro pre
      induction pre with
      | nil => intro G h _; exact h
      | cons op pre ih =>
        intro G h hn
        refine ih _ ?_ (fun o ho => hn o (by simp [ho]))
        cases op with
        | setGroup g => exact (hn (.setGroup g) (by simp)).2
        | _ => exact h
    exact this pre _ hgroup hpre
  have hcalls : obsCalls H H new = log.map fun e => ((e.1 : ℝ), e.2.map fun c => (([c.1] : HName), obsEntry c.2)) := by
    rw [hnew]
    generalize log = l
    induction l with
    | nil => rfl
    | cons e l ih =>
      rw [List.map_cons, List.map_cons, ← ih]
      change (if H = H then _ else _) ++ obsCalls H H _ = _
      rw [if_pos rfl]
      rfl
  have hzero : ∀ q, (H ++ ["observables"]) <+: q → (intended group.path pre).filter (fun x => x.1 = q) = [] := by
    intro q hq
    rw [List.filter_eq_nil_iff]
    intro x hx
    simp only [decide_eq_true_eq]
    rintro rfl
    exact hfree x hx hq
  have hrows : ∀ q, (H ++ ["observables"]) <+: q →
      rowsAt (omRun (omRun (omInit fs group false).2 pre) new).log.now q
        = ((intended H new).filter fun x => x.1 = q).map fun x => NdArr.row x.2 := by
    intro q hq
    rw [← hrun, hr, intended_append, ← hH, List.filter_append, hzero q hq, List.nil_append]
  refine ⟨omRun (omRun (omInit fs group false).2 pre) new, ?_, ?_, ?_, ?_⟩
  · rw [writeLog_eq log _ (fun e he => by rw [hnm e he]; exact ⟨hnames.self, hnames.time⟩)]
    refine omAll_eq new _ fun a op b he => ?_
    have := hk (pre ++ a) op b (by rw [he, List.append_assoc])
    rw [show omRun (omInit fs group false).2 (pre ++ a) = omRun (omRun (omInit fs group false).2 pre) a from
      List.foldl_append] at this
    exact this
  · rw [hrows _ ⟨["times"], by simp⟩, intended_times H hH' new H hH' hnat, hcalls, hlog, List.map_map, List.map_map]
    rfl
  · intro key name f hf vals xs hv
    rw [hrows _ ⟨[key, name], by simp⟩, intended_obs H hH' key name new H hH' hnat (by
      intro t kw hop
      obtain ⟨e, he, h⟩ := List.mem_map.1 hop
      exact obsOp_keys _ _ (by rw [hnm e he]; exact hnames.nodup) t kw h), hcalls, hlog, List.map_map, List.filterMap_map]
    rw [show (List.range (n + 1)).map (fun k => NdArr.row (vecArr (xs k)))
      = (List.range (n + 1)).filterMap (fun k => some (NdArr.row (vecArr (xs k)))) from
        (congrFun List.filterMap_eq_map' _).symm]
    apply List.filterMap_congr
    intro k hk
    rw [List.mem_range] at hk
    obtain ⟨hm, hx⟩ := hv k (by omega)
    have hnd : ((obs k).map Prod.fst).Nodup := by
      rw [hasForm_names (hobs k (by omega))]
      exact hnames.nodup
    simp only [Function.comp_apply]
    rw [obsOp_value (obs k) hnd key (vals k) hm name f hf]
    have : (vals k).map (fun v => (v.head?.map f).getD 0) = xs k := by
      clear hm
      unfold OnRank0 at hx
      generalize vals k = v at hx
      generalize xs k = x at hx
      induction hx with
      | nil => rfl
      | cons h _ ih =>
        obtain ⟨m, rest, rfl, rfl⟩ := h
        rw [List.map_cons, ih]
        rfl
    simp [statArr, this]
  · intro q hq
    rw [← hrun, hr, hr0, hint, List.filter_append, List.map_append]
    have : (log.flatMap fun e => opRows H (obsOp e.1 e.2)).filter (fun x => x.1 = q) = [] := by
      rw [List.filter_eq_nil_iff]
      intro x hx
      simp only [decide_eq_true_eq]
      rintro rfl
      exact hq (hrow x hx).1
    rw [this]
    simp

/-- **C126**: a search with an output manager whose results have good names returns whenever the search itself does.
Before the search, the file may have been written to in any way (`pre`: natural calls), but not to the observables of the
selected group `H`. Afterwards the times of this group are the step numbers `0, ..., n`, and the dataset of every
observable has one row per step: what rank 0 got from `measure` at this step (`obs k`, the first before any update).
Nothing else in the file changes. -/
theorem c126_series (api : GsApi P ObsDict W) (hapi : api.hasSetter = true → api.hasShift = true) (form : List (String × ℕ))
    (hform : ∀ w obs w', api.measure w = .ok (obs, w') → HasForm form obs) (hnames : GoodNames (form.map Prod.fst))
    (numSteps : ℤ) (tol stepSize shift : ℝ) (w₀ : W) (s : GsState ObsDict W)
    (h : groundStateSearch api numSteps tol stepSize true shift w₀ = .ok s) (fs : Option H5File)
    (group : HName) (hgroup : GroupPath group.path) (pre : List OmOp) (hpre : ∀ op ∈ pre, Natural op)
    (hs : SameShapes (intended group.path pre)) (H : List String) (hH : H = pre.foldl selected group.path)
    (hfree : ∀ x ∈ intended group.path pre, ¬ (H ++ ["observables"]) <+: x.1) :
    ∃ (om : OmState) (obs : ℕ → ObsDict), groundStateSearchFile api numSteps tol stepSize true shift w₀ (omRun (omInit fs group false).2 pre)
        = .ok ⟨s.n, s.varE, s.delta, s.shift, s.w, om⟩ ∧
      s.log = (List.range (s.n + 1)).map (fun k => (k, obs k)) ∧
      rowsAt om.log.now (H ++ ["observables", "times"]) = (List.range (s.n + 1)).map (fun k : ℕ => NdArr.row (scalarArr (k : ℝ))) ∧
      (∀ key name f, (name, f) ∈ reported → ∀ (vals : ℕ → List (List MeasResult)) (xs : ℕ → List ℝ),
        (∀ k ≤ s.n, (key, vals k) ∈ obs k ∧ OnRank0 f (vals k) (xs k)) →
        rowsAt om.log.now (H ++ ["observables", key, name])
          = (List.range (s.n + 1)).map fun k => NdArr.row (vecArr (xs k))) ∧
      ∀ q, ¬ (H ++ ["observables"]) <+: q →
        rowsAt om.log.now q = rowsAt (omRun (omInit fs group false).2 pre).log.now q := by
  obtain ⟨-, -, -, w, u, v, e, h0, hk, -, hlog, -⟩ := c51_search_partial api hapi numSteps tol stepSize true shift w₀ s h
  have hone : ∀ k, ∃ obs, k ≤ s.n → e k = [(k, obs)] ∧ HasForm form obs := by
    intro k
    by_cases hkn : k ≤ s.n
    · cases k with
      | zero =>
        obtain ⟨obs, h1, h2⟩ := h0
        exact ⟨obs, fun _ => ⟨h2, hform _ _ _ h1⟩⟩
      | succ k =>
        obtain ⟨obs, h1, h2⟩ := (hk k (by omega)).2
        exact ⟨obs, fun _ => ⟨h2, hform _ _ _ h1⟩⟩
    · exact ⟨[], fun h => absurd h hkn⟩
  choose obs hobs using hone
  have hl : s.log = (List.range (s.n + 1)).map (fun k => (k, obs k)) := by
    rw [hlog, List.map_congr_left (g := fun k => [(k, obs k)])
      (fun k hk' => (hobs k (by rw [List.mem_range] at hk'; omega)).1), ← List.flatMap_def]
    generalize List.range (s.n + 1) = l
    induction l with
    | nil => rfl
    | cons x l ih => rw [List.flatMap_cons, ih]; rfl
  obtain ⟨om, w1, w2, w3, w4⟩ := records_written form hnames fs group hgroup pre hpre hs H hH hfree s.n obs
    fun k hk => (hobs k hk).2
  refine ⟨om, obs, ?_, hl, w2, w3, w4⟩
  exact (searchFile_iff api numSteps tol stepSize true shift w₀ _ _).2 ⟨s, om, h, by rw [hl]; exact w1, rfl⟩

/-- **C126**: a search without observables does not touch the file. -/
theorem c126_nothing (api : GsApi P ObsDict W) (numSteps : ℤ) (tol stepSize shift : ℝ) (w₀ : W) (om : OmState)
    (x : GsFileState W) (h : groundStateSearchFile api numSteps tol stepSize false shift w₀ om = .ok x)
    (hapi : api.hasSetter = true → api.hasShift = true) : x.om = om := by
  obtain ⟨s, om', h1, h2, rfl⟩ := (searchFile_iff api numSteps tol stepSize false shift w₀ om x).1 h
  obtain ⟨-, -, hl, -⟩ := c51_search_partial api hapi numSteps tol stepSize false shift w₀ s h1
  have : s.log = [] := by simpa using hl
  rw [this] at h2
  exact (Except.ok.inj h2).symm

/-- **C126**: if an observable is called "time" or "self", the search raises a `TypeError` at its first record, before any
update, whatever the other arguments are: the names become keyword arguments of `write_observables`, whose parameters
have these names. -/
theorem c126_time_violated (api : GsApi P ObsDict W) (numSteps : ℤ) (tol stepSize shift : ℝ) (w₀ w₁ : W) (obs : ObsDict)
    (hm : api.measure w₀ = .ok (obs, w₁)) (h : "self" ∈ obs.map Prod.fst ∨ "time" ∈ obs.map Prod.fst) (om : OmState) :
    groundStateSearchFile api numSteps tol stepSize true shift w₀ om = .error .typeError := by
  unfold groundStateSearchFile gsMeasureFile
  rw [if_pos rfl, hm]
  change Except.bind (Except.bind (outpWrite om 0 obs) _) _ = _
  rw [outpWrite_error om 0 obs h]
  rfl

/-- **C126**: an observable with the name "times" also ends the search at its first record, whatever the other arguments
are (here with a new file): there is a dataset with this name already. -/
theorem c126_times_violated (api : GsApi P ObsDict W) (numSteps : ℤ) (tol stepSize shift : ℝ) (w₀ w₁ : W)
    (vals : List (List MeasResult)) (hm : api.measure w₀ = .ok ([("times", vals)], w₁)) :
    ∃ e, groundStateSearchFile api numSteps tol stepSize true shift w₀ (omInit none ["", ""] false).2 = .error e := by
  unfold groundStateSearchFile gsMeasureFile
  rw [if_pos rfl, hm]
  exact ⟨_, rfl⟩

/-- Case for `c126_series`: three steps, recorded in the group `run` of a new file; the parameter decays and so do the
numbers in the file. -/
example : ∃ om : OmState, (∃ x, groundStateSearchFile (P := ℝ) ⟨true, true, fun w => .ok w, fun _ p _ w => .ok (-p, w),
      fun p _ => .ok p, fun w => .ok (some (w ^ 2)), fun w => .ok ([("energy", [[⟨w, w ^ 2, 0⟩]])], w)⟩ 3 0.001 0.5 true 10 8
      (omInit none ["run"] false).2 = .ok x ∧ x.om = om) ∧
    (rowsAt om.log.now ["run", "observables", "times"]).map (fun r => r []) = [0, 1, 2, 3] ∧
    (rowsAt om.log.now ["run", "observables", "energy", "mean"]).map (fun r => r [0]) = [8, 4, 2, 1] ∧
    (rowsAt om.log.now ["run", "observables", "energy", "variance"]).map (fun r => r [0]) = [64, 16, 4, 1] := by
  set api : GsApi ℝ ObsDict ℝ := ⟨true, true, fun w => .ok w, fun _ p _ w => .ok (-p, w),
      fun p _ => .ok p, fun w => .ok (some (w ^ 2)), fun w => .ok ([("energy", [[⟨w, w ^ 2, 0⟩]])], w)⟩ with hapi
  let ob : ℝ → ObsDict := fun w => [("energy", [[⟨w, w ^ 2, 0⟩]])]
  have hs : groundStateSearch api 3 0.001 0.5 true 10 8 = .ok ⟨3, some 1, some (0.95 * (0.95 * (0.95 * 10))),
      0.95 * (0.95 * (0.95 * 10)), 1, [(0, ob 8), (1, ob 4), (2, ob 2), (3, ob 1)]⟩ := by
    simp only [groundStateSearch, gsMeasure, bind, Except.bind, pure, Except.pure, show (3 : ℤ).toNat = 3 from rfl,
      gsLoop, gsBody, gsCond, smul_eq_mul, hapi, ob]
    norm_num
  obtain ⟨om, obs, h1, h2, h3, h4, -⟩ := c126_series api (fun _ => rfl) [("energy", 1)]
    (by intro w o w' h; cases h; rfl) ⟨by simp, by simp, by simp, by simp, by simp⟩ 3 0.001 0.5 10 8 _ hs none ["run"]
    (by intro c hc; simp [HName.path] at hc; subst hc; simp [reserved]) [] (by simp) (by simp [intended, SameShapes])
    ["run"] (by simp [HName.path]) (by simp [intended])
  have ho : obs 0 = ob 8 ∧ obs 1 = ob 4 ∧ obs 2 = ob 2 ∧ obs 3 = ob 1 := by
    have h5 : [(0, ob 8), (1, ob 4), (2, ob 2), (3, ob 1)] = [(0, obs 0), (1, obs 1), (2, obs 2), (3, obs 3)] := h2
    simp only [List.cons.injEq, Prod.mk.injEq, true_and, and_true] at h5
    exact ⟨h5.1.symm, h5.2.1.symm, h5.2.2.1.symm, h5.2.2.2.symm⟩
  have hk : ∀ k ≤ 3, ∃ w : ℝ, obs k = ob w ∧ w = 8 / 2 ^ k := by
    intro k hk
    obtain rfl | rfl | rfl | rfl : k = 0 ∨ k = 1 ∨ k = 2 ∨ k = 3 := by omega
    · exact ⟨8, ho.1, by norm_num⟩
    · exact ⟨4, ho.2.1, by norm_num⟩
    · exact ⟨2, ho.2.2.1, by norm_num⟩
    · exact ⟨1, ho.2.2.2, by norm_num⟩
  refine ⟨om, ⟨_, h1, rfl⟩, ?_, ?_, ?_⟩
  · rw [show (["run", "observables", "times"] : List String) = ["run"] ++ ["observables", "times"] from rfl, h3]
    simp [List.range_succ, NdArr.row, clip, scalarArr]
  · rw [show (["run", "observables", "energy", "mean"] : List String) = ["run"] ++ ["observables", "energy", "mean"] from rfl,
      h4 "energy" "mean" MeasResult.mean (by simp [reported])
      (fun k => [[⟨8 / 2 ^ k, (8 / 2 ^ k) ^ 2, 0⟩]]) (fun k => [8 / 2 ^ k]) (by
        intro k hk'
        obtain ⟨w, e1, rfl⟩ := hk k hk'
        exact ⟨by rw [e1]; simp [ob], .cons ⟨_, _, rfl, rfl⟩ .nil⟩)]
    simp [List.range_succ, NdArr.row, clip, vecArr]
    norm_num
  · rw [show (["run", "observables", "energy", "variance"] : List String)
      = ["run"] ++ ["observables", "energy", "variance"] from rfl,
      h4 "energy" "variance" MeasResult.variance (by simp [reported])
      (fun k => [[⟨8 / 2 ^ k, (8 / 2 ^ k) ^ 2, 0⟩]]) (fun k => [(8 / 2 ^ k) ^ 2]) (by
        intro k hk'
        obtain ⟨w, e1, rfl⟩ := hk k hk'
        exact ⟨by rw [e1]; simp [ob], .cons ⟨_, _, rfl, rfl⟩ .nil⟩)]
    simp [List.range_succ, NdArr.row, clip, vecArr]
    norm_num

/-! ## Searches with a TDVP object -/

section
variable {n : ℕ} {smp C : Type} [Fintype C] [DecidableEq C]

/-- `measure` reports exact expectation values: whenever `psi` has the parameters `θ` and `measure` returns, the result
has the names of `reqs`, and for every name and operator there, each rank gets the expectation value in the state
`exp(log ψ_θ)` as mean. -/
def ExactResults (p₀ : Params) (logPsi : (Fin (n + 1) → ℝ) → C → ℂ) (reqs : List (String × List (Matrix C C ℂ)))
    (meas : NqsState → smp → Except PyErr (ObsDict × smp)) : Prop :=
  ∀ ops θ sm obs sm', (∀ op ∈ ops, NqsOp.Fits p₀ op) →
    (getParameters.call (nqsRun p₀ ops)).1 = .ok (some (List.ofFn θ)) → meas (nqsRun p₀ ops) sm = .ok (obs, sm') →
    List.Forall₂ (fun (q : String × List (Matrix C C ℂ)) (e : String × List (List MeasResult)) => q.1 = e.1 ∧
      List.Forall₂ (fun O v => v ≠ [] ∧ ∀ m ∈ v, MeasResult.mean m
        = (Spec.expect O fun c => Complex.exp (logPsi θ c)).re) q.2 e.2) reqs obs

omit [Fintype C] [DecidableEq C] in
theorem exactResults_form {reqs : List (String × List (Matrix C C ℂ))} {obs : ObsDict}
    {R : Matrix C C ℂ → List MeasResult → Prop}
    (h : List.Forall₂ (fun (q : String × List (Matrix C C ℂ)) (e : String × List (List MeasResult)) => q.1 = e.1 ∧
      List.Forall₂ R q.2 e.2) reqs obs) : HasForm (reqs.map fun q => (q.1, q.2.length)) obs := by
  unfold HasForm
  induction h with
  | nil => rfl
  | cons h _ ih => rw [List.map_cons, List.map_cons, ih, h.1, h.2.length_eq]

omit [Fintype C] [DecidableEq C] in
theorem exactResults_mem {reqs : List (String × List (Matrix C C ℂ))} {obs : ObsDict}
    {R : Matrix C C ℂ → List MeasResult → Prop}
    (h : List.Forall₂ (fun (q : String × List (Matrix C C ℂ)) (e : String × List (List MeasResult)) => q.1 = e.1 ∧
      List.Forall₂ R q.2 e.2) reqs obs) (key : String) (Os : List (Matrix C C ℂ)) (hk : (key, Os) ∈ reqs) :
    ∃ vals, (key, vals) ∈ obs ∧ List.Forall₂ R Os vals := by
  induction h with
  | nil => cases hk
  | @cons q e _ _ h _ ih =>
    rcases List.mem_cons.1 hk with rfl | hk
    · refine ⟨e.2, ?_, h.2⟩
      have h1 : key = e.1 := h.1
      subst h1
      exact List.mem_cons_self
    · obtain ⟨vals, h1, h2⟩ := ih hk
      exact ⟨vals, List.mem_cons_of_mem _ h1, h2⟩

omit [DecidableEq C] in
/-- **C126** for `TDVP` and `NQS` objects, when `measure` reports exact expectation values: the search goes through the
parameters `θ₀, ..., θₙ` (`θₖ₊₁ = θₖ + stepSize * uₖ` with the velocities `uₖ` that the TDVP object returns for `θₖ`), and
the file holds the times `0, ..., n` and, for every observable, one row per step: in row `k` the expectation values of
its operators in the state with parameters `θₖ`. -/
theorem c126_expectations (env : TdvpEnv n smp) (cfg : TdvpCfg n) (r : ℕ)
    (meas : NqsState → smp → Except PyErr (ObsDict × smp)) (numSteps : ℤ) (tol stepSize : ℝ)
    (p₀ : Params) (hp₀ : (flattenParams p₀).length = n + 1) (ops : List NqsOp) (hops : ∀ op ∈ ops, op.Fits p₀)
    (hinit : nqsRun p₀ ops ≠ none) (at₀ : TdvpAttrs n) (sm₀ : smp)
    (s : GsState ObsDict (NqsState × TdvpAttrs n × smp))
    (h : groundStateSearch (tdvpApi env cfg r meas) numSteps tol stepSize true cfg.diagonalShift
      (nqsRun p₀ ops, at₀, sm₀) = .ok s)
    (logPsi : (Fin (n + 1) → ℝ) → C → ℂ) (reqs : List (String × List (Matrix C C ℂ)))
    (hmeas : ExactResults p₀ logPsi reqs meas) (hnames : GoodNames (reqs.map Prod.fst)) (fs : Option H5File)
    (group : HName) (hgroup : GroupPath group.path) (pre : List OmOp) (hpre : ∀ op ∈ pre, Natural op)
    (hs : SameShapes (intended group.path pre)) (H : List String) (hH : H = pre.foldl selected group.path)
    (hfree : ∀ x ∈ intended group.path pre, ¬ (H ++ ["observables"]) <+: x.1) :
    ∃ (om : OmState) (θ u : ℕ → Fin (n + 1) → ℝ) (A : ℕ → TdvpAttrs n),
      groundStateSearchFile (tdvpApi env cfg r meas) numSteps tol stepSize true cfg.diagonalShift
        (nqsRun p₀ ops, at₀, sm₀) (omRun (omInit fs group false).2 pre)
          = .ok ⟨s.n, s.varE, s.delta, s.shift, s.w, om⟩ ∧
      SearchSteps env cfg r p₀ stepSize s.n θ u A ∧
      (getParameters.call (nqsRun p₀ ops)).1 = .ok (some (List.ofFn (θ 0))) ∧
      (getParameters.call s.w.1).1 = .ok (some (List.ofFn (θ s.n))) ∧
      rowsAt om.log.now (H ++ ["observables", "times"])
        = (List.range (s.n + 1)).map (fun k : ℕ => NdArr.row (scalarArr (k : ℝ))) ∧
      (∀ key Os, (key, Os) ∈ reqs → rowsAt om.log.now (H ++ ["observables", key, "mean"])
        = (List.range (s.n + 1)).map fun k => NdArr.row (vecArr (Os.map fun O =>
            (Spec.expect O fun c => Complex.exp (logPsi (θ k) c)).re))) ∧
      ∀ q, ¬ (H ++ ["observables"]) <+: q →
        rowsAt om.log.now q = rowsAt (omRun (omInit fs group false).2 pre).log.now q := by
  obtain ⟨θ, u, v, A, -, -, h0, hk, -, hfin, -, -, hrec⟩ := c51_tdvp_partial env cfg r meas numSteps tol stepSize true
    p₀ hp₀ ops hops hinit at₀ sm₀ s h
  obtain ⟨obs, hlog, hobs⟩ := hrec rfl
  have hex : ∀ k ≤ s.n, List.Forall₂ (fun (q : String × List (Matrix C C ℂ)) (e : String × List (List MeasResult)) =>
      q.1 = e.1 ∧ List.Forall₂ (fun O v => v ≠ [] ∧ ∀ m ∈ v, MeasResult.mean m
        = (Spec.expect O fun c => Complex.exp (logPsi (θ k) c)).re) q.2 e.2) reqs (obs k) := by
    intro k hkn
    obtain ⟨sm₁, sm₂, ops', h1, h2, h3⟩ := hobs k hkn
    exact hmeas ops' (θ k) sm₁ (obs k) sm₂ h1 h2 h3
  obtain ⟨om, w1, w2, w3, w4⟩ := records_written (reqs.map fun q => (q.1, q.2.length))
    (by rw [List.map_map]; exact hnames) fs group hgroup pre hpre hs H hH hfree s.n obs
    fun k hkn => exactResults_form (hex k hkn)
  refine ⟨om, θ, u, A, ?_, ?_, h0, hfin, w2, ?_, w4⟩
  · exact (searchFile_iff _ numSteps tol stepSize true _ _ _ _).2 ⟨s, om, h, by rw [hlog]; exact w1, rfl⟩
  · intro k hkn
    obtain ⟨h1, sm₁, sm₂, ops', h2, h3, h4, -⟩ := hk k hkn
    exact ⟨h1, sm₁, sm₂, ops', h2, h3, h4⟩
  · intro key Os hkey
    have hv : ∀ k, ∃ vals, k ≤ s.n → (key, vals) ∈ obs k ∧ OnRank0 MeasResult.mean vals (Os.map fun O =>
        (Spec.expect O fun c => Complex.exp (logPsi (θ k) c)).re) := by
      intro k
      by_cases hkn : k ≤ s.n
      · obtain ⟨vals, h1, h2⟩ := exactResults_mem (hex k hkn) key Os hkey
        refine ⟨vals, fun _ => ⟨h1, ?_⟩⟩
        unfold OnRank0
        clear h1 hkey
        induction h2 with
        | nil => exact .nil
        | @cons O v _ _ h _ ih =>
          refine .cons ?_ ih
          cases v with
          | nil => exact absurd rfl h.1
          | cons m rest => exact ⟨m, rest, rfl, h.2 m List.mem_cons_self⟩
      · exact ⟨[], fun h => absurd h hkn⟩
    choose vals hvals using hv
    exact w3 key "mean" MeasResult.mean (by simp [reported]) vals _ hvals

theorem estimate_born (l : List (ℝ × C)) (O : Matrix C C ℂ) (ψ : C → ℂ) (hψ : ∀ c, ψ c ≠ 0)
    (hb : BornWeights ψ l) : estimate l O ψ = Spec.expect O ψ := by
  unfold estimate
  rw [sum_weighted l fun c => (Matrix.mulVec O ψ) c / ψ c, ← born_mean O ψ hψ]
  apply Finset.sum_congr rfl
  intro c _
  rw [hb.born c]
  rfl

/-- **C126**: the condition on `measure` is met by `measure` with operators that a script has built, and a sampler whose
weights are those of `|ψ|²` (C77: the exact sampler). -/
theorem c126_measure {Term Op Arg Pre σ : Type} [DecidableEq Op] (K : OpClass C Term (ObsVal Op Arg) Pre) (batch : Op → ℤ)
    (zeroCfg : C) (smpl : SamplerObj C σ) (acts : List (MeasAct C Term Op Arg)) (st₀ : σ) (hn : NamesOk acts)
    (hok : ∀ r ∈ (measScript K batch zeroCfg smpl (fun _ => OpState.new) st₀ acts).1, ∃ x, r = .ok x)
    (h : Op → OpState Term) (hreach : (measScript K batch zeroCfg smpl (fun _ => OpState.new) st₀ acts).2.1 = h)
    (obs : List (String × ObsVal Op Arg)) (hnd : (obs.map Prod.fst).Nodup)
    (reqs : List (String × List (Op × List (ObsVal Op Arg))))
    (hreq : List.Forall₂ (fun e q => e.1 = q.1 ∧ AsksAll e.2 q.2) obs reqs)
    (O : Op → List (ObsVal Op Arg) → Matrix C C ℂ)
    (hO : ∀ e ∈ reqs, ∀ q ∈ e.2, ∃ p, K.prep (addedTo q.1 acts) q.2 = .ok p ∧
      OperatorOf (K.fn (addedTo q.1 acts) p) (O q.1 q.2))
    (p₀ : Params) (logPsi : (Fin (n + 1) → ℝ) → C → ℂ) (net : NqsState → Net C)
    (hnet : ∀ ops θ, (∀ op ∈ ops, NqsOp.Fits p₀ op) →
      (getParameters.call (nqsRun p₀ ops)).1 = .ok (some (List.ofFn θ)) → net (nqsRun p₀ ops) = ⟨logPsi θ, true⟩)
    (hsmp : ∀ θ st, ∃ w st', smpl.sample st ⟨logPsi θ, true⟩ none = .ok (w, st') ∧ w ≠ [] ∧ SamplesOf (logPsi θ) w ∧
      BornWeights (fun c => Complex.exp (logPsi θ c)) (weighted w)) :
    ExactResults p₀ logPsi (reqs.map fun q => (q.1, q.2.map fun a => O a.1 a.2))
      (searchMeasure K batch zeroCfg smpl h net obs) := by
  intro ops θ st res st' hops hget hm
  obtain ⟨w, st'', hs, hne, hw, hb⟩ := hsmp θ st
  unfold searchMeasure at hm
  rw [hnet ops θ hops hget] at hm
  have hl : LiveHeap (fun o => addedTo o acts) h := hreach ▸ reached_live K batch zeroCfg smpl acts st₀ hn hok
  obtain ⟨res', h1, -, h3⟩ := live_reported K batch zeroCfg smpl _ h hl st ⟨logPsi θ, true⟩ rfl none w st'' hs hw obs
    hnd reqs hreq O hO
  have hres : res = res' := by
    generalize measureAll K batch zeroCfg smpl h st ⟨logPsi θ, true⟩ none obs = x at *
    obtain ⟨a, b, c⟩ := x
    dsimp only at h1
    subst h1
    dsimp only at hm
    exact (Prod.mk.inj (Except.ok.inj hm)).1.symm
  subst hres
  have hψ : ∀ c, Complex.exp (logPsi θ c) ≠ 0 := fun c => Complex.exp_ne_zero _
  rw [List.forall₂_map_left_iff]
  refine h3.imp fun q e hqe => ⟨hqe.1, ?_⟩
  dsimp only
  rw [List.forall₂_map_left_iff]
  refine hqe.2.imp fun a v hv => ⟨?_, fun m hm => ?_⟩
  · intro hv0
    rw [hv0] at hv
    exact hne (List.eq_nil_of_length_eq_zero hv.1.symm)
  · rw [hv.2 m hm, estimate_born _ _ _ hψ hb]

/-- The exact sampler for one spin, one process and one device, with its state `_last_norm`. -/
noncomputable def spinSampler : SamplerObj (Config 1 2) ℝ :=
  ⟨fun ln net _ => (exactSampleWorld 2 1 1 1 (toConfig 1 2) (1 / 2) ln net.val).map fun x => (x.2, x.1), fun _ => none⟩

/-- Case for `c126_measure`: one spin, the amplitude `exp(θ s)`, the exact sampler, and the observables of `maObs`. -/
example : ExactResults (n := 0) (.real [[1]]) (fun θ c => ((θ 0 * (c 0 : ℕ) : ℝ) : ℂ))
    (maReqs.map fun q => (q.1, q.2.map fun a => maO a.1 a.2))
    (searchMeasure (branchFreeClass 1 2 MaVal 1) (fun _ => -1) 0 spinSampler
      (measScript (branchFreeClass 1 2 MaVal 1) (fun _ => -1) 0 spinSampler (fun _ => OpState.new) 0
        [.add false maX, .add true maTX]).2.1
      (fun psi => match (getParameters.call psi).1 with
        | .ok (some v) => ⟨fun c => ((v.headD 0 * (c 0 : ℕ) : ℝ) : ℂ), true⟩
        | _ => ⟨fun _ => 0, true⟩) maObs) := by
  refine c126_measure _ _ _ spinSampler [.add false maX, .add true maTX] 0 ?_ ?_ _ rfl maObs (by decide) maReqs
    ma_requests maO ma_matrices _ _ _ ?_ ?_
  · intro a ha psi n obs he
    subst he
    simp at ha
  · intro r hr
    cases hr
  · intro ops θ _ hget
    rw [hget]
    rfl
  · intro θ ln
    obtain ⟨ln', w, h1, h2, -, h4, h5⟩ := c77_exact_sampler 2 1 1 1 le_rfl one_pos one_pos (by norm_num)
      (fun _ _ _ _ _ => one_dvd _) ln fun c => ((θ 0 * (c 0 : ℕ) : ℝ) : ℂ)
    refine ⟨w, ln', ?_, ?_, h4, h5⟩
    · unfold spinSampler
      dsimp only
      rw [h1]
      rfl
    · rintro rfl
      simp at h2

/-- **C126** with C108: when `measure` is exact and the Hamiltonian `O` is one of the observables, the recorded energies
`E 0, ..., E n` go down from row to row by at least the step size times the squared speed of the state (divided by the
prefactor `x`), up to the error `ε` of the samples of the TDVP object and a term of second order in the step size. -/
theorem c126_energies [Nonempty C] {ε x : ℝ} {kernel : C → List (C × ℂ)} {O : Matrix C C ℂ}
    {logPsi : (Fin (n + 1) → ℝ) → C → ℂ} {env : TdvpEnv n smp} {cfg : TdvpCfg n} {r : ℕ}
    (hset : SearchSetting ε kernel O logPsi env cfg r x)
    (meas : NqsState → smp → Except PyErr (ObsDict × smp)) (numSteps : ℤ) (tol stepSize : ℝ) (hdt : 0 ≤ stepSize)
    (p₀ : Params) (hp₀ : (flattenParams p₀).length = n + 1) (ops : List NqsOp) (hops : ∀ op ∈ ops, op.Fits p₀)
    (hinit : nqsRun p₀ ops ≠ none) (at₀ : TdvpAttrs n) (sm₀ : smp)
    (s : GsState ObsDict (NqsState × TdvpAttrs n × smp))
    (h : groundStateSearch (tdvpApi env cfg r meas) numSteps tol stepSize true cfg.diagonalShift
      (nqsRun p₀ ops, at₀, sm₀) = .ok s)
    (reqs : List (String × List (Matrix C C ℂ))) (hmeas : ExactResults p₀ logPsi reqs meas)
    (hnames : GoodNames (reqs.map Prod.fst)) (key : String) (hkey : (key, [O]) ∈ reqs) (fs : Option H5File)
    (group : HName) (hgroup : GroupPath group.path) :
    ∃ (om : OmState) (E : ℕ → ℝ) (θ u : ℕ → Fin (n + 1) → ℝ),
      groundStateSearchFile (tdvpApi env cfg r meas) numSteps tol stepSize true cfg.diagonalShift
        (nqsRun p₀ ops, at₀, sm₀) (omInit fs group false).2 = .ok ⟨s.n, s.varE, s.delta, s.shift, s.w, om⟩ ∧
      (getParameters.call s.w.1).1 = .ok (some (List.ofFn (θ s.n))) ∧
      rowsAt om.log.now (group.path ++ ["observables", key, "mean"])
        = (List.range (s.n + 1)).map (fun k => NdArr.row (vecArr [E k])) ∧
      (∀ k ≤ s.n, E k = energyAt O logPsi (θ k)) ∧
      (∀ k < s.n, θ (k + 1) = θ k + stepSize • u k) ∧
      ∀ M G Λ V, SearchSmooth O logPsi s.n θ u M G Λ V → ∀ k < s.n,
        E (k + 1) ≤ E k + (stepSize * (-((1 - ε) * speedAt logPsi (θ k) (u k)) / x
            + 2 * ε * (√(speedAt logPsi (θ k) (u k)) * √(varianceAt O logPsi (θ k))))
          + stepSize ^ 2 * energyCurvature M G Λ V) := by
  obtain ⟨om, θ, u, A, h1, h2, -, h4, -, h6, -⟩ := c126_expectations env cfg r meas numSteps tol stepSize p₀ hp₀ ops hops
    hinit at₀ sm₀ s h logPsi reqs hmeas hnames fs group hgroup [] (by simp) (by simp [intended, SameShapes]) group.path rfl
    (by simp [intended])
  refine ⟨om, fun k => energyAt O logPsi (θ k), θ, u, h1, h4, h6 key [O] hkey, fun _ _ => rfl,
    fun k hk => (h2 k hk).1, fun M G Λ V hsm k hk => ?_⟩
  exact c108_each hset hp₀ hdt h2 hsm k hk

/-! ### A case -/

/-- A search of one step with records. -/
theorem tilt_recorded (dt : ℝ) (f : NqsState → ObsDict) : ∃ s : GsState ObsDict (NqsState × TdvpAttrs 0 × Unit),
    groundStateSearch (tdvpApi tiltEnv tiltCfg 0 fun psi _ => .ok (f psi, ())) 1 (1 / 10) dt true tiltCfg.diagonalShift
      (nqsRun (.real [[Real.log 2]]) [.eval], {}, ()) = .ok s ∧ s.n = 1 := by
  obtain ⟨u, at₁, hu, hc, E, hE⟩ := tilt_call ()
  have hinit : nqsRun (.real [[Real.log 2]]) [.eval] ≠ none :=
    (c25_initialised_iff _ _).mpr ⟨.eval, List.mem_singleton_self _, rfl⟩
  obtain ⟨st, hst⟩ := Option.ne_none_iff_exists'.mp hinit
  have hw := wf_run _ _ (by simp [NqsOp.Fits]) st hst
  have hget : (getParameters.call (some st)).1 = .ok (some [Real.log 2]) := by
    rw [← hst]
    rfl
  obtain ⟨q, hq, -, -, hq3⟩ := paramUnflatten_ok st.realParams st.sizes
    (List.ofFn ((fun _ : Fin 1 => Real.log 2) + dt • u)) (by rw [List.length_ofFn, hw.1, hw.2.1]; rfl)
  have hset : (setParameters (.vec (List.ofFn ((fun _ : Fin 1 => Real.log 2) + dt • u)))).call (some st)
      = (.ok (), some { st with params := q }) := by
    rw [call_setVec, hq]
  refine ⟨⟨1, some (9 / 25), some (0.95 * 0), 0.95 * 0, (some { st with params := q }, at₁, ()),
    [(0, f (some st)), (1, f (some { st with params := q }))]⟩, ?_, rfl⟩
  rw [hst] at hc ⊢
  set api := tdvpApi tiltEnv tiltCfg 0 fun psi _ => Except.ok (f psi, ()) with hapi
  have h1 : api.getParams (some st, {}, ()) = .ok fun _ => Real.log 2 := by
    simp only [hapi, tdvpApi, hget]
    rw [dif_pos (by simp)]
    congr 1
    funext i
    rw [Fin.fin_one_eq_zero i]
    rfl
  have h2 : api.rhs 0 (fun _ => Real.log 2) 0 (some st, {}, ()) = .ok (u, (some st, at₁, ())) := by
    simp only [hapi, tdvpApi]
    rw [show ({ tiltCfg with diagonalShift := 0 } : TdvpCfg 0) = tiltCfg from rfl, hc]
  have h3 : api.setParams ((fun _ : Fin 1 => Real.log 2) + dt • u) (some st, at₁, ())
      = .ok (some { st with params := q }, at₁, ()) := by
    simp only [hapi, tdvpApi]
    rw [hset]
  have h4 : api.variance (some { st with params := q }, at₁, ()) = .ok (some (9 / 25)) := by
    simp only [hapi, tdvpApi, hE]
    rfl
  have h5 : gsBody api dt true ⟨0, some 1, some 0, 0, (some st, {}, ()), [(0, f (some st))]⟩
      = .ok ⟨1, some (9 / 25), some (0.95 * 0), 0.95 * 0, (some { st with params := q }, at₁, ()),
        [(0, f (some st)), (1, f (some { st with params := q }))]⟩ := by
    simp only [gsBody, h1, h2, h3, h4, bind, Except.bind, gsMeasure]
    rfl
  change gsLoop api 1 (1 / 10) dt true 1 ⟨0, some 1, some 0, 0, (some st, {}, ()), [(0, f (some st))]⟩ = _
  rw [gsLoop, if_pos (by norm_num [gsCond]), h5]
  simp only [bind, Except.bind]
  rw [gsLoop, if_neg (by norm_num [gsCond])]

/-- The energy, measured exactly. -/
noncomputable def tiltResults (psi : NqsState) : ObsDict :=
  match (getParameters.call psi).1 with
  | .ok (some v) => [("energy", [[⟨energyAt tiltMatrix tiltLog fun _ => v.headD 0, 0, 0⟩]])]
  | _ => []

theorem tilt_exact (p₀ : Params) : ExactResults (n := 0) p₀ tiltLog [("energy", [tiltMatrix])]
    fun psi (_ : Unit) => .ok (tiltResults psi, ()) := by
  intro ops θ sm obs sm' _ hget hm
  obtain rfl : tiltResults (nqsRun p₀ ops) = obs := (Prod.mk.inj (Except.ok.inj hm)).1
  unfold tiltResults
  rw [hget]
  refine .cons ⟨rfl, .cons ⟨by simp, ?_⟩ .nil⟩ .nil
  intro m hm
  rw [List.mem_singleton] at hm
  subst hm
  change energyAt tiltMatrix tiltLog _ = energyAt tiltMatrix tiltLog _
  congr 1
  funext i
  rw [Fin.fin_one_eq_zero i]
  simp

/-- Case for `c126_expectations` and `c126_energies`: one step, recorded in a new file. -/
example : ∃ (om : OmState) (E : ℕ → ℝ) (θ u : ℕ → Fin 1 → ℝ),
    rowsAt om.log.now ["observables", "energy", "mean"] = [NdArr.row (vecArr [E 0]), NdArr.row (vecArr [E 1])] ∧
    E 0 = energyAt tiltMatrix tiltLog (θ 0) ∧ E 1 = energyAt tiltMatrix tiltLog (θ 0 + (1 / 1000 : ℝ) • u 0) := by
  obtain ⟨s, hs, hn⟩ := tilt_recorded (1 / 1000) tiltResults
  obtain ⟨om, E, θ, u, -, -, h3, h4, h5, -⟩ := c126_energies tilt_setting _ 1 (1 / 10) (1 / 1000) (by norm_num) _ rfl [.eval]
    (by simp [NqsOp.Fits]) ((c25_initialised_iff _ _).mpr ⟨.eval, List.mem_singleton_self _, rfl⟩) {} () s hs
    [("energy", [tiltMatrix])] (tilt_exact _) ⟨by simp, by simp, by simp, by simp, by simp⟩ "energy" (by simp) none ["", ""]
    (by intro c hc; simp [HName.path] at hc)
  rw [hn] at h3 h4 h5
  refine ⟨om, E, θ, u, ?_, h4 0 (by omega), ?_⟩
  · simpa [List.range_succ, HName.path] using h3
  · rw [← h5 0 (by omega)]
    exact h4 1 le_rfl

end

end JVMC
