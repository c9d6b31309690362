import Verif.Lemmas.OutputRead

/-!
# Properties of the output files: C52, C53, C54, C55, C73
-/

namespace JVMC

open Spec

/-! ## C52 -/

/-- **C52** (general form): for a new file, after every history of natural calls: no call raises, the
rows of every dataset are exactly the ones the calls were meant to append, in order, and the selected
group is the one of the last `set_group`. -/
theorem c52_rows_partial (fs : Option H5File) (group : HName) (hgroup : GroupPath group.path) (ops : List OmOp)
    (hn : ∀ op ∈ ops, Natural op) (hs : SameShapes (intended group.path ops)) :
    (omInit fs group false).1 = .ok () ∧
    (∀ pre op post, ops = pre ++ op :: post → (omCall (omRun (omInit fs group false).2 pre) op).1 = .ok ()) ∧
    (∀ p, rowsAt (omRun (omInit fs group false).2 ops).log.now p
      = ((intended group.path ops).filter fun w => w.1 = p).map fun w => NdArr.row w.2) ∧
    (omRun (omInit fs group false).2 ops).obj.currentGroup.path = ops.foldl selected group.path := by
  obtain ⟨shape, hshape⟩ := exists_shape _ hs
  obtain ⟨cur, f, past, new, e, cur', f', e2, s2, _, _, r2, _, _, k2⟩ :=
    history_general shape fs group false (declared_new shape) hgroup ops hn hshape
  rw [e]
  refine ⟨rfl, k2, fun p => ?_, ?_⟩
  · rw [e2]
    dsimp only
    rw [r2, show h5Open false fs = H5File.empty from rfl, rowsAt_empty, List.nil_append]
  · rw [e2]
    exact s2

/-- **C52**, crash points: at every moment of a history, also inside a call, what the calls before have
written is there, unchanged, with the same shape, at the beginning of the dataset. -/
theorem c52_intact_partial (fs : Option H5File) (group : HName) (hgroup : GroupPath group.path)
    (pre post : List OmOp) (hn : ∀ op ∈ pre ++ post, Natural op) (hs : SameShapes (intended group.path (pre ++ post))) :
    ∃ moments, (omRun (omInit fs group false).2 (pre ++ post)).log.past
        = moments ++ (omRun (omInit fs group false).2 pre).log.past ∧
      ∀ g ∈ (omRun (omInit fs group false).2 (pre ++ post)).log.now :: moments,
        Intact (omRun (omInit fs group false).2 pre).log.now g := by
  obtain ⟨shape, hshape⟩ := exists_shape _ hs
  have happ : ∀ (pre post : List OmOp) G, intended G (pre ++ post)
      = intended G pre ++ intended (pre.foldl selected G) post := by
    intro pre
    induction pre with
    | nil => intro post G; rfl
    | cons op pre ih =>
      intro post G
      change opRows G op ++ intended _ (pre ++ post) = (opRows G op ++ intended _ pre) ++ _
      rw [ih, List.append_assoc]
      rfl
  have hsel : ∀ (pre : List OmOp) G, GroupPath G → (∀ op ∈ pre, Natural op) → GroupPath (pre.foldl selected G) := by
    intro pre
    induction pre with
    | nil => intro G h _; exact h
    | cons op pre ih =>
      intro G h hn
      refine ih _ ?_ (fun o ho => hn o (by simp [ho]))
      cases op with
      | setGroup g => exact (hn (.setGroup g) (by simp)).2
      | _ => exact h
  rw [happ] at hshape
  have hn1 : ∀ op ∈ pre, Natural op := fun o ho => hn o (List.mem_append_left _ ho)
  obtain ⟨cur, f, past, new, e, cur', f', e2, s2, d2, g2, _, _, _, _⟩ :=
    history_general shape fs group false (declared_new shape) hgroup pre hn1
      (fun w hw => hshape w (List.mem_append_left _ hw))
  obtain ⟨c3, f3, n3, e3, _, _, _, _, i3, j3, _⟩ := run_general (libDecl_prefixFree shape) post cur' f' (new ++ past)
    (fun o ho => hn o (List.mem_append_right _ ho)) d2 g2
    (by
      rw [s2]
      exact intended_fits shape post _ (hsel pre _ hgroup hn1) (fun o ho => hn o (List.mem_append_right _ ho))
        (fun w hw => hshape w (List.mem_append_right _ hw)))
    (fun g hg q hq => libDecl_group shape _ (hn (.setGroup g) (List.mem_append_right _ hg)).2 q hq)
  have e4 : omRun (omInit fs group false).2 (pre ++ post)
      = omRun (omRun (omInit fs group false).2 pre) post := List.foldl_append
  rw [e4, e]
  dsimp only
  rw [e2, e3]
  refine ⟨n3, rfl, ?_⟩
  intro g hg
  rw [List.mem_cons] at hg
  rcases hg with rfl | hg
  · exact i3
  · exact j3 g hg

/-- **C52**: after every history of natural calls, the times and the dataset of every observable of every
group `H` hold exactly what was passed to `write_observables` while `H` was selected, in the order of the
calls. -/
theorem c52_series_partial (fs : Option H5File) (group : HName) (hgroup : GroupPath group.path) (ops : List OmOp)
    (hn : ∀ op ∈ ops, Natural op) (hs : SameShapes (intended group.path ops))
    (hd : ∀ t kw, .writeObservables t kw ∈ ops → DictKeys kw) (H : List String) (hH : GroupPath H) :
    rowsAt (omRun (omInit fs group false).2 ops).log.now (H ++ ["observables", "times"])
      = (obsCalls H group.path ops).map (fun c => NdArr.row (scalarArr c.1)) ∧
    ∀ key name, rowsAt (omRun (omInit fs group false).2 ops).log.now (H ++ ["observables", key, name])
      = (obsCalls H group.path ops).filterMap fun c => (obsValue key name c.2).map NdArr.row := by
  obtain ⟨_, _, h, _⟩ := c52_rows_partial fs group hgroup ops hn hs
  exact ⟨by rw [h, intended_times H hH ops _ hgroup hn],
    fun key name => by rw [h, intended_obs H hH key name ops _ hgroup hn hd]⟩

/-- **C52**: if every call for a group passes the observable, the `i`-th entry of its dataset is the value
passed in the `i`-th call, and the `i`-th time is the time of that call. -/
theorem c52_aligned_partial (fs : Option H5File) (group : HName) (hgroup : GroupPath group.path) (ops : List OmOp)
    (hn : ∀ op ∈ ops, Natural op) (hs : SameShapes (intended group.path ops))
    (hd : ∀ t kw, .writeObservables t kw ∈ ops → DictKeys kw) (H : List String) (hH : GroupPath H)
    (key name : String) (hall : ∀ c ∈ obsCalls H group.path ops, (obsValue key name c.2).isSome)
    (i : ℕ) (t : ℝ) (kw : List (HName × List (HName × PyVal))) (v : NdArr)
    (hi : (obsCalls H group.path ops)[i]? = some (t, kw)) (hv : obsValue key name kw = some v) :
    (rowsAt (omRun (omInit fs group false).2 ops).log.now (H ++ ["observables", "times"]))[i]?
      = some (NdArr.row (scalarArr t)) ∧
    (rowsAt (omRun (omInit fs group false).2 ops).log.now (H ++ ["observables", key, name]))[i]?
      = some (NdArr.row v) := by
  obtain ⟨h1, h2⟩ := c52_series_partial fs group hgroup ops hn hs hd H hH
  rw [h1, h2, filterMap_all _ _ (by simpa using hall), List.getElem?_map, hi]
  simp [hv]

/-- **C52**, several sessions: a file written by a history, opened again with `append=True`: all data is
kept, and the rows of the new history come after the old ones. -/
theorem c52_append_partial (fs : Option H5File) (group group' : HName) (hgroup : GroupPath group.path)
    (hgroup' : GroupPath group'.path) (ops ops' : List OmOp) (hn : ∀ op ∈ ops, Natural op)
    (hn' : ∀ op ∈ ops', Natural op)
    (hs : SameShapes (intended group.path ops ++ intended group'.path ops')) :
    let file := (omRun (omInit fs group false).2 ops).log.now
    let after := omRun (omInit (some file) group' true).2 ops'
    (∀ p, rowsAt after.log.now p = (((intended group.path ops ++ intended group'.path ops').filter
      fun w => w.1 = p).map fun w => NdArr.row w.2)) ∧
    ∀ g ∈ after.log.now :: after.log.past, Intact file g := by
  obtain ⟨shape, hshape⟩ := exists_shape _ hs
  obtain ⟨cur, f, past, new, e, cur', f', e2, s2, d2, g2, r2, _, _, _⟩ :=
    history_general shape fs group false (declared_new shape) hgroup ops hn
      (fun w hw => hshape w (List.mem_append_left _ hw))
  intro file after
  have hfile : file = f' := by
    change (omRun (omInit fs group false).2 ops).log.now = f'
    rw [e]
    dsimp only
    rw [e2]
  obtain ⟨cur, f, past, new, e3, cur'', f'', e4, _, _, _, r4, i4, j4, _⟩ :=
    history_general shape (some file) group' true (by rw [hfile]; exact d2) hgroup' ops' hn'
      (fun w hw => hshape w (List.mem_append_right _ hw))
  have hafter : after = ⟨⟨cur'', true⟩, ⟨f'', new ++ past⟩⟩ := by
    change omRun (omInit (some file) group' true).2 ops' = _
    rw [e3]
    exact e4
  rw [hafter]
  refine ⟨fun p => ?_, ?_⟩
  · dsimp only
    rw [r4, show h5Open true (some file) = file from rfl, hfile, r2, show h5Open false fs = H5File.empty from rfl,
      rowsAt_empty, List.nil_append, List.filter_append, List.map_append]
  · intro g hg
    rw [List.mem_cons] at hg
    rcases hg with rfl | hg
    · exact i4
    · exact j4 g hg

/-- A history for the examples: two groups, observables, metadata and checkpoints. -/
noncomputable def demoOps : List OmOp :=
  [.writeObservables 0 [(["energy"], [(["mean"], some (scalarArr 5)), (["variance"], some ⟨[2], fun i => i.sum⟩)])],
   .setGroup ["run", "a"],
   .writeObservables 1 [(["energy"], [(["mean"], some (scalarArr 6))])],
   .writeMetadata 1 [(["dt"], some (scalarArr 7))],
   .writeCheckpoint 1 (some ⟨[3], fun i => i.sum⟩),
   .setGroup [""],
   .writeCheckpoint 2 (some ⟨[3], fun i => 2 * i.sum⟩),
   .writeCheckpoint 4 (some ⟨[3], fun i => 3 * i.sum⟩),
   .writeObservables 2 [(["energy"], [(["mean"], some (scalarArr 8)), (["variance"], some ⟨[2], fun i => 2 * i.sum⟩)])]]

/-- The hypotheses are met. -/
theorem demo_natural : ∀ op ∈ demoOps, Natural op := by
  intro op hop
  simp only [demoOps, List.mem_cons, List.not_mem_nil, or_false] at hop
  rcases hop with rfl | rfl | rfl | rfl | rfl | rfl | rfl | rfl | rfl <;>
    simp [Natural, Simple, GroupPath, reserved, HName.path] <;>
    (rintro a b (⟨rfl, rfl⟩ | ⟨rfl, rfl⟩) <;> simp)

theorem demo_shapes : SameShapes (intended (HName.path ["", ""]) demoOps) := by
  simp [demoOps, intended, opRows, selected, SameShapes, HName.path, scalarArr]

theorem demo_keys : ∀ t kw, .writeObservables t kw ∈ demoOps → DictKeys kw := by
  intro t kw h
  simp only [demoOps, List.mem_cons, OmOp.writeObservables.injEq, reduceCtorEq, false_or, List.not_mem_nil,
    or_false] at h
  rcases h with ⟨_, rfl⟩ | ⟨_, rfl⟩ | ⟨_, rfl⟩ <;> simp [DictKeys]

/-- The energies of the root group are aligned with their times. -/
example : (rowsAt (omRun (omInit none ["", ""] false).2 demoOps).log.now ["observables", "times"])[1]?
      = some (NdArr.row (scalarArr 2)) ∧
    (rowsAt (omRun (omInit none ["", ""] false).2 demoOps).log.now ["observables", "energy", "mean"])[1]?
      = some (NdArr.row (scalarArr 8)) :=
  c52_aligned_partial none ["", ""] (by simp [GroupPath, HName.path]) demoOps demo_natural demo_shapes demo_keys []
    (by simp [GroupPath]) "energy" "mean"
    (by simp [demoOps, obsCalls, selected, HName.path, obsValue]) 1 2 _ _
    (by simp [demoOps, obsCalls, selected, HName.path]; rfl) rfl

/-- **C52** is violated for observables that are passed for the first time in a later call: the entry 0 of the
dataset belongs to the time 1. -/
theorem c52_late_violated (t₀ t₁ x : ℝ) :
    let s := omRun (omInit none ["", ""] false).2
      [.writeObservables t₀ [], .writeObservables t₁ [(["energy"], [(["mean"], some (scalarArr x))])]]
    (rowsAt s.log.now ["observables", "times"]).map (fun r => r []) = [t₀, t₁] ∧
    (rowsAt s.log.now ["observables", "energy", "mean"]).map (fun r => r []) = [x] := ⟨rfl, rfl⟩

/-- **C52** is violated after an exception: a value without `shape` (a Python float) raises an error, but the
time is in the file already; from then on all entries are off by one. -/
theorem c52_exception_violated (t₀ t₁ x : ℝ) :
    let s₀ := (omInit none ["", ""] false).2
    let op : OmOp := .writeObservables t₀ [(["energy"], [(["mean"], none)])]
    let s := omRun s₀ [op, .writeObservables t₁ [(["energy"], [(["mean"], some (scalarArr x))])]]
    (omCall s₀ op).1 = .error .attributeError ∧
    (rowsAt s.log.now ["observables", "times"]).map (fun r => r []) = [t₀, t₁] ∧
    (rowsAt s.log.now ["observables", "energy", "mean"]).map (fun r => r []) = [x] := ⟨rfl, rfl, rfl⟩

/-- **C52** is violated after a crash in the middle of `write_observables`: at that moment the time is in the
file and the value is not, and after a restart with `append=True` all entries are off by one. -/
theorem c52_crash_violated (t₀ t₁ x y : ℝ) :
    ∃ crashed ∈ (omRun (omInit none ["", ""] false).2
        [.writeObservables t₀ [(["energy"], [(["mean"], some (scalarArr x))])]]).log.past,
      let s := omRun (omInit (some crashed) ["", ""] true).2
        [.writeObservables t₁ [(["energy"], [(["mean"], some (scalarArr y))])]]
      (rowsAt s.log.now ["observables", "times"]).map (fun r => r []) = [t₀, t₁] ∧
      (rowsAt s.log.now ["observables", "energy", "mean"]).map (fun r => r []) = [y] := by
  refine exists_of_getElem? 2 ?_
  change _ ∧ _
  exact ⟨rfl, rfl⟩

set_option maxHeartbeats 2000000 in
/-- **C52** is violated for arrays that become smaller: the entries written before are cut. -/
theorem c52_shape_violated (x y z : ℝ) :
    let s := omRun (omInit none ["", ""] false).2
      [.writeObservables 0 [(["o"], [(["v"], some ⟨[2], fun i => if i = [0] then x else y⟩)])],
       .writeObservables 1 [(["o"], [(["v"], some ⟨[1], fun _ => z⟩)])]]
    (rowsAt (omRun (omInit none ["", ""] false).2
      [.writeObservables 0 [(["o"], [(["v"], some ⟨[2], fun i => if i = [0] then x else y⟩)])]]).log.now
        ["observables", "o", "v"]).map (fun r => r [1]) = [y] ∧
    (rowsAt s.log.now ["observables", "o", "v"]).map (fun r => r [1]) = [0, 0] := ⟨rfl, rfl⟩

/-- **C52** is violated for metadata with the name "times": the value is appended to the times. -/
theorem c52_times_violated (t x : ℝ) :
    let s := omRun (omInit none ["", ""] false).2 [.writeMetadata t [(["times"], some (scalarArr x))]]
    (rowsAt s.log.now ["metadata", "times"]).map (fun r => r []) = [t, x] := rfl

/-! ## C53 -/

/-- The file after a history holds the checkpoints of the selected group. -/
theorem checkpoint_dsets (fs : Option H5File) (group : HName) (hgroup : GroupPath group.path) (ops : List OmOp)
    (hn : ∀ op ∈ ops, Natural op) (hs : SameShapes (intended group.path ops))
    (hne : checkpoints (ops.foldl selected group.path) group.path ops ≠ []) :
    ∃ dT dC, (omRun (omInit fs group false).2 ops).log.now
        ((omRun (omInit fs group false).2 ops).obj.currentGroup.path ++ ["network_checkpoints", "times"])
          = some (.dset dT) ∧
      (omRun (omInit fs group false).2 ops).log.now
        ((omRun (omInit fs group false).2 ops).obj.currentGroup.path ++ ["network_checkpoints", "checkpoints"])
          = some (.dset dC) ∧
      dT.rows.map (fun r => r []) = (checkpoints (ops.foldl selected group.path) group.path ops).map Prod.fst ∧
      dC.rows = (checkpoints (ops.foldl selected group.path) group.path ops).map (fun c => NdArr.row c.2) ∧
      ∀ c ∈ checkpoints (ops.foldl selected group.path) group.path ops, dC.rowShape = c.2.shape := by
  have hH : GroupPath (ops.foldl selected group.path) := groupPath_foldl ops _ hgroup hn
  obtain ⟨shape, hshape⟩ := exists_shape _ hs
  obtain ⟨cur, f, past, new, e, cur', f', e2, s2, d2, _, r2, _, _, _⟩ :=
    history_general shape fs group false (declared_new shape) hgroup ops hn hshape
  rw [e]
  dsimp only
  rw [e2]
  dsimp only
  rw [s2]
  obtain ⟨i1, i2⟩ := intended_checkpoints _ hH ops _ hgroup hn
  have r3 : ∀ q, rowsAt f' q = ((intended group.path ops).filter fun w => w.1 = q).map fun w => NdArr.row w.2 := by
    intro q
    rw [r2, show h5Open false fs = H5File.empty from rfl, rowsAt_empty, List.nil_append]
  obtain ⟨dT, hT, hT'⟩ := dset_of_rows (f := f') (p := ops.foldl selected group.path ++ ["network_checkpoints", "times"])
    (by rw [r3, i1]; simpa using hne)
  obtain ⟨dC, hC, hC'⟩ := dset_of_rows (f := f')
    (p := ops.foldl selected group.path ++ ["network_checkpoints", "checkpoints"]) (by rw [r3, i2]; simpa using hne)
  refine ⟨dT, dC, hT, hC, ?_, ?_, ?_⟩
  · rw [hT', r3, i1, List.map_map]
    apply List.map_congr_left
    intro c _
    exact row_scalar c.1
  · rw [hC', r3, i2]
  · intro c hc
    obtain ⟨w, hw, hw1, hw2⟩ := mem_checkpoints _ ops _ c hc
    rcases d2.obj _ _ hC with ⟨h, _⟩ | ⟨d, h, h2, h3, _⟩
    · cases h
    · cases h
      rw [h3]
      have := hshape w hw
      have hT2 : libDecl shape (ops.foldl selected group.path ++ ["network_checkpoints", "checkpoints"])
          = some (shape (ops.foldl selected group.path ++ ["network_checkpoints", "checkpoints"])) := by
        unfold libDecl
        exact if_pos ⟨_, _, _, hH, rfl, .inr (.inr ⟨rfl, _, rfl⟩)⟩
      rw [hT2] at h2
      rw [← Option.some.inj h2, ← hw1, this, hw2]

/-- **C53**: after every history of natural calls, `get_network_checkpoint(idx=i)` returns the `i`-th
checkpoint written to the selected group (counted from the end if `i` is negative, so the default `-1` is the
last one), with exactly the time, the shape and the entries that were passed. -/
theorem c53_index_partial (fs : Option H5File) (group : HName) (hgroup : GroupPath group.path) (ops : List OmOp)
    (hn : ∀ op ∈ ops, Natural op) (hs : SameShapes (intended group.path ops)) (idx : ℤ) (i : ℕ) (t : ℝ) (w : NdArr)
    (hi : (checkpoints (ops.foldl selected group.path) group.path ops)[i]? = some (t, w))
    (hidx : idx = i ∨ idx = (i : ℤ) - (checkpoints (ops.foldl selected group.path) group.path ops).length)
    (time : ℝ) (htime : time < 0) :
    omGetCheckpoint (omRun (omInit fs group false).2 ops).log.now
      (omRun (omInit fs group false).2 ops).obj.currentGroup time idx = .ok (t, ⟨w.shape, NdArr.row w⟩) := by
  have hlen := (List.getElem?_eq_some_iff.mp hi).1
  have hne : checkpoints (ops.foldl selected group.path) group.path ops ≠ [] := by
    intro h; rw [h] at hi; cases hi
  obtain ⟨dT, dC, hT, hC, h1, h2, h3⟩ := checkpoint_dsets fs group hgroup ops hn hs hne
  rw [getCheckpoint_idx _ _ dT dC hT hC time htime idx, h1, h2]
  have hw := h3 (t, w) (List.mem_of_getElem? hi)
  have key : ∀ {A : Type} (l : List A) (a : A),
      l.length = (checkpoints (ops.foldl selected group.path) group.path ops).length → l[i]? = some a →
      pyIndex l idx = .ok a := by
    intro A l a hl ha
    rcases hidx with rfl | rfl
    · exact pyIndex_nat l i a ha
    · have := pyIndex_neg l (l.length - 1 - i) a (by omega) (by
        rw [show l.length - 1 - (l.length - 1 - i) = i by omega]; exact ha)
      rw [← this]
      congr 1
      omega
  rw [key _ (NdArr.row w) (by simp) (by rw [List.getElem?_map, hi]; rfl),
    key _ t (by simp) (by rw [List.getElem?_map, hi]; rfl), hw]
  rfl

/-- **C53**: the default returns the last checkpoint. -/
theorem c53_last_partial (fs : Option H5File) (group : HName) (hgroup : GroupPath group.path) (ops : List OmOp)
    (hn : ∀ op ∈ ops, Natural op) (hs : SameShapes (intended group.path ops)) (cs : List (ℝ × NdArr)) (t : ℝ)
    (w : NdArr) (hlast : checkpoints (ops.foldl selected group.path) group.path ops = cs ++ [(t, w)]) :
    omGetCheckpoint (omRun (omInit fs group false).2 ops).log.now
      (omRun (omInit fs group false).2 ops).obj.currentGroup (-1) (-1) = .ok (t, ⟨w.shape, NdArr.row w⟩) := by
  refine c53_index_partial fs group hgroup ops hn hs (-1) cs.length t w (by rw [hlast]; simp) (.inr ?_) (-1) (by norm_num)
  rw [hlast, List.length_append, List.length_singleton]
  push_cast
  ring

/-- **C53**: with `time=t`, `t ≥ 0`, the returned checkpoint is one of the written ones, complete, and no
other one is closer to `t`; of several closest ones it is the first. -/
theorem c53_time_partial (fs : Option H5File) (group : HName) (hgroup : GroupPath group.path) (ops : List OmOp)
    (hn : ∀ op ∈ ops, Natural op) (hs : SameShapes (intended group.path ops))
    (hne : checkpoints (ops.foldl selected group.path) group.path ops ≠ []) (time : ℝ) (htime : 0 ≤ time) (idx : ℤ) :
    ∃ (i : ℕ) (t : ℝ) (w : NdArr), (checkpoints (ops.foldl selected group.path) group.path ops)[i]? = some (t, w) ∧
      omGetCheckpoint (omRun (omInit fs group false).2 ops).log.now
        (omRun (omInit fs group false).2 ops).obj.currentGroup time idx = .ok (t, ⟨w.shape, NdArr.row w⟩) ∧
      (∀ c ∈ checkpoints (ops.foldl selected group.path) group.path ops, |t - time| ≤ |c.1 - time|) ∧
      ∀ (k : ℕ) (c : ℝ × NdArr), k < i → (checkpoints (ops.foldl selected group.path) group.path ops)[k]? = some c →
        |t - time| < |c.1 - time| := by
  obtain ⟨dT, dC, hT, hC, h1, h2, h3⟩ := checkpoint_dsets fs group hgroup ops hn hs hne
  obtain ⟨j, m, e1, e2, e3, e4⟩ := argMin_spec
    (((checkpoints (ops.foldl selected group.path) group.path ops).map Prod.fst).map fun x => |x - time|)
    (by simpa using hne)
  rw [getCheckpoint_time _ _ dT dC hT hC time htime idx j (by rw [h1]; exact e1), h1, h2]
  rw [List.map_map, List.getElem?_map, Option.map_eq_some_iff] at e2
  obtain ⟨⟨t, w⟩, hj, rfl⟩ := e2
  refine ⟨j, t, w, hj, ?_, ?_, ?_⟩
  · rw [pyIndex_nat _ j (NdArr.row w) (by rw [List.getElem?_map, hj]; rfl),
      pyIndex_nat _ j t (by rw [List.getElem?_map, hj]; rfl), h3 (t, w) (List.mem_of_getElem? hj)]
    rfl
  · intro c hc
    exact e3 _ (List.mem_map.mpr ⟨c.1, List.mem_map.mpr ⟨c, hc, rfl⟩, rfl⟩)
  · intro k c hk hc
    exact e4 k _ hk (by rw [List.getElem?_map, List.getElem?_map, hc]; rfl)

/-- **C53**, crash points: whatever happens afterwards (natural calls, a crash in the middle of a call), at
every moment `idx=i` still returns the `i`-th checkpoint of the ones that were completely written. -/
theorem c53_crash_partial (fs : Option H5File) (group : HName) (hgroup : GroupPath group.path)
    (pre post : List OmOp) (hn : ∀ op ∈ pre ++ post, Natural op) (hs : SameShapes (intended group.path (pre ++ post)))
    (i : ℕ) (t : ℝ) (w : NdArr)
    (hi : (checkpoints (pre.foldl selected group.path) group.path pre)[i]? = some (t, w))
    (time : ℝ) (htime : time < 0) :
    ∃ moments, (omRun (omInit fs group false).2 (pre ++ post)).log.past
        = moments ++ (omRun (omInit fs group false).2 pre).log.past ∧
      ∀ g ∈ (omRun (omInit fs group false).2 (pre ++ post)).log.now :: moments,
        omGetCheckpoint g (omRun (omInit fs group false).2 pre).obj.currentGroup time i
          = .ok (t, ⟨w.shape, NdArr.row w⟩) := by
  obtain ⟨moments, h1, h2⟩ := c52_intact_partial fs group hgroup pre post hn hs
  have hne : checkpoints (pre.foldl selected group.path) group.path pre ≠ [] := by
    intro h; rw [h] at hi; cases hi
  obtain ⟨dT, dC, hT, hC, e1, e2, e3⟩ := checkpoint_dsets fs group hgroup pre
    (fun o ho => hn o (List.mem_append_left _ ho))
    (sameShapes_left group.path pre post hs) hne
  refine ⟨moments, h1, fun g hg => ?_⟩
  obtain ⟨dT', hT', _, pT⟩ := h2 g hg _ _ hT
  obtain ⟨dC', hC', sC, pC⟩ := h2 g hg _ _ hC
  rw [getCheckpoint_idx g _ dT' dC' hT' hC' time htime]
  have k1 : dC'.rows[i]? = some (NdArr.row w) := by
    refine getElem?_of_prefix pC ?_
    rw [e2, List.getElem?_map, hi]; rfl
  have k2 : (dT'.rows.map fun r => r [])[i]? = some t := by
    refine getElem?_of_prefix (pT.map _) ?_
    rw [e1, List.getElem?_map, hi]; rfl
  rw [pyIndex_nat _ i _ k1, pyIndex_nat _ i _ k2, sC, e3 (t, w) (List.mem_of_getElem? hi)]
  rfl

/-- The hypotheses are met: the last checkpoint of the root group, and one in a crash. -/
example : omGetCheckpoint (omRun (omInit none ["", ""] false).2 demoOps).log.now
      (omRun (omInit none ["", ""] false).2 demoOps).obj.currentGroup (-1) (-1)
    = .ok (4, ⟨[3], NdArr.row ⟨[3], fun i => 3 * i.sum⟩⟩) :=
  c53_last_partial none ["", ""] (by simp [GroupPath, HName.path]) demoOps demo_natural demo_shapes
    [(2, ⟨[3], fun i => 2 * i.sum⟩)] 4 _ (by simp [demoOps, checkpoints, selected, HName.path]; rfl)

/-- **C53** is violated by crashes: there is a moment in the second `write_network_checkpoint` at which the file
holds the new time but not the new weights; the default then returns the new time with the old weights. -/
theorem c53_crash_violated (t₀ t₁ x y : ℝ) :
    ∃ crashed ∈ (omRun (omInit none ["", ""] false).2
        [.writeCheckpoint t₀ (some ⟨[1], fun _ => x⟩), .writeCheckpoint t₁ (some ⟨[1], fun _ => y⟩)]).log.past,
      ∃ w, omGetCheckpoint crashed ["", ""] (-1) (-1) = .ok (t₁, w) ∧ w.shape = [1] ∧ w.val [0] = x := by
  refine ⟨((omRun (omInit none ["", ""] false).2
    [.writeCheckpoint t₀ (some ⟨[1], fun _ => x⟩), .writeCheckpoint t₁ (some ⟨[1], fun _ => y⟩)]).log.past)[1]'(by
      change 1 < 11; norm_num), List.getElem_mem _, ?_⟩
  rw [getCheckpoint_idx _ _ ⟨[], [], [_, _]⟩ ⟨[1], [1], [_]⟩ rfl rfl (-1) (by norm_num)]
  exact ⟨_, rfl, rfl, rfl⟩

/-- **C53** is violated for good after such a crash: with later checkpoints, every index returns the weights
of another time. -/
theorem c53_after_crash_violated (t₀ t₁ x y : ℝ) :
    ∃ crashed ∈ (omRun (omInit none ["", ""] false).2 [.writeCheckpoint t₀ (some ⟨[1], fun _ => x⟩)]).log.past,
      ∃ w, omGetCheckpoint (omRun (omInit (some crashed) ["", ""] true).2
        [.writeCheckpoint t₁ (some ⟨[1], fun _ => y⟩)]).log.now ["", ""] (-1) 0 = .ok (t₀, w) ∧
        w.shape = [1] ∧ w.val [0] = y := by
  refine ⟨((omRun (omInit none ["", ""] false).2
    [.writeCheckpoint t₀ (some ⟨[1], fun _ => x⟩)]).log.past)[2]'(by
      change 2 < 7; norm_num), List.getElem_mem _, ?_⟩
  rw [getCheckpoint_idx _ _ ⟨[], [], [_, _]⟩ ⟨[1], [1], [_]⟩ rfl rfl (-1) (by norm_num)]
  exact ⟨_, rfl, rfl, rfl⟩

/-- **C53** is violated for negative times: they are ignored, and the last checkpoint is returned although
another one is closer (here: the time itself was written). -/
theorem c53_negative_violated (x y : ℝ) :
    ∃ w, omGetCheckpoint (omRun (omInit none ["", ""] false).2
        [.writeCheckpoint (-2) (some ⟨[1], fun _ => x⟩), .writeCheckpoint 5 (some ⟨[1], fun _ => y⟩)]).log.now
      ["", ""] (-2) (-1) = .ok (5, w) ∧ w.shape = [1] ∧ w.val [0] = y := by
  rw [getCheckpoint_idx _ _ ⟨[], [], [_, _]⟩ ⟨[1], [1], [_, _]⟩ rfl rfl (-2) (by norm_num)]
  exact ⟨_, rfl, rfl, rfl⟩

/-! ## C54 -/

/-- **C54**: whatever is passed to the write methods, and even if they raise or crash in the middle, they
change nothing outside of the selected group. -/
theorem c54_only_inside (s : OmState) (hs : ∀ q, q <+: s.obj.currentGroup.path → s.log.now q = some .group) (op : OmOp)
    (hop : (∃ t kw, op = .writeObservables t kw) ∨ (∃ t kw, op = .writeMetadata t kw) ∨
      ∃ t w, op = .writeCheckpoint t w) :
    ∃ moments, (omCall s op).2.log.past = moments ++ s.log.past ∧
      ∀ f ∈ (omCall s op).2.log.now :: moments, ∀ q,
        ¬ (s.obj.currentGroup.path <+: q ∧ q ≠ s.obj.currentGroup.path) → f q = s.log.now q := by
  rcases hop with ⟨t, kw, rfl⟩ | ⟨t, kw, rfl⟩ | ⟨t, w, rfl⟩
  · exact inside_observables s.obj.currentGroup t kw s.log hs
  · exact inside_metadata s.obj.currentGroup t kw s.log hs
  · exact inside_checkpoint s.obj.currentGroup t w s.log hs

/-- **C54**: after a natural history `pre`, `set_group(g)` and further writes `ws`, all rows of `ws` are in
the group `g`, after the rows that were there, and every other dataset is as before. -/
theorem c54_selected_partial (fs : Option H5File) (group : HName) (hgroup : GroupPath group.path)
    (pre ws : List OmOp) (g : HName) (hn : ∀ op ∈ pre ++ .setGroup g :: ws, Natural op)
    (hs : SameShapes (intended group.path (pre ++ .setGroup g :: ws))) (hws : ∀ h, .setGroup h ∉ ws) (p : List String) :
    rowsAt (omRun (omInit fs group false).2 (pre ++ .setGroup g :: ws)).log.now p
      = rowsAt (omRun (omInit fs group false).2 pre).log.now p
        ++ (((ws.flatMap (opRows g.path)).filter fun w => w.1 = p).map fun w => NdArr.row w.2) ∧
    ∀ w ∈ ws.flatMap (opRows g.path), g.path <+: w.1 := by
  obtain ⟨_, _, h1, _⟩ := c52_rows_partial fs group hgroup _ hn hs
  obtain ⟨_, _, h2, _⟩ := c52_rows_partial fs group hgroup pre (fun o ho => hn o (List.mem_append_left _ ho))
    (sameShapes_left _ _ _ hs)
  refine ⟨?_, ?_⟩
  · rw [h1, h2, intended_append, List.filter_append, List.map_append]
    congr 3
    change [] ++ intended g.path ws = _
    rw [List.nil_append, intended_writes ws g.path hws]
  · intro w hw
    obtain ⟨op, _, hw⟩ := List.mem_flatMap.mp hw
    exact opRows_inside g.path op w hw

/-- The hypotheses are met: part of the example history. -/
example (p : List String) : rowsAt (omRun (omInit none ["", ""] false).2
      ([] ++ .setGroup ["run", "a"] :: [.writeObservables 1 [(["energy"], [(["mean"], some (scalarArr 6))])]])).log.now p
    = rowsAt (omRun (omInit none ["", ""] false).2 []).log.now p ++
      ((([.writeObservables 1 [(["energy"], [(["mean"], some (scalarArr 6))])]].flatMap
        (opRows (HName.path ["run", "a"]))).filter fun w => w.1 = p).map fun w => NdArr.row w.2) :=
  (c54_selected_partial none ["", ""] (by simp [GroupPath, HName.path]) [] _ ["run", "a"]
    (by simp [Natural, Simple, GroupPath, reserved, HName.path])
    (by simp [intended, opRows, selected, SameShapes, HName.path, scalarArr]) (by simp) p).1

/-- **C54** is violated for the root group: after `set_group("/")` the writes still go to the group before. -/
theorem c54_root_violated (t : ℝ) :
    let s := omRun (omInit none ["", ""] false).2 [.setGroup ["a"], .setGroup ["", ""], .writeObservables t []]
    (rowsAt s.log.now ["a", "observables", "times"]).map (fun r => r []) = [t] ∧
    s.log.now ["observables", "times"] = none := ⟨rfl, rfl⟩

/-- **C54** is violated by `write_dataset` and `write_error_data`: they write to the root group, whatever
group is selected. -/
theorem c54_dataset_violated (a : NdArr) :
    let s := omRun (omInit none ["", ""] false).2
      [.setGroup ["a"], .writeDataset ["x"] (some a) ["", ""], .writeError ["y"] a]
    s.log.now ["x"] = some (.fixed a) ∧ s.log.now ["error_data", "y"] = some (.fixed a) ∧
    s.log.now ["a", "x"] = none ∧ s.log.now ["a", "error_data", "y"] = none := ⟨rfl, rfl, rfl, rfl⟩

/-! ## C55 -/

/-- **C55**: if starts and stops alternate, the total of a timer is the time between matching starts and
stops plus the added times. -/
theorem c55_total_partial (ops : List TimerOp) (name : String) (h : Matching name false ops) :
    (timerOf name (timerRun ops).1).total = timeSpent name none ops := by
  have := timer_total name ops false ([], []) h
  simpa [timerRun, timerOf] using this

/-- **C55**: for every history, the values printed for a timer up to and including a `print_timings` call add
up to its total at that time. -/
theorem c55_printed (ops : List TimerOp) (name : String) :
    ((((timerRun (ops ++ [.print])).2.filter fun e => e.1 = name).map Prod.snd).sum)
      = (timerOf name (timerRun ops).1).total := by
  obtain ⟨h1, h2⟩ := timer_printed name ops ([], []) (by simp) (by simp [timerOf])
  unfold timerRun
  rw [List.foldl_append]
  change (((((List.foldl timerStep ([], []) ops).2 ++ (printTimings _).1).filter fun e => e.1 = name).map Prod.snd).sum) = _
  rw [List.filter_append, List.map_append, List.sum_append, h2, printed_sum name _ h1]
  ring

/-- **C55**: the number of measurements. -/
theorem c55_count (ops : List TimerOp) (name : String) :
    (timerOf name (timerRun ops).1).count = ops.countP fun o => match o with
      | .stop n _ => decide (n = name)
      | .add n _ => decide (n = name)
      | _ => false := by
  unfold timerRun
  rw [timer_count name ops ([], [])]
  exact Nat.zero_add _

/-- The hypotheses are met. -/
example : (timerOf "step" (timerRun [.start "step" 3, .start "io" 4, .add "step" 10, .stop "step" 8, .print,
    .start "step" 20, .stop "io" 21, .stop "step" 22]).1).total = 17 := by
  rw [c55_total_partial _ _ (by simp [Matching])]
  have h : ("io" = "step") = False := by simp
  simp only [timeSpent, h, if_true, if_false]
  norm_num

/-- **C55** is violated for a stop without a start: it counts the value of the clock. -/
theorem c55_stop_violated (c : ℝ) : (timerOf "a" (timerRun [.stop "a" c]).1).total = c ∧
    timeSpent "a" none [.stop "a" c] = 0 := by
  constructor
  · have : (timerOf "a" (timerRun [.stop "a" c]).1).total = 0 + (c - 0) := rfl
    rw [this]; ring
  · simp [timeSpent]

/-- **C55** is violated for two stops after one start: the time before the first stop counts twice. -/
theorem c55_double_violated (a b c : ℝ) :
    (timerOf "a" (timerRun [.start "a" a, .stop "a" b, .stop "a" c]).1).total = (b - a) + (c - a) ∧
    timeSpent "a" none [.start "a" a, .stop "a" b, .stop "a" c] = b - a := by
  constructor
  · have : (timerOf "a" (timerRun [.start "a" a, .stop "a" b, .stop "a" c]).1).total = 0 + (b - a) + (c - a) := rfl
    rw [this]; ring
  · simp [timeSpent]

/-! ## C73 -/

/-- **C73**: with `append=True` no object of an existing file is changed by the constructor. -/
theorem c73_append (f : H5File) (group : HName) :
    ∀ g ∈ (omInit (some f) group true).2.log.now :: (omInit (some f) group true).2.log.past, ∀ q o,
      f q = some o → g q = some o := by
  obtain ⟨new, h1, h2⟩ := addsOnly_ensure (omSelect ["", ""] group) ⟨f, []⟩
  intro g hg
  have e : (omInit (some f) group true).2.log.past = new ++ [] := h1
  rw [e, List.append_nil] at hg
  exact h2 g hg

/-- **C73**: with `append=False` nothing of an existing file remains: there are only groups, on the way to
the selected one. -/
theorem c73_new (fs : Option H5File) (group : HName) (q : List String) (o : H5Obj)
    (h : (omInit fs group false).2.log.now q = some o) : o = .group ∧ q <+: group.path := by
  have hcur : HName.path (omSelect ["", ""] group) = group.path := by
    unfold omSelect
    split_ifs with h
    · exact path_cons_empty group
    · rw [not_not.mp h]
  have key : ∀ q o, H5File.empty q = some o → o = .group ∧ q <+: group.path := by
    intro q o h
    unfold H5File.empty at h
    split_ifs at h with h0
    exact ⟨(Option.some.inj h).symm, by rw [h0]; exact List.nil_prefix⟩
  unfold omInit omEnsureGroup at h
  dsimp only at h
  rw [show h5Open false fs = H5File.empty from rfl,
    h5_bind_ok _ _ _ _ _ (call_in H5File.empty (omSelect ["", ""] group) [] rfl [])] at h
  split_ifs at h with h1
  · unfold h5CreateGroup h5Create at h
    rw [h5_bind_ok _ _ _ _ _ (call_h5File _)] at h
    dsimp only at h
    split_ifs at h with h2
    · exact key q o h
    · change Function.update (h5Groups H5File.empty _) _ _ q = some o at h
      rw [hcur] at h
      by_cases hq : q = group.path
      · rw [hq, Function.update_self] at h
        exact ⟨(Option.some.inj h).symm, by rw [hq]⟩
      · rw [Function.update_of_ne hq] at h
        unfold h5Groups at h
        split_ifs at h with h3
        · exact ⟨(Option.some.inj h).symm, h3.1⟩
        · exact key q o h
  · exact key q o h

/-- **C73**: `write_dataset` and `write_error_data` never change an object that is in the file, at no
moment; if they return, the array is stored under its name, which was not in use. -/
theorem c73_dataset (s : OmState) (op : OmOp) (p : List String) (a : NdArr)
    (hop : (∃ name group, op = .writeDataset name (some a) group ∧ p = group.path ++ name.path) ∨
      ∃ name, op = .writeError name a ∧ p = "error_data" :: name.path) :
    (∃ moments, (omCall s op).2.log.past = moments ++ s.log.past ∧
      ∀ f ∈ (omCall s op).2.log.now :: moments, ∀ q o, s.log.now q = some o → f q = some o) ∧
    ((omCall s op).1 = .ok () → (omCall s op).2.log.now p = some (.fixed a) ∧ s.log.now p = none) := by
  have hadd : AddsOnly (op.code (op.group s.obj.currentGroup)) := by
    rcases hop with ⟨name, group, rfl, _⟩ | ⟨name, rfl, _⟩
    · exact addsOnly_dataset _ _ _
    · exact addsOnly_error _ _
  refine ⟨hadd s.log, fun hok => ?_⟩
  have hcall : (op.code (op.group s.obj.currentGroup)).call s.log = (.ok (), (omCall s op).2.log) :=
    Prod.ext hok rfl
  rcases hop with ⟨name, group, rfl, rfl⟩ | ⟨name, rfl, rfl⟩
  · obtain ⟨l, hl, hk⟩ := dataset_ok name a group _ _ hcall
    obtain ⟨h1, h2⟩ := create_ok _ _ _ _ hl
    have e : HName.path ("" :: group ++ name) = group.path ++ name.path := path_append ("" :: group) name
    rw [e] at h1 h2
    refine ⟨h1, ?_⟩
    by_contra hc
    obtain ⟨o, ho⟩ := Option.ne_none_iff_exists'.mp hc
    rw [hk _ _ ho] at h2
    cases h2
  · obtain ⟨l, hl, hk⟩ := error_ok name a _ _ hcall
    obtain ⟨h1, h2⟩ := create_ok _ _ _ _ hl
    refine ⟨h1, ?_⟩
    by_contra hc
    obtain ⟨o, ho⟩ := Option.ne_none_iff_exists'.mp hc
    have := hk _ _ ho
    rw [show HName.path (["", "error_data"] ++ name) = "error_data" :: name.path from rfl] at h2
    rw [this] at h2
    cases h2

/-- The hypotheses are met: both writes return, a second one under the same name does not. -/
example (a b : NdArr) :
    let s := omRun (omInit none ["", ""] false).2 [.writeDataset ["x"] (some a) ["run"], .writeError ["x"] a]
    s.log.now ["run", "x"] = some (.fixed a) ∧ s.log.now ["error_data", "x"] = some (.fixed a) ∧
    (omCall s (.writeDataset ["x"] (some b) ["run"])).1 = .error .valueError ∧
    (omCall s (.writeDataset ["y"] (some b) ["run"])).1 = .ok () := ⟨rfl, rfl, rfl, rfl⟩

end JVMC
