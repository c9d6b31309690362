import Mathlib.Tactic.Ring
import Mathlib.Tactic.NormNum
import Mathlib.Tactic.Linarith
import Verif.Lemmas.OutputHistory

/-!
# Lemmas about reading checkpoints, new objects and timings
-/

namespace JVMC

open Spec

/-! ## Indexing -/

theorem pyIndex_nat {A : Type} (l : List A) (i : ℕ) (a : A) (h : l[i]? = some a) : pyIndex l (i : ℤ) = .ok a := by
  unfold pyIndex
  dsimp only
  rw [if_neg (by omega : ¬ ((i : ℤ) < 0)), if_neg (by omega), Int.toNat_natCast, h]

theorem pyIndex_neg {A : Type} (l : List A) (i : ℕ) (a : A) (hi : i < l.length) (h : l[l.length - 1 - i]? = some a) :
    pyIndex l (-((i : ℤ) + 1)) = .ok a := by
  unfold pyIndex
  dsimp only
  rw [if_pos (by omega : -((i : ℤ) + 1) < 0), if_neg (by omega),
    show (-((i : ℤ) + 1) + (l.length : ℤ)).toNat = l.length - 1 - i by omega, h]

theorem pyIndex_out {A : Type} (l : List A) (i : ℤ) (h : i < -(l.length : ℤ) ∨ (l.length : ℤ) ≤ i) :
    pyIndex l i = .error .indexError := by
  unfold pyIndex
  dsimp only
  by_cases h0 : i < 0
  · rw [if_pos h0, if_pos (by omega)]
  · rw [if_neg h0, if_neg (by omega), List.getElem?_eq_none (by omega)]

theorem argMin_spec : ∀ l : List ℝ, l ≠ [] → ∃ (j : ℕ) (m : ℝ), argMin l = .ok j ∧ l[j]? = some m ∧
    (∀ x ∈ l, m ≤ x) ∧ ∀ (k : ℕ) (x : ℝ), k < j → l[k]? = some x → m < x
  | [], h => absurd rfl h
  | [x], _ => ⟨0, x, rfl, rfl, by simp, by simp⟩
  | x :: y :: ys, _ => by
    obtain ⟨j, m, h1, h2, h3, h4⟩ := argMin_spec (y :: ys) (by simp)
    have hg : (y :: ys).getD j 0 = m := by rw [List.getD_eq_getElem?_getD, h2]; rfl
    have e : argMin (x :: y :: ys) = .ok (if m < x then j + 1 else 0) := by
      rw [argMin, h1]
      change Except.ok _ = _
      rw [hg]
    rw [e]
    by_cases hm : m < x
    · rw [if_pos hm]
      refine ⟨j + 1, m, rfl, by simpa using h2, ?_, ?_⟩
      · intro z hz
        rw [List.mem_cons] at hz
        rcases hz with rfl | hz
        · exact hm.le
        · exact h3 z hz
      · intro k z hk hz
        cases k with
        | zero => simp only [List.getElem?_cons_zero, Option.some.injEq] at hz; rw [← hz]; exact hm
        | succ k => exact h4 k z (by omega) (by simpa using hz)
    · rw [if_neg hm]
      refine ⟨0, x, rfl, rfl, ?_, by simp⟩
      intro z hz
      rw [List.mem_cons] at hz
      rcases hz with rfl | hz
      · exact le_rfl
      · exact (not_lt.mp hm).trans (h3 z hz)

/-! ## Reading -/

theorem getCheckpoint_idx (f : H5File) (cur : HName) (dT dC : H5Dset)
    (hT : f (cur.path ++ ["network_checkpoints", "times"]) = some (.dset dT))
    (hC : f (cur.path ++ ["network_checkpoints", "checkpoints"]) = some (.dset dC)) (time : ℝ) (htime : time < 0)
    (idx : ℤ) : omGetCheckpoint f cur time idx = (do
      let w ← pyIndex dC.rows idx
      let t ← pyIndex (dT.rows.map fun r => r []) idx
      return (t, ⟨dC.rowShape, w⟩)) := by
  unfold omGetCheckpoint h5Rows
  have e1 : HName.path (cur ++ ["network_checkpoints"] ++ ["times"]) = cur.path ++ ["network_checkpoints", "times"] := by
    rw [List.append_assoc, path_append]; rfl
  have e2 : HName.path (cur ++ ["network_checkpoints"] ++ ["checkpoints"])
      = cur.path ++ ["network_checkpoints", "checkpoints"] := by
    rw [List.append_assoc, path_append]; rfl
  rw [e1, e2, hT, hC]
  change (if time ≥ 0 then _ else _) = _
  rw [if_neg (by simpa using htime)]
  rfl

theorem getCheckpoint_time (f : H5File) (cur : HName) (dT dC : H5Dset)
    (hT : f (cur.path ++ ["network_checkpoints", "times"]) = some (.dset dT))
    (hC : f (cur.path ++ ["network_checkpoints", "checkpoints"]) = some (.dset dC)) (time : ℝ) (htime : 0 ≤ time)
    (idx : ℤ) (j : ℕ) (hj : argMin ((dT.rows.map fun r => r []).map fun x => |x - time|) = .ok j) :
    omGetCheckpoint f cur time idx = (do
      let w ← pyIndex dC.rows (j : ℤ)
      let t ← pyIndex (dT.rows.map fun r => r []) (j : ℤ)
      return (t, ⟨dC.rowShape, w⟩)) := by
  unfold omGetCheckpoint h5Rows
  have e1 : HName.path (cur ++ ["network_checkpoints"] ++ ["times"]) = cur.path ++ ["network_checkpoints", "times"] := by
    rw [List.append_assoc, path_append]; rfl
  have e2 : HName.path (cur ++ ["network_checkpoints"] ++ ["checkpoints"])
      = cur.path ++ ["network_checkpoints", "checkpoints"] := by
    rw [List.append_assoc, path_append]; rfl
  rw [e1, e2, hT, hC]
  change (if time ≥ 0 then _ else _) = _
  rw [if_pos htime]
  change Except.bind (Except.bind (argMin ((dT.rows.map fun r => r []).map fun x => |x - time|)) _) _ = _
  rw [hj]
  rfl

theorem row_scalar (t : ℝ) : NdArr.row (scalarArr t) [] = t := by
  unfold NdArr.row clip scalarArr
  rw [if_pos List.Forall₂.nil]

theorem row_row (a : NdArr) : NdArr.row ⟨a.shape, NdArr.row a⟩ = NdArr.row a := clip_clip _ _

/-- Nonempty rows mean that there is a dataset. -/
theorem dset_of_rows {f : H5File} {p : List String} (h : rowsAt f p ≠ []) : ∃ d, f p = some (.dset d) ∧ d.rows = rowsAt f p := by
  unfold rowsAt at h ⊢
  split at h
  · next d hd => exact ⟨d, hd, rfl⟩
  · exact absurd rfl h

/-! ## New objects -/

/-- Whatever happens, the code changes no object that is in the file, at no moment. -/
def AddsOnly {A : Type} (m : H5M A) : Prop := ∀ l : H5Log, ∃ new, (m.call l).2.past = new ++ l.past ∧
  ∀ f ∈ (m.call l).2.now :: new, ∀ q o, l.now q = some o → f q = some o

theorem AddsOnly.bind {A B : Type} {m : H5M A} {k : A → H5M B} (hm : AddsOnly m) (hk : ∀ a, AddsOnly (k a)) :
    AddsOnly (m >>= k) := by
  intro l
  obtain ⟨new, hp, hf⟩ := hm l
  rw [h5_bind]
  cases hc : m.call l with
  | mk a s =>
    rw [hc] at hp hf
    cases a with
    | error e => exact ⟨new, hp, hf⟩
    | ok a =>
      obtain ⟨new', hp', hf'⟩ := hk a s
      dsimp only at hp hf ⊢
      refine ⟨new' ++ new, by rw [hp', hp, List.append_assoc], ?_⟩
      intro f hfm q o hq
      rw [← List.cons_append, List.mem_append] at hfm
      rcases hfm with h | h
      · exact hf' f h q o (hf s.now (by simp) q o hq)
      · exact hf f (by simp [h]) q o hq

theorem addsOnly_pure {A : Type} (a : A) : AddsOnly (pure a : H5M A) := fun _ => ⟨[], rfl, by simp [h5_pure]⟩

theorem addsOnly_throw {A : Type} (e : PyErr) : AddsOnly (throw e : H5M A) := fun _ => ⟨[], rfl, by simp [h5_throw]⟩

theorem addsOnly_in (name group : HName) : AddsOnly (h5In name group) := by
  unfold h5In
  refine AddsOnly.bind (fun l => ⟨[], rfl, by simp [call_h5File]⟩) fun f => ?_
  split
  · exact addsOnly_throw _
  · exact addsOnly_pure _
  · exact addsOnly_throw _

theorem groups_keep (f : H5File) (p : List String) (o : H5Obj) (hp : f p = none) (q : List String) (o' : H5Obj)
    (hq : f q = some o') : Function.update (h5Groups f p) p (some o) q = some o' := by
  have hqp : q ≠ p := by rintro rfl; rw [hp] at hq; cases hq
  rw [Function.update_of_ne hqp]
  unfold h5Groups
  rw [if_neg (by rw [hq]; simp), hq]

theorem addsOnly_create (name : HName) (o : H5Obj) : AddsOnly (h5Create name o) := by
  intro l
  unfold h5Create
  rw [h5_bind_ok _ _ _ _ _ (call_h5File l)]
  dsimp only
  split_ifs with h
  · exact ⟨[], rfl, by simp [h5_throw]⟩
  · refine ⟨[l.now], rfl, ?_⟩
    intro f hf q o' hq
    rw [List.mem_cons, List.mem_singleton] at hf
    rcases hf with rfl | rfl
    · rw [Bool.or_eq_true, not_or] at h
      exact groups_keep _ _ _ (by simpa using h.1) q o' hq
    · exact hq

theorem addsOnly_shape (v : PyVal) : AddsOnly (valShape v) := by
  unfold valShape
  split
  · exact addsOnly_throw _
  · exact addsOnly_pure _

theorem addsOnly_ite {A : Type} (c : Prop) [Decidable c] {a b : H5M A} (ha : AddsOnly a) (hb : AddsOnly b) :
    AddsOnly (if c then a else b) := by
  split_ifs
  · exact ha
  · exact hb

theorem addsOnly_ensure (cur : HName) : AddsOnly (omEnsureGroup cur) := by
  unfold omEnsureGroup
  exact AddsOnly.bind (addsOnly_in _ _) fun b => addsOnly_ite _ (addsOnly_create _ _) (addsOnly_pure _)

theorem addsOnly_error (name : HName) (a : NdArr) : AddsOnly (omWriteError name a) := by
  unfold omWriteError
  refine AddsOnly.bind (addsOnly_in _ _) fun b => ?_
  split_ifs
  · exact AddsOnly.bind (addsOnly_create _ _) fun _ => addsOnly_create _ _
  · exact addsOnly_create _ _

theorem addsOnly_dataset (name : HName) (a : PyVal) (g : HName) : AddsOnly (omWriteDataset name a g) := by
  unfold omWriteDataset
  have hrest : AddsOnly (do let a ← valShape a; h5CreateFixed ("" :: g ++ name) a : H5M Unit) :=
    AddsOnly.bind (addsOnly_shape _) fun _ => addsOnly_create _ _
  split_ifs
  · refine AddsOnly.bind (addsOnly_in _ _) fun b => ?_
    split_ifs
    · exact AddsOnly.bind (addsOnly_create _ _) fun _ => hrest
    · exact hrest
  · exact hrest

/-- A successful creation. -/
theorem create_ok (name : HName) (o : H5Obj) (l l' : H5Log) (h : (h5Create name o).call l = (.ok (), l')) :
    l'.now name.path = some o ∧ l.now name.path = none := by
  unfold h5Create at h
  rw [h5_bind_ok _ _ _ _ _ (call_h5File l)] at h
  dsimp only at h
  split_ifs at h with hc
  · exact absurd (congrArg Prod.fst h) (by simp [h5_throw])
  · have h2 := congrArg Prod.snd h
    rw [call_h5Put] at h2
    dsimp only at h2
    rw [← h2]
    refine ⟨Function.update_self _ _ _, ?_⟩
    rw [Bool.or_eq_true, not_or] at hc
    simpa using hc.1

/-- Bind returned: both parts returned. -/
theorem bind_ok_inv {A B : Type} {m : H5M A} {k : A → H5M B} {l l' : H5Log} {b : B}
    (h : (m >>= k).call l = (.ok b, l')) : ∃ a s, m.call l = (.ok a, s) ∧ (k a).call s = (.ok b, l') := by
  rw [h5_bind] at h
  cases hc : m.call l with
  | mk a s =>
    rw [hc] at h
    cases a with
    | error e => exact absurd (congrArg Prod.fst h) (by simp)
    | ok a => exact ⟨a, s, rfl, h⟩

/-! ## Timings -/

theorem lookup_map_set (name : String) (x : Timer) (n : String) : ∀ t : Timings,
    (t.map fun e => if e.1 = name then (name, x) else e).lookup n
      = if n = name then (t.lookup n).map fun _ => x else t.lookup n
  | [] => by split_ifs <;> rfl
  | (m, y) :: t => by
    rw [List.map_cons]
    by_cases hm : m = name
    · subst hm
      rw [if_pos rfl, List.lookup_cons, List.lookup_cons, lookup_map_set m x n t]
      by_cases hn : n = m
      · subst hn; simp
      · simp [hn, beq_false_of_ne hn]
    · rw [if_neg hm, List.lookup_cons, List.lookup_cons, lookup_map_set name x n t]
      by_cases hn : n = m
      · subst hn; simp [hm]
      · simp [beq_false_of_ne hn]

theorem timerOf_set (name : String) (x : Timer) (t : Timings) (n : String) :
    timerOf n (timerSet name x t) = if n = name then x else timerOf n t := by
  unfold timerSet timerOf
  split_ifs with h h2 h2
  · subst h2
    rw [lookup_map_set, if_pos rfl]
    obtain ⟨y, hy⟩ := Option.isSome_iff_exists.mp h
    rw [hy]; rfl
  · rw [lookup_map_set, if_neg h2]
  · subst h2
    rw [List.lookup_append]
    have : t.lookup n = none := Option.not_isSome_iff_eq_none.mp h
    rw [this]
    simp
  · rw [List.lookup_append]
    cases t.lookup n with
    | some y => rfl
    | none => simp [List.lookup_cons, beq_false_of_ne h2]

theorem keys_set (name : String) (x : Timer) (t : Timings) (h : (t.map Prod.fst).Nodup) :
    ((timerSet name x t).map Prod.fst).Nodup := by
  unfold timerSet
  split_ifs with hc
  · rw [List.map_map]
    have : (Prod.fst ∘ fun e : String × Timer => if e.1 = name then (name, x) else e) = Prod.fst := by
      funext e
      simp only [Function.comp]
      split_ifs with he
      · exact he.symm
      · rfl
    rw [this]
    exact h
  · rw [List.map_append, List.nodup_append]
    refine ⟨h, by simp, ?_⟩
    intro a ha b hb hab
    simp only [List.map_cons, List.map_nil, List.mem_singleton] at hb
    subst hb
    subst hab
    have hl : t.lookup a = none := Option.not_isSome_iff_eq_none.mp hc
    rw [List.lookup_eq_none_iff] at hl
    obtain ⟨p, hp, rfl⟩ := List.mem_map.mp ha
    simpa using hl p hp

theorem lookup_print (n : String) : ∀ t : Timings,
    (t.map fun e => (e.1, { e.2 with lastTotal := e.2.total })).lookup n
      = (t.lookup n).map fun x => { x with lastTotal := x.total }
  | [] => rfl
  | (m, y) :: t => by
    rw [List.map_cons, List.lookup_cons, List.lookup_cons, lookup_print n t]
    by_cases hn : n = m
    · subst hn; simp
    · simp [beq_false_of_ne hn]

theorem timerOf_print (n : String) (t : Timings) :
    timerOf n (printTimings t).2 = { timerOf n t with lastTotal := (timerOf n t).total } := by
  unfold printTimings timerOf
  dsimp only
  rw [lookup_print]
  cases t.lookup n <;> rfl

/-- The value printed for a timer. -/
theorem printed_sum (n : String) : ∀ t : Timings, (t.map Prod.fst).Nodup →
    ((((printTimings t).1.filter fun e => e.1 = n).map Prod.snd).sum)
      = (timerOf n t).total - (timerOf n t).lastTotal
  | [], _ => by simp [printTimings, timerOf]
  | (m, y) :: t, h => by
    rw [List.map_cons, List.nodup_cons] at h
    have ih := printed_sum n t h.2
    unfold printTimings timerOf at ih ⊢
    dsimp only at ih ⊢
    rw [List.map_cons, List.filter_cons, List.lookup_cons]
    by_cases hn : m = n
    · subst hn
      have hl : t.lookup m = none := by
        rw [List.lookup_eq_none_iff]
        intro p hp
        by_contra hc
        simp only [bne_iff_ne, ne_eq, Decidable.not_not] at hc
        exact h.1 (List.mem_map.mpr ⟨p, hp, hc.symm⟩)
      rw [hl] at ih
      simp only [decide_true, if_true, List.map_cons, List.sum_cons, ih]
      simp
    · have hn' : (n == m) = false := by simpa using fun h => hn h.symm
      simp only [hn, decide_false, Bool.false_eq_true, if_false, hn', ih]

theorem timer_total (name : String) : ∀ (ops : List TimerOp) (running : Bool) (s : Timings × List (String × ℝ)),
    Matching name running ops →
    (timerOf name (ops.foldl timerStep s).1).total = (timerOf name s.1).total
      + timeSpent name (if running then some (timerOf name s.1).init else none) ops
  | [], _, s, _ => by simp [timeSpent]
  | op :: ops, running, s, h => by
    rw [List.foldl_cons]
    cases op with
    | start n c =>
      unfold Matching at h
      by_cases hn : n = name
      · subst hn
        rw [if_pos rfl] at h
        rw [timer_total n ops true _ h.2]
        simp [timerStep, startTiming, timerOf_set, timeSpent]
      · rw [if_neg hn] at h
        rw [timer_total name ops running _ h]
        simp [timerStep, startTiming, timerOf_set, timeSpent, hn, Ne.symm hn]
    | stop n c =>
      unfold Matching at h
      by_cases hn : n = name
      · subst hn
        rw [if_pos rfl] at h
        obtain ⟨rfl, h⟩ := h
        rw [timer_total n ops false _ h]
        simp [timerStep, stopTiming, timerOf_set, timeSpent]
        ring
      · rw [if_neg hn] at h
        rw [timer_total name ops running _ h]
        simp [timerStep, stopTiming, timerOf_set, timeSpent, hn, Ne.symm hn]
    | add n x =>
      unfold Matching at h
      rw [timer_total name ops running _ h]
      by_cases hn : n = name
      · subst hn
        simp [timerStep, addTiming, timerOf_set, timeSpent]
        ring
      · simp [timerStep, addTiming, timerOf_set, timeSpent, hn, Ne.symm hn]
    | print =>
      unfold Matching at h
      rw [timer_total name ops running _ h]
      simp [timerStep, timerOf_print, timeSpent]

theorem timer_printed (name : String) : ∀ (ops : List TimerOp) (s : Timings × List (String × ℝ)),
    (s.1.map Prod.fst).Nodup → (((s.2.filter fun e => e.1 = name).map Prod.snd).sum) = (timerOf name s.1).lastTotal →
    ((ops.foldl timerStep s).1.map Prod.fst).Nodup ∧
    ((((ops.foldl timerStep s).2.filter fun e => e.1 = name).map Prod.snd).sum)
      = (timerOf name (ops.foldl timerStep s).1).lastTotal
  | [], s, h1, h2 => ⟨h1, h2⟩
  | op :: ops, s, h1, h2 => by
    rw [List.foldl_cons]
    apply timer_printed name ops
    · cases op with
      | start n c => exact keys_set _ _ _ h1
      | stop n c => exact keys_set _ _ _ h1
      | add n c => exact keys_set _ _ _ h1
      | print =>
        change (List.map Prod.fst (List.map _ _)).Nodup
        rw [List.map_map]
        exact h1
    · cases op with
      | start n c =>
        change _ = (timerOf name (timerSet _ _ _)).lastTotal
        rw [timerOf_set]
        split_ifs with hn
        · subst hn; exact h2
        · exact h2
      | stop n c =>
        change _ = (timerOf name (timerSet _ _ _)).lastTotal
        rw [timerOf_set]
        split_ifs with hn
        · subst hn; exact h2
        · exact h2
      | add n c =>
        change _ = (timerOf name (timerSet _ _ _)).lastTotal
        rw [timerOf_set]
        split_ifs with hn
        · subst hn; exact h2
        · exact h2
      | print =>
        change ((List.map Prod.snd (List.filter _ (s.2 ++ (printTimings s.1).1))).sum) = (timerOf name (printTimings s.1).2).lastTotal
        rw [List.filter_append, List.map_append, List.sum_append, h2, printed_sum name _ h1, timerOf_print]
        dsimp only
        ring

theorem timer_count (name : String) : ∀ (ops : List TimerOp) (s : Timings × List (String × ℝ)),
    (timerOf name (ops.foldl timerStep s).1).count = (timerOf name s.1).count + ops.countP fun o => match o with
      | .stop n _ => decide (n = name)
      | .add n _ => decide (n = name)
      | _ => false
  | [], s => by simp
  | op :: ops, s => by
    rw [List.foldl_cons, timer_count name ops, List.countP_cons]
    cases op with
    | start n c =>
      by_cases hn : n = name
      · subst hn; simp [timerStep, startTiming, timerOf_set]
      · simp [timerStep, startTiming, timerOf_set, Ne.symm hn]
    | stop n c =>
      by_cases hn : n = name
      · subst hn; simp [timerStep, stopTiming, timerOf_set]; ring
      · simp [timerStep, stopTiming, timerOf_set, hn, Ne.symm hn]
    | add n c =>
      by_cases hn : n = name
      · subst hn; simp [timerStep, addTiming, timerOf_set]; ring
      · simp [timerStep, addTiming, timerOf_set, hn, Ne.symm hn]
    | print => simp [timerStep, timerOf_print]

/-! ## Histories, continued -/

theorem groupPath_foldl : ∀ (pre : List OmOp) (G : List String), GroupPath G → (∀ op ∈ pre, Natural op) →
    GroupPath (pre.foldl selected G)
  | [], _, h, _ => h
  | op :: pre, G, h, hn => by
    refine groupPath_foldl pre _ ?_ (fun o ho => hn o (by simp [ho]))
    cases op with
    | setGroup g => exact (hn (.setGroup g) (by simp)).2
    | _ => exact h

theorem intended_append : ∀ (pre post : List OmOp) (G : List String), intended G (pre ++ post)
    = intended G pre ++ intended (pre.foldl selected G) post
  | [], _, _ => rfl
  | op :: pre, post, G => by
    change opRows G op ++ intended _ (pre ++ post) = (opRows G op ++ intended _ pre) ++ _
    rw [intended_append pre post, List.append_assoc]
    rfl

theorem sameShapes_left (G : List String) (pre post : List OmOp) (h : SameShapes (intended G (pre ++ post))) :
    SameShapes (intended G pre) := by
  rw [intended_append] at h
  exact fun w hw w' hw' => h w (List.mem_append_left _ hw) w' (List.mem_append_left _ hw')

theorem intended_writes : ∀ (ws : List OmOp) (G : List String), (∀ h, .setGroup h ∉ ws) →
    intended G ws = ws.flatMap (opRows G)
  | [], _, _ => rfl
  | op :: ws, G, h => by
    have hsel : selected G op = G := by
      cases op with
      | setGroup g => exact absurd (List.mem_cons_self) (h g)
      | _ => rfl
    change opRows G op ++ intended (selected G op) ws = _
    rw [hsel, intended_writes ws G (fun g hg => h g (List.mem_cons_of_mem _ hg)), List.flatMap_cons]

theorem opRows_inside (G : List String) (op : OmOp) (w : List String × NdArr) (hw : w ∈ opRows G op) : G <+: w.1 := by
  cases op with
  | setGroup g => cases hw
  | writeError n d => cases hw
  | writeDataset n d g => cases hw
  | writeCheckpoint t v =>
    unfold opRows at hw
    rw [List.mem_cons] at hw
    rcases hw with rfl | hw
    · exact List.prefix_append _ _
    · obtain ⟨v, _, rfl⟩ := List.mem_map.mp hw
      exact List.prefix_append _ _
  | writeMetadata t kw =>
    unfold opRows at hw
    rw [List.mem_cons] at hw
    rcases hw with rfl | hw
    · exact List.prefix_append _ _
    · obtain ⟨k, _, hw⟩ := List.mem_flatMap.mp hw
      obtain ⟨v, _, rfl⟩ := List.mem_map.mp hw
      exact List.prefix_append _ _
  | writeObservables t kw =>
    unfold opRows at hw
    rw [List.mem_cons] at hw
    rcases hw with rfl | hw
    · exact List.prefix_append _ _
    · obtain ⟨k, _, hw⟩ := List.mem_flatMap.mp hw
      obtain ⟨n, _, hw⟩ := List.mem_flatMap.mp hw
      obtain ⟨v, _, rfl⟩ := List.mem_map.mp hw
      exact List.prefix_append _ _

/-- Checkpoints are among the intended rows. -/
theorem mem_checkpoints (H : List String) : ∀ (ops : List OmOp) (G : List String) (c : ℝ × NdArr),
    c ∈ checkpoints H G ops → ∃ w ∈ intended G ops, w.1 = H ++ ["network_checkpoints", "checkpoints"] ∧ w.2 = c.2
  | [], _, _, h => by cases h
  | op :: ops, G, c, h => by
    rw [show checkpoints H G (op :: ops) = _ ++ checkpoints H (selected G op) ops from rfl, List.mem_append] at h
    change ∃ w ∈ opRows G op ++ intended (selected G op) ops, _
    rcases h with h | h
    · cases op with
      | writeCheckpoint t v =>
        cases v with
        | none => cases h
        | some v =>
          dsimp only at h
          split_ifs at h with hG
          · rw [List.mem_singleton] at h
            subst h
            subst hG
            exact ⟨(G ++ ["network_checkpoints", "checkpoints"], v), List.mem_append_left _ (by simp [opRows]), rfl, rfl⟩
          · cases h
      | _ => cases h
    · obtain ⟨w, hw, h1, h2⟩ := mem_checkpoints H ops _ c h
      exact ⟨w, List.mem_append_right _ hw, h1, h2⟩

theorem getElem?_of_prefix {A : Type} {l l' : List A} {i : ℕ} {a : A} (h : l <+: l') (hi : l[i]? = some a) :
    l'[i]? = some a := by
  obtain ⟨r, rfl⟩ := h
  have := (List.getElem?_eq_some_iff.mp hi).1
  rw [List.getElem?_append_left this, hi]

/-! ## Writes stay inside the group -/

theorem inside_time (cur : HName) (g : String) (hg : g ≠ "") (t : ℝ) :
    Inside cur.path (omWriteTime cur [g] t) := by
  have h1 := inside_path cur [] g hg
  have h2 : HName.path cur <+: HName.path (cur ++ [g] ++ ["times"]) ∧ HName.path (cur ++ [g] ++ ["times"]) ≠ HName.path cur := by
    rw [List.append_assoc]
    exact inside_path cur ["times"] g hg
  unfold omWriteTime
  refine Inside.bind _ _ _ (Inside.in' _ _ _) fun b => ?_
  have rest : Inside cur.path (do
      if !(← h5In ["times"] (cur ++ [g])) then h5CreateDset (cur ++ [g] ++ ["times"]) []
      let newLen := (← h5Dset (cur ++ [g] ++ ["times"])).rows.length + 1
      h5Resize (cur ++ [g] ++ ["times"]) newLen []
      h5SetLast (cur ++ [g] ++ ["times"]) fun _ => t : H5M Unit) := by
    refine Inside.bind _ _ _ (Inside.in' _ _ _) fun b => ?_
    have rest : Inside cur.path (do
        let newLen := (← h5Dset (cur ++ [g] ++ ["times"])).rows.length + 1
        h5Resize (cur ++ [g] ++ ["times"]) newLen []
        h5SetLast (cur ++ [g] ++ ["times"]) fun _ => t : H5M Unit) :=
      Inside.bind _ _ _ (Inside.dset _ _) fun d => Inside.bind _ _ _ (Inside.resize _ _ h2 _ _) fun _ =>
        Inside.setLast _ _ h2 _
    split_ifs
    · exact Inside.bind _ _ _ (Inside.createDset _ _ h2 _) fun _ => rest
    · exact rest
  split_ifs
  · exact Inside.bind _ _ _ (Inside.createGroup _ _ h1) fun _ => rest
  · exact rest

theorem inside_key (cur : HName) (g : String) (hg : g ≠ "") (key : HName) (v : PyVal) :
    Inside cur.path (omWriteKey (cur ++ [g]) key v) := by
  have h2 : HName.path cur <+: HName.path (cur ++ [g] ++ key) ∧ HName.path (cur ++ [g] ++ key) ≠ HName.path cur := by
    rw [List.append_assoc]
    exact inside_path cur key g hg
  unfold omWriteKey
  refine Inside.bind _ _ _ (Inside.in' _ _ _) fun b => ?_
  have rest : Inside cur.path (do
      let newLen := (← h5Dset (cur ++ [g] ++ key)).rows.length + 1
      let a ← valShape v
      h5Resize (cur ++ [g] ++ key) newLen a.shape
      h5SetLast (cur ++ [g] ++ key) a.val : H5M Unit) :=
    Inside.bind _ _ _ (Inside.dset _ _) fun d => Inside.bind _ _ _ (Inside.shape _ _) fun a =>
      Inside.bind _ _ _ (Inside.resize _ _ h2 _ _) fun _ => Inside.setLast _ _ h2 _
  split_ifs
  · exact Inside.bind _ _ _ (Inside.shape _ _) fun a => Inside.bind _ _ _ (Inside.createDset _ _ h2 _) fun _ => rest
  · exact rest

theorem inside_metadata (cur : HName) (t : ℝ) (kw : List (HName × PyVal)) :
    Inside cur.path (omWriteMetadata cur t kw) := by
  unfold omWriteMetadata
  refine Inside.bind _ _ _ (inside_time cur _ (by decide) t) fun _ => ?_
  exact Inside.forM _ _ _ fun k _ => inside_key cur "metadata" (by decide) k.1 k.2

theorem inside_checkpoint (cur : HName) (t : ℝ) (w : PyVal) : Inside cur.path (omWriteCheckpoint cur t w) := by
  unfold omWriteCheckpoint
  exact Inside.bind _ _ _ (inside_time cur _ (by decide) t) fun _ => inside_key cur "network_checkpoints" (by decide) _ _

theorem inside_observables (cur : HName) (t : ℝ) (kw : List (HName × List (HName × PyVal))) :
    Inside cur.path (omWriteObservables cur t kw) := by
  unfold omWriteObservables
  refine Inside.bind _ _ _ (inside_time cur _ (by decide) t) fun _ => ?_
  refine Inside.forM _ _ _ fun k _ => Inside.forM _ _ _ fun n _ => ?_
  obtain ⟨key, _⟩ := k
  obtain ⟨name, v⟩ := n
  have h1 : HName.path cur <+: HName.path (cur ++ ["observables"] ++ key) ∧
      HName.path (cur ++ ["observables"] ++ key) ≠ HName.path cur := by
    rw [List.append_assoc]
    exact inside_path cur key _ (by decide)
  have h2 : HName.path cur <+: HName.path (cur ++ ["observables"] ++ key ++ name) ∧
      HName.path (cur ++ ["observables"] ++ key ++ name) ≠ HName.path cur := by
    rw [List.append_assoc, List.append_assoc]
    exact inside_path cur (key ++ name) _ (by decide)
  dsimp only
  have rest2 : Inside cur.path (do
      let newLen := (← h5Dset (cur ++ ["observables"] ++ key ++ name)).rows.length + 1
      let a ← valShape v
      h5Resize (cur ++ ["observables"] ++ key ++ name) newLen a.shape
      h5SetLast (cur ++ ["observables"] ++ key ++ name) a.val : H5M Unit) :=
    Inside.bind _ _ _ (Inside.dset _ _) fun d => Inside.bind _ _ _ (Inside.shape _ _) fun a =>
      Inside.bind _ _ _ (Inside.resize _ _ h2 _ _) fun _ => Inside.setLast _ _ h2 _
  have rest : Inside cur.path (do
      if !(← h5In name (cur ++ ["observables"] ++ key)) then
        let a ← valShape v
        h5CreateDset (cur ++ ["observables"] ++ key ++ name) a.shape
      let newLen := (← h5Dset (cur ++ ["observables"] ++ key ++ name)).rows.length + 1
      let a ← valShape v
      h5Resize (cur ++ ["observables"] ++ key ++ name) newLen a.shape
      h5SetLast (cur ++ ["observables"] ++ key ++ name) a.val : H5M Unit) := by
    refine Inside.bind _ _ _ (Inside.in' _ _ _) fun b => ?_
    split_ifs
    · exact Inside.bind _ _ _ (Inside.shape _ _) fun a => Inside.bind _ _ _ (Inside.createDset _ _ h2 _) fun _ => rest2
    · exact rest2
  refine Inside.bind _ _ _ (Inside.in' _ _ _) fun b => ?_
  split_ifs
  · exact Inside.bind _ _ _ (Inside.createGroup _ _ h1) fun _ => rest
  · exact rest

/-! ## Successful creation of fixed datasets -/

theorem adds_call {A : Type} {m : H5M A} (hm : AddsOnly m) {l l' : H5Log} {a : Except PyErr A}
    (h : m.call l = (a, l')) : ∀ q o, l.now q = some o → l'.now q = some o := by
  obtain ⟨new, _, h2⟩ := hm l
  rw [h] at h2
  exact h2 _ (by simp)

theorem error_ok (name : HName) (a : NdArr) (l l' : H5Log) (h : (omWriteError name a).call l = (.ok (), l')) :
    ∃ l1, (h5Create ("" :: ["error_data"] ++ name) (.fixed a)).call l1 = (.ok (), l') ∧
      ∀ q o, l.now q = some o → l1.now q = some o := by
  unfold omWriteError at h
  obtain ⟨b, s, h1, h2⟩ := bind_ok_inv h
  have hs := adds_call (addsOnly_in _ _) h1
  split_ifs at h2
  · obtain ⟨_, s2, h3, h4⟩ := bind_ok_inv h2
    have hs2 := adds_call (addsOnly_create _ _) h3
    exact ⟨s2, h4, fun q o hq => hs2 q o (hs q o hq)⟩
  · exact ⟨s, h2, hs⟩

theorem dataset_ok (name : HName) (a : NdArr) (g : HName) (l l' : H5Log)
    (h : (omWriteDataset name (some a) g).call l = (.ok (), l')) :
    ∃ l1, (h5Create ("" :: g ++ name) (.fixed a)).call l1 = (.ok (), l') ∧
      ∀ q o, l.now q = some o → l1.now q = some o := by
  unfold omWriteDataset at h
  split_ifs at h
  · obtain ⟨b, s, h1, h2⟩ := bind_ok_inv h
    have hs := adds_call (addsOnly_in _ _) h1
    split_ifs at h2
    · obtain ⟨_, s2, h3, h4⟩ := bind_ok_inv h2
      have hs2 := adds_call (addsOnly_create _ _) h3
      exact ⟨s2, h4, fun q o hq => hs2 q o (hs q o hq)⟩
    · exact ⟨s, h2, hs⟩
  · exact ⟨l, h, fun _ _ h => h⟩

theorem exists_of_getElem? {A : Type} {l : List A} {P : A → Prop} (i : ℕ) (h : (l[i]?).elim False P) :
    ∃ a ∈ l, P a := by
  cases hl : l[i]? with
  | none => rw [hl] at h; exact h.elim
  | some a => rw [hl] at h; exact ⟨a, List.mem_of_getElem? hl, h⟩

end JVMC
