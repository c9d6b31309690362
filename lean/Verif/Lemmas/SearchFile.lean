import Verif.Spec.SearchFile
import Verif.Props.GroundState
import Verif.Props.Resume

/-!
# Lemmas about searches that are recorded in a file
-/

namespace JVMC

open Spec

/-! ## One call of `write_observables` -/

/-- Keyword arguments that are no parameters all go to `kwargs`. -/
theorem bindKw_extra {V : Type} (g : PySig) (hg : g.varKw = true) : ∀ (kw : List (String × V)) (b : Bound V),
    (∀ k ∈ kw, k.1 ∉ g.names) → bindKw g kw b = .ok { b with extra := b.extra ++ kw }
  | [], b, _ => by simp [bindKw]
  | (k, v) :: kw, b, h => by
    have hk : g.names.contains k = false := by
      have := h (k, v) List.mem_cons_self
      simpa using this
    rw [bindKw, hk, hg]
    simp only [Bool.false_eq_true, if_false, if_true]
    rw [bindKw_extra g hg kw _ fun k hk => h k (List.mem_cons_of_mem _ hk)]
    simp

/-- A keyword argument for a parameter that has a value already raises. -/
theorem bindKw_twice {V : Type} (g : PySig) (hg : g.varKw = true) : ∀ (kw : List (String × V)) (b : Bound V),
    (∀ k ∈ g.names, (kwGet b.vals k).isSome) → (∃ k ∈ kw, k.1 ∈ g.names) → bindKw g kw b = .error .typeError
  | [], _, _, h => by simp at h
  | (k, v) :: kw, b, hb, h => by
    rw [bindKw, hg]
    by_cases hk : k ∈ g.names
    · have h1 : g.names.contains k = true := by simpa using hk
      rw [h1, hb k hk]
      simp
    · have h1 : g.names.contains k = false := by simpa using hk
      rw [h1]
      simp only [Bool.false_eq_true, if_false, if_true]
      refine bindKw_twice g hg kw _ hb ?_
      obtain ⟨x, hx, hn⟩ := h
      rcases List.mem_cons.1 hx with rfl | hx
      · exact absurd hn hk
      · exact ⟨x, hx, hn⟩

/-- The call that the output manager gets. -/
noncomputable def obsOp (n : ℕ) (obs : ObsDict) : OmOp :=
  .writeObservables n (obs.map fun e => ([e.1], obsEntry e.2))

theorem outpWrite_ok (om : OmState) (n : ℕ) (obs : ObsDict) (h1 : "self" ∉ obs.map Prod.fst)
    (h2 : "time" ∉ obs.map Prod.fst) : outpWrite om n obs = omAll om [obsOp n obs] := by
  unfold outpWrite bindCall
  rw [if_neg (by simp [writeObservablesSig])]
  rw [bindKw_extra _ rfl _ _ (by
    intro k hk hn
    obtain ⟨e, he, rfl⟩ := List.mem_map.1 hk
    simp only [PySig.names, writeObservablesSig, List.append_nil, List.map_cons, List.map_nil, List.mem_cons,
      List.not_mem_nil, or_false] at hn
    rcases hn with hn | hn
    · exact h1 (List.mem_map.2 ⟨e, he, hn⟩)
    · exact h2 (List.mem_map.2 ⟨e, he, hn⟩))]
  change (match omCall om (.writeObservables n (List.map _ ([] ++ List.map _ obs))) with
    | (.error e, _) => Except.error e
    | (.ok _, om') => .ok om') = _
  rw [List.nil_append, List.map_map]
  change (match omCall om (obsOp n obs) with
    | (.error e, _) => Except.error e
    | (.ok _, om') => .ok om') = _
  unfold omAll
  cases omCall om (obsOp n obs) with
  | mk r s => cases r <;> rfl

/-- An observable that is called "self" or "time". -/
theorem outpWrite_error (om : OmState) (n : ℕ) (obs : ObsDict)
    (h : "self" ∈ obs.map Prod.fst ∨ "time" ∈ obs.map Prod.fst) : outpWrite om n obs = .error .typeError := by
  unfold outpWrite bindCall
  rw [if_neg (by simp [writeObservablesSig]), bindKw_twice _ rfl]
  · rfl
  · intro k hk
    simp only [PySig.names, writeObservablesSig, List.append_nil, List.map_cons, List.map_nil, List.mem_cons,
      List.not_mem_nil, or_false] at hk
    rcases hk with rfl | rfl <;> rfl
  · rcases h with h | h <;>
    · obtain ⟨e, he, hn⟩ := List.mem_map.1 h
      exact ⟨_, List.mem_map.2 ⟨e, he, rfl⟩, by simp [PySig.names, writeObservablesSig, hn]⟩

/-! ## The search with a file and the list of records -/

/-- The records, written one after the other. -/
noncomputable def writeLog : OmState → List (ℕ × ObsDict) → Except PyErr OmState
  | om, [] => .ok om
  | om, e :: l =>
    match outpWrite om e.1 e.2 with
    | .error err => .error err
    | .ok om' => writeLog om' l

theorem writeLog_append (l l' : List (ℕ × ObsDict)) : ∀ om, writeLog om (l ++ l')
    = (match writeLog om l with
      | .error err => .error err
      | .ok om' => writeLog om' l') := by
  induction l with
  | nil => intro om; rfl
  | cons e l ih =>
    intro om
    rw [List.cons_append, writeLog, writeLog]
    cases outpWrite om e.1 e.2 with
    | error err => rfl
    | ok om' => exact ih om'

variable {P W : Type} [AddCommGroup P] [Module ℝ P]

/-- The state with the file instead of the list. -/
def GsState.withFile (s : GsState ObsDict W) (om : OmState) : GsFileState W :=
  ⟨s.n, s.varE, s.delta, s.shift, s.w, om⟩

omit [AddCommGroup P] [Module ℝ P] in
theorem gsMeasureFile_iff (api : GsApi P ObsDict W) (record : Bool) (n : ℕ) (w w' : W) (om om' : OmState)
    (log : List (ℕ × ObsDict)) :
    gsMeasureFile api record n w om = .ok (w', om') ↔
      ∃ l, gsMeasure api record n w log = .ok (w', log ++ l) ∧ writeLog om l = .ok om' := by
  unfold gsMeasureFile gsMeasure
  cases record with
  | false =>
    simp only [Bool.false_eq_true, if_false]
    constructor
    · intro h
      cases h
      exact ⟨[], by simp; rfl, rfl⟩
    · rintro ⟨l, h1, h2⟩
      have h1' := Prod.mk.inj (Except.ok.inj h1)
      obtain rfl : l = [] := by simpa using h1'.2
      cases h2
      rw [← h1'.1]
      rfl
  | true =>
    simp only [if_true]
    cases hm : api.measure w with
    | error e =>
      constructor
      · intro h; cases h
      · rintro ⟨l, h1, h2⟩; cases h1
    | ok r =>
      obtain ⟨obs, w₁⟩ := r
      constructor
      · intro h
        change Except.bind (outpWrite om n obs) _ = _ at h
        cases ho : outpWrite om n obs with
        | error e => rw [ho] at h; cases h
        | ok om₁ =>
          rw [ho] at h
          cases h
          exact ⟨[(n, obs)], rfl, by simp [writeLog, ho]⟩
      · rintro ⟨l, h1, h2⟩
        have h1' := Prod.mk.inj (Except.ok.inj h1)
        obtain rfl : [(n, obs)] = l := by simpa using h1'.2
        rw [writeLog] at h2
        change Except.bind (outpWrite om n obs) _ = _
        cases ho : outpWrite om n obs with
        | error e => simp only [ho] at h2; cases h2
        | ok om₁ =>
          simp only [ho] at h2
          cases h2
          rw [← h1'.1]
          rfl

theorem gsBodyFile_iff (api : GsApi P ObsDict W) (stepSize : ℝ) (record : Bool) (s : GsState ObsDict W)
    (om : OmState) (x : GsFileState W) :
    gsBodyFile api stepSize record (s.withFile om) = .ok x ↔
      ∃ s' l om', gsBody api stepSize record s = .ok s' ∧ s'.log = s.log ++ l ∧ writeLog om l = .ok om' ∧
        x = s'.withFile om' := by
  unfold gsBodyFile gsBody
  dsimp only [GsState.withFile]
  cases api.getParams s.w with
  | error e => constructor
               · intro h; cases h
               · rintro ⟨_, _, _, h, _⟩; cases h
  | ok p =>
  dsimp only [bind, Except.bind]
  cases api.rhs s.shift p 0 s.w with
  | error e => constructor
               · intro h; cases h
               · rintro ⟨_, _, _, h, _⟩; cases h
  | ok r =>
  obtain ⟨dp, w₁⟩ := r
  dsimp only
  cases api.setParams (p + stepSize • dp) w₁ with
  | error e => constructor
               · intro h; cases h
               · rintro ⟨_, _, _, h, _⟩; cases h
  | ok w₂ =>
  dsimp only
  cases api.variance w₂ with
  | error e => constructor
               · intro h; cases h
               · rintro ⟨_, _, _, h, _⟩; cases h
  | ok v =>
  dsimp only
  have key := fun w' om' => gsMeasureFile_iff api record (s.n + 1) w₂ w' om om' s.log
  -- the rest of the pass
  have rest : ∀ (w' : W) (om' : OmState) (log' : List (ℕ × ObsDict)) (x : GsFileState W),
      (if api.hasSetter then
        match s.delta with
        | none => Except.error PyErr.unboundLocalError
        | some delta => pure (⟨s.n + 1, v, some (0.95 * delta), 0.95 * delta, w', om'⟩ : GsFileState W)
      else pure ⟨s.n + 1, v, s.delta, s.shift, w', om'⟩) = .ok x ↔
      ∃ s', (if api.hasSetter then
        match s.delta with
        | none => Except.error PyErr.unboundLocalError
        | some delta => pure (⟨s.n + 1, v, some (0.95 * delta), 0.95 * delta, w', log'⟩ : GsState ObsDict W)
      else pure ⟨s.n + 1, v, s.delta, s.shift, w', log'⟩) = .ok s' ∧ s'.log = log' ∧ x = s'.withFile om' := by
    intro w' om' log' x
    cases api.hasSetter with
    | true =>
      simp only [if_true]
      cases s.delta with
      | none =>
        constructor
        · intro h; cases h
        · rintro ⟨_, h, _⟩; cases h
      | some d =>
        constructor
        · intro h; cases h; exact ⟨_, rfl, rfl, rfl⟩
        · rintro ⟨_, h, _, rfl⟩; cases h; rfl
    | false =>
      simp only [Bool.false_eq_true, if_false]
      constructor
      · intro h; cases h; exact ⟨_, rfl, rfl, rfl⟩
      · rintro ⟨_, h, _, rfl⟩; cases h; rfl
  constructor
  · intro h
    cases hm : gsMeasureFile api record (s.n + 1) w₂ om with
    | error e => rw [hm] at h; cases h
    | ok y =>
      obtain ⟨w', om'⟩ := y
      rw [hm] at h
      obtain ⟨l, k1, k2⟩ := (key w' om').1 hm
      obtain ⟨s', r1, r2, r3⟩ := (rest w' om' (s.log ++ l) x).1 h
      exact ⟨s', l, om', by rw [k1]; exact r1, r2, k2, r3⟩
  · rintro ⟨s', l, om', h1, h2, h3, h4⟩
    cases hm : gsMeasure api record (s.n + 1) w₂ s.log with
    | error e => rw [hm] at h1; cases h1
    | ok y =>
      obtain ⟨w', log'⟩ := y
      rw [hm] at h1
      dsimp only at h1
      have hlog : s'.log = log' := by
        clear rest key h4 hm
        cases hs : api.hasSetter with
        | true =>
          simp only [hs, if_true] at h1
          cases hd : s.delta with
          | none => simp only [hd] at h1; cases h1
          | some d => simp only [hd] at h1; cases h1; rfl
        | false =>
          simp only [hs, Bool.false_eq_true, if_false] at h1
          cases h1; rfl
      rw [← hlog, h2] at hm
      rw [(key w' om').2 ⟨l, hm, h3⟩]
      exact (rest w' om' log' x).2 ⟨s', h1, hlog, h4⟩

/-- Nothing is removed from the list of records. -/
theorem gsLoop_grows (api : GsApi P ObsDict W) (numSteps : ℤ) (tol stepSize : ℝ) (record : Bool) :
    ∀ (fuel : ℕ) (s s' : GsState ObsDict W), gsLoop api numSteps tol stepSize record fuel s = .ok s' →
      ∃ l, s'.log = s.log ++ l := by
  intro fuel
  induction fuel with
  | zero =>
    intro s s' h
    rw [gsLoop] at h
    split at h
    · cases h
    · cases h; exact ⟨[], by simp⟩
  | succ fuel ih =>
    intro s s' h
    rw [gsLoop] at h
    split at h
    · cases hb : gsBody api stepSize record s with
      | error e => rw [hb] at h; cases h
      | ok s₁ =>
        rw [hb] at h
        obtain ⟨l, hl⟩ := ih s₁ s' h
        obtain ⟨-, ⟨_, e, -, -, he⟩, -⟩ := gsBody_ok api stepSize record s s₁ hb
        exact ⟨e ++ l, by rw [hl, he, List.append_assoc]⟩
    · cases h; exact ⟨[], by simp⟩

theorem gsLoopFile_iff (api : GsApi P ObsDict W) (numSteps : ℤ) (tol stepSize : ℝ) (record : Bool) :
    ∀ (fuel : ℕ) (s : GsState ObsDict W) (om : OmState) (x : GsFileState W),
    gsLoopFile api numSteps tol stepSize record fuel (s.withFile om) = .ok x ↔
      ∃ s' l om', gsLoop api numSteps tol stepSize record fuel s = .ok s' ∧ s'.log = s.log ++ l ∧
        writeLog om l = .ok om' ∧ x = s'.withFile om' := by
  intro fuel
  induction fuel with
  | zero =>
    intro s om x
    rw [gsLoopFile, gsLoop, show gsCondFile numSteps tol (s.withFile om) = gsCond numSteps tol s from rfl]
    by_cases hc : gsCond numSteps tol s = true
    · rw [if_pos hc, if_pos hc]
      constructor
      · intro h; cases h
      · rintro ⟨_, _, _, h, _⟩; cases h
    · rw [if_neg hc, if_neg hc]
      constructor
      · intro h; cases h; exact ⟨s, [], om, rfl, by simp, rfl, rfl⟩
      · rintro ⟨s', l, om', h1, h2, h3, rfl⟩
        cases h1
        obtain rfl : l = [] := by simpa using h2
        cases h3
        rfl
  | succ fuel ih =>
    intro s om x
    rw [gsLoopFile, gsLoop, show gsCondFile numSteps tol (s.withFile om) = gsCond numSteps tol s from rfl]
    by_cases hc : gsCond numSteps tol s = true
    · rw [if_pos hc, if_pos hc]
      constructor
      · intro h
        cases hb : gsBodyFile api stepSize record (s.withFile om) with
        | error e => rw [hb] at h; cases h
        | ok y =>
          rw [hb] at h
          obtain ⟨s₁, l₁, om₁, b1, b2, b3, rfl⟩ := (gsBodyFile_iff api stepSize record s om y).1 hb
          obtain ⟨s', l, om', c1, c2, c3, rfl⟩ := (ih s₁ om₁ x).1 h
          refine ⟨s', l₁ ++ l, om', by rw [b1]; exact c1, by rw [c2, b2, List.append_assoc], ?_, rfl⟩
          rw [writeLog_append, b3]
          exact c3
      · rintro ⟨s', l, om', h1, h2, h3, rfl⟩
        cases hb : gsBody api stepSize record s with
        | error e => rw [hb] at h1; cases h1
        | ok s₁ =>
          rw [hb] at h1
          -- the log only grows
          have grow : ∃ l₁, s₁.log = s.log ++ l₁ := by
            obtain ⟨-, ⟨_, e, -, -, he⟩, -⟩ := gsBody_ok api stepSize record s s₁ hb
            exact ⟨e, he⟩
          obtain ⟨l₁, hl₁⟩ := grow
          have grow' : ∃ l₂, s'.log = s₁.log ++ l₂ := gsLoop_grows api numSteps tol stepSize record fuel s₁ s' h1
          obtain ⟨l₂, hl₂⟩ := grow'
          obtain rfl : l = l₁ ++ l₂ := by
            rw [h2, hl₁, List.append_assoc] at hl₂
            exact List.append_cancel_left hl₂
          rw [writeLog_append] at h3
          cases hw : writeLog om l₁ with
          | error e => simp only [hw] at h3; cases h3
          | ok om₁ =>
            simp only [hw] at h3
            rw [(gsBodyFile_iff api stepSize record s om (s₁.withFile om₁)).2 ⟨s₁, l₁, om₁, hb, hl₁, hw, rfl⟩]
            exact (ih s₁ om₁ _).2 ⟨s', l₂, om', h1, hl₂, h3, rfl⟩
    · rw [if_neg hc, if_neg hc]
      constructor
      · intro h; cases h; exact ⟨s, [], om, rfl, by simp, rfl, rfl⟩
      · rintro ⟨s', l, om', h1, h2, h3, rfl⟩
        cases h1
        obtain rfl : l = [] := by simpa using h2
        cases h3
        rfl

/-- The search with a file is the search, and its records written in order. -/
theorem searchFile_iff (api : GsApi P ObsDict W) (numSteps : ℤ) (tol stepSize : ℝ) (record : Bool) (shift : ℝ) (w : W)
    (om : OmState) (x : GsFileState W) :
    groundStateSearchFile api numSteps tol stepSize record shift w om = .ok x ↔
      ∃ s om', groundStateSearch api numSteps tol stepSize record shift w = .ok s ∧ writeLog om s.log = .ok om' ∧
        x = s.withFile om' := by
  unfold groundStateSearchFile groundStateSearch
  constructor
  · intro h
    cases hm : gsMeasureFile api record 0 w om with
    | error e => rw [hm] at h; cases h
    | ok y =>
      obtain ⟨w', om₁⟩ := y
      rw [hm] at h
      obtain ⟨l, k1, k2⟩ := (gsMeasureFile_iff api record 0 w w' om om₁ []).1 hm
      obtain ⟨s', l', om', c1, c2, c3, rfl⟩ := (gsLoopFile_iff api numSteps tol stepSize record _
        ⟨0, some 1, if api.hasShift then some shift else none, shift, w', [] ++ l⟩ om₁ x).1 h
      refine ⟨s', om', by rw [k1]; exact c1, ?_, rfl⟩
      rw [c2]
      change writeLog om (([] ++ l) ++ l') = _
      rw [writeLog_append, List.nil_append, k2]
      exact c3
  · rintro ⟨s', om', h1, h2, rfl⟩
    cases hm : gsMeasure api record 0 w ([] : List (ℕ × ObsDict)) with
    | error e => rw [hm] at h1; cases h1
    | ok y =>
      obtain ⟨w', l⟩ := y
      rw [hm] at h1
      obtain ⟨l', hl'⟩ := gsLoop_grows api numSteps tol stepSize record _ _ s' h1
      rw [hl', writeLog_append] at h2
      dsimp only at h2
      cases hw : writeLog om l with
      | error e => simp only [hw] at h2; cases h2
      | ok om₁ =>
        simp only [hw] at h2
        rw [(gsMeasureFile_iff api record 0 w w' om om₁ []).2 ⟨l, by rw [hm]; simp, hw⟩]
        exact (gsLoopFile_iff api numSteps tol stepSize record _
          ⟨0, some 1, if api.hasShift then some shift else none, shift, w', l⟩ om₁ _).2
          ⟨s', l', om', h1, hl', h2, rfl⟩

/-! ## The records as calls -/

theorem omAll_append : ∀ (l l' : List OmOp) (om : OmState), omAll om (l ++ l')
    = (match omAll om l with
      | .error err => .error err
      | .ok om' => omAll om' l')
  | [], _, _ => rfl
  | op :: l, l', om => by
    rw [List.cons_append, omAll, omAll]
    cases omCall om op with
    | mk r s =>
      cases r with
      | error e => rfl
      | ok _ => exact omAll_append l l' s

theorem writeLog_eq : ∀ (l : List (ℕ × ObsDict)) (om : OmState),
    (∀ e ∈ l, "self" ∉ e.2.map Prod.fst ∧ "time" ∉ e.2.map Prod.fst) →
    writeLog om l = omAll om (l.map fun e => obsOp e.1 e.2)
  | [], _, _ => rfl
  | e :: l, om, h => by
    have h0 := h e List.mem_cons_self
    rw [writeLog, outpWrite_ok om e.1 e.2 h0.1 h0.2, List.map_cons,
      show obsOp e.1 e.2 :: l.map (fun e => obsOp e.1 e.2) = [obsOp e.1 e.2] ++ l.map fun e => obsOp e.1 e.2 from rfl,
      omAll_append]
    cases omAll om [obsOp e.1 e.2] with
    | error err => rfl
    | ok om' => exact writeLog_eq l om' fun e he => h e (List.mem_cons_of_mem _ he)

theorem obsOp_natural (n : ℕ) (obs : ObsDict) (h1 : "" ∉ obs.map Prod.fst) (h2 : "times" ∉ obs.map Prod.fst) :
    Natural (obsOp n obs) := by
  intro k hk
  obtain ⟨e, he, rfl⟩ := List.mem_map.1 hk
  refine ⟨⟨e.1, ⟨rfl, ?_⟩, ?_⟩, ?_⟩
  · rintro h
    exact h1 (List.mem_map.2 ⟨e, he, h⟩)
  · rintro h
    exact h2 (List.mem_map.2 ⟨e, he, h⟩)
  · intro m hm
    simp only [obsEntry, List.mem_cons, List.not_mem_nil, or_false] at hm
    rcases hm with rfl | rfl | rfl
    · exact ⟨⟨"mean", rfl, by decide⟩, rfl⟩
    · exact ⟨⟨"variance", rfl, by decide⟩, rfl⟩
    · exact ⟨⟨"MC_error", rfl, by decide⟩, rfl⟩

theorem obsOp_keys (n : ℕ) (obs : ObsDict) (h : (obs.map Prod.fst).Nodup) (t : ℝ) (kw : List (HName × List (HName × PyVal)))
    (he : obsOp n obs = .writeObservables t kw) : DictKeys kw := by
  unfold obsOp at he
  cases he
  refine ⟨?_, ?_⟩
  · rw [List.map_map]
    rw [show (Prod.fst ∘ fun e : String × List (List MeasResult) => ([e.1], obsEntry e.2))
      = (fun s : String => [s]) ∘ Prod.fst from rfl, ← List.map_map]
    exact h.map (fun a b hab => by simpa using hab)
  · intro k hk
    obtain ⟨e, _, rfl⟩ := List.mem_map.1 hk
    simp [obsEntry]

/-- The value of a name in a call. -/
theorem obsOp_value (obs : ObsDict) (h : (obs.map Prod.fst).Nodup) (key : String) (vals : List (List MeasResult))
    (hm : (key, vals) ∈ obs) (name : String) (f : MeasResult → ℝ) (hf : (name, f) ∈ reported) :
    obsValue key name (obs.map fun e => ([e.1], obsEntry e.2)) = some (statArr f vals) := by
  have hl : (obs.map fun e => (([e.1] : HName), obsEntry e.2)).lookup [key] = some (obsEntry vals) := by
    induction obs with
    | nil => cases hm
    | cons e obs ih =>
      rw [List.map_cons, List.nodup_cons] at h
      rcases List.mem_cons.1 hm with rfl | hm
      · simp
      · have hne : key ≠ e.1 := by
          rintro rfl
          exact h.1 (List.mem_map.2 ⟨_, hm, rfl⟩)
        rw [List.map_cons, List.lookup_cons]
        have : ([key] == [e.1]) = false := by simpa using hne
        rw [this]
        exact ih h.2 hm
  unfold obsValue
  rw [hl]
  simp only [reported, List.mem_cons, List.not_mem_nil, or_false] at hf
  rcases hf with hf | hf | hf <;> cases hf <;> rfl

/-- The rows of a call and their shapes. -/
theorem obsOp_rows (H : List String) (n : ℕ) (obs : ObsDict) (h : "" ∉ obs.map Prod.fst) (x : List String × NdArr)
    (hx : x ∈ opRows H (obsOp n obs)) :
    (x.1 = H ++ ["observables", "times"] ∧ x.2.shape = []) ∨
      ∃ e ∈ obs, ∃ name f, (name, f) ∈ reported ∧ x.1 = H ++ ["observables", e.1, name] ∧ x.2.shape = [e.2.length] := by
  rcases List.mem_cons.1 hx with rfl | hx
  · exact .inl ⟨rfl, rfl⟩
  · right
    obtain ⟨k, hk, hx⟩ := List.mem_flatMap.1 hx
    obtain ⟨e, he, rfl⟩ := List.mem_map.1 hk
    obtain ⟨m, hm, hx⟩ := List.mem_flatMap.1 hx
    obtain ⟨v, hv, rfl⟩ := List.mem_map.1 hx
    have hne : e.1 ≠ "" := fun hc => h (List.mem_map.2 ⟨e, he, hc⟩)
    have hp : HName.path [e.1] = [e.1] := by simp [HName.path, hne]
    refine ⟨e, he, ?_⟩
    simp only [obsEntry, List.mem_cons, List.not_mem_nil, or_false] at hm
    rcases hm with rfl | rfl | rfl
    · refine ⟨"mean", MeasResult.mean, by simp [reported], ?_, ?_⟩
      · rw [hp]; simp [HName.path]
      · simp only [Option.toList_some, List.mem_singleton] at hv
        rw [hv]; simp [statArr, vecArr]
    · refine ⟨"variance", MeasResult.variance, by simp [reported], ?_, ?_⟩
      · rw [hp]; simp [HName.path]
      · simp only [Option.toList_some, List.mem_singleton] at hv
        rw [hv]; simp [statArr, vecArr]
    · refine ⟨"MC_error", MeasResult.mcError, by simp [reported], ?_, ?_⟩
      · rw [hp]; simp [HName.path]
      · simp only [Option.toList_some, List.mem_singleton] at hv
        rw [hv]; simp [statArr, vecArr]

theorem intended_obsOps (H : List String) : ∀ (l : List (ℕ × ObsDict)),
    intended H (l.map fun e => obsOp e.1 e.2) = l.flatMap fun e => opRows H (obsOp e.1 e.2)
  | [] => rfl
  | e :: l => by
    rw [List.map_cons, List.flatMap_cons, ← intended_obsOps H l]
    rfl

end JVMC
