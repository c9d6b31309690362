import Mathlib.Analysis.Calculus.Deriv.Add
import Mathlib.Tactic.NormNum
import Verif.Model.Vqs
import Verif.Spec.Wave
import Verif.Lemmas.Vqs

/-! # Properties C11, C21-C25, C63: `NQS` -/

namespace JVMC

/-! ## C21 -/

/-- **C21**: for every batch size at least one and every number of samples, the batched
evaluation gives the value of the un-batched function on every sample, in order. The same model
function stands for `psi(s)`, `psi.gradients(s)` and `eval_batched`. -/
theorem c21_batching {A B : Type} (zero : A) (b : ℕ) (hb : 0 < b) (f : A → B) (s : List A) :
    evalBatched zero b f s = .ok (s.map f) := by
  have hq : s.length ≤ b * ((s.length + b - 1) / b) := by
    have h1 := Nat.div_add_mod (s.length + b - 1) b
    have h2 := Nat.mod_lt (s.length + b - 1) hb
    omega
  unfold evalBatched createBatches
  rw [if_neg (by omega)]
  show Except.ok _ = Except.ok _
  congr 1
  rw [← List.map_flatten, rows_flatten b ((s.length + b - 1) / b) _ _ hb]
  · rw [List.map_append, List.take_append_of_le_length (by simp)]
    simp
  · rw [List.length_append, List.length_replicate, Nat.mul_comm _ b]
    omega

/-- Case: seven samples in batches of three. -/
example : evalBatched 0 3 (· + 1) [1, 2, 3, 4, 5, 6, 7] = .ok [2, 3, 4, 5, 6, 7, 8] := by decide

/-- A batch size of zero is reported. -/
theorem c21_batch_zero {A B : Type} (zero : A) (f : A → B) (s : List A) :
    evalBatched zero 0 f s = .error .zeroDivisionError := rfl

/-! ## Histories of calls -/

/-- The calls on an `NQS` object that can change its state. -/
inductive NqsOp where
  | eval
  | set (P : ParamArg)
  | update (deltaP : List ℝ)

/-- The state after a call; an exception is caught by the caller. -/
noncomputable def nqsStep (p₀ : Params) (st : NqsState) : NqsOp → NqsState
  | .eval => ((initNet p₀).call st).2
  | .set P => ((setParameters P).call st).2
  | .update d => ((updateParameters d).call st).2

/-- The state after a history of calls on a new object. `p₀` are the initial parameters. -/
noncomputable def nqsRun (p₀ : Params) (ops : List NqsOp) : NqsState :=
  ops.foldl (nqsStep p₀) none

/-- Parameter dictionaries that are passed have the structure of the network's tree. -/
def NqsOp.Fits (p₀ : Params) : NqsOp → Prop
  | .set (.dict p) => p.isReal = p₀.isReal ∧ p.sizes = p₀.sizes
  | _ => True

/-- The structure fixed at initialisation is the one of the current parameters. -/
private def WF (p₀ : Params) (st : NqsInit) : Prop :=
  st.realParams = p₀.isReal ∧ st.sizes = p₀.sizes ∧
    st.params.isReal = p₀.isReal ∧ st.params.sizes = p₀.sizes

theorem call_bind {A B : Type} (m : PsiM A) (k : A → PsiM B) (st : NqsState) :
    (m >>= k).call st = match m.call st with
      | (.ok a, s) => (k a).call s
      | (.error e, s) => (.error e, s) := by
  show (ExceptT.run (m >>= k)).run st = _
  rw [ExceptT.run_bind]
  show (StateT.run (ExceptT.run m >>= _) st) = _
  rw [StateT.run_bind]
  unfold PsiM.call
  rcases h : (ExceptT.run m).run st with ⟨r, s⟩
  cases r <;> rfl

theorem bind_ok {A B : Type} (m : PsiM A) (k : A → PsiM B) (st s : NqsState) (a : A)
    (h : m.call st = (.ok a, s)) : (m >>= k).call st = (k a).call s := by
  rw [call_bind, h]

theorem bind_err {A B : Type} (m : PsiM A) (k : A → PsiM B) (st s : NqsState) (e : PyErr)
    (h : m.call st = (.error e, s)) : (m >>= k).call st = (.error e, s) := by
  rw [call_bind, h]

theorem call_getParameters (st : NqsInit) :
    getParameters.call (some st) = (.ok (some (flattenParams st.params)), some st) := rfl

theorem call_getParams (st : NqsInit) :
    getParams.call (some st) = (.ok (some st.params), some st) := rfl

theorem call_get (st : NqsState) :
    PsiM.call (get : PsiM NqsState) st = (.ok st, st) := rfl

theorem call_setParams (p : Params) (st : NqsInit) :
    (setParams p).call (some st) = (.ok (), some { st with params := p }) := rfl

theorem call_setVec (v : List ℝ) (st : NqsInit) :
    (setParameters (.vec v)).call (some st) =
      match paramUnflatten st.realParams st.sizes v with
      | .error e => (.error e, some st)
      | .ok p => (.ok (), some { st with params := p }) := by
  show ((match paramUnflatten st.realParams st.sizes v with
      | .error e => throw e
      | .ok p => setParams p : PsiM Unit)).call (some st) = _
  cases paramUnflatten st.realParams st.sizes v <;> rfl

theorem call_update (d : List ℝ) (st : NqsInit) :
    (updateParameters d).call (some st) =
      match paramUnflatten st.realParams st.sizes d with
      | .error e => (.error e, some st)
      | .ok q =>
        match addParams st.params q with
        | .error e => (.error e, some st)
        | .ok p => (.ok (), some { st with params := p }) := by
  show ((match paramUnflatten st.realParams st.sizes d with
      | .error e => throw e
      | .ok q =>
        match addParams st.params q with
        | .error e => throw e
        | .ok p => setParams p : PsiM Unit)).call (some st) = _
  cases paramUnflatten st.realParams st.sizes d with
  | error e => rfl
  | ok q => cases h : addParams st.params q <;> simp only [h] <;> rfl

theorem unflatten_struct_real (sizes : List ℕ) (start : ℕ) (v : List ℝ)
    (L : List (List ℝ)) (h : unflattenReal sizes start v = .ok L) :
    L.map List.length = sizes := by
  induction sizes generalizing start L with
  | nil => simp only [unflattenReal] at h; cases h; rfl
  | cons n ns ih =>
    simp only [unflattenReal] at h
    unfold reshapeTo at h
    split at h
    · rename_i hn
      cases hr : unflattenReal ns (start + n) v with
      | error e => rw [hr] at h; cases h
      | ok rest =>
        rw [hr] at h
        cases h
        rw [List.map_cons, hn, ih _ _ hr]
    · cases h

theorem unflatten_struct_cpx (sizes : List ℕ) (start : ℕ) (v : List ℝ)
    (L : List (List ℂ)) (h : unflattenCpx sizes start v = .ok L) :
    L.map List.length = sizes := by
  induction sizes generalizing start L with
  | nil => simp only [unflattenCpx] at h; cases h; rfl
  | cons n ns ih =>
    simp only [unflattenCpx] at h
    cases hz : addImag (pySlice v start (start + n)) (pySlice v (start + n) (start + 2 * n)) with
    | error e => rw [hz] at h; cases h
    | ok z =>
      rw [hz] at h
      have h' : (reshapeTo n z >>= fun leaf =>
        (unflattenCpx ns (start + 2 * n) v >>= fun rest => pure (leaf :: rest))) = .ok L := h
      unfold reshapeTo at h'
      split at h'
      · rename_i hn
        cases hr : unflattenCpx ns (start + 2 * n) v with
        | error e => rw [hr] at h'; cases h'
        | ok rest =>
          rw [hr] at h'
          cases h'
          rw [List.map_cons, hn, ih _ _ hr]
      · cases h'

theorem unflatten_struct (r : Bool) (sizes : List ℕ) (v : List ℝ) (p : Params)
    (h : paramUnflatten r sizes v = .ok p) : p.isReal = r ∧ p.sizes = sizes := by
  cases r with
  | true =>
    simp only [paramUnflatten, if_true] at h
    cases hr : unflattenReal sizes 0 v with
    | error e => rw [hr] at h; cases h
    | ok L =>
      rw [hr] at h
      cases h
      exact ⟨rfl, unflatten_struct_real _ _ _ _ hr⟩
  | false =>
    simp only [paramUnflatten, Bool.false_eq_true, if_false] at h
    cases hr : unflattenCpx sizes 0 v with
    | error e => rw [hr] at h; cases h
    | ok L =>
      rw [hr] at h
      cases h
      exact ⟨rfl, unflatten_struct_cpx _ _ _ _ hr⟩

theorem wf_step (p₀ : Params) (op : NqsOp) (hop : op.Fits p₀) (st : NqsState)
    (h : ∀ i, st = some i → WF p₀ i) : ∀ i, nqsStep p₀ st op = some i → WF p₀ i := by
  intro i hi
  cases st with
  | none =>
    cases op with
    | eval => cases hi; exact ⟨rfl, rfl, rfl, rfl⟩
    | set P => cases P <;> cases hi
    | update d => cases hi
  | some s =>
    have hs := h s rfl
    cases op with
    | eval => cases hi; exact hs
    | set P =>
      cases P with
      | dict p => cases hi; exact ⟨hs.1, hs.2.1, hop.1, hop.2⟩
      | vec v =>
        simp only [nqsStep, call_setVec] at hi
        cases hu : paramUnflatten s.realParams s.sizes v with
        | error e => rw [hu] at hi; cases hi; exact hs
        | ok p =>
          rw [hu] at hi
          cases hi
          obtain ⟨u1, u2⟩ := unflatten_struct _ _ _ _ hu
          exact ⟨hs.1, hs.2.1, u1.trans hs.1, u2.trans hs.2.1⟩
    | update d =>
      simp only [nqsStep, call_update] at hi
      cases hu : paramUnflatten s.realParams s.sizes d with
      | error e => rw [hu] at hi; cases hi; exact hs
      | ok q =>
        rw [hu] at hi
        obtain ⟨u1, u2⟩ := unflatten_struct _ _ _ _ hu
        obtain ⟨r, hr, hr1, hr2, _⟩ := addParams_ok s.params q
          (by rw [u1, hs.1, hs.2.2.1]) (by rw [u2, hs.2.1, hs.2.2.2])
        simp only [hr] at hi
        cases hi
        exact ⟨hs.1, hs.2.1, hr1.trans hs.2.2.1, hr2.trans hs.2.2.2⟩

theorem wf_run (p₀ : Params) (ops : List NqsOp) (hops : ∀ op ∈ ops, op.Fits p₀) :
    ∀ i, nqsRun p₀ ops = some i → WF p₀ i := by
  unfold nqsRun
  suffices H : ∀ st : NqsState, (∀ i, st = some i → WF p₀ i) →
      ∀ i, ops.foldl (nqsStep p₀) st = some i → WF p₀ i from H none (by simp)
  induction ops with
  | nil => intro st h; simpa using h
  | cons op ops ih =>
    intro st h
    rw [List.foldl_cons]
    exact ih (fun o ho => hops o (List.mem_cons_of_mem _ ho)) _
      (wf_step p₀ op (hops op List.mem_cons_self) st h)

/-! ## C22 -/

/-- **C22**, first half: after every history of calls that initialised the network, setting a
parameter vector of the right length and reading it back gives that vector. -/
theorem c22_set_then_get (p₀ : Params) (ops : List NqsOp) (hops : ∀ op ∈ ops, op.Fits p₀)
    (hinit : nqsRun p₀ ops ≠ none) (v : List ℝ)
    (hv : v.length = (flattenParams p₀).length) :
    ((do setParameters (.vec v); getParameters : PsiM _).call (nqsRun p₀ ops)).1
      = .ok (some v) := by
  cases hst : nqsRun p₀ ops with
  | none => exact absurd hst hinit
  | some st =>
    have hw := wf_run p₀ ops hops st hst
    obtain ⟨p, hp, _, _, h3⟩ := paramUnflatten_ok st.realParams st.sizes v
      (by rw [hv, flatten_length_params, hw.1, hw.2.1])
    have h := call_setVec v st
    rw [hp] at h
    rw [bind_ok _ _ _ _ _ h]
    show (Except.ok (some (flattenParams p)) : Except PyErr (Option (List ℝ))) = _
    rw [h3]

/-- **C22**, second half: reading the parameter vector and setting it again succeeds and leaves
the whole state unchanged. -/
theorem c22_get_then_set (p₀ : Params) (ops : List NqsOp) (hops : ∀ op ∈ ops, op.Fits p₀)
    (hinit : nqsRun p₀ ops ≠ none) :
    ∃ v, (getParameters.call (nqsRun p₀ ops)) = (.ok (some v), nqsRun p₀ ops) ∧
      (setParameters (.vec v)).call (nqsRun p₀ ops) = (.ok (), nqsRun p₀ ops) := by
  cases hst : nqsRun p₀ ops with
  | none => exact absurd hst hinit
  | some st =>
    have hw := wf_run p₀ ops hops st hst
    refine ⟨flattenParams st.params, rfl, ?_⟩
    have h : paramUnflatten st.realParams st.sizes (flattenParams st.params) = .ok st.params := by
      rw [hw.1, ← hw.2.2.1, hw.2.1, ← hw.2.2.2, flattenParams_unflatten]
    rw [call_setVec, h]

/-- Case: a complex network with leaves of two and one entries, initialised and updated. -/
example : nqsRun (.cpx [[1, Complex.I], [0]]) [.eval, .update [1, 0, 0, 0, 2, 3]] ≠ none ∧
    [(1 : ℝ), 2, 3, 4, 5, 6].length = (flattenParams (.cpx [[1, Complex.I], [0]])).length := by
  constructor
  · intro h
    have h1 : nqsRun (.cpx [[1, Complex.I], [0]]) [.eval, .update [1, 0, 0, 0, 2, 3]]
        = ((updateParameters [1, 0, 0, 0, 2, 3]).call
            (some ⟨false, [2, 1], .cpx [[1, Complex.I], [0]]⟩)).2 := rfl
    rw [h1, call_update] at h
    split at h
    · cases h
    · split at h <;> cases h
  · rfl

/-! ## C25 -/

/-- **C25**: before initialisation `set_parameters` raises `RuntimeError` and nothing changes; assigning to `params`
raises `TypeError`, and nothing changes either. -/
theorem c25_set_before_init (P : ParamArg) (p : Params) :
    (setParameters P).call none = (.error .runtimeError, none) ∧
    (setParams p).call none = (.error .typeError, none) := ⟨rfl, rfl⟩

/-- **C25**: an object is initialised exactly if it has been evaluated; no exception of another
call changes that. -/
theorem c25_initialised_iff (p₀ : Params) (ops : List NqsOp) :
    nqsRun p₀ ops ≠ none ↔ ∃ op ∈ ops, op = NqsOp.eval := by
  have hsome : ∀ (ops : List NqsOp) (st : NqsInit),
      ops.foldl (nqsStep p₀) (some st) ≠ none := by
    intro ops
    induction ops with
    | nil => intro st; simp
    | cons op ops ih =>
      intro st
      rw [List.foldl_cons]
      have : ∃ st', nqsStep p₀ (some st) op = some st' := by
        cases op with
        | eval => exact ⟨_, rfl⟩
        | set P =>
          cases P with
          | dict p => exact ⟨_, rfl⟩
          | vec v =>
            simp only [nqsStep, call_setVec]
            cases paramUnflatten st.realParams st.sizes v <;> exact ⟨_, rfl⟩
        | update d =>
          simp only [nqsStep, call_update]
          cases paramUnflatten st.realParams st.sizes d with
          | error e => exact ⟨_, rfl⟩
          | ok q => cases h : addParams st.params q <;> simp only [h] <;> exact ⟨_, rfl⟩
      obtain ⟨st', h⟩ := this
      rw [h]
      exact ih st'
  unfold nqsRun
  induction ops with
  | nil => simp
  | cons op ops ih =>
    rw [List.foldl_cons]
    cases op with
    | eval =>
      constructor
      · intro _; exact ⟨_, List.mem_cons_self, rfl⟩
      · intro _; exact hsome ops _
    | set P =>
      have : nqsStep p₀ none (.set P) = none := rfl
      rw [this]
      exact ih.trans (by simp)
    | update d =>
      have : nqsStep p₀ none (.update d) = none := rfl
      rw [this]
      exact ih.trans (by simp)

/-- **C25**: after every history that initialised the network, `update_parameters(d)` with `d` of
the right length succeeds and adds `d` entry by entry to the parameter vector. -/
theorem c25_update_adds (p₀ : Params) (ops : List NqsOp) (hops : ∀ op ∈ ops, op.Fits p₀)
    (hinit : nqsRun p₀ ops ≠ none) (d : List ℝ) (hd : d.length = (flattenParams p₀).length) :
    ∃ v st', (getParameters.call (nqsRun p₀ ops)).1 = .ok (some v) ∧ v.length = d.length ∧
      (updateParameters d).call (nqsRun p₀ ops) = (.ok (), st') ∧
      (getParameters.call st').1 = .ok (some (List.zipWith (· + ·) v d)) := by
  cases hst : nqsRun p₀ ops with
  | none => exact absurd hst hinit
  | some st =>
    have hw := wf_run p₀ ops hops st hst
    obtain ⟨q, hq, q1, q2, q3⟩ := paramUnflatten_ok st.realParams st.sizes d
      (by rw [hd, flatten_length_params, hw.1, hw.2.1])
    obtain ⟨r, hr, hr1, hr2, hr3⟩ := addParams_ok st.params q
      (by rw [q1, hw.1, hw.2.2.1]) (by rw [q2, hw.2.1, hw.2.2.2])
    refine ⟨flattenParams st.params, some { st with params := r }, rfl, ?_, ?_, ?_⟩
    · rw [hd, flatten_length_params, flatten_length_params, hw.2.2.1, hw.2.2.2]
    · rw [call_update, hq]; simp only [hr]
    · show (Except.ok (some (flattenParams r)) : Except PyErr (Option (List ℝ))) = _
      rw [hr3, q3]

/-- **C25** fails for `update_parameters` before initialisation: the documentation says the
parameters are set to `deltaP`, the code raises `RuntimeError` for every `deltaP`. -/
theorem c25_update_before_init_violated (deltaP : List ℝ) :
    (updateParameters deltaP).call none = (.error .runtimeError, none) := rfl

/-- What remains of C25: before initialisation both calls raise `RuntimeError`, afterwards both
succeed for every vector of the right length. Missing: the documented effect of
`update_parameters` before initialisation, see `c25_update_before_init_violated`. -/
theorem c25_protocol_partial (p₀ : Params) (ops : List NqsOp) (hops : ∀ op ∈ ops, op.Fits p₀)
    (v : List ℝ) (hv : v.length = (flattenParams p₀).length) :
    (NqsOp.eval ∉ ops →
      (setParameters (.vec v)).call (nqsRun p₀ ops) = (.error .runtimeError, none) ∧
      (updateParameters v).call (nqsRun p₀ ops) = (.error .runtimeError, none)) ∧
    (NqsOp.eval ∈ ops →
      ((setParameters (.vec v)).call (nqsRun p₀ ops)).1 = .ok () ∧
      ((updateParameters v).call (nqsRun p₀ ops)).1 = .ok ()) := by
  have hiff := c25_initialised_iff p₀ ops
  constructor
  · intro h
    have : nqsRun p₀ ops = none := by
      by_contra hc
      obtain ⟨op, h1, rfl⟩ := hiff.mp hc
      exact h h1
    rw [this]
    exact ⟨rfl, rfl⟩
  · intro h
    have hi : nqsRun p₀ ops ≠ none := hiff.mpr ⟨_, h, rfl⟩
    obtain ⟨_, st', _, _, h3, _⟩ := c25_update_adds p₀ ops hops hi v hv
    refine ⟨?_, by rw [h3]⟩
    cases hst : nqsRun p₀ ops with
    | none => exact absurd hst hi
    | some st =>
      have hw := wf_run p₀ ops hops st hst
      obtain ⟨p, hp, _⟩ := paramUnflatten_ok st.realParams st.sizes v
        (by rw [hv, flatten_length_params, hw.1, hw.2.1])
      rw [call_setVec, hp]

/-- Case: one real parameter, a failed `set_parameters`, an evaluation, then the two calls. -/
example : NqsOp.eval ∈ [NqsOp.set (.vec [2]), NqsOp.eval] ∧
    (nqsRun (.real [[1]]) [.set (.vec [2]), .eval]) = some ⟨true, [1], .real [[1]]⟩ :=
  ⟨by simp, rfl⟩

/-! ## C63: vectors of the wrong length -/

theorem unflattenReal_short (sizes : List ℕ) (start : ℕ) (v : List ℝ)
    (h : v.length < start + sizes.sum) (hs : start ≤ v.length) :
    unflattenReal sizes start v = .error .typeError := by
  induction sizes generalizing start with
  | nil => simp at h; omega
  | cons n ns ih =>
    rw [List.sum_cons] at h
    simp only [unflattenReal]
    by_cases hn : start + n ≤ v.length
    · have hl : (pySlice v start (start + n)).length = n := by
        unfold pySlice; rw [List.length_take, List.length_drop]; omega
      rw [ih (start + n) (by omega) hn]
      unfold reshapeTo
      rw [if_pos hl]
      rfl
    · have hl : (pySlice v start (start + n)).length ≠ n := by
        unfold pySlice; rw [List.length_take, List.length_drop]; omega
      unfold reshapeTo
      rw [if_neg hl]
      rfl

/-- **C63** holds for real networks and vectors that are too short: `set_parameters` raises and
the state does not change. Missing: vectors that are too long, and complex networks; see
`c63_too_long_violated` and `c63_too_short_violated`. -/
theorem c63_short_vector_partial (p₀ : Params) (hreal : p₀.isReal = true) (ops : List NqsOp)
    (hops : ∀ op ∈ ops, op.Fits p₀) (hinit : nqsRun p₀ ops ≠ none) (v : List ℝ)
    (hv : v.length < (flattenParams p₀).length) :
    (setParameters (.vec v)).call (nqsRun p₀ ops) = (.error .typeError, nqsRun p₀ ops) := by
  cases hst : nqsRun p₀ ops with
  | none => exact absurd hst hinit
  | some st =>
    have hw := wf_run p₀ ops hops st hst
    rw [flatten_length_params, hreal, numEntries, if_pos rfl] at hv
    have := unflattenReal_short st.sizes 0 v (by rw [hw.2.1]; omega) (by omega)
    rw [call_setVec, hw.1, hreal]
    simp only [paramUnflatten, if_true]
    rw [this]
    rfl

example := c63_short_vector_partial (.real [[1, 2], [3]]) rfl [.eval] (by simp [NqsOp.Fits]) (by intro h; cases h) [4]
  (by simp [flattenParams])

/-- Whenever `set_parameters` or `update_parameters` raises, the state is unchanged. -/
theorem c63_failure_is_atomic (P : ParamArg) (d : List ℝ) (st : NqsState) (e : PyErr) :
    (((setParameters P).call st).1 = .error e → ((setParameters P).call st).2 = st) ∧
    (((updateParameters d).call st).1 = .error e → ((updateParameters d).call st).2 = st) := by
  cases st with
  | none => exact ⟨fun _ => rfl, fun _ => rfl⟩
  | some s =>
    constructor
    · cases P with
      | dict p => intro h; cases h
      | vec v =>
        rw [call_setVec]
        cases paramUnflatten s.realParams s.sizes v with
        | error e => exact fun _ => rfl
        | ok p => intro h; cases h
    · rw [call_update]
      cases paramUnflatten s.realParams s.sizes d with
      | error e => exact fun _ => rfl
      | ok q =>
        dsimp only
        cases addParams s.params q with
        | error e => exact fun _ => rfl
        | ok p => intro h; cases h

/-- **C63** fails for vectors that are too long: whatever is appended is ignored silently. -/
theorem c63_too_long_violated (p : Params) (extra : List ℝ) :
    (setParameters (.vec (flattenParams p ++ extra))).call (some ⟨p.isReal, p.sizes, p⟩)
      = (.ok (), some ⟨p.isReal, p.sizes, p⟩) := by
  rw [call_setVec]
  cases p with
  | real l =>
    have := unflattenReal_flatten l [] extra
    simp only [List.nil_append, List.length_nil] at this
    simp [paramUnflatten, Params.isReal, Params.sizes, flattenParams, this]
  | cpx l =>
    have := unflattenCpx_flatten l [] extra
    simp only [List.nil_append, List.length_nil, flatC] at this
    simp [paramUnflatten, Params.isReal, Params.sizes, flattenParams, this]

/-- **C63** fails for complex networks: a leaf of two entries accepts a vector of three numbers
instead of four, the third number becomes both imaginary parts. -/
theorem c63_too_short_violated (a b c : ℝ) (p : List ℂ) :
    (setParameters (.vec [a, b, c])).call (some ⟨false, [2], .cpx [p]⟩)
      = (.ok (), some ⟨false, [2], .cpx [[⟨a, c⟩, ⟨b, c⟩]]⟩) := by
  rw [call_setVec]
  have : paramUnflatten false [2] [a, b, c] = .ok (.cpx [[⟨a, c⟩, ⟨b, c⟩]]) := by
    simp [paramUnflatten, unflattenCpx, pySlice, addImag]
    rfl
  rw [this]

/-! ## C11 -/

theorem call_callNet {B : Type} (p₀ : Params) (eval : Params → Except PyErr B)
    (st : NqsInit) :
    (callNet p₀ eval).call (some st) =
      match eval st.params with
      | .error e => (.error e, some st)
      | .ok b => (.ok b, some st) := by
  show ((match eval st.params with
    | .error e => throw e
    | .ok b => return b : PsiM B)).call (some st) = _
  cases eval st.params <;> rfl

/-- **C11**, `ExactSampler.sample(parameters=P)`: after every history of calls, for every vector
of the right length the network is evaluated with parameters whose vector is `P`, the result is
returned and the wave function is left exactly as before. -/
theorem c11_exact_sampler {B : Type} (p₀ : Params) (ops : List NqsOp)
    (hops : ∀ op ∈ ops, op.Fits p₀) (hinit : nqsRun p₀ ops ≠ none) (P : List ℝ)
    (hP : P.length = (flattenParams p₀).length) (eval : Params → Except PyErr B) :
    ∃ p, flattenParams p = P ∧ p.isReal = p₀.isReal ∧ p.sizes = p₀.sizes ∧
      ∀ b, eval p = .ok b →
        (exactSamplePsi p₀ eval (some (.vec P))).call (nqsRun p₀ ops)
          = (.ok b, nqsRun p₀ ops) := by
  cases hst : nqsRun p₀ ops with
  | none => exact absurd hst hinit
  | some st =>
    have hw := wf_run p₀ ops hops st hst
    obtain ⟨p, hp, p1, p2, p3⟩ := paramUnflatten_ok st.realParams st.sizes P
      (by rw [hP, flatten_length_params, hw.1, hw.2.1])
    refine ⟨p, p3, p1.trans hw.1, p2.trans hw.2.1, fun b hb => ?_⟩
    unfold exactSamplePsi
    dsimp only
    rw [bind_ok _ _ _ _ _ (call_getParameters st)]
    have h1 := call_setVec P st
    rw [hp] at h1
    rw [bind_ok _ _ _ _ _ h1]
    have h2 := call_callNet p₀ eval { st with params := p }
    simp only [hb] at h2
    rw [bind_ok _ _ _ _ _ h2]
    have h3 := call_setVec (flattenParams st.params) { st with params := p }
    simp only at h3
    rw [hw.1, hw.2.1, ← hw.2.2.1, ← hw.2.2.2, flattenParams_unflatten] at h3
    rw [show st.params.isReal = st.realParams by rw [hw.1, hw.2.2.1],
      show st.params.sizes = st.sizes by rw [hw.2.1, hw.2.2.2]] at h3
    rw [bind_ok _ _ _ _ _ h3]
    rfl

example {B : Type} (eval : Params → Except PyErr B) := c11_exact_sampler (.cpx [[1, Complex.I]]) [.eval] (by simp [NqsOp.Fits])
  (by intro h; cases h) [4, 3, 2, 1] rfl eval

/-- **C11**, `MCSampler.sample(parameters=P)` with direct sampling: configurations and
coefficients are those of `P`, the wave function is left exactly as before. -/
theorem c11_direct_sampling {C B : Type} (p₀ : Params) (ops : List NqsOp)
    (hops : ∀ op ∈ ops, op.Fits p₀) (hinit : nqsRun p₀ ops ≠ none) (P : List ℝ)
    (hP : P.length = (flattenParams p₀).length) (gen : Params → Except PyErr C)
    (eval : C → Params → Except PyErr B) :
    ∃ p, flattenParams p = P ∧ p.isReal = p₀.isReal ∧ p.sizes = p₀.sizes ∧
      ∀ c b, gen p = .ok c → eval c p = .ok b →
        (mcSampleGenPsi p₀ gen eval (some (.vec P))).call (nqsRun p₀ ops)
          = (.ok (c, b), nqsRun p₀ ops) := by
  cases hst : nqsRun p₀ ops with
  | none => exact absurd hst hinit
  | some st =>
    have hw := wf_run p₀ ops hops st hst
    obtain ⟨p, hp, p1, p2, p3⟩ := paramUnflatten_ok st.realParams st.sizes P
      (by rw [hP, flatten_length_params, hw.1, hw.2.1])
    refine ⟨p, p3, p1.trans hw.1, p2.trans hw.2.1, fun c b hc hb => ?_⟩
    unfold mcSampleGenPsi
    dsimp only
    rw [bind_ok _ _ _ _ _ (call_getParams st)]
    have h1 := call_setVec P st
    rw [hp] at h1
    rw [bind_ok _ _ _ _ _ h1]
    have h2 : (mcGenBody p₀ gen eval).call (some { st with params := p })
        = (.ok (c, b), some { st with params := p }) := by
      unfold mcGenBody
      rw [bind_ok _ _ _ _ _ (call_get _)]
      simp only [hc]
      have h3 := call_callNet p₀ (eval c) { st with params := p }
      simp only [hb] at h3
      rw [bind_ok _ _ _ _ _ h3]
      rfl
    rw [bind_ok _ _ _ _ _ h2]
    rfl

/-- **C11**, `MCSampler.sample(parameters=P)` with Markov chains: chains and coefficients use
`P`, the wave function is left exactly as before. -/
theorem c11_mcmc {C B : Type} (p₀ : Params) (ops : List NqsOp)
    (hops : ∀ op ∈ ops, op.Fits p₀) (hinit : nqsRun p₀ ops ≠ none) (P : List ℝ)
    (hP : P.length = (flattenParams p₀).length) (run : Params → Except PyErr C)
    (eval : C → Params → Except PyErr B) :
    ∃ p, flattenParams p = P ∧ p.isReal = p₀.isReal ∧ p.sizes = p₀.sizes ∧
      ∀ c b, run p = .ok c → eval c p = .ok b →
        (mcSampleMcmcPsi p₀ run eval (some (.vec P))).call (nqsRun p₀ ops)
          = (.ok (c, b), nqsRun p₀ ops) := by
  cases hst : nqsRun p₀ ops with
  | none => exact absurd hst hinit
  | some st =>
    have hw := wf_run p₀ ops hops st hst
    obtain ⟨p, hp, p1, p2, p3⟩ := paramUnflatten_ok st.realParams st.sizes P
      (by rw [hP, flatten_length_params, hw.1, hw.2.1])
    refine ⟨p, p3, p1.trans hw.1, p2.trans hw.2.1, fun c b hc hb => ?_⟩
    unfold mcSampleMcmcPsi
    have h0 : (do
        let tmpP ← getParams
        setParameters (.vec P)
        return tmpP : PsiM (Option Params)).call (some st)
        = (.ok (some st.params), some { st with params := p }) := by
      rw [bind_ok _ _ _ _ _ (call_getParams st)]
      have h1 := call_setVec P st
      rw [hp] at h1
      rw [bind_ok _ _ _ _ _ h1]
      rfl
    rw [bind_ok _ _ _ _ _ h0]
    rw [bind_ok _ _ _ _ _ (call_getParams _)]
    dsimp only
    rw [bind_ok _ _ _ _ _ (call_setParams st.params { st with params := p })]
    simp only [hc]
    rw [bind_ok _ _ _ _ _ (call_getParams st)]
    rw [bind_ok _ _ _ _ _ (call_setParams p _)]
    have h3 := call_callNet p₀ (eval c) { st with params := p }
    simp only [hb] at h3
    rw [bind_ok _ _ _ _ _ h3]
    rfl

/-- Without `parameters=` the samplers use the parameters of the wave function and leave them. -/
theorem c11_own_parameters {C B : Type} (p₀ : Params) (st : NqsInit)
    (run : Params → Except PyErr C) (eval : C → Params → Except PyErr B) (c : C) (b : B)
    (hc : run st.params = .ok c) (hb : eval c st.params = .ok b) :
    (mcSampleMcmcPsi p₀ run eval none).call (some st) = (.ok (c, b), some st) ∧
    (mcSampleGenPsi p₀ run eval none).call (some st) = (.ok (c, b), some st) ∧
    (exactSamplePsi p₀ (eval c) none).call (some st) = (.ok b, some st) := by
  have h3 := call_callNet p₀ (eval c) st
  simp only [hb] at h3
  refine ⟨?_, ?_, h3⟩
  · unfold mcSampleMcmcPsi
    rw [bind_ok (pure none : PsiM (Option Params)) _ _ (some st) none rfl]
    rw [bind_ok _ _ _ _ _ (call_getParams st)]
    dsimp only
    simp only [hc]
    rw [bind_ok _ _ _ _ _ (call_getParams st)]
    rw [bind_ok _ _ _ _ _ (call_setParams st.params _)]
    rw [bind_ok _ _ _ _ _ h3]
    rfl
  · unfold mcSampleGenPsi mcGenBody
    dsimp only
    rw [bind_ok _ _ _ _ _ (call_get _)]
    simp only [hc]
    rw [bind_ok _ _ _ _ _ h3]
    rfl

example := c11_own_parameters (.real [[1]]) ⟨true, [1], .real [[2]]⟩ (fun _ => .ok 5) (fun c p => .ok (c, p)) 5 _ rfl rfl

/-- A vector that `set_parameters` rejects is reported and the wave function is unchanged. -/
theorem c11_rejected_parameters {C B : Type} (p₀ : Params) (st : NqsState) (P : ParamArg)
    (e : PyErr) (h : ((setParameters P).call st).1 = .error e)
    (run : Params → Except PyErr C) (eval : C → Params → Except PyErr B)
    (eval' : Params → Except PyErr B) :
    (exactSamplePsi p₀ eval' (some P)).call st = (.error e, st) ∧
    (mcSampleGenPsi p₀ run eval (some P)).call st = (.error e, st) ∧
    (mcSampleMcmcPsi p₀ run eval (some P)).call st = (.error e, st) := by
  have h' : (setParameters P).call st = (.error e, st) := by
    have := (c63_failure_is_atomic P [] st e).1 h
    rw [← h, Prod.ext_iff]
    exact ⟨rfl, this⟩
  have g1 : ∃ x, getParameters.call st = (.ok x, st) := by
    cases st with
    | none => exact ⟨_, rfl⟩
    | some s => exact ⟨_, rfl⟩
  have g2 : ∃ x, getParams.call st = (.ok x, st) := by
    cases st with
    | none => exact ⟨_, rfl⟩
    | some s => exact ⟨_, rfl⟩
  obtain ⟨x1, g1⟩ := g1
  obtain ⟨x2, g2⟩ := g2
  refine ⟨?_, ?_, ?_⟩
  · unfold exactSamplePsi
    rw [bind_ok _ _ _ _ _ g1, bind_err _ _ _ _ _ h']
  · unfold mcSampleGenPsi
    dsimp only
    rw [bind_ok _ _ _ _ _ g2, bind_err _ _ _ _ _ h']
  · unfold mcSampleMcmcPsi
    have h0 : (do
        let tmpP ← getParams
        setParameters P
        return tmpP : PsiM (Option Params)).call st = (.error e, st) := by
      rw [bind_ok _ _ _ _ _ g2, bind_err _ _ _ _ _ h']
    rw [bind_err _ _ _ _ _ h0]

example (run : Params → Except PyErr ℕ) (eval : ℕ → Params → Except PyErr ℕ) (eval' : Params → Except PyErr ℕ) :=
  c11_rejected_parameters (.real [[1, 2], [3]]) (nqsRun (.real [[1, 2], [3]]) [.eval]) (.vec [4]) .typeError
    (by rw [c63_short_vector_partial (.real [[1, 2], [3]]) rfl [.eval] (by simp [NqsOp.Fits]) (by intro h; cases h) [4]
      (by simp [flattenParams])]) run eval eval'

/-- The restoring is not protected against exceptions: if the evaluation of the network raises,
`ExactSampler.sample(parameters=P)` leaves the wave function at `P`. -/
theorem c11_exception_leaves_foreign_parameters :
    (exactSamplePsi (B := Unit) (.real [[1]]) (fun _ => .error .runtimeError)
      (some (.vec [2]))).call (some ⟨true, [1], .real [[1]]⟩)
      = (.error .runtimeError, some ⟨true, [1], .real [[2]]⟩) := rfl

/-- Case: a complex network after an evaluation, parameters of the right length. -/
example : nqsRun (.cpx [[1, Complex.I]]) [.eval] ≠ none ∧
    [(4 : ℝ), 3, 2, 1].length = (flattenParams (.cpx [[1, Complex.I]])).length :=
  ⟨(by intro h; cases h), rfl⟩

/-! ## C23 -/

/-- `log ψ(s)` after `psi.set_parameters(v)`, as a function of the vector `v`. `f` is the network
at the configuration `s` as a function of its parameter tree. -/
noncomputable def logPsiOfVector (f : Params → ℂ) (realParams : Bool) (sizes : List ℕ)
    (v : List ℝ) : ℂ :=
  match paramUnflatten realParams sizes v with
  | .ok p => f p
  | .error _ => 0

theorem logPsi_flatten (f : Params → ℂ) (p q : Params) (h1 : p.isReal = q.isReal)
    (h2 : p.sizes = q.sizes) : logPsiOfVector f q.isReal q.sizes (flattenParams p) = f p := by
  unfold logPsiOfVector
  rw [← h1, ← h2, flattenParams_unflatten]

theorem isGradient_of_eq (F : List ℝ → ℂ) (v : List ℝ) (g : List ℂ)
    (hg : g = (List.range v.length).map fun k =>
      deriv (fun t : ℝ => F (v.set k (v.getD k 0 + t))) 0)
    (hF : Spec.HasPartials F v) : Spec.IsGradient F v g := by
  subst hg
  refine ⟨by simp, fun k hk hg => ?_⟩
  have := (hF k hk).hasDerivAt
  simp only [List.getElem_map, List.getElem_range, List.getD_eq_getElem _ _ hk]
  exact this

/-- **C23**, real parameters: `psi.gradients(s)` is the gradient of `log ψ(s)` with respect to
the entries of the parameter vector, for every network with partial derivatives. -/
theorem c23_real (f : Params → ℂ) (L : List (List ℝ))
    (hF : Spec.HasPartials (logPsiOfVector f true (L.map List.length))
      (flattenParams (.real L))) :
    Spec.IsGradient (logPsiOfVector f true (L.map List.length)) (flattenParams (.real L))
      (gradientsReal .real (fun M => f (.real M)) L) := by
  apply isGradient_of_eq _ _ _ _ hF
  show flatGradient _ L = _
  have hU : ∀ M : List (List ℝ), M.map List.length = L.map List.length →
      logPsiOfVector f true (L.map List.length) M.flatten = f (.real M) :=
    fun M hM => logPsi_flatten f (.real M) (.real L) rfl hM
  unfold flatGradient
  rw [flatten_jaxGradReal _ (fun w => (logPsiOfVector f true (L.map List.length) w).re) L
      (fun M hM => by simp only [hU M hM]),
    flatten_jaxGradReal _ (fun w => (logPsiOfVector f true (L.map List.length) w).im) L
      (fun M hM => by simp only [hU M hM]),
    zipWith_map_range]
  apply List.map_congr_left
  intro k hk
  rw [List.mem_range] at hk
  apply deriv_eq_re_add_im
  have := hF k hk
  simp only [flattenParams, List.getD_eq_getElem _ _ hk] at this ⊢
  exact this

/-- **C23**, complex parameters, non-holomorphic mode. -/
theorem c23_cpx_nonholo (f : Params → ℂ) (L : List (List ℂ))
    (hF : Spec.HasPartials (logPsiOfVector f false (L.map List.length))
      (flattenParams (.cpx L))) :
    Spec.IsGradient (logPsiOfVector f false (L.map List.length)) (flattenParams (.cpx L))
      (gradientsCpx .cpxNonholo (fun M => f (.cpx M)) L) := by
  apply isGradient_of_eq _ _ _ _ hF
  show flatGradientCpxNonholo _ L = _
  have hU : ∀ M : List (List ℂ), M.map List.length = L.map List.length →
      logPsiOfVector f false (L.map List.length) (flatC M) = f (.cpx M) :=
    fun M hM => logPsi_flatten f (.cpx M) (.cpx L) rfl hM
  unfold flatGradientCpxNonholo
  dsimp only
  rw [split_jaxGradCpx _ (fun w => (logPsiOfVector f false (L.map List.length) w).re) L
      (fun M hM => by simp only [hU M hM]),
    split_jaxGradCpx _ (fun w => (logPsiOfVector f false (L.map List.length) w).im) L
      (fun M hM => by simp only [hU M hM]),
    zipWith_map_range]
  apply List.map_congr_left
  intro k hk
  rw [List.mem_range] at hk
  apply deriv_eq_re_add_im
  have := hF k hk
  simp only [flatC, flattenParams] at hk this ⊢
  rw [List.getD_eq_getElem _ _ hk]
  exact this

/-- **C23**, complex parameters, holomorphic mode, for networks that are complex differentiable
in every parameter at the current point. -/
theorem c23_holo (f : Params → ℂ) (L : List (List ℂ))
    (hF : Spec.HasPartials (logPsiOfVector f false (L.map List.length))
      (flattenParams (.cpx L)))
    (hf : ∀ l < L.length, ∀ j < (leafOf L l).length,
      DifferentiableAt ℂ (fun w : ℂ => f (.cpx (setEntry L l j w))) ((leafOf L l).getD j 0)) :
    Spec.IsGradient (logPsiOfVector f false (L.map List.length)) (flattenParams (.cpx L))
      (gradientsCpx .holo (fun M => f (.cpx M)) L) := by
  apply isGradient_of_eq _ _ _ _ hF
  show flatGradientHolo _ L = _
  exact flatGradientHolo_eq (fun M => f (.cpx M)) _ L
    (fun M hM => logPsi_flatten f (.cpx M) (.cpx L) rfl hM) hf

/-- A network with one complex parameter `z` and one site: `log ψ(s) = s · conj z`. -/
private noncomputable def conjNet (s : ℝ) : Params → ℂ
  | .cpx [[z]] => (s : ℂ) * (starRingEnd ℂ) z
  | _ => 0

theorem conj_vec (s a b : ℝ) :
    logPsiOfVector (conjNet s) false [1] [a, b] = (s : ℂ) * ⟨a, -b⟩ := by
  have h : paramUnflatten false [1] [a, b] = .ok (.cpx [[⟨a, b⟩]]) :=
    flattenParams_unflatten (.cpx [[⟨a, b⟩]])
  unfold logPsiOfVector
  rw [h]
  rfl

/-- Cases: the hypotheses of `c23_cpx_nonholo` are met by the anti-holomorphic network and those
of `c23_holo` by the holomorphic network `z ↦ z`. -/
example : Spec.HasPartials (logPsiOfVector (conjNet 1) false [1]) [1, 2] := by
  intro k hk
  have hk' : k = 0 ∨ k = 1 := by simp at hk; omega
  rcases hk' with rfl | rfl
  · have : (fun t : ℝ => logPsiOfVector (conjNet 1) false [1]
        (([1, 2] : List ℝ).set 0 (([1, 2] : List ℝ)[0] + t))) = fun t : ℝ => (⟨1, -2⟩ : ℂ) + t := by
      funext t
      show logPsiOfVector (conjNet 1) false [1] [1 + t, 2] = _
      rw [conj_vec]
      apply Complex.ext <;> simp
    rw [this]
    exact (Complex.ofRealCLM.differentiableAt).const_add _
  · have : (fun t : ℝ => logPsiOfVector (conjNet 1) false [1]
        (([1, 2] : List ℝ).set 1 (([1, 2] : List ℝ)[1] + t))) = fun t : ℝ => (⟨1, -2⟩ : ℂ) + (-Complex.I) * t := by
      funext t
      show logPsiOfVector (conjNet 1) false [1] [1, 2 + t] = _
      rw [conj_vec]
      apply Complex.ext <;> simp; ring
    rw [this]
    exact ((Complex.ofRealCLM.differentiableAt).const_mul _).const_add _

example : ∀ l < [[(1 : ℂ)]].length, ∀ j < (leafOf [[(1 : ℂ)]] l).length,
    DifferentiableAt ℂ (fun w : ℂ => (fun p : Params => match p with
      | .cpx [[z]] => z * z
      | _ => 0) (.cpx (setEntry [[(1 : ℂ)]] l j w))) ((leafOf [[(1 : ℂ)]] l).getD j 0) := by
  intro l hl j hj
  have hl' : l = 0 := by simpa using hl
  subst hl'
  have hj' : j = 0 := by simpa [leafOf] using hj
  subst hj'
  exact differentiableAt_id.mul differentiableAt_id

/-! ## C24 -/

theorem isclose_iff (x : ℝ) : |x| ≤ max (1e-9 * |x|) 1e-14 ↔ |x| ≤ 1e-14 := by
  have := abs_nonneg x
  constructor
  · intro h
    rcases le_max_iff.mp h with h | h
    · have : |x| = 0 := by norm_num at h; linarith
      rw [this]; norm_num
    · exact h
  · intro h; exact le_max_of_le_right h

/-- **C24**, complex parameters: whichever mode was selected for the probe configuration and the
initial parameters, later gradients have as many entries as the parameter vector. -/
theorem c24_length_cpx (probe : List (List ℂ) → ℂ) (L₀ : List (List ℂ))
    (f : List (List ℂ) → ℂ) (L : List (List ℂ)) :
    (gradientsCpx (initModeCpx probe L₀) f L).length = (flattenParams (.cpx L)).length := by
  have hmode : initModeCpx probe L₀ ≠ .real := by
    unfold initModeCpx gradMode
    split
    · simp
    · simp
  generalize initModeCpx probe L₀ = mode at hmode ⊢
  have hlen : ∀ u : List (List ℂ) → ℝ,
      (jaxGradCpx u L).map (fun x => 2 * x.length) = L.map fun p => 2 * p.length := by
    intro u
    unfold jaxGradCpx
    rw [List.map_map]
    apply List.ext_getElem
    · simp
    · intro i h1 h2
      have hi : i < L.length := by simpa using h1
      simp [leafOf, hi]
  have hflat := flatC_length L
  unfold flatC at hflat
  have hsplit : ∀ u : List (List ℂ) → ℝ, ((jaxGradCpx u L).flatMap fun x =>
      x.map Complex.re ++ x.map fun z => -z.im).length = (flattenParams (.cpx L)).length := by
    intro u
    rw [List.length_flatMap]
    simp only [List.length_append, List.length_map, ← two_mul]
    rw [hlen u, flattenParams, hflat]
  cases mode with
  | holo =>
    show (flatGradientHolo f L).length = _
    unfold flatGradientHolo
    rw [List.length_flatMap]
    simp only [List.length_append, List.length_map, ← two_mul]
    rw [hlen, flattenParams, hflat]
  | real => exact absurd rfl hmode
  | cpxNonholo =>
    show (flatGradientCpxNonholo f L).length = _
    unfold flatGradientCpxNonholo
    dsimp only
    rw [List.length_zipWith, hsplit, hsplit, min_self]

/-- **C24**, real parameters: the lengths agree unless the holomorphic mode is selected, in which
case the gradient is twice as long as the parameter vector. Missing: the second case is an error,
see `c24_length_violated`. -/
theorem c24_length_real_partial (probe : List (List ℝ) → ℂ) (L₀ : List (List ℝ))
    (f : List (List ℝ) → ℂ) (L : List (List ℝ)) :
    (gradientsReal (initModeReal probe L₀) f L).length
      = if initModeReal probe L₀ = .holo then 2 * (flattenParams (.real L)).length
        else (flattenParams (.real L)).length := by
  have hmode : initModeReal probe L₀ ≠ .cpxNonholo := by
    unfold initModeReal gradMode
    split
    · simp
    · simp
  generalize initModeReal probe L₀ = mode at hmode ⊢
  have hlen : ∀ u, (jaxGradReal u L).flatten.length = L.flatten.length := by
    intro u
    rw [List.length_flatten, List.length_flatten, jaxGradReal_lengths]
  cases mode with
  | holo =>
    show (flatGradientHoloReal f L).length = _
    unfold flatGradientHoloReal
    rw [List.length_flatMap, if_pos rfl]
    simp only [List.length_append, List.length_map, ← two_mul, flattenParams]
    rw [← hlen (fun p => (f p).re), List.length_flatten, List.sum_map_mul_left]
  | real =>
    show (flatGradient f L).length = _
    unfold flatGradient
    rw [List.length_zipWith, hlen, hlen, min_self]
    rfl
  | cpxNonholo => exact absurd rfl hmode

/-- **C24**: the mode of a network that does not satisfy the Cauchy-Riemann equations at the probe point
is the one belonging to the type of its parameters. -/
theorem c24_mode_of_type (gr gi : List ℂ) (h : 1e-14 < crDefect gr gi) :
    gradMode true gr gi = .real ∧ gradMode false gr gi = .cpxNonholo := by
  have : ¬ |crDefect gr gi| ≤ max (1e-9 * |crDefect gr gi|) 1e-14 := by
    rw [isclose_iff, not_le]
    exact lt_of_lt_of_le h (le_abs_self _)
  unfold gradMode
  rw [if_neg this, if_neg this]
  exact ⟨rfl, rfl⟩

example : (1e-14 : ℝ) < crDefect [1] [0] := by
  simp [crDefect]; norm_num

/-- The Cauchy-Riemann defect at the probe point is below tolerance, entry by entry. `gr`, `gi`
hold `∂u/∂x - i ∂u/∂y` and `∂v/∂x - i ∂v/∂y` for `log ψ = u + i v`. -/
theorem c24_holomorphic_only_if_cauchy_riemann (realParams : Bool) (gr gi : List ℂ)
    (hl : gr.length = gi.length) (h : gradMode realParams gr gi = .holo) :
    ∀ k (h1 : k < gr.length) (h2 : k < gi.length),
      |gr[k].re + gi[k].im| ≤ gr.length * 1e-14 ∧
      |gr[k].im - gi[k].re| ≤ gr.length * 1e-14 := by
  unfold gradMode at h
  have h0 : |crDefect gr gi| ≤ 1e-14 := by
    by_contra hc
    rw [if_neg (by rw [isclose_iff]; exact hc)] at h
    split at h <;> cases h
  intro k h1 h2
  have hpos : (0 : ℝ) < gr.length := by exact_mod_cast (by omega : 0 < gr.length)
  set S := (List.zipWith (fun a b => Complex.normSq (a - Complex.I * b)) gr gi).sum with hS
  have hsq : Real.sqrt S ≤ gr.length * 1e-14 := by
    have : crDefect gr gi = Real.sqrt S / gr.length := rfl
    rw [this, abs_of_nonneg (by positivity), div_le_iff₀ hpos, mul_comm] at h0
    exact h0
  have hk : Complex.normSq (gr[k] - Complex.I * gi[k]) ≤ S := by
    rw [hS]
    apply List.single_le_sum
    · intro x hx
      obtain ⟨i, hi, rfl⟩ := List.mem_iff_getElem.mp hx
      rw [List.getElem_zipWith]
      exact Complex.normSq_nonneg _
    · have : k < (List.zipWith (fun a b => Complex.normSq (a - Complex.I * b)) gr gi).length := by
        rw [List.length_zipWith]; omega
      have hm := List.getElem_mem this
      rwa [List.getElem_zipWith] at hm
  have hre : |gr[k].re + gi[k].im| ^ 2 ≤ S := by
    refine le_trans ?_ hk
    rw [sq_abs, Complex.normSq_apply]
    simp only [Complex.sub_re, Complex.sub_im, Complex.mul_re, Complex.mul_im, Complex.I_re,
      Complex.I_im]
    nlinarith [mul_self_nonneg (gr[k].im - gi[k].re)]
  have him : |gr[k].im - gi[k].re| ^ 2 ≤ S := by
    refine le_trans ?_ hk
    rw [sq_abs, Complex.normSq_apply]
    simp only [Complex.sub_re, Complex.sub_im, Complex.mul_re, Complex.mul_im, Complex.I_re,
      Complex.I_im]
    nlinarith [mul_self_nonneg (gr[k].re + gi[k].im)]
  exact ⟨le_trans (Real.le_sqrt_of_sq_le hre) hsq, le_trans (Real.le_sqrt_of_sq_le him) hsq⟩

/-- Conversely a network that satisfies the Cauchy-Riemann equations at the probe point gets the
holomorphic mode. -/
theorem c24_holomorphic_if_cauchy_riemann (realParams : Bool) (gr gi : List ℂ)
    (h : ∀ k (h1 : k < gr.length) (h2 : k < gi.length),
      gr[k].re + gi[k].im = 0 ∧ gr[k].im - gi[k].re = 0) :
    gradMode realParams gr gi = .holo := by
  have hz : (List.zipWith (fun a b => Complex.normSq (a - Complex.I * b)) gr gi).sum = 0 := by
    apply List.sum_eq_zero
    intro x hx
    obtain ⟨i, hi, rfl⟩ := List.mem_iff_getElem.mp hx
    rw [List.getElem_zipWith]
    rw [List.length_zipWith] at hi
    obtain ⟨e1, e2⟩ := h i (by omega) (by omega)
    rw [Complex.normSq_apply]
    simp only [Complex.sub_re, Complex.sub_im, Complex.mul_re, Complex.mul_im, Complex.I_re,
      Complex.I_im]
    have e3 : gr[i].re = -gi[i].im := by linarith
    have e4 : gr[i].im = gi[i].re := by linarith
    rw [e3, e4]; ring
  unfold gradMode crDefect
  rw [hz]
  simp

/-- Case: one parameter, `u = x`, `v = y` (the network `log ψ = z`). -/
example : gradMode false [1] [-Complex.I] = .holo :=
  c24_holomorphic_if_cauchy_riemann _ _ _ (by
    intro k h1 h2
    have : k = 0 := by simpa using h1
    subst this
    simp)

/-- **C24** fails: a network with one real parameter whose gradient vanishes at the probe point
(here `log ψ(s) = s θ` probed at `s = 0`) is taken for holomorphic, and afterwards its gradients
have two entries for one parameter. -/
theorem c24_length_violated :
    initModeReal (fun M => ((0 : ℝ) : ℂ) * (((leafOf M 0).getD 0 0 : ℝ) : ℂ)) [[1]] = .holo ∧
    (gradientsReal .holo (fun M => ((1 : ℝ) : ℂ) * (((leafOf M 0).getD 0 0 : ℝ) : ℂ))
      [[1]]).length = 2 ∧
    (flattenParams (.real [[1]])).length = 1 := by
  refine ⟨?_, ?_, rfl⟩
  · apply c24_holomorphic_if_cauchy_riemann
    intro k h1 h2
    simp [jaxGradReal]
  · have hl : (flatGradientHoloReal (fun M => ((1 : ℝ) : ℂ) * (((leafOf M 0).getD 0 0 : ℝ) : ℂ))
        [[1]]).length = 2 := by
      simp [flatGradientHoloReal, jaxGradReal, leafOf]
    exact hl

/-- **C23** fails when the mode is chosen by the probe: the network `log ψ(s) = s · conj z` looks
holomorphic when probed at `s = 0`, and its reported gradient at `s = 1` is then not the gradient
of `log ψ`. -/
theorem c23_probe_violated :
    initModeCpx (fun M => conjNet 0 (.cpx M)) [[1]] = .holo ∧
    ¬ Spec.IsGradient (logPsiOfVector (conjNet 1) false [1]) (flattenParams (.cpx [[1]]))
      (gradientsCpx .holo (fun M => conjNet 1 (.cpx M)) [[1]]) := by
  constructor
  · apply c24_holomorphic_if_cauchy_riemann
    intro k h1 h2
    have h0 : ∀ M : List (List ℂ), conjNet 0 (.cpx M) = 0 := by
      intro M
      unfold conjNet
      split <;> simp
    simp [jaxGradCpx, h0]
  · rintro ⟨hl, h⟩
    have hx : ∀ t : ℝ, (conjNet 1 (.cpx [[1 + (t : ℂ)]])).re = 1 + t := by
      intro t; simp [conjNet]
    have hy : ∀ t : ℝ, (conjNet 1 (.cpx [[1 + Complex.I * (t : ℂ)]])).re = 1 := by
      intro t; simp [conjNet]
    have hdx : deriv (fun t : ℝ => (1 : ℝ) + t) 0 = 1 := by
      exact HasDerivAt.deriv ((hasDerivAt_id (0 : ℝ)).const_add 1)
    have hg : gradientsCpx .holo (fun M => conjNet 1 (.cpx M)) [[1]] = [1, Complex.I] := by
      show flatGradientHolo _ _ = _
      show [(⟨deriv (fun t : ℝ => (conjNet 1 (.cpx [[1 + (t : ℂ)]])).re) 0,
          -deriv (fun t : ℝ => (conjNet 1 (.cpx [[1 + Complex.I * (t : ℂ)]])).re) 0⟩ : ℂ),
        Complex.I * (⟨deriv (fun t : ℝ => (conjNet 1 (.cpx [[1 + (t : ℂ)]])).re) 0,
          -deriv (fun t : ℝ => (conjNet 1 (.cpx [[1 + Complex.I * (t : ℂ)]])).re) 0⟩ : ℂ)] = _
      simp only [hx, hy, hdx, deriv_const]
      have : (⟨1, -0⟩ : ℂ) = 1 := by apply Complex.ext <;> simp
      rw [this, mul_one]
    have h1 := h 1 (by simp [flattenParams]) (by rw [hg]; simp)
    simp only [hg] at h1
    have h2 : (fun t : ℝ => logPsiOfVector (conjNet 1) false [1]
        ((flattenParams (.cpx [[1]])).set 1 ((flattenParams (.cpx [[1]]))[1]'(by simp [flattenParams]) + t)))
        = fun t : ℝ => (1 : ℂ) + (-Complex.I) * t := by
      funext t
      show logPsiOfVector (conjNet 1) false [1] [(1 : ℂ).re, (1 : ℂ).im + t] = _
      rw [conj_vec]
      apply Complex.ext <;> simp
    rw [h2] at h1
    have h3 : HasDerivAt (fun t : ℝ => (1 : ℂ) + (-Complex.I) * t) (-Complex.I * 1) 0 :=
      ((Complex.ofRealCLM.hasDerivAt).const_mul _).const_add _
    have := h1.unique h3
    have := congrArg Complex.im this
    simp at this
    norm_num at this

/-! ## C64: dictionary and vector gradients agree -/

/-- **C64**, real parameters: the entries of `gradients_dict` are those of `gradients` at the
positions given by `grad_dict_to_vec_map`. -/
theorem c64_dict_real (f : List (List ℝ) → ℂ) (L : List (List ℝ)) :
    gradientsDictReal .real f L
      = (gradDictToVecMap false (L.map List.length)).map fun idx =>
          idx.map fun k => (gradientsReal .real f L).getD k 0 := by
  have hz := zipWith_flatten (fun a b : ℝ => (a : ℂ) + Complex.I * (b : ℂ))
    (jaxGradReal (fun p => (f p).re) L) (jaxGradReal (fun p => (f p).im) L)
    (by rw [jaxGradReal_lengths, jaxGradReal_lengths])
  have h := dictToVec_read false (2 * (L.map List.length).sum) (L.map List.length)
    (gradientsDictReal .real f L) []
    (by simp only [Bool.false_eq_true, if_false, List.map_id']
        exact hz.2.trans (jaxGradReal_lengths _ L))
    (by rw [List.length_nil, List.length_flatten]
        show 0 + ((List.zipWith _ _ _).map List.length).sum ≤ _
        rw [hz.2, jaxGradReal_lengths]; omega)
  rw [List.nil_append] at h
  have hflat : (gradientsDictReal .real f L).flatten = gradientsReal .real f L := hz.1
  rw [hflat] at h
  exact h.symm

/-- **C64**, holomorphic mode. -/
theorem c64_dict_holo (f : List (List ℂ) → ℂ) (L : List (List ℂ)) :
    gradientsDictCpx .holo f L
      = (gradDictToVecMap true (L.map List.length)).map fun idx =>
          idx.map fun k => (gradientsCpx .holo f L).getD k 0 := by
  have hl : (gradientsDictCpx .holo f L).map List.length
      = (L.map List.length).map fun n => 2 * n := by
    have := congrArg (List.map fun n => 2 * n) (jaxGradCpx_lengths (fun p => (f p).re) L)
    rw [← this]
    show ((jaxGradCpx _ L).map _).map _ = _
    simp [two_mul]
  have h := dictToVec_read true (2 * (L.map List.length).sum) (L.map List.length)
    (gradientsDictCpx .holo f L) []
    (by rw [hl]; rfl)
    (by rw [List.length_nil, List.length_flatten, hl, List.sum_map_mul_left, List.map_id']; omega)
  rw [List.nil_append] at h
  have hflat : (gradientsDictCpx .holo f L).flatten = gradientsCpx .holo f L := by
    show ((jaxGradCpx _ L).map _).flatten = flatGradientHolo f L
    rw [← List.flatMap_def]
    rfl
  rw [hflat] at h
  exact h.symm

/-- **C64** fails for complex, non-holomorphic networks: with one parameter `gradients` has two
entries per sample and `gradients_dict` one. -/
theorem c64_dict_violated (f : List (List ℂ) → ℂ) (z : ℂ) :
    ((gradientsDictCpx .cpxNonholo f [[z]]).map List.length).sum = 1 ∧
    (gradientsCpx .cpxNonholo f [[z]]).length = 2 := by
  constructor
  · show ((jaxGradCpx (fun p => (f p).re) [[z]]).map List.length).sum = 1
    rw [jaxGradCpx_lengths]; rfl
  · have hl : (flatGradientCpxNonholo f [[z]]).length = 2 := by
      simp [flatGradientCpxNonholo, jaxGradCpx, leafOf]
    exact hl

/-- **C64** as far as it holds: in the real and in the holomorphic mode. Missing: complex
non-holomorphic networks, see `c64_dict_violated`. -/
theorem c64_dict_partial (f : List (List ℝ) → ℂ) (g : List (List ℂ) → ℂ) (L : List (List ℝ))
    (M : List (List ℂ)) :
    gradientsDictReal .real f L = (gradDictToVecMap false (L.map List.length)).map (fun idx =>
      idx.map fun k => (gradientsReal .real f L).getD k 0) ∧
    gradientsDictCpx .holo g M = (gradDictToVecMap true (M.map List.length)).map (fun idx =>
      idx.map fun k => (gradientsCpx .holo g M).getD k 0) :=
  ⟨c64_dict_real f L, c64_dict_holo g M⟩

/-- Case: leaves of two and one entries. -/
example : gradDictToVecMap true [2, 1] = [[0, 1, 2, 3], [4, 5]] := by decide

end JVMC
