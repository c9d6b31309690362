import Verif.Model.ParamTypes
import Verif.Props.Vqs

/-! # Property C122: data types of the parameters -/

namespace JVMC

/-- The calls on an `NQS` object that can change its state. -/
inductive ObjOp where
  | eval
  | set (P : TParamArg)
  | update (dt : DType) (deltaP : List ℝ)
  | assign (p : List TLeaf)

/-- A call; what an evaluation returns is left out. -/
noncomputable def objCall (v₀ : Variables) (op : ObjOp) (st : NqsObj) : ObjCall Unit :=
  match op with
  | .eval => evalObj v₀ (fun _ => .ok ()) st
  | .set P => setParametersObj P st
  | .update dt d => updateParametersObj dt d st
  | .assign p => setParamsObj p st

/-- The object after a history of calls; exceptions are caught by the caller. -/
noncomputable def objRun (v₀ : Variables) (ops : List ObjOp) : NqsObj :=
  ops.foldl (fun st op => (objCall v₀ op st).2) .fresh

theorem evalObj_state {B : Type} (v₀ : Variables) (f : Variables → Except PyErr B) (st : NqsObj) :
    (evalObj v₀ f st).2 = (initObj v₀ st).2 := by
  unfold evalObj
  rcases h : initObj v₀ st with ⟨r, s⟩
  cases r with
  | error e => rfl
  | ok u =>
    dsimp only
    cases s.parameters with
    | none => rfl
    | some v => dsimp only; cases f v <;> rfl

theorem setParamsObj_keeps (p : List TLeaf) (st : NqsObj) :
    (setParamsObj p st).2.initialized = st.initialized ∧ (setParamsObj p st).2.realParams = st.realParams ∧
      (setParamsObj p st).2.sizes = st.sizes := by
  unfold setParamsObj
  cases st.parameters <;> exact ⟨rfl, rfl, rfl⟩

theorem setParametersObj_keeps (P : TParamArg) (st : NqsObj) :
    (setParametersObj P st).2.initialized = st.initialized ∧ (setParametersObj P st).2.realParams = st.realParams ∧
      (setParametersObj P st).2.sizes = st.sizes := by
  unfold setParametersObj
  split
  · exact ⟨rfl, rfl, rfl⟩
  · split
    · exact setParamsObj_keeps _ _
    · split
      · split
        · exact ⟨rfl, rfl, rfl⟩
        · exact setParamsObj_keeps _ _
      · exact ⟨rfl, rfl, rfl⟩

theorem updateParametersObj_keeps (dt : DType) (d : List ℝ) (st : NqsObj) :
    (updateParametersObj dt d st).2.initialized = st.initialized ∧
      (updateParametersObj dt d st).2.realParams = st.realParams ∧
      (updateParametersObj dt d st).2.sizes = st.sizes := by
  unfold updateParametersObj
  split
  · exact setParametersObj_keeps _ _
  · split
    · split
      · exact ⟨rfl, rfl, rfl⟩
      · split
        · exact ⟨rfl, rfl, rfl⟩
        · exact setParamsObj_keeps _ _
    · exact ⟨rfl, rfl, rfl⟩

/-! ## Networks that are refused -/

theorem initObj_mixed (v₀ : Variables) (a b : TLeaf) (ha : a ∈ v₀.leaves) (hb : b ∈ v₀.leaves)
    (hab : a.dtype ≠ b.dtype) (st : NqsObj) (hst : st.initialized = false) :
    initObj v₀ st = (.error .dataTypes, { st with parameters := some v₀, realParams := some false }) := by
  unfold initObj
  rw [hst]
  simp only [Bool.false_eq_true, if_false]
  cases hd : v₀.leaves.map TLeaf.dtype with
  | nil =>
    have := List.map_eq_nil_iff.mp hd
    rw [this] at ha
    cases ha
  | cons d ds =>
    dsimp only
    rw [if_pos]
    rw [Bool.not_eq_true', Bool.eq_false_iff]
    intro h
    have h1 := List.all_eq_true.mp h
    have h2 : a.dtype = d := by
      have : a.dtype ∈ d :: ds := hd ▸ List.mem_map_of_mem ha
      simpa using h1 _ this
    have h3 : b.dtype = d := by
      have : b.dtype ∈ d :: ds := hd ▸ List.mem_map_of_mem hb
      simpa using h1 _ this
    exact hab (h2.trans h3.symm)

theorem objRun_uninitialized (v₀ : Variables) (a b : TLeaf) (ha : a ∈ v₀.leaves) (hb : b ∈ v₀.leaves)
    (hab : a.dtype ≠ b.dtype) (ops : List ObjOp) : (objRun v₀ ops).initialized = false := by
  unfold objRun
  suffices H : ∀ st : NqsObj, st.initialized = false →
      (ops.foldl (fun st op => (objCall v₀ op st).2) st).initialized = false from H _ rfl
  induction ops with
  | nil => intro st h; exact h
  | cons op ops ih =>
    intro st h
    rw [List.foldl_cons]
    refine ih _ ?_
    cases op with
    | eval =>
      simp only [objCall, evalObj_state]
      rw [initObj_mixed v₀ a b ha hb hab st h]
      exact h
    | set P => exact (setParametersObj_keeps P st).1.trans h
    | update dt d => exact (updateParametersObj_keeps dt d st).1.trans h
    | assign p => exact (setParamsObj_keeps p st).1.trans h

/-- **C122**: if two arrays among the parameters of a network have different data types, then after every history of
calls - evaluations, gradients, setting, updating, assigning - an evaluation raises the exception about data types,
`get_parameters` and `params` give `None`, and `set_parameters` and `update_parameters` raise `RuntimeError` and change
nothing. -/
theorem c122_refused {B : Type} (v₀ : Variables) (a b : TLeaf) (ha : a ∈ v₀.leaves) (hb : b ∈ v₀.leaves)
    (hab : a.dtype ≠ b.dtype) (ops : List ObjOp) (f : Variables → Except PyErr B) (P : TParamArg) (dt : DType)
    (d : List ℝ) :
    (evalObj v₀ f (objRun v₀ ops)).1 = .error .dataTypes ∧
    getParametersObj (objRun v₀ ops) = (.ok none, objRun v₀ ops) ∧
    paramsObj (objRun v₀ ops) = (.ok none, objRun v₀ ops) ∧
    setParametersObj P (objRun v₀ ops) = (.error (.py .runtimeError), objRun v₀ ops) ∧
    updateParametersObj dt d (objRun v₀ ops) = (.error (.py .runtimeError), objRun v₀ ops) := by
  have h := objRun_uninitialized v₀ a b ha hb hab ops
  refine ⟨?_, ?_, ?_, ?_, ?_⟩
  · unfold evalObj
    rw [initObj_mixed v₀ a b ha hb hab _ h]
  · simp [getParametersObj, h]
  · simp [paramsObj, h]
  · simp [setParametersObj, h]
  · simp [updateParametersObj, setParametersObj, h]

/-- **C122** fails for sampling: once such a network has been refused, `get_sampler_net` hands out its parameters and
`sample` draws configurations from it; before the first evaluation neither had parameters. -/
theorem c122_refused_violated {B : Type} (v₀ : Variables) (a b : TLeaf) (ha : a ∈ v₀.leaves) (hb : b ∈ v₀.leaves)
    (hab : a.dtype ≠ b.dtype) (gen : Option Variables → Except PyErr B) (x : B) (hx : gen (some v₀) = .ok x) :
    (samplerNetObj .fresh).1 = .ok none ∧
    (objCall v₀ .eval .fresh).1 = .error .dataTypes ∧
    (samplerNetObj (objRun v₀ [.eval])).1 = .ok (some v₀) ∧
    (sampleObj gen (objRun v₀ [.eval])).1 = .ok x := by
  have h := initObj_mixed v₀ a b ha hb hab .fresh rfl
  have h1 : objRun v₀ [.eval] = { NqsObj.fresh with parameters := some v₀, realParams := some false } := by
    show (objCall v₀ .eval .fresh).2 = _
    simp only [objCall, evalObj_state]
    rw [h]
  refine ⟨rfl, ?_, ?_, ?_⟩
  · simp only [objCall, evalObj, h]
  · rw [h1]; rfl
  · rw [h1]; simp only [sampleObj, hx]

/-- Case: one real and one complex array. -/
example : (evalObj ⟨[⟨.f64, [1]⟩, ⟨.c128, [Complex.I]⟩], []⟩ (fun _ => .ok ())
    (objRun ⟨[⟨.f64, [1]⟩, ⟨.c128, [Complex.I]⟩], []⟩ [.eval, .set (.vec .f64 [1, 2, 3])])).1 = .error .dataTypes :=
  (c122_refused _ ⟨.f64, [1]⟩ ⟨.c128, [Complex.I]⟩ (by simp [Variables.leaves]) (by simp [Variables.leaves]) (by decide)
    _ _ (.dict []) .f64 []).1

/-! ## Networks that are accepted -/

theorem initObj_uniform (v₀ : Variables) (d : DType) (hd : ∀ l ∈ v₀.leaves, l.dtype = d) (hi : d ≠ .i32)
    (hp : v₀.params ≠ []) (st : NqsObj) (hst : st.initialized = false) :
    initObj v₀ st = (.ok (), ⟨some v₀, some (d == .f32 || d == .f64),
      some (v₀.params.map fun l => l.vals.length), true⟩) := by
  unfold initObj
  rw [hst]
  simp only [Bool.false_eq_true, if_false]
  cases hl : v₀.leaves.map TLeaf.dtype with
  | nil =>
    have := List.map_eq_nil_iff.mp hl
    unfold Variables.leaves at this
    exact absurd (List.append_eq_nil_iff.mp this).1 hp
  | cons x xs =>
    have hall : ∀ y ∈ x :: xs, y = d := by
      intro y hy
      rw [← hl] at hy
      obtain ⟨l, h1, h2⟩ := List.mem_map.mp hy
      exact h2 ▸ hd l h1
    have hx : x = d := hall x List.mem_cons_self
    subst hx
    dsimp only
    have h1 : (x :: xs).all (fun y => y == x) = true := List.all_eq_true.mpr fun y hy => by simpa using hall y hy
    have h2 : v₀.params.isEmpty = false := by simpa using hp
    rw [h1, h2]
    have h3 : (x == DType.i32) = false := by simpa using hi
    rw [h3]
    cases h4 : (x == DType.f32 || x == DType.f64) <;> simp

/-- **C122**: the first evaluation initialises the network exactly if all arrays among its parameters have one data type
which is not an integer type, and it has parameters. The number of entries of `get_parameters` is then the number of
parameters for single or double precision real numbers, and twice that otherwise. -/
theorem c122_accepted_iff (v₀ : Variables) :
    ((objRun v₀ [.eval]).initialized = true ↔
      v₀.params ≠ [] ∧ ∃ d, d ≠ .i32 ∧ ∀ l ∈ v₀.leaves, l.dtype = d) ∧
    ∀ d, d ≠ .i32 → v₀.params ≠ [] → (∀ l ∈ v₀.leaves, l.dtype = d) →
      ∃ v, (getParametersObj (objRun v₀ [.eval])).1 = .ok (some v) ∧
        v.length = (if d = .f32 ∨ d = .f64 then 1 else 2) * (v₀.params.map fun l => l.vals.length).sum := by
  have hrun : objRun v₀ [.eval] = (initObj v₀ .fresh).2 := by
    show (objCall v₀ .eval .fresh).2 = _
    simp only [objCall, evalObj_state]
  refine ⟨⟨?_, ?_⟩, ?_⟩
  · intro h
    rw [hrun] at h
    unfold initObj at h
    simp only [NqsObj.fresh, Bool.false_eq_true, if_false] at h
    cases hl : v₀.leaves.map TLeaf.dtype with
    | nil => rw [hl] at h; simp at h
    | cons x xs =>
      rw [hl] at h
      dsimp only at h
      by_cases h1 : (x :: xs).all (fun y => y == x) = true
      · rw [h1] at h
        simp only [Bool.not_true, Bool.false_eq_true, if_false] at h
        by_cases h2 : x = .i32
        · subst h2; simp at h
        · have h2' : (x == DType.i32) = false := by simpa using h2
          rw [h2'] at h
          simp only [Bool.false_eq_true, if_false] at h
          by_cases h3 : v₀.params = []
          · rw [h3] at h
            simp only [List.isEmpty_nil, if_true] at h
            split at h <;> cases h
          · refine ⟨h3, x, h2, ?_⟩
            intro l hml
            have : l.dtype ∈ x :: xs := hl ▸ List.mem_map_of_mem hml
            simpa using List.all_eq_true.mp h1 _ this
      · rw [Bool.not_eq_true] at h1
        rw [h1] at h
        simp at h
  · rintro ⟨hp, d, hi, hd⟩
    rw [hrun, initObj_uniform v₀ d hd hi hp _ rfl]
  · intro d hi hp hd
    rw [hrun, initObj_uniform v₀ d hd hi hp _ rfl]
    by_cases hr : d = .f32 ∨ d = .f64
    · have : (d == DType.f32 || d == DType.f64) = true := by simpa using hr
      refine ⟨v₀.params.flatMap TLeaf.vals, ?_, ?_⟩
      · simp [getParametersObj, this]
      · rw [if_pos hr, List.length_flatMap, one_mul]
    · have : (d == DType.f32 || d == DType.f64) = false := by
        rw [Bool.eq_false_iff]; simpa using hr
      refine ⟨_, by simp only [getParametersObj, this, Bool.not_true, Bool.false_eq_true, if_false, if_true]; rfl, ?_⟩
      rw [if_neg hr, List.length_flatMap]
      simp only [List.length_append, List.length_map]
      rw [← List.sum_map_mul_left]
      congr 1
      exact List.map_congr_left fun l _ => by ring

/-- **C122** fails for real networks in half precision: they are treated as complex. `get_parameters` of a network with
`n` numbers in one array has `2n` entries, the second half zeros, and setting that vector turns the network's array into
a complex one. -/
theorem c122_half_violated (x : List ℝ) (d : DType) (hd : d = .f16 ∨ d = .bf16) :
    let v₀ : Variables := ⟨[⟨d, x.map fun r : ℝ => (r : ℂ)⟩], []⟩
    let g := x ++ List.replicate x.length 0
    (getParametersObj (objRun v₀ [.eval])).1 = .ok (some (g.map fun r : ℝ => (r : ℂ))) ∧
    (paramsObj (objRun v₀ [.eval, .set (.vec .f64 g)])).1
      = .ok (some [⟨.c128, x.map fun r : ℝ => (r : ℂ)⟩]) := by
  intro v₀ g
  have hi : d ≠ .i32 := by rcases hd with rfl | rfl <;> decide
  have hr : (d == DType.f32 || d == DType.f64) = false := by rcases hd with rfl | rfl <;> rfl
  have h1 : objRun v₀ [.eval] = ⟨some v₀, some false, some [x.length], true⟩ := by
    show (objCall v₀ .eval .fresh).2 = _
    simp only [objCall, evalObj_state]
    rw [initObj_uniform v₀ d (by intro l hl; simp [v₀, Variables.leaves] at hl; rw [hl]) hi (by simp [v₀]) _ rfl, hr]
    simp [v₀]
  constructor
  · rw [h1]
    simp only [getParametersObj, Bool.not_true, Bool.false_eq_true, if_false, if_true, v₀, List.flatMap_cons,
      List.flatMap_nil, List.append_nil, List.map_map]
    simp only [g, List.map_append, List.map_replicate]
    congr 3
    simp [List.eq_replicate_iff]
  · have h2 : objRun v₀ [.eval, .set (.vec .f64 g)]
        = (setParametersObj (.vec .f64 g) (objRun v₀ [.eval])).2 := rfl
    have h3 : flattenParams (.cpx [x.map fun r : ℝ => (r : ℂ)]) = g := by
      simp [flattenParams, g, List.map_map, Function.comp_def]
    have h4 : paramUnflatten false [x.length] g = .ok (.cpx [x.map fun r : ℝ => (r : ℂ)]) := by
      have := flattenParams_unflatten (.cpx [x.map fun r : ℝ => (r : ℂ)])
      rw [h3] at this
      simpa [Params.isReal, Params.sizes] using this
    rw [h2, h1]
    simp only [setParametersObj, Bool.not_true, Bool.false_eq_true, if_false, unflattenObj, h4]
    rfl

/-! ## Double precision: the data types play no role -/

/-- The tree of a real or complex network in double precision. -/
def typed : Params → List TLeaf
  | .real l => l.map fun x => ⟨.f64, x.map fun r : ℝ => (r : ℂ)⟩
  | .cpx l => l.map fun x => ⟨.c128, x⟩

/-- The same call with arrays in double precision. -/
def typedOp : NqsOp → ObjOp
  | .eval => .eval
  | .set (.dict p) => .set (.dict (typed p))
  | .set (.vec v) => .set (.vec .f64 v)
  | .update d => .update .f64 d

/-- The object which belongs to a state of the model without data types. -/
def asObj (other : List TLeaf) : NqsState → NqsObj
  | none => .fresh
  | some st => ⟨some ⟨typed st.params, other⟩, some st.realParams, some st.sizes, true⟩

theorem typed_sizes (p : Params) : (typed p).map (fun l => l.vals.length) = p.sizes := by
  cases p <;> simp [typed, Params.sizes, Function.comp_def]

theorem unflattenObj_f64 (r : Bool) (sizes : List ℕ) (v : List ℝ) :
    unflattenObj r sizes .f64 v = (paramUnflatten r sizes v).map typed := by
  unfold unflattenObj
  cases paramUnflatten r sizes v with
  | error e => rfl
  | ok p => cases p <;> rfl

theorem addLeaves_real (p q : List (List ℝ)) (h : p.map List.length = q.map List.length) :
    addLeaves (typed (.real p)) (typed (.real q)) = .ok (typed (.real (List.zipWith (List.zipWith (· + ·)) p q))) := by
  induction p generalizing q with
  | nil =>
    cases q with
    | nil => rfl
    | cons b q => simp at h
  | cons a p ih =>
    cases q with
    | nil => simp at h
    | cons b q =>
      simp only [List.map_cons, List.cons.injEq] at h
      have := ih q h.2
      simp only [typed, List.map_cons, addLeaves] at this ⊢
      rw [laxAdd, if_pos ⟨rfl, by simpa using h.1⟩, this]
      change Except.ok _ = Except.ok _
      simp only [List.zipWith_cons_cons, List.map_cons]
      congr 3
      simp [List.map_zipWith, List.zipWith_map]

theorem addLeaves_cpx (p q : List (List ℂ)) (h : p.map List.length = q.map List.length) :
    addLeaves (typed (.cpx p)) (typed (.cpx q)) = .ok (typed (.cpx (List.zipWith (List.zipWith (· + ·)) p q))) := by
  induction p generalizing q with
  | nil =>
    cases q with
    | nil => rfl
    | cons b q => simp at h
  | cons a p ih =>
    cases q with
    | nil => simp at h
    | cons b q =>
      simp only [List.map_cons, List.cons.injEq] at h
      have := ih q h.2
      simp only [typed, List.map_cons, addLeaves] at this ⊢
      rw [laxAdd, if_pos ⟨rfl, h.1⟩, this]
      rfl

theorem addLeaves_typed (p q : Params) (h1 : p.isReal = q.isReal) (h2 : p.sizes = q.sizes) :
    addLeaves (typed p) (typed q) = (addParams p q).map typed := by
  cases p with
  | real p =>
    cases q with
    | real q =>
      rw [addLeaves_real p q h2]
      have h3 : p.map List.length = q.map List.length := h2
      simp only [addParams]
      rw [if_pos h3]
      rfl
    | cpx q => cases h1
  | cpx p =>
    cases q with
    | real q => cases h1
    | cpx q =>
      rw [addLeaves_cpx p q h2]
      have h3 : p.map List.length = q.map List.length := h2
      simp only [addParams]
      rw [if_pos h3]
      rfl

/-- The outcome of a call in the model without data types. -/
noncomputable def nqsCall (p₀ : Params) (op : NqsOp) : PsiM Unit :=
  match op with
  | .eval => callNet p₀ fun _ => .ok ()
  | .set P => setParameters P
  | .update d => updateParameters d

theorem nqsStep_eq (p₀ : Params) (op : NqsOp) (st : NqsState) : ((nqsCall p₀ op).call st).2 = nqsStep p₀ st op := by
  cases op with
  | eval => cases st <;> rfl
  | set P => rfl
  | update d => rfl

/-- `p₀` is a network in double precision with the other collections `other` of the same data type. -/
structure DoublePrecision (p₀ : Params) (other : List TLeaf) : Prop where
  nonempty : p₀.sizes ≠ []
  same : ∀ l ∈ other, l.dtype = if p₀.isReal then .f64 else .c128

theorem initObj_typed {p₀ : Params} {other : List TLeaf} (h : DoublePrecision p₀ other) (st : NqsObj)
    (hst : st.initialized = false) :
    initObj ⟨typed p₀, other⟩ st = (.ok (), asObj other (some ⟨p₀.isReal, p₀.sizes, p₀⟩)) := by
  have hne : typed p₀ ≠ [] := by
    intro hc
    have := typed_sizes p₀
    rw [hc] at this
    exact h.nonempty this.symm
  rw [initObj_uniform ⟨typed p₀, other⟩ (if p₀.isReal then .f64 else .c128) ?_ ?_ hne st hst]
  · simp only [asObj, typed_sizes]
    cases p₀ <;> rfl
  · intro l hl
    rcases List.mem_append.mp hl with hl | hl
    · cases p₀ with
      | real p =>
        obtain ⟨x, _, rfl⟩ := List.mem_map.mp hl
        rfl
      | cpx p =>
        obtain ⟨x, _, rfl⟩ := List.mem_map.mp hl
        rfl
    · exact h.same l hl
  · cases p₀ <;> simp [Params.isReal]

/-- One call on corresponding states. -/
theorem objCall_typed {p₀ : Params} {other : List TLeaf} (h : DoublePrecision p₀ other) (op : NqsOp) (st : NqsState)
    (hst : ∀ i, st = some i → i.realParams = i.params.isReal ∧ i.sizes = i.params.sizes) :
    objCall ⟨typed p₀, other⟩ (typedOp op) (asObj other st)
      = ((((nqsCall p₀ op).call st).1).mapError NqsErr.py, asObj other ((nqsCall p₀ op).call st).2) := by
  cases st with
  | none =>
    cases op with
    | eval =>
      simp only [typedOp, objCall, evalObj]
      rw [initObj_typed h _ rfl]
      rfl
    | set P => cases P <;> rfl
    | update d => rfl
  | some s =>
    obtain ⟨hs1, hs2⟩ := hst s rfl
    cases op with
    | eval => rfl
    | set P =>
      cases P with
      | dict p => rfl
      | vec v =>
        simp only [nqsCall, call_setVec]
        simp only [typedOp, objCall, setParametersObj, asObj, Bool.not_true, Bool.false_eq_true, if_false,
          unflattenObj_f64]
        cases paramUnflatten s.realParams s.sizes v <;> rfl
    | update d =>
      simp only [nqsCall, call_update]
      simp only [typedOp, objCall, updateParametersObj, asObj, Bool.not_true, Bool.false_eq_true, if_false,
        unflattenObj_f64]
      cases hu : paramUnflatten s.realParams s.sizes d with
      | error e => rfl
      | ok q =>
        obtain ⟨u1, u2⟩ := unflatten_struct _ _ _ _ hu
        simp only [Except.map]
        rw [addLeaves_typed s.params q (by rw [u1, hs1]) (by rw [u2, hs2])]
        cases addParams s.params q <;> rfl

theorem nqsRun_struct (p₀ : Params) (ops : List NqsOp) (hops : ∀ op ∈ ops, op.Fits p₀) :
    ∀ i, nqsRun p₀ ops = some i → i.realParams = i.params.isReal ∧ i.sizes = i.params.sizes := by
  intro i hi
  obtain ⟨h1, h2, h3, h4⟩ := wf_run p₀ ops hops i hi
  exact ⟨h1.trans h3.symm, h2.trans h4.symm⟩

theorem objRun_typed {p₀ : Params} {other : List TLeaf} (h : DoublePrecision p₀ other) (ops : List NqsOp)
    (hops : ∀ op ∈ ops, op.Fits p₀) :
    objRun ⟨typed p₀, other⟩ (ops.map typedOp) = asObj other (nqsRun p₀ ops) := by
  induction ops using List.reverseRecOn with
  | nil => rfl
  | append_singleton ops op ih =>
    have ih := ih fun o ho => hops o (List.mem_append_left _ ho)
    have h1 := nqsRun_struct p₀ ops fun o ho => hops o (List.mem_append_left _ ho)
    unfold objRun nqsRun at ih ⊢
    rw [List.map_append, List.foldl_append, List.foldl_append, ih]
    simp only [List.map_cons, List.map_nil, List.foldl_cons, List.foldl_nil]
    have h2 := objCall_typed h op (nqsRun p₀ ops) h1
    rw [nqsStep_eq] at h2
    unfold nqsRun at h2
    rw [h2]

/-- **C122**: for networks in double precision the data types play no role. After every history of calls the next call
succeeds or raises exactly as in the model without data types, the network is evaluated with the same parameters, and
`get_parameters` gives the same vector. So C11, C22, C25 and C63, which are about that model, hold for the object with
its data types. -/
theorem c122_double_precision {B : Type} (p₀ : Params) (other : List TLeaf) (h : DoublePrecision p₀ other)
    (ops : List NqsOp) (hops : ∀ op ∈ ops, op.Fits p₀) (op : NqsOp) (f : Variables → Except PyErr B) :
    (objCall ⟨typed p₀, other⟩ (typedOp op) (objRun ⟨typed p₀, other⟩ (ops.map typedOp))).1
      = (((nqsCall p₀ op).call (nqsRun p₀ ops)).1).mapError NqsErr.py ∧
    (evalObj ⟨typed p₀, other⟩ f (objRun ⟨typed p₀, other⟩ (ops.map typedOp))).1
      = (((callNet p₀ fun p => f ⟨typed p, other⟩).call (nqsRun p₀ ops)).1).mapError NqsErr.py ∧
    (getParametersObj (objRun ⟨typed p₀, other⟩ (ops.map typedOp))).1
      = (((getParameters.call (nqsRun p₀ ops)).1).mapError NqsErr.py).map
          (Option.map (List.map fun r : ℝ => (r : ℂ))) := by
  have hst := nqsRun_struct p₀ ops hops
  rw [objRun_typed h ops hops]
  refine ⟨by rw [objCall_typed h op _ hst], ?_, ?_⟩
  · cases hs : nqsRun p₀ ops with
    | none =>
      have hc : (callNet p₀ fun p => f ⟨typed p, other⟩).call none
          = (callNet p₀ fun p => f ⟨typed p, other⟩).call (some ⟨p₀.isReal, p₀.sizes, p₀⟩) := rfl
      rw [hc, call_callNet]
      simp only [evalObj]
      rw [initObj_typed h _ rfl]
      simp only [asObj]
      cases f ⟨typed p₀, other⟩ <;> rfl
    | some s =>
      rw [call_callNet]
      simp only [evalObj, initObj, asObj, if_true]
      cases f ⟨typed s.params, other⟩ <;> rfl
  · cases hs : nqsRun p₀ ops with
    | none => rfl
    | some s =>
      obtain ⟨hr, -⟩ := hst s hs
      rw [call_getParameters]
      simp only [getParametersObj, asObj, Bool.not_true, Bool.false_eq_true, if_false, hr]
      cases s.params with
      | real l =>
        simp [Params.isReal, typed, flattenParams, Except.mapError, Except.map, List.flatMap_def,
          Function.comp_def]
      | cpx l =>
        simp [Params.isReal, typed, flattenParams, Except.mapError, Except.map, List.flatMap_map, List.map_flatMap,
          Function.comp_def]

/-- Case: a real network with two arrays and one running mean. -/
example : DoublePrecision (.real [[1, 2], [3]]) [⟨.f64, [0]⟩] := ⟨by simp [Params.sizes], by simp [Params.isReal]⟩

/-! ## Updates -/

theorem addLeaves_types (d e : DType) (p q : List TLeaf) (hp : ∀ l ∈ p, l.dtype = d) (hq : ∀ l ∈ q, l.dtype = e)
    (hl : p.map (fun l => l.vals.length) = q.map fun l => l.vals.length) (hne : p ≠ []) :
    (d ≠ e → addLeaves p q = .error .typeError) ∧
    (d = e → addLeaves p q = .ok (List.zipWith (fun a b => ⟨d, List.zipWith (· + ·) a.vals b.vals⟩) p q)) := by
  cases p with
  | nil => exact absurd rfl hne
  | cons a p =>
    cases q with
    | nil => simp at hl
    | cons b q =>
      have h1 := hp a List.mem_cons_self
      have h2 := hq b List.mem_cons_self
      constructor
      · intro hde
        simp only [addLeaves]
        rw [laxAdd, if_neg (by rw [h1, h2]; exact fun h => hde h.1)]
        rfl
      · intro hde
        subst hde
        clear hne h1 h2
        induction p generalizing a b q with
        | nil =>
          cases q with
          | nil =>
            simp only [addLeaves]
            rw [laxAdd, if_pos ⟨by rw [hp a (by simp), hq b (by simp)], by simpa using hl⟩, hp a (by simp)]
            rfl
          | cons c q => simp at hl
        | cons a' p ih =>
          cases q with
          | nil => simp at hl
          | cons b' q =>
            simp only [List.map_cons, List.cons.injEq] at hl
            have := ih a' (fun l hl => hp l (List.mem_cons_of_mem _ hl)) b' q
              (by simpa using hl.2) (fun l hl => hq l (List.mem_cons_of_mem _ hl))
            rw [addLeaves, this, laxAdd, if_pos ⟨by rw [hp a (by simp), hq b (by simp)], hl.1⟩, hp a (by simp)]
            rfl

/-- **C122**: `update_parameters` does not convert data types. On a new network of data type `d`, a vector of the right
length and of data type `dt` is added if `dt` is `d`, or for a network treated as complex if `d` is the complex data type
which belongs to `dt`; otherwise the call raises `TypeError` and changes nothing. -/
theorem c122_update_iff (v₀ : Variables) (d dt : DType) (hi : d ≠ .i32) (hp : v₀.params ≠ [])
    (hd : ∀ l ∈ v₀.leaves, l.dtype = d) (v : List ℝ)
    (hv : v.length = (if d = .f32 ∨ d = .f64 then 1 else 2) * (v₀.params.map fun l => l.vals.length).sum) :
    (updateParametersObj dt v (objRun v₀ [.eval])).1
      = (if d = (if d = .f32 ∨ d = .f64 then dt else cpxOf dt) then .ok () else .error (.py .typeError)) ∧
    (d ≠ (if d = .f32 ∨ d = .f64 then dt else cpxOf dt) →
      (updateParametersObj dt v (objRun v₀ [.eval])).2 = objRun v₀ [.eval]) := by
  have hrun : objRun v₀ [.eval] = (initObj v₀ .fresh).2 := by
    show (objCall v₀ .eval .fresh).2 = _
    simp only [objCall, evalObj_state]
  rw [hrun, initObj_uniform v₀ d hd hi hp _ rfl]
  set sizes := v₀.params.map fun l => l.vals.length with hsizes
  obtain ⟨p, h1, h2, h3, -⟩ := paramUnflatten_ok (d == DType.f32 || d == DType.f64) sizes v (by
    rw [hv, numEntries]
    by_cases hr : d = .f32 ∨ d = .f64
    · have : (d == DType.f32 || d == DType.f64) = true := by simpa using hr
      rw [if_pos hr, if_pos this, one_mul]
    · have : ¬ (d == DType.f32 || d == DType.f64) = true := by simpa using hr
      rw [if_neg hr, if_neg this])
  set e : DType := if d = .f32 ∨ d = .f64 then dt else cpxOf dt with he
  obtain ⟨q, hq, hqe, hql⟩ : ∃ q, unflattenObj (d == DType.f32 || d == DType.f64) sizes dt v = .ok q ∧
      (∀ l ∈ q, l.dtype = e) ∧ q.map (fun l => l.vals.length) = sizes := by
    unfold unflattenObj
    rw [h1]
    cases p with
    | real l =>
      have hr : d = .f32 ∨ d = .f64 := by simpa [Params.isReal] using h2.symm
      refine ⟨_, rfl, ?_, ?_⟩
      · intro x hx
        obtain ⟨y, _, rfl⟩ := List.mem_map.mp hx
        rw [he, if_pos hr]
      · rw [← h3]; simp [Params.sizes, Function.comp_def]
    | cpx l =>
      have hr : ¬ (d = .f32 ∨ d = .f64) := by
        intro hc
        have : (d == DType.f32 || d == DType.f64) = true := by simpa using hc
        rw [this] at h2
        cases h2
      refine ⟨_, rfl, ?_, ?_⟩
      · intro x hx
        obtain ⟨y, _, rfl⟩ := List.mem_map.mp hx
        rw [he, if_neg hr]
      · rw [← h3]; simp [Params.sizes, Function.comp_def]
  obtain ⟨ha, hb⟩ := addLeaves_types d e v₀.params q (fun l hl => hd l (List.mem_append_left _ hl)) hqe
    (hsizes.symm.trans hql.symm) hp
  simp only [updateParametersObj, Bool.not_true, Bool.false_eq_true, if_false, hq]
  by_cases hde : d = e
  · rw [hb hde, if_pos hde]
    exact ⟨rfl, fun h => absurd hde h⟩
  · rw [ha hde, if_neg hde]
    exact ⟨rfl, fun _ => rfl⟩

/-- **C122** fails for updates of networks in single precision: with a vector in double precision, which is what TDVP
computes, `update_parameters` raises `TypeError` on every new real network in single precision, although
`set_parameters` accepts the same vector; after that call the network is in double precision and the update succeeds. -/
theorem c122_single_update_violated (x : List ℝ) (v w : List ℝ) (hv : v.length = x.length) (hw : w.length = x.length) :
    let v₀ : Variables := ⟨[⟨.f32, x.map fun r : ℝ => (r : ℂ)⟩], []⟩
    (updateParametersObj .f64 v (objRun v₀ [.eval])).1 = .error (.py .typeError) ∧
    (setParametersObj (.vec .f64 w) (objRun v₀ [.eval])).1 = .ok () ∧
    (updateParametersObj .f64 v (objRun v₀ [.eval, .set (.vec .f64 w)])).1 = .ok () ∧
    (getParametersObj (objRun v₀ [.eval, .set (.vec .f64 w), .update .f64 v])).1
      = .ok (some ((List.zipWith (· + ·) w v).map fun r : ℝ => (r : ℂ))) := by
  intro v₀
  have hd : ∀ l ∈ v₀.leaves, l.dtype = .f32 := by
    intro l hl
    simp [v₀, Variables.leaves] at hl
    rw [hl]
  have hu : ∀ u : List ℝ, u.length = x.length →
      unflattenObj true [x.length] .f64 u = .ok [⟨.f64, u.map fun r : ℝ => (r : ℂ)⟩] := by
    intro u hu
    have := flattenParams_unflatten (.real [u])
    simp only [Params.isReal, Params.sizes, flattenParams, List.map_cons, List.map_nil, List.flatten_cons,
      List.flatten_nil, List.append_nil, hu] at this
    rw [unflattenObj, this]
    rfl
  have h1 : objRun v₀ [.eval] = ⟨some v₀, some true, some [x.length], true⟩ := by
    show (objCall v₀ .eval .fresh).2 = _
    simp only [objCall, evalObj_state]
    rw [initObj_uniform v₀ .f32 hd (by decide) (by simp [v₀]) _ rfl]
    simp [v₀]
  have h2 : setParametersObj (.vec .f64 w) (objRun v₀ [.eval])
      = (.ok (), ⟨some ⟨[⟨.f64, w.map fun r : ℝ => (r : ℂ)⟩], []⟩, some true, some [x.length], true⟩) := by
    rw [h1]
    simp only [setParametersObj, Bool.not_true, Bool.false_eq_true, if_false, hu w hw]
    rfl
  have h3 : objRun v₀ [.eval, .set (.vec .f64 w)] = (setParametersObj (.vec .f64 w) (objRun v₀ [.eval])).2 := rfl
  have h4 : updateParametersObj .f64 v (objRun v₀ [.eval, .set (.vec .f64 w)])
      = (.ok (), ⟨some ⟨[⟨.f64, (List.zipWith (· + ·) w v).map fun r : ℝ => (r : ℂ)⟩], []⟩, some true,
          some [x.length], true⟩) := by
    rw [h3, h2]
    simp only [updateParametersObj, Bool.not_true, Bool.false_eq_true, if_false, hu v hv, addLeaves]
    rw [laxAdd, if_pos ⟨rfl, by simp [hv, hw]⟩]
    simp only [setParamsObj, bind, Except.bind, pure, Except.pure, List.zipWith_map, List.map_zipWith,
      Complex.ofReal_add]
  refine ⟨?_, by rw [h2], by rw [h4], ?_⟩
  · have := (c122_update_iff v₀ .f32 .f64 (by decide) (by simp [v₀]) hd v (by simp [v₀, hv])).1
    simpa using this
  · have h5 : objRun v₀ [.eval, .set (.vec .f64 w), .update .f64 v]
        = (updateParametersObj .f64 v (objRun v₀ [.eval, .set (.vec .f64 w)])).2 := rfl
    rw [h5, h4]
    simp [getParametersObj]

/-- Case: two parameters in single precision. -/
example := c122_single_update_violated [1, 2] [3, 4] [1, 2] rfl rfl

/-! ## The networks of the package -/

/-- All parameters are real (`r = true`) or all are complex: a single network by its kind, where recurrent networks with
gates have complex parameters only without layers; two networks only if both are of the same kind. -/
def NetArch.Consistent (r : Bool) : NetArch → Prop
  | .cpxRbm _ => r = false
  | .rbm _ => r = true
  | .cnn _ _ => r = true
  | .cpxCnn _ _ => r = false
  | .ffn _ _ => r = true
  | .rnn1D r' cell depth => r = r' ∧ (r' = false → cell = .rnn ∨ depth = 0)
  | .rnn2D r' lstm depth => r = r' ∧ (r' = false → lstm = false ∨ depth = 0)
  | .two a b => a.Consistent r ∧ b.Consistent r
  | .sym a => a.Consistent r

theorem layerTypes_all (d e : DType) (b : Bool) : (∀ x ∈ layerTypes d b, x = e) ↔ d = e := by
  cases b <;> simp [layerTypes]

theorem flatMap_layerTypes_all (d e : DType) (b : Bool) (bs : List Bool) :
    (∀ x ∈ (b :: bs).flatMap (layerTypes d), x = e) ↔ d = e := by
  constructor
  · intro h
    apply h
    rw [List.flatMap_cons]
    apply List.mem_append_left
    cases b <;> simp [layerTypes]
  · intro h x hx
    obtain ⟨c, _, hc⟩ := List.mem_flatMap.mp hx
    exact (layerTypes_all d e c).mpr h x hc

theorem rnnType_inj (r r' : Bool) : rnnType r = rnnType r' ↔ r = r' := by
  cases r <;> cases r' <;> simp [rnnType]

theorem rnn_all (e : DType) (r : Bool) (depth : ℕ) (l : List DType) :
    (∀ x ∈ rnnType r :: (List.replicate depth l).flatten ++ [rnnType r, rnnType r], x = e) ↔
      rnnType r = e ∧ (depth = 0 ∨ ∀ x ∈ l, x = e) := by
  constructor
  · intro h
    refine ⟨h _ (by simp), ?_⟩
    by_cases hd : depth = 0
    · exact .inl hd
    · refine .inr fun x hx => h x ?_
      apply List.mem_append_left
      apply List.mem_cons_of_mem
      exact List.mem_flatten.mpr ⟨l, by rw [List.mem_replicate]; exact ⟨hd, rfl⟩, hx⟩
  · rintro ⟨h1, h2⟩ x hx
    rcases List.mem_append.mp hx with hx | hx
    · rcases List.mem_cons.mp hx with rfl | hx
      · exact h1
      · obtain ⟨l', hl', hx'⟩ := List.mem_flatten.mp hx
        rw [List.mem_replicate] at hl'
        rcases h2 with h2 | h2
        · exact absurd h2 hl'.1
        · exact h2 x (hl'.2 ▸ hx')
    · simp at hx
      rw [hx]; exact h1

theorem types_all (a : NetArch) (r : Bool) : (∀ x ∈ a.types, x = rnnType r) ↔ a.Consistent r := by
  have hf : DType.f64 = rnnType true := rfl
  have hc : DType.c128 = rnnType false := rfl
  induction a with
  | cpxRbm b => rw [NetArch.types, layerTypes_all, hc, rnnType_inj]; exact eq_comm
  | rbm b => rw [NetArch.types, layerTypes_all, hf, rnnType_inj]; exact eq_comm
  | cnn b bs => rw [NetArch.types, flatMap_layerTypes_all, hf, rnnType_inj]; exact eq_comm
  | cpxCnn b bs => rw [NetArch.types, flatMap_layerTypes_all, hc, rnnType_inj]; exact eq_comm
  | ffn b bs => rw [NetArch.types, flatMap_layerTypes_all, hf, rnnType_inj]; exact eq_comm
  | rnn1D r' cell depth =>
    rw [NetArch.types, rnn_all, rnnType_inj, NetArch.Consistent]
    cases r <;> cases r' <;> cases cell <;> simp [cellTypes1D, rnnType]
  | rnn2D r' lstm depth =>
    rw [NetArch.types, rnn_all, rnnType_inj, NetArch.Consistent]
    cases r <;> cases r' <;> cases lstm <;> simp [cellTypes2D, rnnType]
  | two a b iha ihb =>
    constructor
    · intro h
      exact ⟨iha.mp fun x hx => h x (List.mem_append_left _ hx), ihb.mp fun x hx => h x (List.mem_append_right _ hx)⟩
    · rintro ⟨ha, hb⟩ x hx
      rcases List.mem_append.mp hx with hx | hx
      · exact iha.mpr ha x hx
      · exact ihb.mpr hb x hx
  | sym a ih => exact ih

theorem types_kinds (a : NetArch) : (∀ x ∈ a.types, x = .f64 ∨ x = .c128) ∧ a.types ≠ [] := by
  have hl : ∀ (d : DType) (b : Bool), ∀ x ∈ layerTypes d b, x = d := fun d b => (layerTypes_all d d b).mpr rfl
  have hm : ∀ (d : DType) (b : Bool) (bs : List Bool), ∀ x ∈ (b :: bs).flatMap (layerTypes d), x = d :=
    fun d b bs => (flatMap_layerTypes_all d d b bs).mpr rfl
  have hr : ∀ r, rnnType r = .f64 ∨ rnnType r = .c128 := by intro r; cases r <;> simp [rnnType]
  induction a with
  | cpxRbm b => exact ⟨fun x hx => .inr (hl _ _ x hx), by cases b <;> simp [NetArch.types, layerTypes]⟩
  | rbm b => exact ⟨fun x hx => .inl (hl _ _ x hx), by cases b <;> simp [NetArch.types, layerTypes]⟩
  | cnn b bs => exact ⟨fun x hx => .inl (hm _ _ _ x hx), by cases b <;> simp [NetArch.types, layerTypes]⟩
  | cpxCnn b bs => exact ⟨fun x hx => .inr (hm _ _ _ x hx), by cases b <;> simp [NetArch.types, layerTypes]⟩
  | ffn b bs => exact ⟨fun x hx => .inl (hm _ _ _ x hx), by cases b <;> simp [NetArch.types, layerTypes]⟩
  | rnn1D r cell depth =>
    refine ⟨?_, by simp [NetArch.types]⟩
    intro x hx
    rw [NetArch.types] at hx
    rcases List.mem_append.mp hx with hx | hx
    · rcases List.mem_cons.mp hx with rfl | hx
      · exact hr r
      · obtain ⟨l', hl', hx⟩ := List.mem_flatten.mp hx
        rw [List.mem_replicate] at hl'
        obtain ⟨-, rfl⟩ := hl'
        cases cell <;> simp [cellTypes1D] at hx <;> subst hx
        · exact hr r
        · exact .inl rfl
        · exact .inl rfl
    · simp at hx
      rw [hx]; exact hr r
  | rnn2D r lstm depth =>
    refine ⟨?_, by simp [NetArch.types]⟩
    intro x hx
    rw [NetArch.types] at hx
    rcases List.mem_append.mp hx with hx | hx
    · rcases List.mem_cons.mp hx with rfl | hx
      · exact hr r
      · obtain ⟨l', hl', hx⟩ := List.mem_flatten.mp hx
        rw [List.mem_replicate] at hl'
        obtain ⟨-, rfl⟩ := hl'
        cases lstm <;> simp [cellTypes2D] at hx <;> subst hx
        · exact hr r
        · exact .inl rfl
    · simp at hx
      rw [hx]; exact hr r
  | two a b iha ihb =>
    refine ⟨?_, by simp [NetArch.types, iha.2]⟩
    intro x hx
    rcases List.mem_append.mp hx with hx | hx
    · exact iha.1 x hx
    · exact ihb.1 x hx
  | sym a ih => exact ih

/-- **C122**: the networks of the package and their combinations. The first evaluation succeeds exactly if all parameters
are real or all are complex, in the sense of `Consistent`; `get_parameters` then has one or two entries for every
parameter. Otherwise the exception about data types is raised. So two networks can be combined if both are real or both
complex, and recurrent networks with complex parameters and gates are refused - by this exception, not by the one about
their cell (C91). -/
theorem c122_networks (a : NetArch) (v₀ : Variables) (hv : v₀.params.map TLeaf.dtype = a.types) (ho : v₀.other = []) :
    ((objCall v₀ .eval .fresh).1 = .ok () ↔ ∃ r, a.Consistent r) ∧
    ((¬ ∃ r, a.Consistent r) → (objCall v₀ .eval .fresh).1 = .error .dataTypes) ∧
    (∀ r, a.Consistent r → ∃ v, (getParametersObj (objRun v₀ [.eval])).1 = .ok (some v) ∧
      v.length = (if r then 1 else 2) * (v₀.params.map fun l => l.vals.length).sum) := by
  have hleaves : v₀.leaves = v₀.params := by rw [Variables.leaves, ho, List.append_nil]
  have hne : v₀.params ≠ [] := by
    intro hc
    rw [hc] at hv
    exact (types_kinds a).2 hv.symm
  have hd : ∀ r, a.Consistent r → ∀ l ∈ v₀.leaves, l.dtype = rnnType r := by
    intro r hr l hl
    rw [hleaves] at hl
    exact (types_all a r).mpr hr _ (hv ▸ List.mem_map_of_mem hl)
  have hi : ∀ r, rnnType r ≠ .i32 := by intro r; cases r <;> simp [rnnType]
  have hyes : ∀ r, a.Consistent r → (objCall v₀ .eval .fresh).1 = .ok () := by
    intro r hr
    simp only [objCall, evalObj]
    rw [initObj_uniform v₀ (rnnType r) (hd r hr) (hi r) hne _ rfl]
  have hno : (¬ ∃ r, a.Consistent r) → (objCall v₀ .eval .fresh).1 = .error .dataTypes := by
    intro h
    have h1 : ¬ ∀ x ∈ a.types, x = rnnType true := fun hc => h ⟨_, (types_all a _).mp hc⟩
    have h2 : ¬ ∀ x ∈ a.types, x = rnnType false := fun hc => h ⟨_, (types_all a _).mp hc⟩
    push Not at h1 h2
    obtain ⟨x, hx, hx'⟩ := h1
    obtain ⟨y, hy, hy'⟩ := h2
    rw [← hv] at hx hy
    obtain ⟨lx, hlx, rfl⟩ := List.mem_map.mp hx
    obtain ⟨ly, hly, rfl⟩ := List.mem_map.mp hy
    have hkx := (types_kinds a).1 lx.dtype (hv ▸ hx)
    have hky := (types_kinds a).1 ly.dtype (hv ▸ hy)
    simp only [objCall, evalObj]
    rw [initObj_mixed v₀ lx ly (hleaves ▸ hlx) (hleaves ▸ hly) ?_ _ rfl]
    simp only [rnnType, if_true, Bool.false_eq_true, if_false] at hx' hy'
    rw [hkx.resolve_left hx', hky.resolve_right hy']
    decide
  refine ⟨⟨?_, ?_⟩, hno, ?_⟩
  · intro h
    by_contra hc
    rw [hno hc] at h
    cases h
  · rintro ⟨r, hr⟩
    exact hyes r hr
  · intro r hr
    obtain ⟨v, h1, h2⟩ := (c122_accepted_iff v₀).2 (rnnType r) (hi r) hne (hd r hr)
    refine ⟨v, h1, ?_⟩
    rw [h2]
    cases r <;> simp [rnnType]

/-- Case: amplitudes from a real convolutional network, phases from a recurrent network with gates; and amplitudes from
a complex one, which is refused. -/
example : (∃ r, (NetArch.two (.cnn true [false]) (.rnn1D true .gru 2)).Consistent r) ∧
    ¬ (∃ r, (NetArch.two (.cpxCnn true [false]) (.rnn1D true .gru 2)).Consistent r) ∧
    ¬ (∃ r, (NetArch.sym (.rnn1D false .lstm 1)).Consistent r) := by
  refine ⟨⟨true, rfl, rfl, by simp⟩, ?_, ?_⟩
  · rintro ⟨r, h1, h2, -⟩
    rw [h1] at h2
    cases h2
  · rintro ⟨r, -, h⟩
    simpa using h rfl

end JVMC
