import Verif.Model.MyNet
import Verif.Props.Rbm
import Verif.Props.ParamTypes
import Verif.Props.Vqs

/-!
# C143 — the user-defined network of `examples/ex3`
-/

namespace JVMC

open Spec

/-- C143: the amplitude is a product over the hidden units of hyperbolic cosines of the local fields. -/
theorem c143_value {n m : ℕ} (kernel : Fin n → Fin m → ℂ) (bias : Fin m → ℂ) (s : Fin n → ℤ) :
    (myNet kernel bias s).amp = ∏ j, Complex.cosh (bias j + ∑ i, kernel i j * (2 * s i - 1)) := by
  unfold myNet
  rw [sumLog_amp]
  refine Finset.prod_congr rfl fun j _ => ?_
  rw [logC_amp]
  unfold dense
  congr 1
  rw [add_comm]
  congr 1
  refine Finset.sum_congr rfl fun i _ => ?_
  push_cast
  ring

/-- C143: with real parameters the coefficients are those of `RBM` with a bias; they are real and not negative. -/
theorem c143_real {n m : ℕ} (kernel : Fin n → Fin m → ℝ) (bias : Fin m → ℝ) (s : Fin n → ℤ) :
    myNet (fun i j => (kernel i j : ℂ)) (fun j => (bias j : ℂ)) s = some (realRbm kernel (some bias) s : ℂ) ∧
      0 ≤ realRbm kernel (some bias) s := by
  have hd : ∀ j, dense (fun i j => (kernel i j : ℂ)) (some fun j => (bias j : ℂ)) (fun i => ((2 * s i - 1 : ℤ) : ℂ)) j
      = ((dense kernel (some bias) (fun i => ((2 * s i - 1 : ℤ) : ℝ)) j : ℝ) : ℂ) := by
    intro j
    unfold dense
    push_cast
    rfl
  have hl : ∀ x : ℝ, logC (Complex.cosh x) = some ((Real.log (Real.cosh x) : ℝ) : ℂ) := by
    intro x
    unfold logC
    rw [← Complex.ofReal_cosh, if_neg (by exact_mod_cast (Real.cosh_pos x).ne'), Complex.ofReal_log (Real.cosh_pos x).le]
  constructor
  · unfold myNet sumLog
    simp only [hd, hl, reduceCtorEq, exists_false, if_false, Option.getD_some]
    unfold realRbm
    push_cast
    rfl
  · unfold realRbm
    exact Finset.sum_nonneg fun j _ => Real.log_nonneg (Real.one_le_cosh _)

/-- C143: without a bias, flipping all spins does not change the amplitude. -/
theorem c143_flip {n m : ℕ} (kernel : Fin n → Fin m → ℂ) (s : Fin n → ℤ) :
    (myNet kernel (fun _ => 0) fun i => 1 - s i).amp = (myNet kernel (fun _ => 0) s).amp := by
  rw [c143_value, c143_value]
  refine Finset.prod_congr rfl fun j _ => ?_
  rw [← Complex.cosh_neg]
  congr 1
  rw [zero_add, zero_add, ← Finset.sum_neg_distrib]
  refine Finset.sum_congr rfl fun i _ => ?_
  push_cast
  ring

theorem myNetInit_kernel {n m : ℕ} (kernel : Fin n → Fin m → ℝ) (i : Fin n) (j : Fin m) :
    ((List.finRange n).flatMap fun i => List.ofFn fun j => ((kernel i j : ℝ) : ℂ)).getD (i.val * m + j.val) 0
      = ((kernel i j : ℝ) : ℂ) := by
  have h : ((List.finRange n).flatMap fun i => List.ofFn fun j => ((kernel i j : ℝ) : ℂ))
      = List.ofFn fun k : Fin (n * m) => ((kernel (finProdFinEquiv.symm k).1 (finProdFinEquiv.symm k).2 : ℝ) : ℂ) := by
    rw [List.ofFn_mul, List.flatMap_def, ← List.ofFn_eq_map]
    congr 2
    funext i
    congr 1
    funext j
    have : finProdFinEquiv.symm ⟨i.val * m + j.val, by
        have := i.isLt; have := j.isLt
        calc i.val * m + j.val < i.val * m + m := by omega
          _ = (i.val + 1) * m := by ring
          _ ≤ n * m := Nat.mul_le_mul_right _ (by omega)⟩ = (i, j) := by
      rw [Equiv.symm_apply_eq]
      ext
      simp [finProdFinEquiv, Nat.mul_comm]
      ring
    rw [this]
  rw [h]
  have hlt : i.val * m + j.val < n * m := by
    have := i.isLt; have := j.isLt
    calc i.val * m + j.val < i.val * m + m := by omega
      _ = (i.val + 1) * m := by ring
      _ ≤ n * m := Nat.mul_le_mul_right _ (by omega)
  rw [List.getD_eq_getElem _ _ (by simpa using hlt), List.getElem_ofFn]
  have : finProdFinEquiv.symm ⟨i.val * m + j.val, hlt⟩ = (i, j) := by
    rw [Equiv.symm_apply_eq]
    ext
    simp [finProdFinEquiv, Nat.mul_comm]
    ring
  rw [this]

/-- C143: the first `psi(configs)` gives one coefficient per configuration, in order, for any positive batch size. -/
theorem c143_first {n m : ℕ} (kernel : Fin n → Fin m → ℝ) (batchSize : ℕ) (hb : 0 < batchSize) (configs : List (Fin n → ℤ)) :
    (evalObj (myNetInit kernel) (myNetEval m batchSize configs) .fresh).1 =
      .ok (configs.map fun s => some (realRbm kernel (some fun _ => 0) s : ℂ)) := by
  have hd : ∀ l ∈ (myNetInit kernel).leaves, l.dtype = .f32 := by
    intro l hl
    simp [myNetInit, Variables.leaves] at hl
    rcases hl with rfl | rfl <;> rfl
  unfold evalObj
  rw [initObj_uniform (myNetInit kernel) .f32 hd (by decide) (by simp [myNetInit]) _ rfl]
  have : myNetEval m batchSize configs (myNetInit kernel) =
      .ok (configs.map fun s => some (realRbm kernel (some fun _ => 0) s : ℂ)) := by
    unfold myNetEval myNetInit
    dsimp only
    rw [if_pos ⟨by simp, by simp [List.length_flatMap]⟩, c21_batching _ _ hb]
    congr 1
    refine List.map_congr_left fun s _ => ?_
    rw [← (c143_real kernel (fun _ => 0) s).1]
    congr 1
    · funext i j
      exact myNetInit_kernel kernel i j
    · funext j
      simp
  dsimp only
  rw [this]

/-! ## Histories -/

/-- Parameters are set and changed through vectors, as steppers do. -/
def ObjOp.IsVector : ObjOp → Prop
  | .eval => True
  | .set (.vec _ _) => True
  | .set (.dict _) => False
  | .update _ _ => True
  | .assign _ => False

def RealLeaves (p : List TLeaf) : Prop := ∀ l ∈ p, ∀ z ∈ l.vals, z.im = 0

def RealObj (st : NqsObj) : Prop :=
  (∀ v, st.parameters = some v → RealLeaves v.params) ∧ (st.initialized = true → st.realParams = some true)

theorem realObj_set {st : NqsObj} (h : RealObj st) {p : List TLeaf} (hp : RealLeaves p) : RealObj (setParamsObj p st).2 := by
  unfold setParamsObj
  cases hst : st.parameters with
  | none => exact h
  | some v =>
    refine ⟨?_, h.2⟩
    intro w hw
    simp only [Option.some.injEq] at hw
    rw [← hw]
    exact hp

theorem real_unflatten {sizes : List ℕ} {dt : DType} {v : List ℝ} {p : List TLeaf}
    (h : unflattenObj true sizes dt v = .ok p) : RealLeaves p := by
  unfold unflattenObj paramUnflatten at h
  simp only [if_true, bind, Except.bind, pure, Except.pure] at h
  cases hu : unflattenReal sizes 0 v with
  | error e => rw [hu] at h; cases h
  | ok l =>
    rw [hu] at h
    simp only [Except.ok.injEq] at h
    subst h
    intro x hx z hz
    obtain ⟨y, -, rfl⟩ := List.mem_map.mp hx
    obtain ⟨r, -, rfl⟩ := List.mem_map.mp hz
    exact Complex.ofReal_im r

theorem real_add : ∀ {p q r : List TLeaf}, RealLeaves p → RealLeaves q → addLeaves p q = .ok r → RealLeaves r := by
  intro p
  induction p with
  | nil =>
    intro q r _ _ h
    cases q with
    | nil => cases h; intro l hl; cases hl
    | cons b q => cases h
  | cons a p ih =>
    intro q r hp hq h
    cases q with
    | nil => cases h
    | cons b q =>
      simp only [addLeaves, bind, Except.bind, pure, Except.pure] at h
      cases hc : laxAdd a b with
      | error e => rw [hc] at h; cases h
      | ok c =>
        rw [hc] at h
        dsimp only at h
        cases hr : addLeaves p q with
        | error e => rw [hr] at h; cases h
        | ok r' =>
          rw [hr] at h
          simp only [Except.ok.injEq] at h
          subst h
          have h1 := ih (fun l hl => hp l (List.mem_cons_of_mem _ hl)) (fun l hl => hq l (List.mem_cons_of_mem _ hl)) hr
          intro l hl
          rcases List.mem_cons.mp hl with rfl | hl
          · unfold laxAdd at hc
            split_ifs at hc
            cases hc
            intro z hz
            dsimp only at hz
            obtain ⟨k, hk, rfl⟩ := List.getElem_of_mem hz
            rw [List.getElem_zipWith, Complex.add_im, hp a (by simp) _ (List.getElem_mem _),
              hq b (by simp) _ (List.getElem_mem _), add_zero]
          · exact h1 l hl

theorem realObj_init {v₀ : Variables} {d : DType} (hd : ∀ l ∈ v₀.leaves, l.dtype = d) (hf : d = .f32 ∨ d = .f64)
    (hp : v₀.params ≠ []) (hr : RealLeaves v₀.params) {st : NqsObj} (h : RealObj st) : RealObj (initObj v₀ st).2 := by
  cases hi : st.initialized with
  | true =>
    unfold initObj
    rw [if_pos hi]
    exact h
  | false =>
    rw [initObj_uniform v₀ d hd (by rcases hf with rfl | rfl <;> decide) hp _ hi]
    refine ⟨fun v hv => ?_, fun _ => by rcases hf with rfl | rfl <;> rfl⟩
    simp only [Option.some.injEq] at hv
    rw [← hv]
    exact hr

/-- A network with real parameters keeps real parameters, whatever vectors are set or added, also if some calls fail. -/
theorem realObj_run {v₀ : Variables} {d : DType} (hd : ∀ l ∈ v₀.leaves, l.dtype = d) (hf : d = .f32 ∨ d = .f64)
    (hp : v₀.params ≠ []) (hr : RealLeaves v₀.params) (ops : List ObjOp) (hops : ∀ op ∈ ops, op.IsVector) :
    RealObj (objRun v₀ ops) := by
  unfold objRun
  have key : ∀ (ops : List ObjOp) (st : NqsObj), (∀ op ∈ ops, op.IsVector) → RealObj st →
      RealObj (ops.foldl (fun st op => (objCall v₀ op st).2) st) := by
    intro ops
    induction ops with
    | nil => intro st _ h; exact h
    | cons op ops ih =>
      intro st ho h
      rw [List.foldl_cons]
      refine ih _ (fun o h => ho o (List.mem_cons_of_mem _ h)) ?_
      have hop := ho op (by simp)
      have hset : ∀ dt v, RealObj (setParametersObj (.vec dt v) st).2 := by
        intro dt v
        unfold setParametersObj
        cases hi : st.initialized with
        | false => exact h
        | true =>
          simp only [Bool.not_true, Bool.false_eq_true, if_false, h.2 hi]
          cases st.sizes with
          | none => exact h
          | some sizes =>
            dsimp only
            cases hu : unflattenObj true sizes dt v with
            | error e => exact h
            | ok p => exact realObj_set h (real_unflatten hu)
      cases op with
      | eval =>
        simp only [objCall, evalObj_state]
        exact realObj_init hd hf hp hr h
      | assign p => exact absurd hop (by simp [ObjOp.IsVector])
      | set P =>
        cases P with
        | dict p => exact absurd hop (by simp [ObjOp.IsVector])
        | vec dt v => exact hset dt v
      | update dt v =>
        simp only [objCall]
        unfold updateParametersObj
        cases hi : st.initialized with
        | false => exact hset dt v
        | true =>
          simp only [Bool.not_true, Bool.false_eq_true, if_false, h.2 hi]
          cases hpar : st.parameters with
          | none => exact h
          | some w =>
            cases st.sizes with
            | none => exact h
            | some sizes =>
              dsimp only
              cases hu : unflattenObj true sizes dt v with
              | error e => exact h
              | ok q =>
                dsimp only
                cases ha : addLeaves w.params q with
                | error e => exact h
                | ok p => exact realObj_set h (real_add (h.1 w hpar) (real_unflatten hu) ha)
  exact key ops _ hops ⟨(by intro v hv; cases hv), (by intro h; cases h)⟩

/-- C143: after the first use, `set_parameters` of a vector (biases, then the kernel row by row) of any type gives the network
with these parameters. -/
theorem c143_set {n m : ℕ} (kernel kernel' : Fin n → Fin m → ℝ) (bias : Fin m → ℝ) (dt : DType) (batchSize : ℕ)
    (hb : 0 < batchSize) (configs : List (Fin n → ℤ)) :
    (evalObj (myNetInit kernel) (myNetEval m batchSize configs) (objRun (myNetInit kernel)
      [.eval, .set (.vec dt (List.ofFn bias ++ (List.finRange n).flatMap fun i => List.ofFn (kernel' i)))])).1 =
      .ok (configs.map fun s => some (realRbm kernel' (some bias) s : ℂ)) := by
  have hd : ∀ l ∈ (myNetInit kernel).leaves, l.dtype = .f32 := by
    intro l hl
    simp [myNetInit, Variables.leaves] at hl
    rcases hl with rfl | rfl <;> rfl
  have hrun : (objCall (myNetInit kernel) .eval .fresh).2 = (initObj (myNetInit kernel) .fresh).2 := by
    simp only [objCall, evalObj_state]
  unfold objRun
  rw [List.foldl_cons, List.foldl_cons, List.foldl_nil, hrun,
    initObj_uniform (myNetInit kernel) .f32 hd (by decide) (by simp [myNetInit]) _ rfl]
  have hu : unflattenObj true ((myNetInit kernel).params.map fun l => l.vals.length) dt
      (List.ofFn bias ++ (List.finRange n).flatMap fun i => List.ofFn (kernel' i)) =
      .ok [⟨dt, (List.ofFn bias).map fun r : ℝ => (r : ℂ)⟩,
        ⟨dt, ((List.finRange n).flatMap fun i => List.ofFn (kernel' i)).map fun r : ℝ => (r : ℂ)⟩] := by
    have := unflattenReal_flatten [List.ofFn bias, (List.finRange n).flatMap fun i => List.ofFn (kernel' i)] [] []
    simp only [List.map_cons, List.map_nil, List.length_nil, List.nil_append, List.flatten_cons, List.flatten_nil,
      List.append_nil] at this
    unfold unflattenObj paramUnflatten
    rw [show ((myNetInit kernel).params.map fun l => l.vals.length)
      = [(List.ofFn bias).length, ((List.finRange n).flatMap fun i => List.ofFn (kernel' i)).length] by
        simp [myNetInit, List.length_flatMap], if_pos rfl, this]
    rfl
  simp only [objCall, setParametersObj, Bool.not_true, Bool.false_eq_true, if_false, beq_self_eq_true, Bool.true_or, hu,
    setParamsObj]
  unfold evalObj initObj
  simp only [if_true]
  unfold myNetEval
  dsimp only
  rw [if_pos ⟨by simp, by simp [List.length_flatMap]⟩, c21_batching _ _ hb]
  dsimp only
  congr 1
  refine List.map_congr_left fun s _ => ?_
  rw [← (c143_real kernel' bias s).1]
  congr 1
  · funext i j
    rw [← myNetInit_kernel kernel' i j, List.map_flatMap]
    simp only [List.map_ofFn]
    rfl
  · funext j
    rw [List.getD_eq_getElem _ _ (by simp)]
    simp

/-- C143: whatever has been set or added before, all coefficients of the network are real and not negative. -/
theorem c143_history {n m : ℕ} (kernel : Fin n → Fin m → ℝ) (batchSize : ℕ) (hb : 0 < batchSize) (ops : List ObjOp)
    (hops : ∀ op ∈ ops, op.IsVector) (configs : List (Fin n → ℤ)) (l : List LogVal)
    (h : (evalObj (myNetInit kernel) (myNetEval m batchSize configs) (objRun (myNetInit kernel) ops)).1 = .ok l) :
    l.length = configs.length ∧ ∀ c ∈ l, ∃ x : ℝ, 0 ≤ x ∧ c = some (x : ℂ) := by
  have hd : ∀ l ∈ (myNetInit kernel).leaves, l.dtype = .f32 := by
    intro l hl
    simp [myNetInit, Variables.leaves] at hl
    rcases hl with rfl | rfl <;> rfl
  have hr : RealLeaves (myNetInit kernel).params := by
    intro l hl z hz
    simp only [myNetInit, List.mem_cons, List.not_mem_nil, or_false] at hl
    rcases hl with rfl | rfl
    · rw [(List.mem_replicate.mp hz).2]; rfl
    · obtain ⟨i, -, hz⟩ := List.mem_flatMap.mp hz
      obtain ⟨j, rfl⟩ := List.mem_ofFn.mp hz
      exact Complex.ofReal_im _
  have hrun := realObj_init hd (.inl rfl) (by simp [myNetInit]) hr
    (realObj_run hd (.inl rfl) (by simp [myNetInit]) hr ops hops)
  unfold evalObj at h
  generalize initObj (myNetInit kernel) (objRun (myNetInit kernel) ops) = o at h hrun
  obtain ⟨r, st⟩ := o
  cases r with
  | error e => cases h
  | ok u =>
    dsimp only at h hrun
    cases hpar : st.parameters with
    | none => rw [hpar] at h; cases h
    | some v =>
      rw [hpar] at h
      dsimp only at h
      cases he : myNetEval m batchSize configs v with
      | error e => rw [he] at h; cases h
      | ok l' =>
        rw [he] at h
        cases h
        have hv := hrun.1 v hpar
        unfold myNetEval at he
        split at he
        · rename_i bias ker hvp
          split_ifs at he
          rw [c21_batching _ _ hb] at he
          cases he
          refine ⟨by simp, fun c hc => ?_⟩
          obtain ⟨s, -, rfl⟩ := List.mem_map.mp hc
          have him : ∀ (t : TLeaf), t ∈ v.params → ∀ k, t.vals.getD k 0 = (((t.vals.getD k 0).re : ℝ) : ℂ) := by
            intro t ht k
            apply Complex.ext
            · simp
            · rw [Complex.ofReal_im]
              by_cases hk : k < t.vals.length
              · rw [List.getD_eq_getElem _ _ hk]
                exact hv t ht _ (List.getElem_mem _)
              · rw [List.getD_eq_default _ _ (by omega)]; rfl
          have e := c143_real (n := n) (m := m) (fun i j => (ker.vals.getD (i.val * m + j.val) 0).re)
            (fun j => (bias.vals.getD j.val 0).re) s
          refine ⟨_, e.2, ?_⟩
          rw [← e.1]
          congr 1
          · funext i j
            exact him ker (by rw [hvp]; simp) _
          · funext j
            exact him bias (by rw [hvp]; simp) _
        · cases he

/-- C143 is false as far as the comment in the script goes ("a complex RBM"): the amplitudes of a restricted Boltzmann machine
with complex parameters may have different signs, here 1 and -1/2; no history of setting and adding vectors gives a state
proportional to that one, for any number of hidden units, because the parameters are real. -/
theorem c143_complex_violated :
    (myNet (n := 1) (m := 1) (fun _ _ => Real.pi / 3 * Complex.I) (fun _ => Real.pi / 3 * Complex.I) ![0]).amp = 1 ∧
    (myNet (n := 1) (m := 1) (fun _ _ => Real.pi / 3 * Complex.I) (fun _ => Real.pi / 3 * Complex.I) ![1]).amp = -1 / 2 ∧
    ∀ (m : ℕ) (kernel : Fin 1 → Fin m → ℝ) (batchSize : ℕ), 0 < batchSize → ∀ ops : List ObjOp, (∀ op ∈ ops, op.IsVector) →
      ∀ (l : List LogVal) (c : ℂ),
        (evalObj (myNetInit kernel) (myNetEval m batchSize [![0], ![1]]) (objRun (myNetInit kernel) ops)).1 = .ok l →
        l.map LogVal.amp ≠ [c * 1, c * (-1 / 2)] := by
  refine ⟨?_, ?_, ?_⟩
  · rw [c143_value]
    simp
  · rw [c143_value]
    simp only [Finset.univ_unique, Finset.prod_singleton, Finset.sum_singleton, Matrix.cons_val_fin_one]
    rw [show (Real.pi / 3 * Complex.I + Real.pi / 3 * Complex.I * (2 * ((1 : ℤ) : ℂ) - 1) : ℂ)
      = ((Real.pi - Real.pi / 3 : ℝ) : ℂ) * Complex.I by push_cast; ring, Complex.cosh_mul_I, ← Complex.ofReal_cos,
      Real.cos_pi_sub, Real.cos_pi_div_three]
    push_cast
    ring
  · intro m kernel batchSize hb ops hops l c h he
    obtain ⟨hlen, hall⟩ := c143_history kernel batchSize hb ops hops _ l h
    match l, hlen with
    | [a, b], _ =>
      obtain ⟨x, -, rfl⟩ := hall a (by simp)
      obtain ⟨y, -, rfl⟩ := hall b (by simp)
      simp only [List.map_cons, List.map_nil, LogVal.amp, List.cons.injEq, and_true, mul_one] at he
      obtain ⟨rfl, h2⟩ := he
      rw [← Complex.ofReal_exp, ← Complex.ofReal_exp] at h2
      have h3 : Real.exp y = Real.exp x * (-1 / 2) := by exact_mod_cast h2
      nlinarith [Real.exp_pos x, Real.exp_pos y]

/-- Case: after the first evaluation, setting all parameters and an update that fails, the coefficients are real. -/
example : ∀ l, (evalObj (myNetInit (n := 2) (m := 3) fun _ _ => 1) (myNetEval 3 2 [![0, 1], ![1, 1], ![0, 0]])
      (objRun (myNetInit (n := 2) (m := 3) fun _ _ => 1) [.eval, .set (.vec .f64 [1, 2, 3, 4, 5, 6, 7, 8, 9]), .update .f32 [1]])).1
        = .ok l → l.length = 3 ∧ ∀ c ∈ l, ∃ x : ℝ, 0 ≤ x ∧ c = some (x : ℂ) :=
  fun l h => c143_history _ 2 (by norm_num) _ (by simp [ObjOp.IsVector]) _ l h

/-- Case: the first evaluation, five configurations in batches of two. -/
example : (evalObj (myNetInit (n := 2) (m := 3) fun i _ => i) (myNetEval 3 2 [![0, 1], ![1, 1], ![0, 0], ![1, 0], ![1, 1]]) .fresh).1 =
    .ok ([![0, 1], ![1, 1], ![0, 0], ![1, 0], ![1, 1]].map fun s => some (realRbm (m := 3) (fun i _ => i) (some fun _ => 0) s : ℂ)) :=
  c143_first _ 2 (by norm_num) _

end JVMC
