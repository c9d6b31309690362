import Verif.Spec.MeasureAll

/-!
# Lemmas on `measure`
-/

namespace JVMC

open Spec

variable {S Term Op Arg Pre σ V : Type} [DecidableEq Op]

/-- Kernel and argument function of a compiled operator belong to its terms. -/
def LiveOp (st : OpState Term) : Prop :=
  st.compiled = true → st.argf = some st.ops ∧
    ∃ m : ℕ, st.kern = some (st.ops, m) ∧ st.compiledArgnum = m

theorem liveOp_add (st : OpState Term) (t : Term) : LiveOp (st.add t) := by
  intro h; simp [OpState.add] at h

theorem liveOp_new : LiveOp (OpState.new : OpState Term) := by intro h; cases h

theorem liveOp_eval (st : OpState Term) (hl : LiveOp st) (argOk : List Term → Bool) (n : ℕ)
    (ha : argOk st.ops = true) :
    (st.eval argOk n).1 = .ok (st.ops, n, st.ops) ∧ LiveOp (st.eval argOk n).2 ∧
      (st.eval argOk n).2.ops = st.ops := by
  unfold OpState.eval
  split
  · exact ⟨rfl, fun _ => ⟨rfl, n, rfl, rfl⟩, rfl⟩
  · rename_i hc
    have hcomp : st.compiled = true := by
      cases hcs : st.compiled
      · simp [hcs] at hc
      · rfl
    obtain ⟨h1, m, h2, h3⟩ := hl hcomp
    have hm : m = n := by
      simp [hcomp, h3] at hc
      exact hc
    rw [h1, h2]
    dsimp only
    rw [if_pos ha, if_pos rfl, hm]
    exact ⟨rfl, fun _ => ⟨h1, m, h2, h3⟩, rfl⟩

theorem liveOp_eval_fails (st : OpState Term) (hl : LiveOp st) (argOk : List Term → Bool) (n : ℕ)
    (ha : argOk st.ops = false) : (st.eval argOk n).1 = .error .typeError := by
  unfold OpState.eval
  split
  · dsimp only
    rw [if_neg (by rw [ha]; simp)]
  · rename_i hc
    have hcomp : st.compiled = true := by
      cases hcs : st.compiled
      · simp [hcs] at hc
      · rfl
    obtain ⟨h1, m, h2, h3⟩ := hl hcomp
    rw [h1, h2]
    dsimp only
    rw [if_neg (by rw [ha]; simp)]

theorem opKernel_ok (C : OpClass S Term V Pre) (st : OpState Term) (hl : LiveOp st) (args : List V)
    (p : Pre) (hp : C.prep st.ops args = .ok p) :
    (opKernel C st args).1 = .ok (C.fn st.ops p) ∧ LiveOp (opKernel C st args).2 ∧
      (opKernel C st args).2.ops = st.ops := by
  obtain ⟨h1, h2, h3⟩ := liveOp_eval st hl (fun ts => succeeds (C.prep ts args)) args.length
    (by simp only [hp]; rfl)
  unfold opKernel
  dsimp only
  rw [h1]
  dsimp only
  rw [hp]
  exact ⟨rfl, h2, h3⟩

theorem opKernel_inv (C : OpClass S Term V Pre) (st : OpState Term) (hl : LiveOp st) (args : List V)
    (k : S → List (S × ℂ)) (hk : (opKernel C st args).1 = .ok k) :
    ∃ p, C.prep st.ops args = .ok p ∧ k = C.fn st.ops p ∧ LiveOp (opKernel C st args).2 ∧
      (opKernel C st args).2.ops = st.ops := by
  cases hp : C.prep st.ops args with
  | error e =>
    exfalso
    have := liveOp_eval_fails st hl (fun ts => succeeds (C.prep ts args)) args.length
      (by simp only [hp]; rfl)
    unfold opKernel at hk
    dsimp only at hk
    rw [this] at hk
    cases hk
  | ok p =>
    obtain ⟨h1, h2, h3⟩ := opKernel_ok C st hl args p hp
    rw [h1] at hk
    exact ⟨p, rfl, (Except.ok.inj hk).symm, h2, h3⟩

/-- A heap of operators with the given terms, all usable. -/
def LiveHeap (terms : Op → List Term) (h : Op → OpState Term) : Prop :=
  ∀ o, LiveOp (h o) ∧ (h o).ops = terms o

/-- What a request reports on given samples. -/
noncomputable def freshMeas (C : OpClass S Term (ObsVal Op Arg) Pre) (batch : Op → ℤ) (psi : Net S)
    (zeroCfg : S) (lastN : Option ℕ) (w : World (S × ℂ × ℝ)) (terms : Op → List Term)
    (q : Op × List (ObsVal Op Arg)) : Except PyErr (List MeasResult) := do
  let p ← C.prep (terms q.1) q.2
  measureOp (C.fn (terms q.1) p) psi zeroCfg (batch q.1) lastN w

theorem liveHeap_update {terms : Op → List Term} {h : Op → OpState Term} (hl : LiveHeap terms h)
    (o : Op) (st : OpState Term) (h1 : LiveOp st) (h2 : st.ops = (h o).ops) :
    LiveHeap terms (Function.update h o st) := by
  intro o'
  by_cases he : o' = o
  · subst he
    rw [Function.update_self]
    exact ⟨h1, h2.trans (hl o').2⟩
  · rw [Function.update_of_ne he]
    exact hl o'

/-- The requests of a list of entries and their results. -/
def OpsSpec (C : OpClass S Term (ObsVal Op Arg) Pre) (batch : Op → ℤ) (psi : Net S)
    (zeroCfg : S) (lastN : Option ℕ) (w : World (S × ℂ × ℝ)) (terms : Op → List Term)
    (vs : List (ObsVal Op Arg)) (rs : List (List MeasResult)) : Prop :=
  List.Forall₂ (fun v r => ∃ q, itemRequest v = .ok q ∧
    freshMeas C batch psi zeroCfg lastN w terms q = .ok r) vs rs

variable (C : OpClass S Term (ObsVal Op Arg) Pre) (batch : Op → ℤ) (psi : Net S)
    (zeroCfg : S) (lastN : Option ℕ) (w : World (S × ℂ × ℝ)) {terms : Op → List Term}

theorem measureOps_of_spec (vs : List (ObsVal Op Arg)) (rs : List (List MeasResult))
    (hs : OpsSpec C batch psi zeroCfg lastN w terms vs rs) :
    ∀ h, LiveHeap terms h → ∃ h', measureOps C batch psi zeroCfg lastN w h vs = (.ok rs, h') ∧
      LiveHeap terms h' := by
  induction hs with
  | nil => intro h hl; exact ⟨h, rfl, hl⟩
  | @cons v r vs rs hv _ ih =>
    intro h hl
    obtain ⟨⟨o, args⟩, hq, hf⟩ := hv
    unfold freshMeas at hf
    dsimp only at hf
    cases hp : C.prep (terms o) args with
    | error e => rw [hp] at hf; cases hf
    | ok p =>
      rw [hp] at hf
      have hf' : measureOp (C.fn (terms o) p) psi zeroCfg (batch o) lastN w = .ok r := hf
      have hp' : C.prep (h o).ops args = .ok p := by rw [(hl o).2]; exact hp
      obtain ⟨h1, h2, h3⟩ := opKernel_ok C (h o) (hl o).1 args p hp'
      obtain ⟨h', e1, e2⟩ := ih _ (liveHeap_update hl o _ h2 h3)
      refine ⟨h', ?_, e2⟩
      unfold measureOps
      rw [hq]
      dsimp only
      rw [h1]
      dsimp only
      rw [(hl o).2, hf']
      dsimp only
      rw [e1]

theorem measureOps_spec (vs : List (ObsVal Op Arg)) :
    ∀ h rs h', LiveHeap terms h → measureOps C batch psi zeroCfg lastN w h vs = (.ok rs, h') →
      OpsSpec C batch psi zeroCfg lastN w terms vs rs ∧ LiveHeap terms h' := by
  induction vs with
  | nil =>
    intro h rs h' hl he
    unfold measureOps at he
    obtain ⟨e1, rfl⟩ := Prod.ext_iff.1 he
    obtain rfl := Except.ok.inj e1
    exact ⟨.nil, hl⟩
  | cons v vs ih =>
    intro h rs h' hl he
    unfold measureOps at he
    cases hq : itemRequest v with
    | error e => rw [hq] at he; cases he
    | ok q =>
      obtain ⟨o, args⟩ := q
      rw [hq] at he
      dsimp only at he
      cases hk : (opKernel C (h o) args).1 with
      | error e => rw [hk] at he; cases he
      | ok k =>
        rw [hk] at he
        dsimp only at he
        obtain ⟨p, hp, rfl, h2, h3⟩ := opKernel_inv C (h o) (hl o).1 args k hk
        cases hm : measureOp (C.fn (h o).ops p) psi zeroCfg (batch o) lastN w with
        | error e => rw [hm] at he; cases he
        | ok r =>
          rw [hm] at he
          dsimp only at he
          have hl' := liveHeap_update hl o _ h2 h3
          rcases hrest : measureOps C batch psi zeroCfg lastN w
            (Function.update h o (opKernel C (h o) args).2) vs with ⟨x, h''⟩
          rw [hrest] at he
          cases x with
          | error e => cases he
          | ok rs' =>
            dsimp only at he
            obtain ⟨e1, rfl⟩ := Prod.ext_iff.1 he
            obtain rfl := Except.ok.inj e1
            obtain ⟨i1, i2⟩ := ih _ _ _ hl' hrest
            refine ⟨.cons ⟨(o, args), hq, ?_⟩ i1, i2⟩
            unfold freshMeas
            dsimp only
            rw [← (hl o).2, hp]
            exact hm

theorem dictSet_new {A : Type} (d : List (String × A)) (name : String) (x : A)
    (h : name ∉ d.map Prod.fst) : dictSet d name x = d ++ [(name, x)] := by
  unfold dictSet
  rw [if_neg]
  intro hh
  obtain ⟨e, he, hn⟩ := List.any_eq_true.1 hh
  exact h (List.mem_map.2 ⟨e, he, by simpa using hn⟩)

theorem measureDict_of_spec (obs : List (String × ObsVal Op Arg))
    (res : List (String × List (List MeasResult)))
    (hs : List.Forall₂ (fun e r => e.1 = r.1 ∧
      OpsSpec C batch psi zeroCfg lastN w terms (getIterable e.2) r.2) obs res) :
    ∀ h acc, LiveHeap terms h → (obs.map Prod.fst).Nodup →
      (∀ n ∈ obs.map Prod.fst, n ∉ acc.map Prod.fst) →
      ∃ h', measureDict C batch psi zeroCfg lastN w h obs acc = (.ok (acc ++ res), h') ∧
        LiveHeap terms h' := by
  induction hs with
  | nil => intro h acc hl _ _; exact ⟨h, by simp [measureDict], hl⟩
  | @cons e r obs res hv _ ih =>
    intro h acc hl hnd hacc
    obtain ⟨name, ops⟩ := e
    obtain ⟨h', e1, e2⟩ := measureOps_of_spec C batch psi zeroCfg lastN w _ _ hv.2 h hl
    rw [List.map_cons, List.nodup_cons] at hnd
    have hnew : name ∉ acc.map Prod.fst := hacc name (by simp)
    obtain ⟨h'', f1, f2⟩ := ih h' (acc ++ [(name, r.2)]) e2 hnd.2 (by
      intro n hn
      rw [List.map_append, List.mem_append]
      rintro (hh | hh)
      · exact hacc n (by simp only [List.map_cons, List.mem_cons]; exact Or.inr hn) hh
      · simp only [List.map_cons, List.map_nil, List.mem_singleton] at hh
        exact hnd.1 (hh ▸ hn))
    refine ⟨h'', ?_, f2⟩
    unfold measureDict
    rw [e1]
    dsimp only
    rw [dictSet_new _ _ _ hnew, f1, List.append_assoc]
    have : name = r.1 := hv.1
    subst this
    rfl

theorem measureDict_spec (obs : List (String × ObsVal Op Arg)) :
    ∀ h acc out h', LiveHeap terms h → (obs.map Prod.fst).Nodup →
      (∀ n ∈ obs.map Prod.fst, n ∉ acc.map Prod.fst) →
      measureDict C batch psi zeroCfg lastN w h obs acc = (.ok out, h') →
      ∃ res, out = acc ++ res ∧ List.Forall₂ (fun e r => e.1 = r.1 ∧
        OpsSpec C batch psi zeroCfg lastN w terms (getIterable e.2) r.2) obs res ∧
        LiveHeap terms h' := by
  induction obs with
  | nil =>
    intro h acc out h' hl _ _ he
    unfold measureDict at he
    obtain ⟨e1, rfl⟩ := Prod.ext_iff.1 he
    obtain rfl := Except.ok.inj e1
    exact ⟨[], by simp, .nil, hl⟩
  | cons e obs ih =>
    intro h acc out h' hl hnd hacc he
    obtain ⟨name, ops⟩ := e
    rw [List.map_cons, List.nodup_cons] at hnd
    have hnew : name ∉ acc.map Prod.fst := hacc name (by simp)
    unfold measureDict at he
    rcases hm : measureOps C batch psi zeroCfg lastN w h (getIterable ops) with ⟨x, h₁⟩
    rw [hm] at he
    cases x with
    | error e => cases he
    | ok rs =>
      dsimp only at he
      obtain ⟨i1, i2⟩ := measureOps_spec C batch psi zeroCfg lastN w _ _ _ _ hl hm
      rw [dictSet_new _ _ _ hnew] at he
      obtain ⟨res, f1, f2, f3⟩ := ih h₁ _ out h' i2 hnd.2 (by
        intro n hn
        rw [List.map_append, List.mem_append]
        rintro (hh | hh)
        · exact hacc n (by simp only [List.map_cons, List.mem_cons]; exact Or.inr hn) hh
        · simp only [List.map_cons, List.map_nil, List.mem_singleton] at hh
          exact hnd.1 (hh ▸ hn)) he
      exact ⟨(name, rs) :: res, by rw [f1, List.append_assoc]; rfl, .cons ⟨rfl, i1⟩ f2, f3⟩

omit [DecidableEq Op] in
theorem builtFrom_spec (ts : List Term) : LiveOp (builtFrom ts) ∧ (builtFrom ts).ops = ts := by
  have : ∀ (ts : List Term) (st : OpState Term), LiveOp st →
      LiveOp (ts.foldl OpState.add st) ∧ (ts.foldl OpState.add st).ops = st.ops ++ ts := by
    intro ts
    induction ts with
    | nil => intro st h; exact ⟨h, by simp⟩
    | cons t ts ih =>
      intro st _
      obtain ⟨h1, h2⟩ := ih (st.add t) (liveOp_add st t)
      exact ⟨h1, by rw [List.foldl_cons, h2]; simp [OpState.add]⟩
  obtain ⟨h1, h2⟩ := this ts OpState.new liveOp_new
  exact ⟨h1, by unfold builtFrom; rw [h2]; rfl⟩

end JVMC
