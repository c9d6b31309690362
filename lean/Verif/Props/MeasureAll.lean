import Verif.Lemmas.MeasureAll
import Verif.Props.Variational

/-!
# C100 — all observables of a dictionary are measured on the same sample, independently of each other
-/

namespace JVMC

open Spec

variable {S Term Op Arg Pre σ : Type} [DecidableEq Op]

/-! ## States that scripts reach -/

section
variable (C : OpClass S Term (ObsVal Op Arg) Pre) (batch : Op → ℤ) (zeroCfg : S) (smp : SamplerObj S σ)

/-- Names are the keys of a Python dictionary. -/
def NamesOk (acts : List (MeasAct S Term Op Arg)) : Prop :=
  ∀ a ∈ acts, ∀ psi n obs, a = .measure psi n obs → (obs.map Prod.fst).Nodup

theorem measureAll_inv {terms : Op → List Term} {h : Op → OpState Term} (hl : LiveHeap terms h)
    (st : σ) (psi : Net S) (n : Option ℕ) (obs : List (String × ObsVal Op Arg))
    (hnd : (obs.map Prod.fst).Nodup) (res : List (String × List (List MeasResult)))
    (hr : (measureAll C batch zeroCfg smp h st psi n obs).1 = .ok res) :
    ∃ w st', smp.sample st psi n = .ok (w, st') ∧
      (measureAll C batch zeroCfg smp h st psi n obs).2.2 = st' ∧
      LiveHeap terms (measureAll C batch zeroCfg smp h st psi n obs).2.1 ∧
      List.Forall₂ (fun e r => e.1 = r.1 ∧
        OpsSpec C batch psi zeroCfg (smp.lastN st') w terms (getIterable e.2) r.2) obs res := by
  unfold measureAll at hr ⊢
  cases hs : smp.sample st psi n with
  | error e => rw [hs] at hr; cases hr
  | ok p =>
    obtain ⟨w, st'⟩ := p
    rw [hs] at hr
    dsimp only at hr ⊢
    rcases hd : measureDict C batch psi zeroCfg (smp.lastN st') w h obs [] with ⟨x, h'⟩
    rw [hd] at hr
    dsimp only at hr
    subst hr
    obtain ⟨res', e1, e2, e3⟩ := measureDict_spec C batch psi zeroCfg (smp.lastN st') w obs h [] _ h'
      hl hnd (by simp) hd
    rw [List.nil_append] at e1
    subst e1
    exact ⟨w, st', rfl, rfl, e3, e2⟩

theorem measureAll_of_spec {terms : Op → List Term} {h : Op → OpState Term} (hl : LiveHeap terms h)
    (st st' : σ) (psi : Net S) (n : Option ℕ) (obs : List (String × ObsVal Op Arg))
    (hnd : (obs.map Prod.fst).Nodup) (res : List (String × List (List MeasResult)))
    (w : World (S × ℂ × ℝ)) (hs : smp.sample st psi n = .ok (w, st'))
    (hspec : List.Forall₂ (fun e r => e.1 = r.1 ∧
        OpsSpec C batch psi zeroCfg (smp.lastN st') w terms (getIterable e.2) r.2) obs res) :
    (measureAll C batch zeroCfg smp h st psi n obs).1 = .ok res ∧
      (measureAll C batch zeroCfg smp h st psi n obs).2.2 = st' := by
  unfold measureAll
  rw [hs]
  dsimp only
  obtain ⟨h', e1, _⟩ := measureDict_of_spec C batch psi zeroCfg (smp.lastN st') w obs res hspec h [] hl
    hnd (by simp)
  rw [e1]
  exact ⟨rfl, rfl⟩

theorem measScript_live (acts : List (MeasAct S Term Op Arg)) :
    ∀ (terms : Op → List Term) (h : Op → OpState Term) (st : σ), LiveHeap terms h → NamesOk acts →
      (∀ r ∈ (measScript C batch zeroCfg smp h st acts).1, ∃ x, r = .ok x) →
      LiveHeap (fun o => terms o ++ addedTo o acts) (measScript C batch zeroCfg smp h st acts).2.1 := by
  induction acts with
  | nil => intro terms h st hl _ _ o; simpa [addedTo, measScript] using hl o
  | cons a acts ih =>
    intro terms h st hl hn hok
    have hn' : NamesOk acts := fun a ha => hn a (List.mem_cons_of_mem _ ha)
    cases a with
    | add o t =>
      have hl' : LiveHeap (Function.update terms o (terms o ++ [t]))
          (Function.update h o ((h o).add t)) := by
        intro o'
        by_cases he : o' = o
        · subst he
          rw [Function.update_self, Function.update_self]
          exact ⟨liveOp_add _ _, by unfold OpState.add; rw [(hl o').2]⟩
        · rw [Function.update_of_ne he, Function.update_of_ne he]
          exact hl o'
      intro o'
      obtain ⟨e1, e2⟩ := ih _ _ st hl' hn' hok o'
      refine ⟨e1, e2.trans ?_⟩
      change Function.update terms o (terms o ++ [t]) o' ++ addedTo o' acts
        = terms o' ++ (if o = o' then t :: addedTo o' acts else addedTo o' acts)
      by_cases he : o = o'
      · subst he
        simp
      · rw [if_neg he, Function.update_of_ne (Ne.symm he)]
    | measure psi n obs =>
      unfold measScript at hok ⊢
      dsimp only at hok ⊢
      obtain ⟨x, hx⟩ := hok _ List.mem_cons_self
      obtain ⟨w, st', _, _, hl', _⟩ := measureAll_inv C batch zeroCfg smp hl st psi n obs
        (hn _ List.mem_cons_self psi n obs rfl) x hx
      exact ih terms _ _ hl' hn' (fun r hr => hok r (List.mem_cons_of_mem _ hr))

omit [DecidableEq Op] in
theorem liveHeap_built (terms : Op → List Term) : LiveHeap terms fun o => builtFrom (terms o) :=
  fun o => builtFrom_spec (terms o)

theorem reached_live (acts : List (MeasAct S Term Op Arg)) (st : σ) (hn : NamesOk acts)
    (hok : ∀ r ∈ (measScript C batch zeroCfg smp (fun _ => OpState.new) st acts).1, ∃ x, r = .ok x) :
    LiveHeap (fun o => addedTo o acts)
      (measScript C batch zeroCfg smp (fun _ => OpState.new) st acts).2.1 := by
  have := measScript_live C batch zeroCfg smp acts (fun _ => []) (fun _ => OpState.new) st
    (fun _ => ⟨liveOp_new, rfl⟩) hn hok
  simpa using this

/-! ## Together or alone -/

/-- C100: after any script (terms added to operators and measurements, none of which raised), a
measurement draws one sample, its result has the names of the dictionary in their order, and for every
name the numbers that measuring this entry alone reports, with newly built operators, on the sample
drawn in the same state; in particular the numbers reported for the `k`-th operator of an entry are
those reported for this operator alone. -/
theorem c100_alone (acts : List (MeasAct S Term Op Arg)) (st₀ : σ) (hn : NamesOk acts)
    (hok : ∀ r ∈ (measScript C batch zeroCfg smp (fun _ => OpState.new) st₀ acts).1, ∃ x, r = .ok x)
    (h : Op → OpState Term) (st : σ)
    (hreach : (measScript C batch zeroCfg smp (fun _ => OpState.new) st₀ acts).2 = (h, st))
    (psi : Net S) (n : Option ℕ) (obs : List (String × ObsVal Op Arg)) (hnd : (obs.map Prod.fst).Nodup)
    (res : List (String × List (List MeasResult)))
    (hres : (measureAll C batch zeroCfg smp h st psi n obs).1 = .ok res) :
    res.map Prod.fst = obs.map Prod.fst ∧
    (∃ w, smp.sample st psi n
      = .ok (w, (measureAll C batch zeroCfg smp h st psi n obs).2.2)) ∧
    ∀ name ops, (name, ops) ∈ obs → ∃ vals, (name, vals) ∈ res ∧
      (measureAll C batch zeroCfg smp (fun o => builtFrom (addedTo o acts)) st psi n
        [(name, ops)]).1 = .ok [(name, vals)] ∧
      vals.length = (getIterable ops).length ∧
      ∀ k (hk : k < (getIterable ops).length) (hk' : k < vals.length),
        (measureAll C batch zeroCfg smp (fun o => builtFrom (addedTo o acts)) st psi n
          [(name, .seq [(getIterable ops)[k]])]).1 = .ok [(name, [vals[k]])] := by
  have hl : LiveHeap (fun o => addedTo o acts) h := by
    have := reached_live C batch zeroCfg smp acts st₀ hn hok
    rw [hreach] at this
    exact this
  obtain ⟨w, st', h1, h2, h3, h4⟩ := measureAll_inv C batch zeroCfg smp hl st psi n obs hnd res hres
  refine ⟨?_, ⟨w, by rw [h2]; exact h1⟩, ?_⟩
  · clear hres h2 h3 hnd
    induction h4 with
    | nil => rfl
    | cons hh _ ih => rw [List.map_cons, List.map_cons, ih, hh.1]
  · intro name ops hmem
    have : ∃ vals, (name, vals) ∈ res ∧
        OpsSpec C batch psi zeroCfg (smp.lastN st') w (fun o => addedTo o acts) (getIterable ops) vals := by
      clear hres h2 h3 hnd
      induction h4 with
      | nil => cases hmem
      | @cons e r obs res hh _ ih =>
        rcases List.mem_cons.1 hmem with rfl | hm
        · refine ⟨r.2, ?_, hh.2⟩
          have : name = r.1 := hh.1
          subst this
          exact List.mem_cons_self
        · obtain ⟨vals, hv, hs⟩ := ih hm
          exact ⟨vals, List.mem_cons_of_mem _ hv, hs⟩
    obtain ⟨vals, hv, hs⟩ := this
    have hb := liveHeap_built (fun o => addedTo o acts)
    refine ⟨vals, hv, ?_, hs.length_eq.symm, ?_⟩
    · exact (measureAll_of_spec C batch zeroCfg smp hb st st' psi n [(name, ops)] (by simp)
        [(name, vals)] w h1 (.cons ⟨rfl, hs⟩ .nil)).1
    · intro k hk hk'
      refine (measureAll_of_spec C batch zeroCfg smp hb st st' psi n _ (by simp) _ w h1
        (.cons ⟨rfl, ?_⟩ .nil)).1
      exact .cons ((List.forall₂_iff_get.1 hs).2 k hk hk') .nil

end

/-! ## What is reported -/

omit [DecidableEq Op] in
theorem asks_request {v : ObsVal Op Arg} {q : Op × List (ObsVal Op Arg)} (h : Asks v q) :
    itemRequest v = .ok q := by
  cases h <;> rfl

omit [DecidableEq Op] in
theorem asksAll_requests {v : ObsVal Op Arg} {reqs : List (Op × List (ObsVal Op Arg))}
    (h : AsksAll v reqs) : List.Forall₂ Asks (getIterable v) reqs := by
  cases h with
  | single o => exact .cons (.plain o) .nil
  | list h => exact h

section
variable {C : Type} [Fintype C] [DecidableEq C]
variable (K : OpClass C Term (ObsVal Op Arg) Pre) (batch : Op → ℤ) (zeroCfg : C) (smp : SamplerObj C σ)

/-- The estimate from the samples, for every operator. -/
theorem measureOp_estimate {kernel : C → List (C × ℂ)} {O : Matrix C C ℂ} (hk : OperatorOf kernel O)
    (psi : Net C) (hlog : psi.logarithmic = true) (b : ℤ) (n : Option ℕ) (w : World (C × ℂ × ℝ))
    (hw : SamplesOf psi.val w) :
    ∃ res, measureOp kernel psi zeroCfg b n w = .ok res ∧ res.length = List.length w ∧
      ∀ r ∈ res, r.mean = (estimate (weighted w) O fun c => Complex.exp (psi.val c)).re := by
  unfold measureOp
  rw [oLocWorld_eq hk psi hlog zeroCfg b w hw]
  change ∃ res, measureOne n _ = _ ∧ _
  obtain ⟨res, h1, h2, h3⟩ := measureOne_mean n (World.map (fun x =>
      (x.2.2, fun _ => localValue O (fun c => Complex.exp (psi.val c)) x.1)) w)
      (World.map_ne _ _ hw.devices)
  refine ⟨res, h1, by rw [h2]; simp [World.map], fun r hr => ?_⟩
  rw [h3 r hr]
  congr 1
  rw [wMean_apply, allSamples_wmap]
  unfold estimate weighted
  rw [List.map_map, List.map_map]
  rfl

/-- What is reported for operators that are usable. -/
theorem live_reported (terms : Op → List Term) (h : Op → OpState Term) (hl : LiveHeap terms h) (st : σ)
    (psi : Net C) (hlog : psi.logarithmic = true) (n : Option ℕ) (w : World (C × ℂ × ℝ)) (st' : σ)
    (hs : smp.sample st psi n = .ok (w, st')) (hw : SamplesOf psi.val w)
    (obs : List (String × ObsVal Op Arg)) (hnd : (obs.map Prod.fst).Nodup)
    (reqs : List (String × List (Op × List (ObsVal Op Arg))))
    (hreq : List.Forall₂ (fun e q => e.1 = q.1 ∧ AsksAll e.2 q.2) obs reqs)
    (O : Op → List (ObsVal Op Arg) → Matrix C C ℂ)
    (hO : ∀ e ∈ reqs, ∀ q ∈ e.2, ∃ p, K.prep (terms q.1) q.2 = .ok p ∧
      OperatorOf (K.fn (terms q.1) p) (O q.1 q.2)) :
    ∃ res, (measureAll K batch zeroCfg smp h st psi n obs).1 = .ok res ∧
      (measureAll K batch zeroCfg smp h st psi n obs).2.2 = st' ∧
      List.Forall₂ (fun (q : String × List (Op × List (ObsVal Op Arg))) r => q.1 = r.1 ∧
        List.Forall₂ (fun q v => List.length v = List.length w ∧ ∀ x ∈ v, MeasResult.mean x
          = (estimate (weighted w) (O q.1 q.2) fun c => Complex.exp (psi.val c)).re) q.2 r.2)
        reqs res := by
  -- one request
  have one : ∀ q : Op × List (ObsVal Op Arg), (∃ p, K.prep (terms q.1) q.2 = .ok p ∧
      OperatorOf (K.fn (terms q.1) p) (O q.1 q.2)) → ∃ v,
      freshMeas K batch psi zeroCfg (smp.lastN st') w terms q = .ok v ∧
      List.length v = List.length w ∧ ∀ x ∈ v, MeasResult.mean x
          = (estimate (weighted w) (O q.1 q.2) fun c => Complex.exp (psi.val c)).re := by
    rintro q ⟨p, hp, hop⟩
    obtain ⟨v, e1, e2, e3⟩ := measureOp_estimate zeroCfg hop psi hlog (batch q.1) (smp.lastN st') w hw
    refine ⟨v, ?_, e2, e3⟩
    unfold freshMeas
    rw [hp]
    exact e1
  -- one entry
  have entry : ∀ (vs : List (ObsVal Op Arg)) (qs : List (Op × List (ObsVal Op Arg))),
      List.Forall₂ Asks vs qs → (∀ q ∈ qs, ∃ p, K.prep (terms q.1) q.2 = .ok p ∧
        OperatorOf (K.fn (terms q.1) p) (O q.1 q.2)) → ∃ rs : List (List MeasResult),
      OpsSpec K batch psi zeroCfg (smp.lastN st') w terms vs rs ∧
      List.Forall₂ (fun q v => List.length v = List.length w ∧ ∀ x ∈ v, MeasResult.mean x
          = (estimate (weighted w) (O q.1 q.2) fun c => Complex.exp (psi.val c)).re) qs rs := by
    intro vs qs hf
    induction hf with
    | nil => intro _; exact ⟨[], .nil, .nil⟩
    | @cons v q vs qs hv _ ih =>
      intro hq
      obtain ⟨r, r1, r2⟩ := one q (hq q List.mem_cons_self)
      obtain ⟨rs, i1, i2⟩ := ih fun q' hq' => hq q' (List.mem_cons_of_mem _ hq')
      exact ⟨r :: rs, .cons ⟨q, asks_request hv, r1⟩ i1, .cons r2 i2⟩
  have all : ∃ res : List (String × List (List MeasResult)), List.Forall₂ (fun e r => e.1 = r.1 ∧
        OpsSpec K batch psi zeroCfg (smp.lastN st') w terms (getIterable e.2) r.2)
        obs res ∧
      List.Forall₂ (fun (q : String × List (Op × List (ObsVal Op Arg))) r => q.1 = r.1 ∧
        List.Forall₂ (fun q v => List.length v = List.length w ∧ ∀ x ∈ v, MeasResult.mean x
          = (estimate (weighted w) (O q.1 q.2) fun c => Complex.exp (psi.val c)).re) q.2 r.2)
        reqs res := by
    clear hnd
    induction hreq with
    | nil => exact ⟨[], .nil, .nil⟩
    | @cons e q obs reqs he _ ih =>
      obtain ⟨rs, i1, i2⟩ := entry _ _ (asksAll_requests he.2) (hO q List.mem_cons_self)
      obtain ⟨res, j1, j2⟩ := ih fun e' he' => hO e' (List.mem_cons_of_mem _ he')
      exact ⟨(e.1, rs) :: res, .cons ⟨rfl, i1⟩ j1, .cons ⟨he.1.symm, i2⟩ j2⟩
  obtain ⟨res, h1, h2⟩ := all
  obtain ⟨e1, e2⟩ := measureAll_of_spec K batch zeroCfg smp hl st st' psi n obs hnd res w hs h1
  exact ⟨res, e1, e2, h2⟩

/-- C100: after any script in which no measurement raised, measuring a dictionary of the documented form
succeeds, if the arguments can be evaluated and the sampler returns samples: for every name there is one
number per requested operator and rank, in order, and its mean is the estimate of the expectation value
of this operator, with its arguments, from the one sample that is drawn. -/
theorem c100_reported (acts : List (MeasAct C Term Op Arg)) (st₀ : σ) (hn : NamesOk acts)
    (hok : ∀ r ∈ (measScript K batch zeroCfg smp (fun _ => OpState.new) st₀ acts).1, ∃ x, r = .ok x)
    (h : Op → OpState Term) (st : σ)
    (hreach : (measScript K batch zeroCfg smp (fun _ => OpState.new) st₀ acts).2 = (h, st))
    (psi : Net C) (hlog : psi.logarithmic = true) (n : Option ℕ) (w : World (C × ℂ × ℝ)) (st' : σ)
    (hs : smp.sample st psi n = .ok (w, st')) (hw : SamplesOf psi.val w)
    (obs : List (String × ObsVal Op Arg)) (hnd : (obs.map Prod.fst).Nodup)
    (reqs : List (String × List (Op × List (ObsVal Op Arg))))
    (hreq : List.Forall₂ (fun e q => e.1 = q.1 ∧ AsksAll e.2 q.2) obs reqs)
    (O : Op → List (ObsVal Op Arg) → Matrix C C ℂ)
    (hO : ∀ e ∈ reqs, ∀ q ∈ e.2, ∃ p, K.prep (addedTo q.1 acts) q.2 = .ok p ∧
      OperatorOf (K.fn (addedTo q.1 acts) p) (O q.1 q.2)) :
    ∃ res, (measureAll K batch zeroCfg smp h st psi n obs).1 = .ok res ∧
      (measureAll K batch zeroCfg smp h st psi n obs).2.2 = st' ∧
      List.Forall₂ (fun (q : String × List (Op × List (ObsVal Op Arg))) r => q.1 = r.1 ∧
        List.Forall₂ (fun q v => List.length v = List.length w ∧ ∀ x ∈ v, MeasResult.mean x
          = (estimate (weighted w) (O q.1 q.2) fun c => Complex.exp (psi.val c)).re) q.2 r.2)
        reqs res := by
  have hl : LiveHeap (fun o => addedTo o acts) h := by
    have := reached_live K batch zeroCfg smp acts st₀ hn hok
    rw [hreach] at this
    exact this
  exact live_reported K batch zeroCfg smp _ h hl st psi hlog n w st' hs hw obs hnd reqs hreq O hO

end

/-! ## Identities between observables -/

section
variable {C : Type} [Fintype C] [DecidableEq C]

omit [DecidableEq C] in
theorem estimate_linear (l : List (ℝ × C)) (a b : ℂ) (A B : Matrix C C ℂ) (ψ : C → ℂ) :
    estimate l (a • A + b • B) ψ = a * estimate l A ψ + b * estimate l B ψ := by
  unfold estimate
  induction l with
  | nil => simp
  | cons x l ih =>
    rw [List.map_cons, List.sum_cons, ih]
    simp only [List.map_cons, List.sum_cons, Matrix.add_mulVec, Matrix.smul_mulVec, Pi.add_apply,
      Pi.smul_apply, smul_eq_mul]
    ring

variable (K : OpClass C Term (ObsVal Op Arg) Pre) (batch : Op → ℤ) (zeroCfg : C) (smp : SamplerObj C σ)

omit [DecidableEq Op] [Fintype C] [DecidableEq C] in
theorem forall₂_names {A B : Type} {R : A → B → Prop} {l₁ : List (String × A)} {l₂ : List (String × B)}
    (h : List.Forall₂ (fun e r => e.1 = r.1 ∧ R e.2 r.2) l₁ l₂) :
    l₂.map Prod.fst = l₁.map Prod.fst := by
  induction h with
  | nil => rfl
  | cons hh _ ih => rw [List.map_cons, List.map_cons, ih, hh.1]

omit [DecidableEq Op] [Fintype C] [DecidableEq C] in
theorem forall₂_lookup {A B : Type} {R : A → B → Prop} {l₁ : List (String × A)} {l₂ : List (String × B)}
    (h : List.Forall₂ (fun e r => e.1 = r.1 ∧ R e.2 r.2) l₁ l₂) (hnd : (l₁.map Prod.fst).Nodup)
    (name : String) (a : A) (b : B) (ha : (name, a) ∈ l₁) (hb : (name, b) ∈ l₂) : R a b := by
  induction h with
  | nil => cases ha
  | @cons e r l₁ l₂ hh ht ih =>
    rw [List.map_cons, List.nodup_cons] at hnd
    rcases List.mem_cons.1 ha with rfl | ha'
    · rcases List.mem_cons.1 hb with rfl | hb'
      · exact hh.2
      · exact absurd (forall₂_names ht ▸ List.mem_map.2 ⟨_, hb', rfl⟩) hnd.1
    · rcases List.mem_cons.1 hb with rfl | hb'
      · have hfst : e.1 = name := hh.1
        exact absurd (hfst ▸ List.mem_map.2 ⟨_, ha', rfl⟩) hnd.1
      · exact ih hnd.2 ha' hb'

/-- C100: linear relations between operators hold exactly between the reported means, whatever sample
was drawn: if `O₃ = a O₁ + b O₂` with real `a`, `b`, then `mean₃ = a mean₁ + b mean₂`. The operators
can be listed under any names and at any positions. -/
theorem c100_linear (acts : List (MeasAct C Term Op Arg)) (st₀ : σ) (hn : NamesOk acts)
    (hok : ∀ r ∈ (measScript K batch zeroCfg smp (fun _ => OpState.new) st₀ acts).1, ∃ x, r = .ok x)
    (h : Op → OpState Term) (st : σ)
    (hreach : (measScript K batch zeroCfg smp (fun _ => OpState.new) st₀ acts).2 = (h, st))
    (psi : Net C) (hlog : psi.logarithmic = true) (n : Option ℕ) (w : World (C × ℂ × ℝ)) (st' : σ)
    (hs : smp.sample st psi n = .ok (w, st')) (hw : SamplesOf psi.val w)
    (obs : List (String × ObsVal Op Arg)) (hnd : (obs.map Prod.fst).Nodup)
    (reqs : List (String × List (Op × List (ObsVal Op Arg))))
    (hreq : List.Forall₂ (fun e q => e.1 = q.1 ∧ AsksAll e.2 q.2) obs reqs)
    (O : Op → List (ObsVal Op Arg) → Matrix C C ℂ)
    (hO : ∀ e ∈ reqs, ∀ q ∈ e.2, ∃ p, K.prep (addedTo q.1 acts) q.2 = .ok p ∧
      OperatorOf (K.fn (addedTo q.1 acts) p) (O q.1 q.2))
    (name : Fin 3 → String) (qs : Fin 3 → List (Op × List (ObsVal Op Arg)))
    (hq : ∀ i, (name i, qs i) ∈ reqs) (pos : Fin 3 → ℕ) (hpos : ∀ i, pos i < (qs i).length)
    (a b : ℝ)
    (hrel : O ((qs 2)[pos 2]'(hpos 2)).1 ((qs 2)[pos 2]'(hpos 2)).2
      = (a : ℂ) • O ((qs 0)[pos 0]'(hpos 0)).1 ((qs 0)[pos 0]'(hpos 0)).2
        + (b : ℂ) • O ((qs 1)[pos 1]'(hpos 1)).1 ((qs 1)[pos 1]'(hpos 1)).2) :
    ∃ res, (measureAll K batch zeroCfg smp h st psi n obs).1 = .ok res ∧
      ∀ (vals : Fin 3 → List (List MeasResult)) (v : Fin 3 → List MeasResult) (x : Fin 3 → MeasResult),
        (∀ i, (name i, vals i) ∈ res) → (∀ i, (vals i)[pos i]? = some (v i)) → (∀ i, x i ∈ v i) →
        (x 2).mean = a * (x 0).mean + b * (x 1).mean := by
  obtain ⟨res, h1, _, h3⟩ := c100_reported K batch zeroCfg smp acts st₀ hn hok h st hreach psi hlog n w
    st' hs hw obs hnd reqs hreq O hO
  refine ⟨res, h1, fun vals v x hv hvi hx => ?_⟩
  have hnd' : (reqs.map Prod.fst).Nodup := by
    rw [forall₂_names hreq]
    exact hnd
  have key : ∀ i, (x i).mean = (estimate (weighted w)
      (O ((qs i)[pos i]'(hpos i)).1 ((qs i)[pos i]'(hpos i)).2) fun c => Complex.exp (psi.val c)).re := by
    intro i
    have hf := forall₂_lookup h3 hnd' (name i) (qs i) (vals i) (hq i) (hv i)
    have hlen := hf.length_eq
    obtain ⟨hlt, he⟩ := List.getElem?_eq_some_iff.1 (hvi i)
    have := ((List.forall₂_iff_get.1 hf).2 (pos i) (hpos i) hlt).2 (x i) (by
      rw [List.get_eq_getElem, he]
      exact hx i)
    simpa using this
  rw [key 2, key 1, key 0, hrel, estimate_linear]
  simp

end

/-! ## Branch-free operators -/

/-- The matrix of the strings `strs` with prefactors `vals`: every string contributes its prefactor
times the product of its local operators, the last one acting on the left (see C26). -/
noncomputable def stringsMatrix {N d : ℕ} {V : Type} [NeZero N] (strs : List (OpStr V N d))
    (vals : List ℂ) : Matrix (Config N d) (Config N d) ℂ :=
  sumOfProducts (vals.zip (strs.map fun x => (x.localOps.map opMatrix).reverse))

/-- C100 for branch-free operators, with prefactors that may depend on the arguments: the means are
estimates of the sums of operator strings that the script has added, evaluated with the arguments of the
request. Missing: 50 or more prefactors on several ranks (C32), matrix elements below `10⁻⁶` (C28). -/
theorem c100_branch_free_partial {N d : ℕ} [NeZero N] {σ Op Arg : Type} [DecidableEq Op]
    (commSize : ℕ) (batch : Op → ℤ) (zeroCfg : Config N d) (smp : SamplerObj (Config N d) σ)
    (acts : List (MeasAct (Config N d) (OpStr (ObsVal Op Arg) N d) Op Arg)) (st₀ : σ) (hn : NamesOk acts)
    (hok : ∀ r ∈ (measScript (branchFreeClass N d (ObsVal Op Arg) commSize) batch zeroCfg smp
      (fun _ => OpState.new) st₀ acts).1, ∃ x, r = .ok x)
    (h : Op → OpState (OpStr (ObsVal Op Arg) N d)) (st : σ)
    (hreach : (measScript (branchFreeClass N d (ObsVal Op Arg) commSize) batch zeroCfg smp
      (fun _ => OpState.new) st₀ acts).2 = (h, st))
    (psi : Net (Config N d)) (hlog : psi.logarithmic = true) (n : Option ℕ)
    (w : World (Config N d × ℂ × ℝ)) (st' : σ)
    (hs : smp.sample st psi n = .ok (w, st')) (hw : SamplesOf psi.val w)
    (obs : List (String × ObsVal Op Arg)) (hnd : (obs.map Prod.fst).Nodup)
    (reqs : List (String × List (Op × List (ObsVal Op Arg))))
    (hreq : List.Forall₂ (fun e q => e.1 = q.1 ∧ AsksAll e.2 q.2) obs reqs)
    (vals : Op → List (ObsVal Op Arg) → List ℂ)
    (hval : ∀ e ∈ reqs, ∀ q ∈ e.2,
      (addedTo q.1 acts).map (fun x => x.value q.2) = (vals q.1 q.2).map .ok)
    (hne : ∀ e ∈ reqs, ∀ q ∈ e.2, ∀ x ∈ addedTo q.1 acts, x ≠ [])
    (hrank : ∀ e ∈ reqs, ∀ q ∈ e.2, (addedTo q.1 acts).length < 50 ∨ commSize = 1)
    (hf : ∀ e ∈ reqs, ∀ q ∈ e.2, ∀ x ∈ addedTo q.1 acts, ∀ o ∈ x.localOps, o.fermionic = true → d = 2)
    (hd : ∀ e ∈ reqs, ∀ q ∈ e.2, ∀ x ∈ addedTo q.1 acts, ∀ o ∈ x.localOps, o.diag = true → o.map = id)
    (habove : ∀ e ∈ reqs, ∀ q ∈ e.2, ∀ s l,
      branchFreeElements (addedTo q.1 acts) q.2 commSize s = .ok l → AboveThreshold l) :
    ∃ res, (measureAll (branchFreeClass N d (ObsVal Op Arg) commSize) batch zeroCfg smp h st psi n
        obs).1 = .ok res ∧
      List.Forall₂ (fun (q : String × List (Op × List (ObsVal Op Arg))) r => q.1 = r.1 ∧
        List.Forall₂ (fun q v => List.length v = List.length w ∧ ∀ x ∈ v, MeasResult.mean x
          = (estimate (weighted w) (stringsMatrix (addedTo q.1 acts) (vals q.1 q.2))
              fun c => Complex.exp (psi.val c)).re) q.2 r.2) reqs res := by
  obtain ⟨res, h1, _, h3⟩ := c100_reported (branchFreeClass N d (ObsVal Op Arg) commSize) batch zeroCfg
    smp acts st₀ hn hok h st hreach psi hlog n w st' hs hw obs hnd reqs hreq
    (fun o args => stringsMatrix (addedTo o acts) (vals o args)) (by
      intro e he q hq
      obtain ⟨pre, p1, p2⟩ := prefactors_evaluated (addedTo q.1 acts) q.2 commSize (vals q.1 q.2)
        (hne e he q hq) (hval e he q hq) (hrank e he q hq)
      refine ⟨vals q.1 q.2, ?_, ?_⟩
      · change Except.bind (evalPrefactors q.2 0 (addedTo q.1 acts)) _ = _
        rw [p1]
        exact p2
      · have := operatorOf_branchFree ((addedTo q.1 acts).map OpStr.localOps) (vals q.1 q.2)
          (by have := congrArg List.length (hval e he q hq); simpa using this.symm)
          (by
            intro ops ho o
            obtain ⟨x, hx, rfl⟩ := List.mem_map.1 ho
            exact hf e he q hq x hx o)
          (by
            intro ops ho o
            obtain ⟨x, hx, rfl⟩ := List.mem_map.1 ho
            exact hd e he q hq x hx o)
          (by
            intro s
            refine habove e he q hq s _ ?_
            change Except.bind (evalPrefactors q.2 0 (addedTo q.1 acts)) _ = _
            rw [p1]
            change Except.bind (argFun pre _ commSize) _ = _
            rw [p2]
            rfl)
        rw [List.map_map] at this
        exact this)
  exact ⟨res, h1, h3⟩

/-! ## What is not of the documented form -/

/-- C100: arguments must be given inside a list: an operator and a number (or any other value that is
neither an operator nor a sequence) directly as value of the dictionary is read as two operators, and
`measure` never returns. -/
theorem c100_bare_arguments (C : OpClass S Term (ObsVal Op Arg) Pre) (batch : Op → ℤ) (zeroCfg : S)
    (smp : SamplerObj S σ) (h : Op → OpState Term) (st : σ) (psi : Net S) (n : Option ℕ)
    (name : String) (o : Op) (a : Arg) :
    ∃ e, (measureAll C batch zeroCfg smp h st psi n [(name, .seq [.op o, .obj a])]).1 = .error e := by
  cases hr : (measureAll C batch zeroCfg smp h st psi n [(name, .seq [.op o, .obj a])]).1 with
  | error e => exact ⟨e, rfl⟩
  | ok res =>
    exfalso
    unfold measureAll at hr
    cases hs : smp.sample st psi n with
    | error e => rw [hs] at hr; cases hr
    | ok p =>
      obtain ⟨w, st'⟩ := p
      rw [hs] at hr
      dsimp only at hr
      unfold measureDict measureOps at hr
      dsimp only [getIterable, itemRequest] at hr
      cases hk : (opKernel C (h o) []).1 with
      | error e => rw [hk] at hr; cases hr
      | ok k =>
        rw [hk] at hr
        dsimp only at hr
        cases hm : measureOp k psi zeroCfg (batch o) (smp.lastN st') w with
        | error e => rw [hm] at hr; cases hr
        | ok r =>
          rw [hm] at hr
          dsimp only at hr
          unfold measureOps at hr
          dsimp only [itemRequest] at hr
          cases hr

/-! ## Non-vacuity -/

/-- One spin; samples `0` and `1`. -/
noncomputable def maWorld : World (Config 1 2 × ℂ × ℝ) :=
  [[[(fun _ => 0, 0, 1 / 4), (fun _ => 1, 0, 3 / 4)]]]

/-- A sampler that always returns these samples and counts its calls. -/
noncomputable def maSampler : SamplerObj (Config 1 2) ℕ := ⟨fun k _ _ => .ok (maWorld, k + 1), fun _ => some 2⟩

/-- The values that can be passed to the operators: complex numbers. -/
abbrev MaVal := ObsVal Bool ℂ

/-- A prefactor: the first argument. -/
noncomputable def maFun : List MaVal → ℂ
  | .obj t :: _ => t
  | _ => 0

/-- `Sx`. -/
noncomputable def maX : OpStr MaVal 1 2 := [.op (opSx 0)]

/-- `t Sx`. -/
noncomputable def maTX : OpStr MaVal 1 2 := [.fn (.user maFun), .op (opSx 0)]

theorem ma_samples : SamplesOf (fun _ : Config 1 2 => (0 : ℂ)) maWorld := by
  refine ⟨by simp [maWorld], by simp [maWorld], ?_⟩
  intro x hx
  simp [maWorld, allSamples] at hx
  rcases hx with rfl | rfl <;> rfl

/-- The matrix of `c Sx`. -/
noncomputable def maMatrix (c : ℂ) : Matrix (Config 1 2) (Config 1 2) ℂ :=
  sumOfProducts (List.zip [c] ([[opSx (0 : Fin 1)]].map fun ops => (ops.map opMatrix).reverse))

theorem ma_operator (c : ℂ) (hc : (1e-6 : ℝ) < ‖c‖) :
    OperatorOf (branchFreeKernel [[opSx (0 : Fin 1)]] [c]) (maMatrix c) := by
  refine operatorOf_branchFree _ _ rfl (by simp [opSx]) (by simp [opSx]) fun s => ?_
  intro e he
  have h1 : ∀ x : Fin 2, (arr2 (1 : ℂ) 1) x = 1 := by
    intro x; fin_cases x <;> simp [arr2]
  have hm : diagIndices ([[opSx 0]] : List (List (LocalOp 1 2))) = [] := by
    simp [diagIndices, List.range_succ, opSx]
  have hl : maxOpStrLength ([[opSx 0]] : List (List (LocalOp 1 2))) = 1 := rfl
  have hc1 : compileStr 1 ([opSx 0] : List (LocalOp 1 2)) = [opSx 0] := rfl
  simp only [branchFreeKernel, kernelMasked, hm, mergeDiag, rawSPrimes, hl,
    List.zipWith_cons_cons, List.zipWith_nil_right, hc1] at he
  simp [applyFun, opSx, fermiFactor_bosonic, h1] at he
  subst he
  exact Or.inr hc

theorem maMatrix_smul (c : ℂ) : maMatrix c = c • maMatrix 1 := by
  simp [maMatrix, sumOfProducts]

/-- The script: operator `false` gets the term `Sx` and is measured, then operator `true` gets `t Sx`. -/
noncomputable def maActs : List (MeasAct (Config 1 2) (OpStr MaVal 1 2) Bool ℂ) :=
  [.add false maX, .measure ⟨fun _ => 0, true⟩ none [("x", .op false)], .add true maTX]

/-- `{"x": X, "h": [(H, 2), (H, 3)]}`. -/
noncomputable def maObs : List (String × MaVal) :=
  [("x", .op false), ("h", .seq [.seq [.op true, .obj 2], .seq [.op true, .obj 3]])]

/-- The operators that are asked for. -/
noncomputable def maReqs : List (String × List (Bool × List MaVal)) :=
  [("x", [(false, [])]), ("h", [(true, [.obj 2]), (true, [.obj 3])])]

/-- Their matrices. -/
noncomputable def maO : Bool → List MaVal → Matrix (Config 1 2) (Config 1 2) ℂ
  | true, args => maMatrix (maFun args)
  | false, _ => maMatrix 1

theorem ma_big (x : ℝ) (hx : 1 ≤ x) : (1e-6 : ℝ) < ‖(x : ℂ)‖ := by
  rw [Complex.norm_real, Real.norm_eq_abs, abs_of_nonneg (by linarith)]
  norm_num
  linarith

theorem ma_first : ∃ x, (measureAll (branchFreeClass 1 2 MaVal 1) (fun _ => -1) 0 maSampler
    (Function.update (fun _ => OpState.new) false (OpState.new.add maX)) 0 ⟨fun _ => 0, true⟩ none
    [("x", .op false)]).1 = .ok x := by
  obtain ⟨res, h, _⟩ := c100_reported (branchFreeClass 1 2 MaVal 1) (fun _ => -1) 0 maSampler
    [.add false maX] 0 (by intro a ha; simp at ha; subst ha; intro _ _ _ h; cases h) (by simp [measScript])
    _ _ rfl ⟨fun _ => 0, true⟩ rfl none maWorld 1 rfl ma_samples [("x", .op false)] (by simp)
    [("x", [(false, [])])] (.cons ⟨rfl, .single false⟩ .nil) maO (by
      intro e he q hq
      simp at he
      subst he
      simp at hq
      subst hq
      exact ⟨[1], rfl, ma_operator 1 (by simpa using ma_big 1 le_rfl)⟩)
  exact ⟨res, h⟩

theorem ma_names : NamesOk maActs := by
  intro a ha psi n obs he
  subst he
  simp [maActs] at ha
  rw [ha.2.2]
  simp

theorem ma_ok : ∀ r ∈ (measScript (branchFreeClass 1 2 MaVal 1) (fun _ => -1) 0 maSampler
    (fun _ => OpState.new) 0 maActs).1, ∃ x, r = .ok x := by
  intro r hr
  obtain ⟨x, hx⟩ := ma_first
  refine ⟨x, ?_⟩
  rw [← hx]
  exact List.mem_singleton.1 hr

theorem ma_requests : List.Forall₂ (fun (e : String × MaVal) (q : String × List (Bool × List MaVal)) =>
    e.1 = q.1 ∧ AsksAll e.2 q.2) maObs maReqs :=
  .cons ⟨rfl, .single false⟩ (.cons ⟨rfl, .list (.cons (.withArgs _ _) (.cons (.withArgs _ _) .nil))⟩ .nil)

theorem ma_matrices : ∀ e ∈ maReqs, ∀ q ∈ e.2, ∃ p,
    (branchFreeClass 1 2 MaVal 1).prep (addedTo q.1 maActs) q.2 = .ok p ∧
      OperatorOf ((branchFreeClass 1 2 MaVal 1).fn (addedTo q.1 maActs) p) (maO q.1 q.2) := by
  intro e he q hq
  simp only [maReqs, List.mem_cons, List.not_mem_nil, or_false] at he
  rcases he with rfl | rfl
  · simp only [List.mem_cons, List.not_mem_nil, or_false] at hq
    subst hq
    exact ⟨[1], rfl, ma_operator 1 (by simpa using ma_big 1 le_rfl)⟩
  · simp only [List.mem_cons, List.not_mem_nil, or_false] at hq
    rcases hq with rfl | rfl
    · exact ⟨[2], rfl, ma_operator 2 (by simpa using ma_big 2 (by norm_num))⟩
    · exact ⟨[3], rfl, ma_operator 3 (by simpa using ma_big 3 (by norm_num))⟩

example := c100_reported (branchFreeClass 1 2 MaVal 1) (fun _ => -1) 0 maSampler maActs 0 ma_names ma_ok
  _ _ rfl ⟨fun _ => 0, true⟩ rfl none maWorld _ rfl ma_samples maObs (by decide) maReqs ma_requests maO
  ma_matrices

/-- The prefactors that are requested. -/
noncomputable def maVals : Bool → List MaVal → List ℂ
  | true, args => [maFun args]
  | false, _ => [1]

example := c100_branch_free_partial 1 (fun _ => -1) 0 maSampler maActs 0 ma_names ma_ok
  _ _ rfl ⟨fun _ => 0, true⟩ rfl none maWorld _ rfl ma_samples maObs (by decide) maReqs ma_requests maVals
  (by
    intro e he q hq
    simp only [maReqs, List.mem_cons, List.not_mem_nil, or_false] at he
    rcases he with rfl | rfl
    · simp only [List.mem_cons, List.not_mem_nil, or_false] at hq
      subst hq
      rfl
    · simp only [List.mem_cons, List.not_mem_nil, or_false] at hq
      rcases hq with rfl | rfl <;> rfl)
  (by
    intro e he q hq x hx
    rcases q with ⟨_ | _, _⟩ <;> simp [addedTo, maActs] at hx <;> subst hx <;> simp [maX, maTX])
  (fun _ _ _ _ => Or.inr rfl)
  (by
    intro e he q hq x hx o ho
    rcases q with ⟨_ | _, _⟩ <;> simp [addedTo, maActs] at hx <;> subst hx <;>
      simp [maX, maTX, OpStr.localOps] at ho <;> subst ho <;> simp [opSx])
  (by
    intro e he q hq x hx o ho
    rcases q with ⟨_ | _, _⟩ <;> simp [addedTo, maActs] at hx <;> subst hx <;>
      simp [maX, maTX, OpStr.localOps] at ho <;> subst ho <;> simp [opSx])
  (by
    intro e he q hq s l hl
    simp only [maReqs, List.mem_cons, List.not_mem_nil, or_false] at he
    rcases he with rfl | rfl
    · simp only [List.mem_cons, List.not_mem_nil, or_false] at hq
      subst hq
      injection hl with hl
      subst hl
      exact (ma_operator 1 (by simpa using ma_big 1 le_rfl)).above s
    · simp only [List.mem_cons, List.not_mem_nil, or_false] at hq
      rcases hq with rfl | rfl
      · injection hl with hl
        subst hl
        exact (ma_operator 2 (by simpa using ma_big 2 (by norm_num))).above s
      · injection hl with hl
        subst hl
        exact (ma_operator 3 (by simpa using ma_big 3 (by norm_num))).above s)

/-- `3 Sx = Sx + 2 Sx`. -/
example := c100_linear (branchFreeClass 1 2 MaVal 1) (fun _ => -1) 0 maSampler maActs 0 ma_names ma_ok
  _ _ rfl ⟨fun _ => 0, true⟩ rfl none maWorld _ rfl ma_samples maObs (by decide) maReqs ma_requests maO
  ma_matrices ![("x"), "h", "h"] ![[(false, [])], [(true, [.obj 2]), (true, [.obj 3])],
    [(true, [.obj 2]), (true, [.obj 3])]]
  (by intro i; fin_cases i <;> simp [maReqs]) ![0, 0, 1] (by intro i; fin_cases i <;> simp) 1 1 (by
    change maMatrix 3 = ((1 : ℝ) : ℂ) • maMatrix 1 + ((1 : ℝ) : ℂ) • maMatrix 2
    rw [maMatrix_smul 3, maMatrix_smul 2, smul_smul, ← add_smul]
    norm_num)

example : ∃ res, (measureAll (branchFreeClass 1 2 MaVal 1) (fun _ => -1) 0 maSampler
    (measScript (branchFreeClass 1 2 MaVal 1) (fun _ => -1) 0 maSampler (fun _ => OpState.new) 0
      maActs).2.1 1 ⟨fun _ => 0, true⟩ none maObs).1 = .ok res ∧
    ∀ name ops, (name, ops) ∈ maObs → ∃ vals, (name, vals) ∈ res := by
  obtain ⟨res, h, _⟩ := c100_reported (branchFreeClass 1 2 MaVal 1) (fun _ => -1) 0 maSampler maActs 0
    ma_names ma_ok _ _ rfl ⟨fun _ => 0, true⟩ rfl none maWorld _ rfl ma_samples maObs (by decide) maReqs
    ma_requests maO ma_matrices
  refine ⟨res, h, fun name ops hm => ?_⟩
  obtain ⟨_, _, h3⟩ := c100_alone (branchFreeClass 1 2 MaVal 1) (fun _ => -1) 0 maSampler maActs 0
    ma_names ma_ok _ _ rfl ⟨fun _ => 0, true⟩ none maObs (by decide) res h
  obtain ⟨vals, hv, _⟩ := h3 name ops hm
  exact ⟨vals, hv⟩

end JVMC
