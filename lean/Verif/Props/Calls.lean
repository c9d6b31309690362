import Verif.Lemmas.Calls
import Verif.Lemmas.Stepper

/-! # Property C124: arguments of constructors and time steps -/

namespace JVMC

open Spec

variable {V M σ : Type}

/-- **C124**, calls: a call is accepted exactly if it fits the signature (`CallFits`), all others raise `TypeError`. In an
accepted call every parameter has the value given by position, or by name, or its default value; the remaining names
make up `**kwargs`, with their values. -/
theorem c124_binding (g : PySig) (hg : g.names.Nodup) (args : List V) (kw : List (String × V)) (hkw : OnceEach kw) :
    (¬ CallFits g.pos g.kwOnly g.varKw args kw → bindCall g args kw = .error .typeError) ∧
    (CallFits g.pos g.kwOnly g.varKw args kw → ∃ b, bindCall g args kw = .ok b ∧
      (∀ (i : ℕ) (k : String) (v : V), g.pos[i]?.map Prod.fst = some k → args[i]? = some v → kwGet b.vals k = some v) ∧
      (∀ k v, (k, v) ∈ kw → k ∈ g.names → kwGet b.vals k = some v) ∧
      (∀ k, (∀ v, (k, v) ∉ kw) → (∀ i < args.length, g.pos[i]?.map Prod.fst ≠ some k) → kwGet b.vals k = none) ∧
      ∀ k v, (k, v) ∈ b.extra ↔ (k, v) ∈ kw ∧ k ∉ g.names) := by
  refine ⟨bindCall_error g args kw hkw, fun h => ⟨_, bindCall_ok g args kw hkw h, ?_, ?_, ?_, ?_⟩⟩
  · intro i k v hk hv
    have hpos : (g.pos.map Prod.fst).Nodup := by
      unfold PySig.names at hg
      rw [List.map_append] at hg
      exact (List.nodup_append.mp hg).1
    have hz : OnceEach ((g.pos.map Prod.fst).zip args) := by
      unfold OnceEach
      exact hpos.sublist (zip_fst_sublist _ _)
    have hmem : (k, v) ∈ (g.pos.map Prod.fst).zip args := by
      rw [← List.getElem?_map] at hk
      obtain ⟨h1, h2⟩ := List.getElem?_eq_some_iff.mp hk
      obtain ⟨h3, h4⟩ := List.getElem?_eq_some_iff.mp hv
      exact List.mem_iff_getElem.mpr ⟨i, by rw [List.length_zip]; omega, by rw [List.getElem_zip, h2, h4]⟩
    rw [kwGet_append, (kwGet_eq_some hz k v).mpr hmem]
    rfl
  · intro k v hm hn
    rw [kwGet_append, kwGet_knownKw g kw hkw k hn, (kwGet_eq_some hkw k v).mpr hm]
    have : kwGet ((g.pos.map Prod.fst).zip args) k = none := by
      rw [← Option.not_isSome_iff_eq_none, kwGet_zip_isSome]
      rintro ⟨i, hi, he⟩
      exact h.once k v hm i hi (by rw [List.getElem?_map] at he; exact he)
    rw [this]
    rfl
  · intro k hk hp
    rw [kwGet_append]
    have h1 : kwGet ((g.pos.map Prod.fst).zip args) k = none := by
      rw [← Option.not_isSome_iff_eq_none, kwGet_zip_isSome]
      rintro ⟨i, hi, he⟩
      exact hp i hi (by rw [List.getElem?_map] at he; exact he)
    have h2 : kwGet (knownKw g kw) k = none := by
      rw [kwGet_eq_none]
      exact fun v hm => hk v (List.mem_filter.mp hm).1
    rw [h1, h2]
    rfl
  · intro k v
    unfold otherKw
    rw [List.mem_filter]
    simp

/-- Case: `TDVP(sampler, pinvTol=…, rhsPrefactor=…)`. -/
example : ∃ b, bindCall tdvpInitSig [0, 1] [("pinvTol", 2), ("rhsPrefactor", 3)] = .ok b ∧
    kwGet b.vals "sampler" = some 1 ∧ kwGet b.vals "pinvTol" = some 2 ∧ kwGet b.vals "snrTol" = none := by
  exact ⟨_, rfl, rfl, rfl, rfl⟩

/-- The constructors of the package without `**kwargs`. -/
def constructors : List PySig :=
  [tdvpInitSig, minsrInitSig, eulerInitSig, ahInitSig, nqsInitSig, mcInitSig, exactInitSig, symmetryInitSig, outpInitSig,
    obsInitSig, povmInitSig, operatorInitSig]

/-- **C124**, constructors: whatever else is given, a name that is no parameter raises `TypeError`; it is not ignored. -/
theorem c124_constructors (g : PySig) (hg : g ∈ constructors) (args : List V) (kw : List (String × V)) (k : String) (v : V)
    (hk : (k, v) ∈ kw) (hn : k ∉ g.names) : bindCall g args kw = .error .typeError := by
  have hv : g.varKw = false := by
    have : ∀ g ∈ constructors, g.varKw = false := by decide
    exact this g hg
  unfold bindCall
  split
  · rfl
  · rw [bindKw_error g kw _ ⟨k, v, hk, .inr ⟨hn, hv⟩⟩]
    rfl

/-- **C124**, documented parameters: every constructor accepts exactly the calls that give each parameter of the
documentation at most once, by position or by name, and all those that must be given; values given by position belong to
the parameters in the order of the documentation. -/
theorem c124_documented (g : PySig) (doc : String × List String × List String) (h : (g, doc) ∈ constructors.zip documented)
    (self : V) (args : List V) (kw : List (String × V)) (hkw : OnceEach kw) (P : List String) (hP : P = doc.2.1 ++ doc.2.2) :
    ((∃ b, bindCall g (self :: args) kw = .ok b) ↔
      args.length ≤ P.length ∧ (∀ k v, (k, v) ∈ kw → k ∈ P ∧ ∀ i < args.length, P[i]? ≠ some k) ∧
      ∀ k ∈ doc.2.1, (∃ v, (k, v) ∈ kw) ∨ ∃ i < args.length, P[i]? = some k) ∧
    ∀ b, bindCall g (self :: args) kw = .ok b →
      (∀ (i : ℕ) (k : String) (v : V), P[i]? = some k → args[i]? = some v → kwGet b.vals k = some v) ∧
      (∀ k v, (k, v) ∈ kw → kwGet b.vals k = some v) ∧
      ∀ k, (∀ v, (k, v) ∉ kw) → k ≠ "self" → (∀ i < args.length, P[i]? ≠ some k) → kwGet b.vals k = none := by
  have hshape : g.pos.map Prod.fst = "self" :: P ∧ g.kwOnly = [] ∧ g.varKw = false ∧ g.names.Nodup ∧ "self" ∉ P ∧
      (∀ k, (k, false) ∈ g.pos ↔ k = "self" ∨ k ∈ doc.2.1) := by
    subst hP
    have key : ∀ x ∈ constructors.zip documented, x.1.pos =
        ("self", false) :: (x.2.2.1.map (fun k => (k, false)) ++ x.2.2.2.map fun k => (k, true)) ∧ x.1.kwOnly = [] ∧
        x.1.varKw = false ∧ x.1.names.Nodup ∧ "self" ∉ x.2.2.1 ++ x.2.2.2 := by decide
    obtain ⟨h1, h2, h3, h4, h5⟩ := key _ h
    refine ⟨?_, h2, h3, h4, h5, ?_⟩
    · rw [h1]
      simp [Function.comp_def]
    · intro k
      rw [h1]
      simp
  obtain ⟨hpos, hkwo, hvar, hnd, hself, hreq⟩ := hshape
  have hget : ∀ i, g.pos[i]?.map Prod.fst = ("self" :: P)[i]? := fun i => by rw [← List.getElem?_map, hpos]
  have hlen : g.pos.length = P.length + 1 := by
    have := congrArg List.length hpos
    simpa using this
  have hmem : ∀ k, (∃ d, (k, d) ∈ g.pos) ↔ k = "self" ∨ k ∈ P := by
    intro k
    have : k ∈ g.pos.map Prod.fst ↔ ∃ d, (k, d) ∈ g.pos := by simp
    rw [← this, hpos, List.mem_cons]
  have hfits : CallFits g.pos g.kwOnly g.varKw (self :: args) kw ↔
      args.length ≤ P.length ∧ (∀ k v, (k, v) ∈ kw → k ∈ P ∧ ∀ i < args.length, P[i]? ≠ some k) ∧
      ∀ k ∈ doc.2.1, (∃ v, (k, v) ∈ kw) ∨ ∃ i < args.length, P[i]? = some k := by
    constructor
    · intro hf
      refine ⟨?_, fun k v hm => ⟨?_, fun i hi he => ?_⟩, fun k hk => ?_⟩
      · have := hf.few
        rw [hlen, List.length_cons] at this
        omega
      · rcases hf.known k v hm with hc | hc
        · rw [hvar] at hc; cases hc
        · rw [hkwo, List.append_nil] at hc
          rcases (hmem k).mp hc with rfl | hc
          · exact absurd (by rw [hget]; rfl) (hf.once _ v hm 0 (by simp))
          · exact hc
      · exact hf.once k v hm (i + 1) (by simpa using hi) (by rw [hget]; exact he)
      · rcases hf.complete k (by rw [hkwo, List.append_nil]; exact (hreq k).mpr (.inr hk)) with hc | ⟨i, hi, he⟩
        · exact .inl hc
        · rw [hget] at he
          cases i with
          | zero =>
            have : "self" = k := by simpa using he
            exact absurd (hP ▸ List.mem_append_left _ (this ▸ hk)) hself
          | succ i => exact .inr ⟨i, by simpa using hi, he⟩
    · rintro ⟨h1, h2, h3⟩
      refine ⟨?_, fun k v hm => .inr ?_, fun k v hm i hi he => ?_, fun k hk => ?_⟩
      · rw [hlen, List.length_cons]; omega
      · rw [hkwo, List.append_nil]
        exact (hmem k).mpr (.inr (h2 k v hm).1)
      · rw [hget] at he
        cases i with
        | zero =>
          have : "self" = k := by simpa using he
          exact hself (this ▸ (h2 k v hm).1)
        | succ i => exact (h2 k v hm).2 i (by simpa using hi) he
      · rw [hkwo, List.append_nil] at hk
        rcases (hreq k).mp hk with rfl | hk
        · exact .inr ⟨0, by simp, by rw [hget]; rfl⟩
        · rcases h3 k hk with hc | ⟨i, hi, he⟩
          · exact .inl hc
          · exact .inr ⟨i + 1, by simpa using hi, by rw [hget]; exact he⟩
  have hb := c124_binding g hnd (self :: args) kw hkw
  by_cases hf : CallFits g.pos g.kwOnly g.varKw (self :: args) kw
  · obtain ⟨b, hok, p1, p2, p3, -⟩ := hb.2 hf
    refine ⟨⟨fun _ => hfits.mp hf, fun _ => ⟨b, hok⟩⟩, fun b' hb' => ?_⟩
    rw [hok] at hb'
    cases hb'
    refine ⟨fun i k v hk hv => p1 (i + 1) k v (by rw [hget]; exact hk) hv, fun k v hm => p2 k v hm ?_, fun k hk hs hi => ?_⟩
    · unfold PySig.names
      rw [hkwo, List.append_nil, hpos]
      exact List.mem_cons_of_mem _ ((hfits.mp hf).2.1 k v hm).1
    · refine p3 k hk fun i hil he => ?_
      rw [hget] at he
      cases i with
      | zero => exact hs (by simpa using he.symm)
      | succ i => exact hi i (by simpa using hil) he
  · have he := hb.1 hf
    refine ⟨⟨fun ⟨b, hok⟩ => ?_, fun hc => absurd (hfits.mpr hc) hf⟩, fun b hok => ?_⟩
    · rw [he] at hok; cases hok
    · rw [he] at hok; cases hok

/-- Case: `MCSampler(net, (4,), 7, updateProposer, 25, numSamples=500)`. -/
example : (mcInitSig, documented[5]) ∈ constructors.zip documented ∧
    ∃ b, bindCall mcInitSig [0, 1, 4, 7, 3, 25] [("numSamples", 500)] = .ok b ∧ kwGet b.vals "numChains" = some 25 ∧
      kwGet b.vals "key" = some 7 ∧ kwGet b.vals "numSamples" = some 500 :=
  ⟨List.mem_of_getElem? (i := 5) rfl, _, rfl, rfl, rfl, rfl⟩

/-- **C124**, operators: `BranchFreeOperator` and `POVMOperator` pass what they do not know to `Operator`, which accepts
`ElocBatchSize` and nothing else. -/
theorem c124_operators (self : V) (args : List V) (kw : List (String × V)) (hkw : OnceEach kw) :
    ((∃ r, operatorInit branchFreeInitSig self args kw = .ok r) ↔
      args.length ≤ 1 ∧ (∀ k v, (k, v) ∈ kw → k = "lDim" ∧ args.length = 0 ∨ k = "ElocBatchSize")) ∧
    ((∃ r, operatorInit povmOperatorInitSig self args kw = .ok r) ↔
      args.length ≤ 2 ∧ (args.length = 0 → ∃ v, ("povm", v) ∈ kw) ∧
      ∀ k v, (k, v) ∈ kw → k = "povm" ∧ args.length = 0 ∨ k = "ldim" ∧ args.length ≤ 1 ∨ k = "ElocBatchSize") := by
  have hex : ∀ g : PySig, OnceEach (otherKw g kw) := fun g => hkw.sublist (List.filter_sublist.map _)
  have hop : ∀ g : PySig, (∃ c, bindCall operatorInitSig [self] (otherKw g kw) = .ok c) ↔
      ∀ k v, (k, v) ∈ kw → k ∈ g.names ∨ k = "ElocBatchSize" := by
    intro g
    constructor
    · rintro ⟨c, hc⟩ k v hm
      by_contra hcon
      push Not at hcon
      have hmem : (k, v) ∈ otherKw g kw := List.mem_filter.mpr ⟨hm, by simpa using hcon.1⟩
      by_cases hs : k = "self"
      · rw [bindCall_error _ _ _ (hex g)] at hc
        · cases hc
        · intro hf
          exact hf.once k v hmem 0 (by simp) (by simp [operatorInitSig, hs])
      · rw [c124_constructors operatorInitSig (by simp [constructors]) _ _ k v hmem
          (by simp [operatorInitSig, PySig.names, hs, hcon.2])] at hc
        cases hc
    · intro h
      refine ⟨_, bindCall_ok _ _ _ (hex g) ⟨by simp [operatorInitSig], ?_, ?_, ?_⟩⟩
      · intro k v hm
        obtain ⟨h1, h2⟩ := List.mem_filter.mp hm
        rcases h k v h1 with h3 | rfl
        · simp [h3] at h2
        · exact .inr ⟨true, by simp [operatorInitSig]⟩
      · intro k v hm i hi he
        obtain ⟨h1, h2⟩ := List.mem_filter.mp hm
        have hi : i = 0 := by simpa using hi
        subst hi
        rcases h k v h1 with h3 | rfl
        · simp [h3] at h2
        · simp [operatorInitSig] at he
      · intro k hk
        simp only [operatorInitSig, List.append_nil, List.mem_cons, Prod.mk.injEq, and_true, Bool.false_eq_true, and_false,
          List.not_mem_nil, or_false] at hk
        subst hk
        exact .inr ⟨0, by simp, by simp [operatorInitSig]⟩
  have hinit : ∀ g : PySig, (∃ r, operatorInit g self args kw = .ok r) ↔
      CallFits g.pos g.kwOnly g.varKw (self :: args) kw ∧ ∀ k v, (k, v) ∈ kw → k ∈ g.names ∨ k = "ElocBatchSize" := by
    intro g
    rw [← hop g]
    unfold operatorInit
    by_cases hf : CallFits g.pos g.kwOnly g.varKw (self :: args) kw
    · rw [bindCall_ok g _ kw hkw hf]
      change (∃ r, Except.bind (bindCall operatorInitSig [self] (otherKw g kw)) _ = _) ↔ _
      cases bindCall operatorInitSig [self] (otherKw g kw) with
      | error e =>
        constructor
        · rintro ⟨r, hr⟩; cases hr
        · rintro ⟨_, c, hc⟩; cases hc
      | ok c => exact ⟨fun _ => ⟨hf, c, rfl⟩, fun _ => ⟨_, rfl⟩⟩
    · rw [bindCall_error g _ kw hkw hf]
      constructor
      · rintro ⟨r, hr⟩; cases hr
      · rintro ⟨h, _⟩; exact absurd h hf
  constructor
  · rw [hinit]
    constructor
    · rintro ⟨hf, hk⟩
      refine ⟨by simpa [branchFreeInitSig] using hf.few, ?_⟩
      intro k v hm
      rcases hk k v hm with h | h
      · simp only [PySig.names, branchFreeInitSig, List.append_nil, List.map_cons, List.map_nil, List.mem_cons,
          List.not_mem_nil, or_false] at h
        rcases h with rfl | rfl
        · exact absurd (by simp [branchFreeInitSig]) (hf.once "self" v hm 0 (by simp))
        · refine .inl ⟨rfl, ?_⟩
          by_contra hc
          exact hf.once "lDim" v hm 1 (by rw [List.length_cons]; omega) (by simp [branchFreeInitSig])
      · exact .inr h
    · rintro ⟨hl, hk⟩
      refine ⟨⟨by simpa [branchFreeInitSig] using hl, fun _ _ _ => .inl rfl, ?_, ?_⟩, ?_⟩
      · intro k v hm i hi he
        rw [List.length_cons] at hi
        rcases hk k v hm with ⟨rfl, h⟩ | rfl
        · have : i = 0 := by omega
          subst this
          simp [branchFreeInitSig] at he
        · have : i = 0 ∨ i = 1 := by omega
          rcases this with rfl | rfl <;> simp [branchFreeInitSig] at he
      · intro k hm
        simp only [branchFreeInitSig, List.append_nil, List.mem_cons, Prod.mk.injEq, and_true, Bool.false_eq_true,
          and_false, List.not_mem_nil, or_false] at hm
        subst hm
        exact .inr ⟨0, by simp, by simp [branchFreeInitSig]⟩
      · intro k v hm
        rcases hk k v hm with ⟨rfl, _⟩ | h
        · exact .inl (by simp [PySig.names, branchFreeInitSig])
        · exact .inr h
  · rw [hinit]
    constructor
    · rintro ⟨hf, hk⟩
      refine ⟨by have := hf.few; simp [povmOperatorInitSig] at this; omega, ?_, ?_⟩
      · intro h0
        rcases hf.complete "povm" (by simp [povmOperatorInitSig]) with h | ⟨i, hi, he⟩
        · exact h
        · rw [List.length_cons, h0] at hi
          have : i = 0 := by omega
          subst this
          simp [povmOperatorInitSig] at he
      · intro k v hm
        rcases hk k v hm with h | h
        · simp only [PySig.names, povmOperatorInitSig, List.append_nil, List.map_cons, List.map_nil, List.mem_cons,
            List.not_mem_nil, or_false] at h
          rcases h with rfl | rfl | rfl
          · exact absurd (by simp [povmOperatorInitSig]) (hf.once "self" v hm 0 (by simp))
          · refine .inl ⟨rfl, ?_⟩
            by_contra hc
            exact hf.once "povm" v hm 1 (by rw [List.length_cons]; omega) (by simp [povmOperatorInitSig])
          · refine .inr (.inl ⟨rfl, ?_⟩)
            by_contra hc
            exact hf.once "ldim" v hm 2 (by rw [List.length_cons]; omega) (by simp [povmOperatorInitSig])
        · exact .inr (.inr h)
    · rintro ⟨hl, hp, hk⟩
      refine ⟨⟨by simp [povmOperatorInitSig]; omega, fun _ _ _ => .inl rfl, ?_, ?_⟩, ?_⟩
      · intro k v hm i hi he
        rw [List.length_cons] at hi
        rcases hk k v hm with ⟨rfl, h⟩ | ⟨rfl, h⟩ | rfl
        · have : i = 0 := by omega
          subst this
          simp [povmOperatorInitSig] at he
        · have : i = 0 ∨ i = 1 := by omega
          rcases this with rfl | rfl <;> simp [povmOperatorInitSig] at he
        · have : i = 0 ∨ i = 1 ∨ i = 2 := by omega
          rcases this with rfl | rfl | rfl <;> simp [povmOperatorInitSig] at he
      · intro k hm
        simp only [povmOperatorInitSig, List.append_nil, List.mem_cons, Prod.mk.injEq, and_true, Bool.false_eq_true,
          and_false, List.not_mem_nil, or_false] at hm
        rcases hm with rfl | rfl
        · exact .inr ⟨0, by simp, by simp [povmOperatorInitSig]⟩
        · by_cases h0 : args.length = 0
          · exact .inl (hp h0)
          · exact .inr ⟨1, by rw [List.length_cons]; omega, by simp [povmOperatorInitSig]⟩
      · intro k v hm
        rcases hk k v hm with ⟨rfl, _⟩ | ⟨rfl, _⟩ | h
        · exact .inl (by simp [PySig.names, povmOperatorInitSig])
        · exact .inl (by simp [PySig.names, povmOperatorInitSig])
        · exact .inr h

/-- Case: `BranchFreeOperator(lDim=2, ElocBatchSize=100)` and `POVMOperator(povm, 4)` are accepted. -/
example : (∃ r, operatorInit branchFreeInitSig 0 [] [("lDim", 2), ("ElocBatchSize", 100)] = .ok r) ∧
    ∃ r, operatorInit povmOperatorInitSig 0 [1, 4] [] = .ok r := ⟨⟨_, rfl⟩, ⟨_, rfl⟩⟩

/-- **C124**, the example scripts (violated): the scripts ex0, ex4, ex5 and ex6 create the `TDVP` object with the argument
`svdTol` (ex0:67-68, ex4:36-37, ex5:66-67, ex6:71-72), which raises `TypeError` whatever the values are; so does
`LatticeSymmetry(orbit)` of ex4:18. -/
theorem c124_examples_violated (args : List V) (kw : List (String × V)) (tol self orbit : V) (hk : ("svdTol", tol) ∈ kw) :
    bindCall tdvpInitSig args kw = .error .typeError ∧ bindCall symmetryInitSig [self, orbit] [] = .error .typeError :=
  ⟨c124_constructors tdvpInitSig (by simp [constructors]) args kw "svdTol" tol hk (by simp [tdvpInitSig, PySig.names]), rfl⟩

/-- Case: the call of ex0. -/
example : ("svdTol", 2) ∈ [("rhsPrefactor", 1), ("svdTol", 2), ("diagonalShift", 3), ("makeReal", 4)] := by decide

/-! ## Time steps -/

variable [AddCommGroup M] [Module ℝ M]

/-- The right-hand side with its arguments: at stage `k` of a step it gets `intStep=k`. -/
def stageRhs (body : RhsUse M → M → ℝ → σ → M × σ) (psi ham ns outp : RVal M) : VRhs M σ := fun y t k s =>
  body ⟨psi, ham, ns, outp, some (.num k)⟩ y t s

omit [AddCommGroup M] [Module ℝ M] in
theorem rhsCall_stage (body : RhsUse M → M → ℝ → σ → M × σ) (kw : List (String × RVal M)) (hkw : OnceEach kw)
    (psi ham ns outp : RVal M) (hp : ("psi", psi) ∈ kw) (hh : ("hamiltonian", ham) ∈ kw)
    (hn : Value kw "numSamples" .none ns) (ho : Value kw "outp" .none outp)
    (hr : ∀ k ∈ ["self", "netParameters", "t", "intStep"], ∀ v, (k, v) ∉ kw) (x : RVal M) (y : M) (t : ℝ) (s : σ) :
    rhsCall body (kw ++ [("intStep", x)]) y t s = .ok (body ⟨psi, ham, ns, outp, some x⟩ y t s) := by
  have hi : ∀ v, ("intStep", v) ∉ kw := hr "intStep" (by simp)
  have hval : ∀ k v, k ≠ "intStep" → Value kw k .none v → Value (kw ++ [("intStep", x)]) k .none v := by
    rintro k v hne (h | ⟨h, rfl⟩)
    · exact .inl (List.mem_append_left _ h)
    · refine .inr ⟨fun w hm => ?_, rfl⟩
      rcases List.mem_append.mp hm with h' | h'
      · exact h w h'
      · exact hne (Prod.mk.inj (List.mem_singleton.mp h')).1
  rw [rhsCall_ok body _ (onceEach_append kw hkw "intStep" x hi) y t s psi ham ns outp (List.mem_append_left _ hp)
    (List.mem_append_left _ hh) (hval _ _ (by decide) hn) (hval _ _ (by decide) ho)]
  · have : kwGet (kw ++ [("intStep", x)]) "intStep" = some x := by
      rw [kwGet_append, (kwGet_eq_none _ _).mpr hi]
      rfl
    rw [this]
  · intro k hk v hm
    rcases List.mem_append.mp hm with h' | h'
    · exact hr k (by simp only [List.mem_cons, List.not_mem_nil, or_false] at hk ⊢; tauto) v h'
    · have h1 := (Prod.mk.inj (List.mem_singleton.mp h')).1
      subst h1
      revert hk
      decide

omit [AddCommGroup M] [Module ℝ M] in
theorem rhsCall_stage_error (body : RhsUse M → M → ℝ → σ → M × σ) (kw : List (String × RVal M)) (hkw : OnceEach kw)
    (hi : ∀ v, ("intStep", v) ∉ kw)
    (h : (∀ v, ("psi", v) ∉ kw) ∨ (∀ v, ("hamiltonian", v) ∉ kw) ∨
      ∃ k ∈ ["self", "netParameters", "t"], ∃ v, (k, v) ∈ kw) (x : RVal M) (y : M) (t : ℝ) (s : σ) :
    rhsCall body (kw ++ [("intStep", x)]) y t s = .error .typeError := by
  refine rhsCall_error body _ (onceEach_append kw hkw "intStep" x hi) y t s ?_
  have hne : ∀ k, k ≠ "intStep" → (∀ v, (k, v) ∉ kw) → ∀ v, (k, v) ∉ kw ++ [("intStep", x)] := by
    intro k hk h v hm
    rcases List.mem_append.mp hm with h' | h'
    · exact h v h'
    · exact hk (Prod.mk.inj (List.mem_singleton.mp h')).1
  rcases h with h | h | ⟨k, hk, v, hm⟩
  · exact .inl (hne _ (by decide) h)
  · exact .inr (.inl (hne _ (by decide) h))
  · exact .inr (.inr ⟨k, hk, v, List.mem_append_left _ hm⟩)

omit [AddCommGroup M] [Module ℝ M] in
theorem stepBind (kw : List (String × RVal M)) (hkw : OnceEach kw) (a b c d : RVal M) :
    ((∀ k ∈ ["self", "t", "f", "yInitial"], ∀ v, (k, v) ∉ kw) →
      ∃ vals, bindCall stepSig [a, b, c, d] kw = .ok ⟨vals, kw⟩) ∧
    ((∃ k ∈ ["self", "t", "f", "yInitial"], ∃ v, (k, v) ∈ kw) → bindCall stepSig [a, b, c, d] kw = .error .typeError) := by
  have hf := posFits stepSig rfl rfl [a, b, c, d] (by simp [stepSig]) (by
    intro i hi hl
    simp [stepSig] at hi hl
    omega) kw
  have hn : (stepSig.pos.map Prod.fst).take [a, b, c, d].length = ["self", "t", "f", "yInitial"] := rfl
  rw [hn] at hf
  constructor
  · intro h
    refine ⟨(stepSig.pos.map Prod.fst).zip [a, b, c, d] ++ knownKw stepSig kw,
      (bindCall_ok stepSig _ kw hkw (hf.mpr h)).trans ?_⟩
    rw [otherKw_eq stepSig kw h]
  · rintro ⟨k, hk, v, hm⟩
    exact bindCall_error stepSig _ kw hkw fun h => hf.mp h k hk v hm

/-- The names that cannot be used as further arguments of `Euler.step` and `Heun.step`. -/
def stepReserved : List String := ["self", "t", "f", "yInitial", "netParameters", "intStep"]

/-- **C124**, Euler: with `psi`, `hamiltonian` and further arguments given by name, the step evaluates the right-hand side
with these, with `numSamples` and `outp` as given (or `None`), and with `intStep=0`. Without `psi` or `hamiltonian`, or with
a reserved name, it raises `TypeError`. -/
theorem c124_euler (dt : ℝ) (body : RhsUse M → M → ℝ → σ → M × σ) (t : ℝ) (y : M) (kw : List (String × RVal M))
    (hkw : OnceEach kw) (s : σ) :
    (∀ psi ham ns outp, ("psi", psi) ∈ kw → ("hamiltonian", ham) ∈ kw → Value kw "numSamples" .none ns →
      Value kw "outp" .none outp → (∀ k ∈ stepReserved, ∀ v, (k, v) ∉ kw) →
      eulerKw dt body t y kw s = .ok (eulerStep dt t (stageRhs body psi ham ns outp) y s)) ∧
    ((∀ v, ("psi", v) ∉ kw) ∨ (∀ v, ("hamiltonian", v) ∉ kw) ∨ (∃ k ∈ stepReserved, ∃ v, (k, v) ∈ kw) →
      eulerKw dt body t y kw s = .error .typeError) := by
  obtain ⟨hb1, hb2⟩ := stepBind kw hkw (.obj 0) (.num t) (.obj 1) (.obj 2)
  constructor
  · intro psi ham ns outp hp hh hn ho hr
    obtain ⟨vals, hv⟩ := hb1 fun k hk => hr k (by revert hk; simp [stepReserved]; tauto)
    unfold eulerKw
    rw [hv]
    change Except.bind (withKw kw "intStep" (.num 0)) _ = _
    rw [withKw_ok kw _ _ (hr "intStep" (by simp [stepReserved]))]
    change Except.bind (rhsCall body (kw ++ [("intStep", .num 0)]) y t s) _ = _
    rw [rhsCall_stage body kw hkw psi ham ns outp hp hh hn ho
      fun k hk => hr k (by revert hk; simp [stepReserved]; tauto)]
    simp only [eulerStep, stageRhs, Nat.cast_zero]
    rfl
  · intro h
    unfold eulerKw
    by_cases hs : ∃ k ∈ ["self", "t", "f", "yInitial"], ∃ v, (k, v) ∈ kw
    · rw [hb2 hs]
      rfl
    · obtain ⟨vals, hv⟩ := hb1 (by push Not at hs; exact hs)
      rw [hv]
      change Except.bind (withKw kw "intStep" (.num 0)) _ = _
      by_cases hi : ∀ v, ("intStep", v) ∉ kw
      · rw [withKw_ok kw _ _ hi]
        change Except.bind (rhsCall body (kw ++ [("intStep", .num 0)]) y t s) _ = _
        rw [rhsCall_stage_error body kw hkw hi]
        · rfl
        · rcases h with h | h | ⟨k, hk, v, hm⟩
          · exact .inl h
          · exact .inr (.inl h)
          · refine .inr (.inr ⟨k, ?_, v, hm⟩)
            push Not at hs
            simp only [stepReserved, List.mem_cons, List.not_mem_nil, or_false] at hk
            rcases hk with rfl | rfl | rfl | rfl | rfl | rfl
            · simp
            · simp
            · exact absurd hm (hs _ (by simp) v)
            · exact absurd hm (hs _ (by simp) v)
            · simp
            · exact absurd hm (hi v)
      · push Not at hi
        obtain ⟨w, hw⟩ := hi
        rw [withKw_error kw _ _ w hw]
        rfl

/-- **C124**, Heun: the same at both stages, `intStep=0` and `intStep=1`; an argument `dt` replaces the time step of the
object. -/
theorem c124_heun (selfDt : ℝ) (body : RhsUse M → M → ℝ → σ → M × σ) (t : ℝ) (y : M) (kw : List (String × RVal M))
    (hkw : OnceEach kw) (s : σ) :
    (∀ psi ham ns outp dt, ("psi", psi) ∈ kw → ("hamiltonian", ham) ∈ kw → Value kw "numSamples" .none ns →
      Value kw "outp" .none outp → Value kw "dt" (.num selfDt) (.num dt) → (∀ k ∈ stepReserved, ∀ v, (k, v) ∉ kw) →
      heunKw selfDt body t y kw s = .ok (heunStep dt none t (stageRhs body psi ham ns outp) y s)) ∧
    ((∀ v, ("psi", v) ∉ kw) ∨ (∀ v, ("hamiltonian", v) ∉ kw) ∨ (∃ k ∈ stepReserved, ∃ v, (k, v) ∈ kw) →
      heunKw selfDt body t y kw s = .error .typeError) := by
  obtain ⟨hb1, hb2⟩ := stepBind kw hkw (.obj 0) (.num t) (.obj 1) (.obj 2)
  constructor
  · intro psi ham ns outp dt hp hh hn ho hdt hr
    obtain ⟨vals, hv⟩ := hb1 fun k hk => hr k (by revert hk; simp [stepReserved]; tauto)
    have hi := hr "intStep" (by simp [stepReserved])
    have hst := rhsCall_stage body kw hkw psi ham ns outp hp hh hn ho
      fun k hk => hr k (by revert hk; simp [stepReserved]; tauto)
    have hd : (match kwGet kw "dt" with
        | some d => d
        | none => RVal.num selfDt) = .num dt := by
      rw [← value_getD hkw hdt]
      cases kwGet kw "dt" <;> rfl
    unfold heunKw
    rw [hv]
    change Except.bind (withKw kw "intStep" (.num 0)) _ = _
    rw [withKw_ok kw _ _ hi]
    change Except.bind (rhsCall body (kw ++ [("intStep", .num 0)]) y t s) _ = _
    rw [hst]
    change Except.bind (RVal.toNum (match kwGet kw "dt" with
        | some d => d
        | none => RVal.num selfDt)) _ = _
    rw [hd]
    change Except.bind (withKw kw "intStep" (.num 1)) _ = _
    rw [withKw_ok kw _ _ hi]
    change Except.bind (rhsCall body (kw ++ [("intStep", .num 1)]) _ _ _) _ = _
    rw [hst]
    simp only [heunStep, stageRhs, Nat.cast_zero, Nat.cast_one]
    rfl
  · intro h
    unfold heunKw
    by_cases hs : ∃ k ∈ ["self", "t", "f", "yInitial"], ∃ v, (k, v) ∈ kw
    · rw [hb2 hs]
      rfl
    · obtain ⟨vals, hv⟩ := hb1 (by push Not at hs; exact hs)
      rw [hv]
      change Except.bind (withKw kw "intStep" (.num 0)) _ = _
      by_cases hi : ∀ v, ("intStep", v) ∉ kw
      · rw [withKw_ok kw _ _ hi]
        change Except.bind (rhsCall body (kw ++ [("intStep", .num 0)]) y t s) _ = _
        rw [rhsCall_stage_error body kw hkw hi]
        · rfl
        · rcases h with h | h | ⟨k, hk, v, hm⟩
          · exact .inl h
          · exact .inr (.inl h)
          · refine .inr (.inr ⟨k, ?_, v, hm⟩)
            push Not at hs
            simp only [stepReserved, List.mem_cons, List.not_mem_nil, or_false] at hk
            rcases hk with rfl | rfl | rfl | rfl | rfl | rfl
            · simp
            · simp
            · exact absurd hm (hs _ (by simp) v)
            · exact absurd hm (hs _ (by simp) v)
            · simp
            · exact absurd hm (hi v)
      · push Not at hi
        obtain ⟨w, hw⟩ := hi
        rw [withKw_error kw _ _ w hw]
        rfl

omit [AddCommGroup M] [Module ℝ M] in
theorem ahBind (kw : List (String × RVal M)) (hkw : OnceEach kw) (a b c d : RVal M) :
    ((∀ k ∈ ["self", "t", "f", "y"], ∀ v, (k, v) ∉ kw) →
      ∃ vals, bindCall ahStepSig [a, b, c, d] kw = .ok ⟨vals, kw.filter fun p => p.1 != "normFunction"⟩ ∧
        kwGet vals "normFunction" = kwGet kw "normFunction") ∧
    ((∃ k ∈ ["self", "t", "f", "y"], ∃ v, (k, v) ∈ kw) → bindCall ahStepSig [a, b, c, d] kw = .error .typeError) := by
  have hf := posFits ahStepSig rfl rfl [a, b, c, d] (by simp [ahStepSig]) (by
    intro i hi hl
    have hi' : i < 5 := hi
    have hl' : 4 ≤ i := hl
    have : i = 4 := by omega
    subst this
    rfl) kw
  have hn : (ahStepSig.pos.map Prod.fst).take [a, b, c, d].length = ["self", "t", "f", "y"] := rfl
  rw [hn] at hf
  constructor
  · intro h
    refine ⟨(ahStepSig.pos.map Prod.fst).zip [a, b, c, d] ++ knownKw ahStepSig kw,
      (bindCall_ok ahStepSig _ kw hkw (hf.mpr h)).trans ?_, ?_⟩
    · congr 2
      unfold otherKw
      apply List.filter_congr
      rintro ⟨k, v⟩ hm
      have : k ∉ ["self", "t", "f", "y"] := fun hk => h k hk v hm
      simp only [List.mem_cons, List.not_mem_nil, or_false, not_or] at this
      by_cases hk : k = "normFunction"
      · simp [ahStepSig, PySig.names, hk]
      · simp [ahStepSig, PySig.names, hk, this]
    · rw [kwGet_append, kwGet_knownKw ahStepSig kw hkw _ (by simp [ahStepSig, PySig.names])]
      rfl
  · rintro ⟨k, hk, v, hm⟩
    exact bindCall_error ahStepSig _ kw hkw fun h => hf.mp h k hk v hm

omit [AddCommGroup M] [Module ℝ M] in
/-- What is resolved once is what each call would find. -/
theorem rhsResolve_stage (body : RhsUse M → M → ℝ → σ → M × σ) (kw : List (String × RVal M)) (hkw : OnceEach kw)
    (k : ℕ) (y : M) (t : ℝ) (s : σ) :
    (do rhsCall body (← withKw kw "intStep" (.num k)) y t s) = (rhsResolve body kw).map fun g => g y t k s := by
  unfold rhsResolve
  by_cases hi : ∀ v, ("intStep", v) ∉ kw
  · rw [withKw_ok kw _ _ hi, withKw_ok kw _ _ hi]
    change rhsCall body (kw ++ [("intStep", .num k)]) y t s = Except.map _ (Except.bind
      (bindCall rhsSig [.obj 0, .obj 1, .obj 2] (kw ++ [("intStep", .none)])) _)
    by_cases hf : (∃ v, ("psi", v) ∈ kw) ∧ (∃ v, ("hamiltonian", v) ∈ kw) ∧
        ∀ k ∈ ["self", "netParameters", "t"], ∀ v, (k, v) ∉ kw
    · obtain ⟨⟨psi, hp⟩, ⟨ham, hh⟩, hr⟩ := hf
      have hval : ∀ k, Value kw k .none ((kwGet kw k).getD .none) := by
        intro k
        cases hg : kwGet kw k with
        | none => exact .inr ⟨(kwGet_eq_none kw k).mp hg, rfl⟩
        | some v => exact .inl (mem_of_kwGet hg)
      have hr' : ∀ k ∈ ["self", "netParameters", "t", "intStep"], ∀ v, (k, v) ∉ kw := by
        intro k hk
        simp only [List.mem_cons, List.not_mem_nil, or_false] at hk
        rcases hk with rfl | rfl | rfl | rfl
        · exact hr _ (by simp)
        · exact hr _ (by simp)
        · exact hr _ (by simp)
        · exact hi
      rw [rhsCall_stage body kw hkw psi ham _ _ hp hh (hval _) (hval _) hr']
      have hkw' : OnceEach (kw ++ [("intStep", RVal.none)]) := onceEach_append kw hkw _ _ hi
      have hp' : ("psi", psi) ∈ kw ++ [("intStep", RVal.none)] := List.mem_append_left _ hp
      have hh' : ("hamiltonian", ham) ∈ kw ++ [("intStep", RVal.none)] := List.mem_append_left _ hh
      have hr'' : ∀ k ∈ ["self", "netParameters", "t"], ∀ v, (k, v) ∉ kw ++ [("intStep", RVal.none)] := by
        intro k hk v hm
        rcases List.mem_append.mp hm with h' | h'
        · exact hr k hk v h'
        · have h1 := (Prod.mk.inj (List.mem_singleton.mp h')).1
          subst h1
          revert hk
          decide
      rw [bindCall_ok rhsSig _ _ hkw' ((rhsFits _ _ _ _).mpr ⟨⟨_, hp'⟩, ⟨_, hh'⟩, hr''⟩)]
      dsimp only [Except.bind]
      have hz : ∀ k ∈ ["psi", "hamiltonian"], kwGet ((rhsSig.pos.map Prod.fst).zip [RVal.obj 0, RVal.obj 1, .obj 2] ++
          knownKw rhsSig (kw ++ [("intStep", RVal.none)])) k = kwGet (kw ++ [("intStep", RVal.none)]) k := by
        intro k hk
        rw [kwGet_append, kwGet_knownKw rhsSig _ hkw' k (by revert hk; simp [rhsSig, PySig.names]; tauto)]
        have : kwGet ((rhsSig.pos.map Prod.fst).zip [RVal.obj (M := M) 0, RVal.obj 1, .obj 2]) k = none := by
          simp only [List.mem_cons, List.not_mem_nil, or_false] at hk
          rcases hk with rfl | rfl <;> rfl
        rw [this]; rfl
      have he : ∀ k ∈ ["numSamples", "outp"], kwGet (otherKw rhsSig (kw ++ [("intStep", RVal.none)])) k = kwGet kw k := by
        intro k hk
        simp only [List.mem_cons, List.not_mem_nil, or_false] at hk
        rw [kwGet_otherKw rhsSig _ hkw' k (by rcases hk with rfl | rfl <;> simp [rhsSig, PySig.names]), kwGet_append]
        have : kwGet [("intStep", RVal.none (M := M))] k = none := by rcases hk with rfl | rfl <;> rfl
        rw [this]
        cases kwGet kw k <;> rfl
      rw [hz _ (by simp), hz _ (by simp), (kwGet_eq_some hkw' _ _).mpr hp', (kwGet_eq_some hkw' _ _).mpr hh']
      dsimp only
      rw [he _ (by simp), he _ (by simp)]
      rfl
    · have hneg : (∀ v, ("psi", v) ∉ kw) ∨ (∀ v, ("hamiltonian", v) ∉ kw) ∨
          ∃ k ∈ ["self", "netParameters", "t"], ∃ v, (k, v) ∈ kw := by
        by_contra hc
        push Not at hc
        exact hf hc
      rw [rhsCall_stage_error body kw hkw hi hneg]
      rw [bindCall_error rhsSig _ _ (onceEach_append kw hkw _ _ hi)]
      · rfl
      · rw [rhsFits]
        rintro ⟨⟨p, hp⟩, ⟨q, hq⟩, hr⟩
        have hm : ∀ k v, k ≠ "intStep" → (k, v) ∈ kw ++ [("intStep", RVal.none (M := M))] → (k, v) ∈ kw := by
          intro k v hk hm
          rcases List.mem_append.mp hm with h' | h'
          · exact h'
          · exact absurd (Prod.mk.inj (List.mem_singleton.mp h')).1 hk
        rcases hneg with h | h | ⟨k', hk', v, hv⟩
        · exact h p (hm _ _ (by decide) hp)
        · exact h q (hm _ _ (by decide) hq)
        · exact hr k' hk' v (List.mem_append_left _ hv)
  · push Not at hi
    obtain ⟨w, hw⟩ := hi
    rw [withKw_error kw _ _ w hw, withKw_error kw _ _ w hw]
    rfl

/-- The names that cannot be used as further arguments of `AdaptiveHeun.step`. -/
def ahReserved : List String := ["self", "t", "f", "y", "netParameters", "intStep"]

omit [AddCommGroup M] [Module ℝ M] in
theorem rhsResolve_ok (body : RhsUse M → M → ℝ → σ → M × σ) (kw : List (String × RVal M)) (hkw : OnceEach kw)
    (psi ham ns outp : RVal M) (hp : ("psi", psi) ∈ kw) (hh : ("hamiltonian", ham) ∈ kw)
    (hn : Value kw "numSamples" .none ns) (ho : Value kw "outp" .none outp)
    (hr : ∀ k ∈ ["self", "netParameters", "t", "intStep"], ∀ v, (k, v) ∉ kw) :
    rhsResolve body kw = .ok (stageRhs body psi ham ns outp) := by
  have hi := hr "intStep" (by simp)
  cases hres : rhsResolve body kw with
  | error e =>
    -- an error would show up in a call
    exfalso
    have hbind : ∃ g, rhsResolve body kw = .ok g := by
      have hkw' : OnceEach (kw ++ [("intStep", RVal.none)]) := onceEach_append kw hkw _ _ hi
      have hp' : ("psi", psi) ∈ kw ++ [("intStep", RVal.none)] := List.mem_append_left _ hp
      have hh' : ("hamiltonian", ham) ∈ kw ++ [("intStep", RVal.none)] := List.mem_append_left _ hh
      unfold rhsResolve
      rw [withKw_ok kw _ _ hi]
      change ∃ g, Except.bind (bindCall rhsSig [.obj 0, .obj 1, .obj 2] (kw ++ [("intStep", .none)])) _ = _
      rw [bindCall_ok rhsSig _ _ hkw' ((rhsFits _ _ _ _).mpr ⟨⟨_, hp'⟩, ⟨_, hh'⟩, ?_⟩)]
      · dsimp only [Except.bind]
        have hz : ∀ k ∈ ["psi", "hamiltonian"], (kwGet ((rhsSig.pos.map Prod.fst).zip [RVal.obj 0, RVal.obj 1, .obj 2] ++
            knownKw rhsSig (kw ++ [("intStep", RVal.none)])) k).isSome := by
          intro k hk
          rw [kwGet_append, kwGet_knownKw rhsSig _ hkw' k (by revert hk; simp [rhsSig, PySig.names]; tauto),
            Option.isSome_or, Bool.or_eq_true]
          right
          rw [kwGet_isSome]
          simp only [List.mem_cons, List.not_mem_nil, or_false] at hk
          rcases hk with rfl | rfl
          · exact ⟨_, hp'⟩
          · exact ⟨_, hh'⟩
        obtain ⟨a, ha⟩ := Option.isSome_iff_exists.mp (hz "psi" (by simp))
        obtain ⟨b, hb⟩ := Option.isSome_iff_exists.mp (hz "hamiltonian" (by simp))
        rw [ha, hb]
        exact ⟨_, rfl⟩
      · intro k hk v hm
        rcases List.mem_append.mp hm with h' | h'
        · exact hr k (by simp only [List.mem_cons, List.not_mem_nil, or_false] at hk ⊢; tauto) v h'
        · have h1 := (Prod.mk.inj (List.mem_singleton.mp h')).1
          subst h1
          revert hk
          decide
    obtain ⟨g, hg⟩ := hbind
    rw [hg] at hres
    cases hres
  | ok g =>
    congr 1
    funext y t k s
    have h := rhsResolve_stage body kw hkw k y t s
    rw [hres, withKw_ok kw _ _ hi] at h
    change rhsCall body (kw ++ [("intStep", .num k)]) y t s = .ok (g y t k s) at h
    rw [rhsCall_stage body kw hkw psi ham ns outp hp hh hn ho hr] at h
    exact (Except.ok.inj h).symm

omit [AddCommGroup M] [Module ℝ M] in
theorem rhsResolve_error (body : RhsUse M → M → ℝ → σ → M × σ) (kw : List (String × RVal M)) (hkw : OnceEach kw)
    (h : (∀ v, ("psi", v) ∉ kw) ∨ (∀ v, ("hamiltonian", v) ∉ kw) ∨
      ∃ k ∈ ["self", "netParameters", "t", "intStep"], ∃ v, (k, v) ∈ kw) : rhsResolve body kw = .error .typeError := by
  unfold rhsResolve
  by_cases hi : ∀ v, ("intStep", v) ∉ kw
  · rw [withKw_ok kw _ _ hi]
    change Except.bind (bindCall rhsSig [.obj 0, .obj 1, .obj 2] (kw ++ [("intStep", .none)])) _ = _
    rw [bindCall_error rhsSig _ _ (onceEach_append kw hkw _ _ hi)]
    · rfl
    · rw [rhsFits]
      rintro ⟨⟨p, hp⟩, ⟨q, hq⟩, hr⟩
      have hm : ∀ k v, k ≠ "intStep" → (k, v) ∈ kw ++ [("intStep", RVal.none (M := M))] → (k, v) ∈ kw := by
        intro k v hk hm
        rcases List.mem_append.mp hm with h' | h'
        · exact h'
        · exact absurd (Prod.mk.inj (List.mem_singleton.mp h')).1 hk
      rcases h with h | h | ⟨k', hk', v, hv⟩
      · exact h p (hm _ _ (by decide) hp)
      · exact h q (hm _ _ (by decide) hq)
      · simp only [List.mem_cons, List.not_mem_nil, or_false] at hk'
        rcases hk' with rfl | rfl | rfl | rfl
        · exact hr _ (by simp) v (List.mem_append_left _ hv)
        · exact hr _ (by simp) v (List.mem_append_left _ hv)
        · exact hr _ (by simp) v (List.mem_append_left _ hv)
        · exact hi v hv
  · push Not at hi
    obtain ⟨w, hw⟩ := hi
    rw [withKw_error kw _ _ w hw]
    rfl

/-- **C124**, AdaptiveHeun: the same at all five stages of every attempted step; `normFunction` is the norm of the step
size control and is not passed on. -/
theorem c124_adaptive (norm₀ : M → ℝ) (obj : AHeun) (body : RhsUse M → M → ℝ → σ → M × σ) (t : ℝ) (y : ℕ)
    (kw : List (String × RVal M)) (hkw : OnceEach kw) (w : List M × σ) :
    (∀ psi ham ns outp norm, ("psi", psi) ∈ kw → ("hamiltonian", ham) ∈ kw → Value kw "numSamples" .none ns →
      Value kw "outp" .none outp → Value kw "normFunction" (.fn norm₀) (.fn norm) →
      (∀ k ∈ ahReserved, ∀ v, (k, v) ∉ kw) →
      ahKw norm₀ obj body t y kw w = ahStep false obj t (newArrRhs (stageRhs body psi ham ns outp)) y norm w) ∧
    ((∀ v, ("psi", v) ∉ kw) ∨ (∀ v, ("hamiltonian", v) ∉ kw) ∨ (∃ k ∈ ahReserved, ∃ v, (k, v) ∈ kw) →
      ahKw norm₀ obj body t y kw w = .error .typeError) := by
  obtain ⟨hb1, hb2⟩ := ahBind kw hkw (.obj 0) (.num t) (.obj 1) (.obj 2)
  have hsub : OnceEach (kw.filter fun p => p.1 != "normFunction") := hkw.sublist (List.filter_sublist.map _)
  have hmem : ∀ k v, k ≠ "normFunction" → ((k, v) ∈ kw.filter (fun p => p.1 != "normFunction") ↔ (k, v) ∈ kw) := by
    intro k v hk
    rw [List.mem_filter]
    simp [hk]
  have hval : ∀ k v, k ≠ "normFunction" → Value kw k .none v →
      Value (kw.filter fun p => p.1 != "normFunction") k .none v := by
    rintro k v hk (h | ⟨h, rfl⟩)
    · exact .inl ((hmem k v hk).mpr h)
    · exact .inr ⟨fun w hm => h w ((hmem k w hk).mp hm), rfl⟩
  constructor
  · intro psi ham ns outp norm hp hh hn ho hno hr
    obtain ⟨vals, hv, hnv⟩ := hb1 fun k hk => hr k (by revert hk; simp [ahReserved]; tauto)
    have hnorm : kwGet kw "normFunction" = some (.fn norm) ∨ (kwGet kw "normFunction" = none ∧ norm = norm₀) := by
      rcases hno with h | ⟨h, he⟩
      · exact .inl ((kwGet_eq_some hkw _ _).mpr h)
      · exact .inr ⟨(kwGet_eq_none _ _).mpr h, by injection he⟩
    unfold ahKw
    rw [hv]
    change Except.bind (rhsResolve body (kw.filter fun p => p.1 != "normFunction")) _ = _
    rw [rhsResolve_ok body _ hsub psi ham ns outp ((hmem _ _ (by decide)).mpr hp) ((hmem _ _ (by decide)).mpr hh)
      (hval _ _ (by decide) hn) (hval _ _ (by decide) ho)
      (fun k hk v hm => hr k (by revert hk; simp [ahReserved]; tauto) v (List.mem_filter.mp hm).1)]
    dsimp only [Except.bind]
    rw [hnv]
    rcases hnorm with h | ⟨h, rfl⟩
    · rw [h]; rfl
    · rw [h]; rfl
  · intro h
    unfold ahKw
    by_cases hs : ∃ k ∈ ["self", "t", "f", "y"], ∃ v, (k, v) ∈ kw
    · rw [hb2 hs]
      rfl
    · obtain ⟨vals, hv, -⟩ := hb1 (by push Not at hs; exact hs)
      rw [hv]
      change Except.bind (rhsResolve body (kw.filter fun p => p.1 != "normFunction")) _ = _
      rw [rhsResolve_error body _ hsub]
      · rfl
      · rcases h with h | h | ⟨k, hk, v, hm⟩
        · exact .inl fun v hm => h v (List.mem_filter.mp hm).1
        · exact .inr (.inl fun v hm => h v (List.mem_filter.mp hm).1)
        · push Not at hs
          simp only [ahReserved, List.mem_cons, List.not_mem_nil, or_false] at hk
          refine .inr (.inr ⟨k, ?_, v, (hmem k v ?_).mpr hm⟩)
          · rcases hk with rfl | rfl | rfl | rfl | rfl | rfl
            · simp
            · simp
            · exact absurd hm (hs _ (by simp) v)
            · exact absurd hm (hs _ (by simp) v)
            · simp
            · simp
          · rcases hk with rfl | rfl | rfl | rfl | rfl | rfl <;> decide

omit [Module ℝ M] in
/-- **C124**, AdaptiveHeun, right-hand side: what `c124_adaptive` passes to the step is the right-hand side at the array, the
time and the stage it is called with, in a new array; so the theorems on `AdaptiveHeun` (C49) apply to it. -/
theorem c124_adaptive_rhs (g : VRhs M σ) (inplace : Bool) : Computes inplace (newArrRhs g) g := by
  intro r t k h s _
  refine ⟨h.length, [(g (h.getD r 0) t k s).1], rfl, by simp, by simp, fun _ => le_rfl⟩

/-- Case: `stepper.step(0, tdvpEquation, psi.get_parameters(), hamiltonian=hamiltonian, psi=psi, numSamples=None)` as in
ex0 and ex4, with a right-hand side that returns its first argument. -/
example (y : ℝ) : eulerKw (M := ℝ) (σ := Unit) 2 (fun _ y _ s => (y, s)) 0 y
    [("hamiltonian", .obj 0), ("psi", .obj 1), ("numSamples", .none)] () = .ok ((y + 2 * y, 2), ()) := by
  have h := (c124_euler (M := ℝ) (σ := Unit) 2 (fun _ y _ s => (y, s)) 0 y
    [("hamiltonian", .obj 0), ("psi", .obj 1), ("numSamples", .none)] (by simp [OnceEach]) ()).1 (.obj 1) (.obj 0) .none .none
    (by simp) (by simp) (.inl (by simp)) (.inr ⟨by simp, rfl⟩) (by simp [stepReserved])
  rw [h]
  simp [eulerStep, stageRhs]

/-- **C124**, unknown arguments of a time step (violated): they are not refused. Whatever the name of a further argument,
unless the step or the right-hand side uses it, it changes nothing and nothing is reported. This includes `dt` for `Euler`
and `AdaptiveHeun`, `normFunction` for `Euler` and `Heun` (as in tests/povm_test.py:131-132), and misspelt names. -/
theorem c124_unknown_violated (dt : ℝ) (norm₀ : M → ℝ) (obj : AHeun) (body : RhsUse M → M → ℝ → σ → M × σ) (t : ℝ)
    (psi ham : RVal M) (k : String) (v : RVal M) :
    (k ∉ stepReserved ++ ["psi", "hamiltonian", "numSamples", "outp"] → ∀ (y : M) (s : σ),
      eulerKw dt body t y [("psi", psi), ("hamiltonian", ham), (k, v)] s =
        eulerKw dt body t y [("psi", psi), ("hamiltonian", ham)] s) ∧
    (k ∉ stepReserved ++ ["psi", "hamiltonian", "numSamples", "outp", "dt"] → ∀ (y : M) (s : σ),
      heunKw dt body t y [("psi", psi), ("hamiltonian", ham), (k, v)] s =
        heunKw dt body t y [("psi", psi), ("hamiltonian", ham)] s) ∧
    (k ∉ ahReserved ++ ["psi", "hamiltonian", "numSamples", "outp", "normFunction"] → ∀ (y : ℕ) (w : List M × σ),
      ahKw norm₀ obj body t y [("psi", psi), ("hamiltonian", ham), (k, v)] w =
        ahKw norm₀ obj body t y [("psi", psi), ("hamiltonian", ham)] w) := by
  have h2 : OnceEach [("psi", psi), ("hamiltonian", ham)] := by simp [OnceEach]
  refine ⟨fun hk y s => ?_, fun hk y s => ?_, fun hk y w => ?_⟩
  · simp only [stepReserved, List.cons_append, List.nil_append, List.mem_cons, List.not_mem_nil, or_false, not_or] at hk
    rw [(c124_euler dt body t y _ (by simp [OnceEach]; tauto) s).1 psi ham .none .none (by simp) (by simp)
        (.inr ⟨by simp; tauto, rfl⟩) (.inr ⟨by simp; tauto, rfl⟩) (by simp [stepReserved]; tauto),
      (c124_euler dt body t y _ h2 s).1 psi ham .none .none (by simp) (by simp)
        (.inr ⟨by simp, rfl⟩) (.inr ⟨by simp, rfl⟩) (by simp [stepReserved])]
  · simp only [stepReserved, List.cons_append, List.nil_append, List.mem_cons, List.not_mem_nil, or_false, not_or] at hk
    rw [(c124_heun dt body t y _ (by simp [OnceEach]; tauto) s).1 psi ham .none .none dt (by simp) (by simp)
        (.inr ⟨by simp; tauto, rfl⟩) (.inr ⟨by simp; tauto, rfl⟩) (.inr ⟨by simp; tauto, rfl⟩)
        (by simp [stepReserved]; tauto),
      (c124_heun dt body t y _ h2 s).1 psi ham .none .none dt (by simp) (by simp)
        (.inr ⟨by simp, rfl⟩) (.inr ⟨by simp, rfl⟩) (.inr ⟨by simp, rfl⟩) (by simp [stepReserved])]
  · simp only [ahReserved, List.cons_append, List.nil_append, List.mem_cons, List.not_mem_nil, or_false, not_or] at hk
    rw [(c124_adaptive norm₀ obj body t y _ (by simp [OnceEach]; tauto) w).1 psi ham .none .none norm₀ (by simp) (by simp)
        (.inr ⟨by simp; tauto, rfl⟩) (.inr ⟨by simp; tauto, rfl⟩) (.inr ⟨by simp; tauto, rfl⟩)
        (by simp [ahReserved]; tauto),
      (c124_adaptive norm₀ obj body t y _ h2 w).1 psi ham .none .none norm₀ (by simp) (by simp)
        (.inr ⟨by simp, rfl⟩) (.inr ⟨by simp, rfl⟩) (.inr ⟨by simp, rfl⟩) (by simp [ahReserved])]

/-- Case: `dt` for `Euler`, `normFunction` for `Heun`, `numSample` for `AdaptiveHeun`. -/
example : "dt" ∉ stepReserved ++ ["psi", "hamiltonian", "numSamples", "outp"] ∧
    "normFunction" ∉ stepReserved ++ ["psi", "hamiltonian", "numSamples", "outp", "dt"] ∧
    "numSample" ∉ ahReserved ++ ["psi", "hamiltonian", "numSamples", "outp", "normFunction"] := by decide

end JVMC
