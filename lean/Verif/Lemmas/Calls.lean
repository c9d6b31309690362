import Mathlib.Data.List.Nodup
import Mathlib.Tactic.IntervalCases
import Verif.Model.Calls
import Verif.Spec.Calls

/-! # Lemmas on calls with keyword arguments -/

namespace JVMC

open Spec

variable {V : Type}

theorem kwGet_isSome (l : List (String × V)) (k : String) : (kwGet l k).isSome ↔ ∃ v, (k, v) ∈ l := by
  unfold kwGet
  rw [Option.isSome_map, List.find?_isSome]
  constructor
  · rintro ⟨⟨a, v⟩, hm, hk⟩
    obtain rfl : a = k := by simpa using hk
    exact ⟨v, hm⟩
  · rintro ⟨v, hm⟩
    exact ⟨(k, v), hm, by simp⟩

theorem kwGet_eq_none (l : List (String × V)) (k : String) : kwGet l k = none ↔ ∀ v, (k, v) ∉ l := by
  rw [← Option.not_isSome_iff_eq_none, kwGet_isSome, not_exists]

theorem mem_of_kwGet {l : List (String × V)} {k : String} {v : V} (h : kwGet l k = some v) : (k, v) ∈ l := by
  unfold kwGet at h
  rw [Option.map_eq_some_iff] at h
  obtain ⟨⟨a, w⟩, hf, rfl⟩ := h
  have hk := List.find?_some hf
  obtain rfl : a = k := by simpa using hk
  exact List.mem_of_find?_eq_some hf

theorem onceEach_unique {l : List (String × V)} (hl : OnceEach l) {k : String} {v w : V} (hv : (k, v) ∈ l)
    (hw : (k, w) ∈ l) : v = w := by
  unfold OnceEach at hl
  induction l with
  | nil => cases hv
  | cons a l ih =>
    rw [List.map_cons, List.nodup_cons] at hl
    rcases List.mem_cons.mp hv with hv' | hv' <;> rcases List.mem_cons.mp hw with hw' | hw'
    · have := hv'.trans hw'.symm
      exact (Prod.mk.inj this).2
    · subst hv'
      exact absurd (List.mem_map_of_mem (f := Prod.fst) hw') hl.1
    · subst hw'
      exact absurd (List.mem_map_of_mem (f := Prod.fst) hv') hl.1
    · exact ih hl.2 hv' hw'

theorem kwGet_eq_some {l : List (String × V)} (hl : OnceEach l) (k : String) (v : V) :
    kwGet l k = some v ↔ (k, v) ∈ l := by
  constructor
  · exact mem_of_kwGet
  · intro h
    have hs : (kwGet l k).isSome := (kwGet_isSome l k).mpr ⟨v, h⟩
    obtain ⟨w, hw⟩ := Option.isSome_iff_exists.mp hs
    rw [hw, onceEach_unique hl (mem_of_kwGet hw) h]

theorem kwGet_append (a b : List (String × V)) (k : String) :
    kwGet (a ++ b) k = (kwGet a k).or (kwGet b k) := by
  unfold kwGet
  rw [List.find?_append]
  cases a.find? fun p => p.1 == k <;> rfl

/-- The arguments of a call that are parameters, and the others. -/
def knownKw (g : PySig) (kw : List (String × V)) : List (String × V) := kw.filter fun p => g.names.contains p.1

def otherKw (g : PySig) (kw : List (String × V)) : List (String × V) := kw.filter fun p => !g.names.contains p.1

theorem bindKw_ok (g : PySig) (kw : List (String × V)) (hkw : OnceEach kw) (b : Bound V)
    (h : ∀ k v, (k, v) ∈ kw → (k ∈ g.names ∧ kwGet b.vals k = none) ∨ (k ∉ g.names ∧ g.varKw = true)) :
    bindKw g kw b = .ok ⟨b.vals ++ knownKw g kw, b.extra ++ otherKw g kw⟩ := by
  induction kw generalizing b with
  | nil => simp [bindKw, knownKw, otherKw]
  | cons p kw ih =>
    obtain ⟨k, v⟩ := p
    have hkw' : OnceEach kw := (List.nodup_cons.mp hkw).2
    have hne : ∀ k' v', (k', v') ∈ kw → k ≠ k' := by
      rintro k' v' hm rfl
      exact (List.nodup_cons.mp hkw).1 (List.mem_map.mpr ⟨(k, v'), hm, rfl⟩)
    unfold bindKw
    rcases h k v List.mem_cons_self with ⟨hn, hb⟩ | ⟨hn, hb⟩
    · have hc : g.names.contains k = true := by simpa using hn
      rw [if_pos hc, hb]
      simp only [Option.isSome_none, Bool.false_eq_true, if_false]
      rw [ih hkw']
      · congr 2
        · simp [knownKw, hn]
        · simp [otherKw, hn]
      · intro k' v' hm
        rcases h k' v' (List.mem_cons_of_mem _ hm) with ⟨h1, h2⟩ | h1
        · refine .inl ⟨h1, ?_⟩
          rw [kwGet_append, h2]
          simp [kwGet, hne k' v' hm]
        · exact .inr h1
    · have hc : ¬ g.names.contains k = true := by simpa using hn
      rw [if_neg hc, if_pos hb, ih hkw']
      · congr 2
        · simp [knownKw, hn]
        · simp [otherKw, hn]
      · exact fun k' v' hm => h k' v' (List.mem_cons_of_mem _ hm)

theorem bindKw_error (g : PySig) (kw : List (String × V)) (b : Bound V)
    (h : ∃ k v, (k, v) ∈ kw ∧ ((k ∈ g.names ∧ (kwGet b.vals k).isSome) ∨ (k ∉ g.names ∧ g.varKw = false))) :
    bindKw g kw b = .error .typeError := by
  induction kw generalizing b with
  | nil => obtain ⟨_, _, hm, _⟩ := h; cases hm
  | cons p kw ih =>
    obtain ⟨k, v⟩ := p
    obtain ⟨k', v', hm, hb⟩ := h
    unfold bindKw
    by_cases hn : k ∈ g.names
    · have hc : g.names.contains k = true := by simpa using hn
      rw [if_pos hc]
      by_cases hs : (kwGet b.vals k).isSome
      · rw [if_pos hs]
      · rw [if_neg hs]
        rcases List.mem_cons.mp hm with he | hm'
        · obtain ⟨rfl, rfl⟩ := Prod.mk.inj he
          rcases hb with ⟨_, h2⟩ | ⟨h1, _⟩
          · exact absurd h2 hs
          · exact absurd hn h1
        · apply ih
          refine ⟨k', v', hm', ?_⟩
          rcases hb with ⟨h1, h2⟩ | h1
          · refine .inl ⟨h1, ?_⟩
            obtain ⟨w, hw⟩ := Option.isSome_iff_exists.mp h2
            change (kwGet (b.vals ++ [(k, v)]) k').isSome
            rw [kwGet_append, hw]
            rfl
          · exact .inr h1
    · have hc : ¬ g.names.contains k = true := by simpa using hn
      rw [if_neg hc]
      cases hv : g.varKw with
      | false => rfl
      | true =>
        simp only [if_true]
        rcases List.mem_cons.mp hm with he | hm'
        · obtain ⟨rfl, rfl⟩ := Prod.mk.inj he
          rcases hb with ⟨h1, _⟩ | ⟨_, h2⟩
          · exact absurd h1 hn
          · rw [hv] at h2; cases h2
        · exact ih _ ⟨k', v', hm', hb⟩

theorem mem_names (g : PySig) (k : String) : k ∈ g.names ↔ ∃ d, (k, d) ∈ g.pos ++ g.kwOnly := by
  unfold PySig.names
  rw [List.mem_map]
  constructor
  · rintro ⟨⟨a, d⟩, hm, rfl⟩; exact ⟨d, hm⟩
  · rintro ⟨d, hm⟩; exact ⟨_, hm, rfl⟩

theorem zip_fst_sublist (l : List String) (args : List V) : ((l.zip args).map Prod.fst).Sublist l := by
  induction l generalizing args with
  | nil => simp
  | cons a l ih =>
    cases args with
    | nil => simp
    | cons b args => simpa using ih args

/-- The positional arguments. -/
theorem kwGet_zip_isSome (l : List String) (args : List V) (k : String) :
    (kwGet (l.zip args) k).isSome ↔ ∃ i < args.length, l[i]? = some k := by
  rw [kwGet_isSome]
  constructor
  · rintro ⟨v, hm⟩
    obtain ⟨i, hi, he⟩ := List.mem_iff_getElem.mp hm
    rw [List.length_zip] at hi
    rw [List.getElem_zip] at he
    obtain ⟨h1, h2⟩ := Prod.mk.inj he
    exact ⟨i, by omega, by rw [List.getElem?_eq_getElem (by omega), h1]⟩
  · rintro ⟨i, hi, he⟩
    obtain ⟨hl, he'⟩ := List.getElem?_eq_some_iff.mp he
    refine ⟨args[i], List.mem_iff_getElem.mpr ⟨i, ?_, ?_⟩⟩
    · rw [List.length_zip]; omega
    · rw [List.getElem_zip, he']

/-- What a call that fits binds. -/
theorem bindCall_ok (g : PySig) (args : List V) (kw : List (String × V)) (hkw : OnceEach kw)
    (h : CallFits g.pos g.kwOnly g.varKw args kw) :
    bindCall g args kw = .ok ⟨(g.pos.map Prod.fst).zip args ++ knownKw g kw, otherKw g kw⟩ := by
  unfold bindCall
  rw [if_neg (by have := h.few; omega), bindKw_ok g kw hkw]
  · change (if _ then _ else _) = _
    rw [if_pos, List.nil_append]
    rw [List.all_eq_true]
    rintro ⟨k, d⟩ hm
    cases d with
    | true => rfl
    | false =>
      simp only [Bool.false_or]
      rw [kwGet_append]
      rcases h.complete k hm with ⟨v, hv⟩ | ⟨i, hi, he⟩
      · have : (kwGet (knownKw g kw) k).isSome := by
          rw [kwGet_isSome]
          refine ⟨v, List.mem_filter.mpr ⟨hv, ?_⟩⟩
          have : k ∈ g.names := (mem_names g k).mpr ⟨_, hm⟩
          simpa using this
        obtain ⟨w, hw⟩ := Option.isSome_iff_exists.mp this
        rw [hw]
        cases kwGet ((g.pos.map Prod.fst).zip args) k <;> rfl
      · have : (kwGet ((g.pos.map Prod.fst).zip args) k).isSome :=
          (kwGet_zip_isSome _ _ _).mpr ⟨i, hi, by rw [List.getElem?_map]; exact he⟩
        obtain ⟨w, hw⟩ := Option.isSome_iff_exists.mp this
        rw [hw]
        rfl
  · intro k v hm
    by_cases hn : k ∈ g.names
    · refine .inl ⟨hn, ?_⟩
      rw [← Option.not_isSome_iff_eq_none, kwGet_zip_isSome]
      rintro ⟨i, hi, he⟩
      exact h.once k v hm i hi (by rw [List.getElem?_map] at he; exact he)
    · rcases h.known k v hm with h1 | h1
      · exact .inr ⟨hn, h1⟩
      · exact absurd ((mem_names g k).mpr h1) hn

theorem bindCall_error (g : PySig) (args : List V) (kw : List (String × V)) (hkw : OnceEach kw)
    (h : ¬ CallFits g.pos g.kwOnly g.varKw args kw) : bindCall g args kw = .error .typeError := by
  unfold bindCall
  by_cases hf : g.pos.length < args.length
  · rw [if_pos hf]
  rw [if_neg hf]
  by_cases hb : ∀ k v, (k, v) ∈ kw →
      (k ∈ g.names ∧ kwGet ((g.pos.map Prod.fst).zip args) k = none) ∨ (k ∉ g.names ∧ g.varKw = true)
  · rw [bindKw_ok g kw hkw _ hb]
    change (if _ then _ else _) = _
    rw [if_neg]
    intro hall
    apply h
    refine ⟨by omega, ?_, ?_, ?_⟩
    · intro k v hm
      rcases hb k v hm with ⟨h1, _⟩ | ⟨_, h1⟩
      · exact .inr ((mem_names g k).mp h1)
      · exact .inl h1
    · intro k v hm i hi he
      have hs : (kwGet ((g.pos.map Prod.fst).zip args) k).isSome :=
        (kwGet_zip_isSome _ _ _).mpr ⟨i, hi, by rw [List.getElem?_map]; exact he⟩
      rcases hb k v hm with ⟨_, h1⟩ | ⟨h1, _⟩
      · rw [h1] at hs; cases hs
      · apply h1
        obtain ⟨q, hq, hk⟩ := Option.map_eq_some_iff.mp he
        exact (mem_names g k).mpr ⟨q.2, List.mem_append_left _ (by rw [← hk]; exact List.mem_of_getElem? hq)⟩
    · intro k hm
      rw [List.all_eq_true] at hall
      have := hall _ hm
      simp only [Bool.false_or] at this
      rw [kwGet_append, Option.isSome_or, Bool.or_eq_true, kwGet_zip_isSome, kwGet_isSome] at this
      rcases this with ⟨i, hi, he⟩ | ⟨v, hv⟩
      · exact .inr ⟨i, hi, by rw [List.getElem?_map] at he; exact he⟩
      · exact .inl ⟨v, (List.mem_filter.mp hv).1⟩
  · push Not at hb
    obtain ⟨k, v, hm, h1, h2⟩ := hb
    rw [bindKw_error]
    · rfl
    · refine ⟨k, v, hm, ?_⟩
      by_cases hn : k ∈ g.names
      · exact .inl ⟨hn, Option.isSome_iff_ne_none.mpr (h1 hn)⟩
      · exact .inr ⟨hn, by simpa using h2 hn⟩

/-! ## Time steps -/

variable {M σ : Type}

theorem otherKw_eq (g : PySig) (kw : List (String × V)) (h : ∀ k ∈ g.names, ∀ v, (k, v) ∉ kw) : otherKw g kw = kw := by
  unfold otherKw
  rw [List.filter_eq_self]
  rintro ⟨k, v⟩ hm
  have : k ∉ g.names := fun hn => h k hn v hm
  simpa using this

theorem kwGet_knownKw (g : PySig) (kw : List (String × V)) (hkw : OnceEach kw) (k : String) (hk : k ∈ g.names) :
    kwGet (knownKw g kw) k = kwGet kw k := by
  have hn : OnceEach (knownKw g kw) := hkw.sublist (List.filter_sublist.map _)
  cases hg : kwGet kw k with
  | none =>
    rw [kwGet_eq_none] at hg ⊢
    exact fun v hm => hg v (List.mem_filter.mp hm).1
  | some v =>
    rw [kwGet_eq_some hn]
    exact List.mem_filter.mpr ⟨mem_of_kwGet hg, by simpa using hk⟩

theorem kwGet_otherKw (g : PySig) (kw : List (String × V)) (hkw : OnceEach kw) (k : String) (hk : k ∉ g.names) :
    kwGet (otherKw g kw) k = kwGet kw k := by
  have hn : OnceEach (otherKw g kw) := hkw.sublist (List.filter_sublist.map _)
  cases hg : kwGet kw k with
  | none =>
    rw [kwGet_eq_none] at hg ⊢
    exact fun v hm => hg v (List.mem_filter.mp hm).1
  | some v =>
    rw [kwGet_eq_some hn]
    exact List.mem_filter.mpr ⟨mem_of_kwGet hg, by simpa using hk⟩

theorem onceEach_append (kw : List (String × V)) (hkw : OnceEach kw) (k : String) (v : V) (h : ∀ w, (k, w) ∉ kw) :
    OnceEach (kw ++ [(k, v)]) := by
  unfold OnceEach
  rw [List.map_append, List.map_singleton]
  refine List.Nodup.append hkw (by simp) ?_
  rw [List.disjoint_singleton]
  intro hm
  obtain ⟨⟨a, w⟩, hm', rfl⟩ := List.mem_map.mp hm
  exact h w hm'

theorem withKw_ok (kw : List (String × V)) (k : String) (v : V) (h : ∀ w, (k, w) ∉ kw) :
    withKw kw k v = .ok (kw ++ [(k, v)]) := by
  unfold withKw
  rw [(kwGet_eq_none kw k).mpr h]
  rfl

theorem withKw_error (kw : List (String × V)) (k : String) (v w : V) (h : (k, w) ∈ kw) :
    withKw kw k v = .error .typeError := by
  unfold withKw
  rw [if_pos ((kwGet_isSome kw k).mpr ⟨w, h⟩)]

/-- The keyword arguments a right-hand side accepts. -/
theorem rhsFits (a b c : V) (kw : List (String × V)) :
    CallFits rhsSig.pos rhsSig.kwOnly rhsSig.varKw [a, b, c] kw ↔
      (∃ v, ("psi", v) ∈ kw) ∧ (∃ v, ("hamiltonian", v) ∈ kw) ∧
        ∀ k ∈ ["self", "netParameters", "t"], ∀ v, (k, v) ∉ kw := by
  constructor
  · intro h
    have h3 : ∀ k ∈ ["self", "netParameters", "t"], ∀ v, (k, v) ∉ kw := by
      intro k hk v hm
      have := h.once k v hm
      simp only [List.mem_cons, List.not_mem_nil, or_false] at hk
      rcases hk with rfl | rfl | rfl
      · exact this 0 (by simp) (by simp [rhsSig])
      · exact this 1 (by simp) (by simp [rhsSig])
      · exact this 2 (by simp) (by simp [rhsSig])
    have hc : ∀ k ∈ ["psi", "hamiltonian"], ∃ v, (k, v) ∈ kw := by
      intro k hk
      rcases h.complete k (by revert hk; simp [rhsSig]; rintro (rfl | rfl) <;> simp) with h' | ⟨i, hi, he⟩
      · exact h'
      · exfalso
        have hi : i < 3 := hi
        simp only [List.mem_cons, List.not_mem_nil, or_false] at hk
        rcases hk with rfl | rfl <;> interval_cases i <;> simp [rhsSig] at he
    exact ⟨hc _ (by simp), hc _ (by simp), h3⟩
  · rintro ⟨h1, h2, h3⟩
    refine ⟨by simp [rhsSig], fun _ _ _ => .inl rfl, ?_, ?_⟩
    · intro k v hm i hi he
      have hi : i < 3 := hi
      refine h3 k ?_ v hm
      interval_cases i <;> · simp [rhsSig] at he; simp [← he]
    · intro k hk
      simp only [rhsSig, List.cons_append, List.nil_append, List.mem_cons, Prod.mk.injEq, and_true, List.not_mem_nil,
        or_false] at hk
      rcases hk with rfl | rfl | rfl | rfl | rfl
      · exact .inr ⟨0, by simp, by simp [rhsSig]⟩
      · exact .inr ⟨1, by simp, by simp [rhsSig]⟩
      · exact .inr ⟨2, by simp, by simp [rhsSig]⟩
      · exact .inl h1
      · exact .inl h2

/-- A signature whose parameters are all given by position. -/
theorem posFits (g : PySig) (hk : g.kwOnly = []) (hv : g.varKw = true) (args : List V) (hl : args.length ≤ g.pos.length)
    (hd : ∀ i (h : i < g.pos.length), args.length ≤ i → g.pos[i].2 = true) (kw : List (String × V)) :
    CallFits g.pos g.kwOnly g.varKw args kw ↔ ∀ k ∈ (g.pos.map Prod.fst).take args.length, ∀ v, (k, v) ∉ kw := by
  constructor
  · intro h k hk v hm
    obtain ⟨i, hi, he⟩ := List.mem_iff_getElem.mp hk
    rw [List.length_take] at hi
    refine h.once k v hm i (by omega) ?_
    rw [← List.getElem?_map, ← he, List.getElem_take, List.getElem?_eq_getElem]
  · intro h
    refine ⟨hl, fun _ _ _ => .inl hv, ?_, ?_⟩
    · intro k v hm i hi he
      refine h k ?_ v hm
      rw [← List.getElem?_map] at he
      obtain ⟨h', he⟩ := List.getElem?_eq_some_iff.mp he
      exact List.mem_iff_getElem.mpr ⟨i, by rw [List.length_take]; omega, by rw [List.getElem_take]; exact he⟩
    · intro k hm
      rw [hk, List.append_nil] at hm
      obtain ⟨i, hi, he⟩ := List.mem_iff_getElem.mp hm
      refine .inr ⟨i, ?_, ?_⟩
      · by_contra hc
        have := hd i hi (by omega)
        rw [he] at this
        cases this
      · rw [List.getElem?_eq_getElem hi, he]
        rfl

/-- The value of an optional argument. -/
theorem value_getD {kw : List (String × V)} (hkw : OnceEach kw) {k : String} {d v : V} (h : Value kw k d v) :
    (kwGet kw k).getD d = v := by
  rcases h with h | ⟨h, rfl⟩
  · rw [(kwGet_eq_some hkw k v).mpr h]; rfl
  · rw [(kwGet_eq_none kw k).mpr h]; rfl

theorem rhsCall_ok (body : RhsUse M → M → ℝ → σ → M × σ) (kw : List (String × RVal M)) (hkw : OnceEach kw) (y : M) (t : ℝ)
    (s : σ) (psi ham ns outp : RVal M) (hp : ("psi", psi) ∈ kw) (hh : ("hamiltonian", ham) ∈ kw)
    (hn : Value kw "numSamples" .none ns) (ho : Value kw "outp" .none outp)
    (hr : ∀ k ∈ ["self", "netParameters", "t"], ∀ v, (k, v) ∉ kw) :
    rhsCall body kw y t s = .ok (body ⟨psi, ham, ns, outp, kwGet kw "intStep"⟩ y t s) := by
  unfold rhsCall
  rw [bindCall_ok rhsSig _ kw hkw ((rhsFits _ _ _ kw).mpr ⟨⟨_, hp⟩, ⟨_, hh⟩, hr⟩)]
  change Except.bind (Except.ok _) _ = _
  dsimp only [Except.bind]
  have hz : ∀ k ∈ ["psi", "hamiltonian"], kwGet ((rhsSig.pos.map Prod.fst).zip [RVal.obj 0, RVal.obj 1, .num t] ++ knownKw rhsSig kw) k =
      kwGet kw k := by
    intro k hk
    rw [kwGet_append, kwGet_knownKw rhsSig kw hkw k (by revert hk; simp [rhsSig, PySig.names]; tauto)]
    have : kwGet ((rhsSig.pos.map Prod.fst).zip [RVal.obj (M := M) 0, RVal.obj 1, .num t]) k = none := by
      simp only [List.mem_cons, List.not_mem_nil, or_false] at hk
      rcases hk with rfl | rfl <;> rfl
    rw [this]; rfl
  have he : ∀ k ∈ ["numSamples", "outp", "intStep"], kwGet (otherKw rhsSig kw) k = kwGet kw k := by
    intro k hk
    exact kwGet_otherKw rhsSig kw hkw k (by
      simp only [List.mem_cons, List.not_mem_nil, or_false] at hk
      rcases hk with rfl | rfl | rfl <;> simp [rhsSig, PySig.names])
  rw [hz _ (by simp), hz _ (by simp), (kwGet_eq_some hkw _ _).mpr hp, (kwGet_eq_some hkw _ _).mpr hh]
  dsimp only
  rw [he _ (by simp), he _ (by simp), he _ (by simp)]
  have h1 := value_getD hkw hn
  have h2 := value_getD hkw ho
  congr 2
  rw [← h1, ← h2]
  cases kwGet kw "numSamples" <;> cases kwGet kw "outp" <;> rfl

theorem rhsCall_error (body : RhsUse M → M → ℝ → σ → M × σ) (kw : List (String × RVal M)) (hkw : OnceEach kw) (y : M)
    (t : ℝ) (s : σ) (h : (∀ v, ("psi", v) ∉ kw) ∨ (∀ v, ("hamiltonian", v) ∉ kw) ∨
      ∃ k ∈ ["self", "netParameters", "t"], ∃ v, (k, v) ∈ kw) : rhsCall body kw y t s = .error .typeError := by
  unfold rhsCall
  rw [bindCall_error rhsSig _ kw hkw]
  · rfl
  · rw [rhsFits]
    rintro ⟨⟨p, hp⟩, ⟨q, hq⟩, hr⟩
    rcases h with h | h | ⟨k, hk, v, hm⟩
    · exact h p hp
    · exact h q hq
    · exact hr k hk v hm

end JVMC
