import Verif.Spec.OutputManager

/-!
# Lemmas about the output files
-/

namespace JVMC

open Spec

/-! ## The monad -/

theorem h5_bind {A B : Type} (m : H5M A) (k : A → H5M B) (l : H5Log) :
    (m >>= k).call l = match m.call l with
      | (.ok a, s) => (k a).call s
      | (.error e, s) => (.error e, s) := by
  change (ExceptT.run (m >>= k)).run l = _
  rw [ExceptT.run_bind]
  change (StateT.run (ExceptT.run m >>= _) l) = _
  rw [StateT.run_bind]
  change (match (ExceptT.run m).run l with | (a, s) => _) = _
  unfold H5M.call
  cases (ExceptT.run m).run l with
  | mk a s => cases a <;> rfl

theorem h5_bind_ok {A B : Type} (m : H5M A) (k : A → H5M B) (l l' : H5Log) (a : A)
    (h : m.call l = (.ok a, l')) : (m >>= k).call l = (k a).call l' := by
  rw [h5_bind, h]

theorem h5_pure {A : Type} (a : A) (l : H5Log) : (pure a : H5M A).call l = (.ok a, l) := rfl

theorem h5_throw {A : Type} (e : PyErr) (l : H5Log) : (throw e : H5M A).call l = (.error e, l) := rfl

theorem call_h5File (l : H5Log) : h5File.call l = (.ok l.now, l) := rfl

theorem call_h5Put (f : H5File) (l : H5Log) : (h5Put f).call l = (.ok (), ⟨f, l.now :: l.past⟩) := rfl

/-! ## Where code writes -/

/-- Whatever happens, the code changes only objects strictly inside the group `G`; all intermediate
states are like that too. -/
def Inside {A : Type} (G : List String) (m : H5M A) : Prop :=
  ∀ l : H5Log, (∀ q, q <+: G → l.now q = some .group) → ∃ new, (m.call l).2.past = new ++ l.past ∧
    ∀ f ∈ (m.call l).2.now :: new, ∀ q, ¬ (G <+: q ∧ q ≠ G) → f q = l.now q

theorem Inside.pure {A : Type} (G : List String) (a : A) : Inside G (pure a : H5M A) := by
  intro l _
  exact ⟨[], rfl, by simp [h5_pure]⟩

theorem Inside.throw {A : Type} (G : List String) (e : PyErr) : Inside G (throw e : H5M A) := by
  intro l _
  exact ⟨[], rfl, by simp [h5_throw]⟩

theorem Inside.bind {A B : Type} (G : List String) (m : H5M A) (k : A → H5M B) (hm : Inside G m)
    (hk : ∀ a, Inside G (k a)) : Inside G (m >>= k) := by
  intro l hl
  obtain ⟨new, hp, hf⟩ := hm l hl
  rw [h5_bind]
  cases hc : m.call l with
  | mk a s =>
    rw [hc] at hp hf
    cases a with
    | error e => exact ⟨new, hp, hf⟩
    | ok a =>
      dsimp only at hp hf ⊢
      have hs : ∀ q, q <+: G → s.now q = some .group := by
        intro q hq
        rw [hf s.now (by simp) q ?_]
        · exact hl q hq
        · rintro ⟨h1, h2⟩
          exact h2 (h1.eq_of_length (le_antisymm h1.length_le hq.length_le)).symm
      obtain ⟨new', hp', hf'⟩ := hk a s hs
      refine ⟨new' ++ new, by rw [hp', hp, List.append_assoc], ?_⟩
      intro f hfm q hq
      rw [← List.cons_append, List.mem_append] at hfm
      rcases hfm with h | h
      · rw [hf' f h q hq, hf s.now (by simp) q hq]
      · exact hf f (by simp [h]) q hq

theorem Inside.file (G : List String) : Inside G h5File := by
  intro l _
  exact ⟨[], rfl, by simp [call_h5File]⟩

theorem Inside.ite {A : Type} (G : List String) (c : Prop) [Decidable c] (a b : H5M A) (ha : Inside G a)
    (hb : Inside G b) : Inside G (if c then a else b) := by
  split_ifs
  · exact ha
  · exact hb

theorem Inside.in' (G : List String) (name group : HName) : Inside G (h5In name group) := by
  unfold h5In
  refine Inside.bind _ _ _ (Inside.file _) fun f => ?_
  split
  · exact Inside.throw _ _
  · exact Inside.pure _ _
  · exact Inside.throw _ _

theorem Inside.dset (G : List String) (name : HName) : Inside G (h5Dset name) := by
  unfold h5Dset
  refine Inside.bind _ _ _ (Inside.file _) fun f => ?_
  split
  · exact Inside.throw _ _
  · exact Inside.pure _ _
  · exact Inside.throw _ _

theorem Inside.shape (G : List String) (v : PyVal) : Inside G (valShape v) := by
  unfold valShape
  split
  · exact Inside.throw _ _
  · exact Inside.pure _ _

theorem groups_inside (G : List String) (f : H5File) (p : List String)
    (hf : ∀ q, q <+: G → f q = some .group) (hp : G <+: p ∧ p ≠ G) (o : Option H5Obj) (q : List String)
    (hq : ¬ (G <+: q ∧ q ≠ G)) : Function.update (h5Groups f p) p o q = f q := by
  have hqp : q ≠ p := fun h => hq (h ▸ hp)
  rw [Function.update_of_ne hqp]
  unfold h5Groups
  rw [if_neg]
  rintro ⟨h1, -, h2⟩
  have hqG : q <+: G := by
    rcases List.prefix_or_prefix_of_prefix h1 hp.1 with h | h
    · exact h
    · by_cases he : q = G
      · rw [he]
      · exact absurd ⟨h, he⟩ hq
  rw [hf q hqG] at h2
  cases h2

theorem Inside.create (G : List String) (name : HName) (hp : G <+: name.path ∧ name.path ≠ G) (o : H5Obj) :
    Inside G (h5Create name o) := by
  unfold h5Create
  intro l hl
  rw [h5_bind_ok _ _ _ _ _ (call_h5File l)]
  dsimp only
  split_ifs with h
  · exact ⟨[], rfl, by simp [h5_throw]⟩
  · refine ⟨[l.now], rfl, ?_⟩
    intro f hf q hq
    rw [List.mem_cons, List.mem_singleton] at hf
    rcases hf with rfl | rfl
    · exact groups_inside G l.now name.path hl hp _ q hq
    · rfl

theorem Inside.update (G : List String) (p : List String) (hp : G <+: p ∧ p ≠ G) (o : Option H5Obj) :
    Inside G (do
      let f ← h5File
      h5Put (Function.update f p o) : H5M Unit) := by
  intro l hl
  refine ⟨[l.now], rfl, ?_⟩
  intro f hf q hq
  rw [List.mem_cons, List.mem_singleton] at hf
  rcases hf with rfl | rfl
  · exact Function.update_of_ne (fun h => hq (by rw [h]; exact hp)) _ _
  · rfl

theorem Inside.createGroup (G : List String) (name : HName) (hp : G <+: name.path ∧ name.path ≠ G) :
    Inside G (h5CreateGroup name) := Inside.create G name hp _

theorem Inside.createDset (G : List String) (name : HName) (hp : G <+: name.path ∧ name.path ≠ G) (s : List ℕ) :
    Inside G (h5CreateDset name s) := Inside.create G name hp _

theorem Inside.resize (G : List String) (name : HName) (hp : G <+: name.path ∧ name.path ≠ G) (n : ℕ) (s : List ℕ) :
    Inside G (h5Resize name n s) := by
  unfold h5Resize
  refine Inside.bind _ _ _ (Inside.dset _ _) fun d => ?_
  split_ifs
  · exact Inside.bind _ _ _ (Inside.throw _ _) fun _ => Inside.update G _ hp _
  · exact Inside.update G _ hp _

theorem Inside.setLast (G : List String) (name : HName) (hp : G <+: name.path ∧ name.path ≠ G) (v : List ℕ → ℝ) :
    Inside G (h5SetLast name v) := by
  unfold h5SetLast
  refine Inside.bind _ _ _ (Inside.dset _ _) fun d => ?_
  split_ifs
  · exact Inside.bind _ _ _ (Inside.throw _ _) fun _ => Inside.update G _ hp _
  · exact Inside.update G _ hp _

theorem Inside.forM {A : Type} (G : List String) (l : List A) (k : A → H5M Unit) (hk : ∀ a ∈ l, Inside G (k a)) :
    Inside G (l.forM k) := by
  induction l with
  | nil => exact Inside.pure _ _
  | cons a l ih =>
    change Inside G (k a >>= fun _ => l.forM k)
    exact Inside.bind _ _ _ (hk a (by simp)) fun _ => ih fun a ha => hk a (by simp [ha])

theorem path_append (a b : HName) : HName.path (a ++ b) = HName.path a ++ HName.path b := by
  unfold HName.path
  exact List.filter_append _ _

theorem inside_path (cur rest : HName) (c : String) (hc : c ≠ "") :
    HName.path cur <+: HName.path (cur ++ c :: rest) ∧ HName.path (cur ++ c :: rest) ≠ HName.path cur := by
  rw [path_append]
  refine ⟨List.prefix_append _ _, fun h => ?_⟩
  have := congrArg List.length h
  rw [List.length_append] at this
  have h2 : HName.path (c :: rest) ≠ [] := by
    unfold HName.path
    rw [List.filter_cons_of_pos (by simpa using hc)]
    simp
  exact h2 (List.length_eq_zero_iff.mp (by omega))

/-! ## What a write does to a well-formed file -/

/-- Declared datasets: `T p` is the shape of the rows of the dataset at `p`. -/
abbrev H5Decl := List String → Option (List ℕ)

/-- No dataset lies inside another one. -/
def PrefixFree (T : H5Decl) : Prop := ∀ p q, T p ≠ none → T q ≠ none → p <+: q → p = q

/-- The datasets in the file are among the declared ones, and everything on the way to an object is a group. -/
structure Declared (T : H5Decl) (f : H5File) : Prop where
  root : f [] = some .group
  obj : ∀ q o, f q = some o → (o = .group ∧ T q = none) ∨
    ∃ d, o = .dset d ∧ T q = some d.rowMax ∧ d.rowShape = d.rowMax ∧ ∀ r ∈ d.rows, clip d.rowMax r = r
  above : ∀ q q', f q ≠ none → q' <+: q → q' ≠ q → f q' = some .group

/-- The file with a row appended to the dataset at `p`, which is created if missing. -/
def touch (f : H5File) (p : List String) (v : NdArr) : H5File :=
  Function.update (h5Groups f p) p (some (.dset ⟨v.shape, v.shape, rowsAt f p ++ [NdArr.row v]⟩))

theorem clip_clip (s : List ℕ) (f : List ℕ → ℝ) : clip s (clip s f) = clip s f := by
  funext idx
  unfold clip
  split_ifs <;> rfl

theorem rowsAt_touch (f : H5File) (p : List String) (v : NdArr) (q : List String) :
    rowsAt (touch f p v) q = if q = p then rowsAt f p ++ [NdArr.row v] else rowsAt f q := by
  unfold touch
  split_ifs with h
  · subst h
    unfold rowsAt
    rw [Function.update_self]
  · conv_lhs => unfold rowsAt
    rw [Function.update_of_ne h]
    unfold h5Groups
    split_ifs with h2
    · unfold rowsAt
      rw [Option.isNone_iff_eq_none.mp h2.2.2]
    · rfl

theorem declared_dset {T : H5Decl} {f : H5File} (h : Declared T f) {p : List String} {s : List ℕ}
    (hp : T p = some s) : f p = none ∨ ∃ d, f p = some (.dset d) ∧ d.rowMax = s ∧ d.rowShape = s ∧
      ∀ r ∈ d.rows, clip s r = r := by
  cases hf : f p with
  | none => exact .inl rfl
  | some o =>
    right
    rcases h.obj p o hf with ⟨_, h2⟩ | ⟨d, rfl, h2, h3, h4⟩
    · rw [hp] at h2; cases h2
    · rw [hp] at h2
      have := Option.some.inj h2
      exact ⟨d, rfl, this.symm, h3.trans this.symm, by rw [this]; exact h4⟩

theorem prefix_not_declared {T : H5Decl} (hT : PrefixFree T) {p q : List String} {s : List ℕ} (hp : T p = some s)
    (hq : q <+: p) (hne : q ≠ p) : T q = none := by
  by_contra h
  exact hne (hT q p h (by rw [hp]; simp) hq)

/-- Adding an object at a declared path. -/
theorem declared_update {T : H5Decl} (hT : PrefixFree T) {f : H5File} (h : Declared T f) {p : List String}
    {s : List ℕ} (hp : T p = some s) (hp0 : p ≠ []) (rows : List (List ℕ → ℝ)) (hrows : ∀ r ∈ rows, clip s r = r) :
    Declared T (Function.update (h5Groups f p) p (some (.dset ⟨s, s, rows⟩))) := by
  have hg : ∀ q, q <+: p → q ≠ p → f q = none ∨ f q = some .group := by
    intro q hq hne
    cases hf : f q with
    | none => exact .inl rfl
    | some o =>
      right
      rcases h.obj q o hf with ⟨rfl, _⟩ | ⟨d, _, h2, _⟩
      · rfl
      · rw [prefix_not_declared hT hp hq hne] at h2
        cases h2
  have hup : ∀ q, q <+: p → q ≠ p → Function.update (h5Groups f p) p (some (.dset ⟨s, s, rows⟩)) q = some .group := by
    intro q hq hne
    rw [Function.update_of_ne hne]
    unfold h5Groups
    rcases hg q hq hne with h' | h'
    · rw [if_pos ⟨hq, hne, by rw [h']; rfl⟩]
    · rw [if_neg (by rw [h']; simp), h']
  have hother : ∀ q, ¬ q <+: p → Function.update (h5Groups f p) p (some (.dset ⟨s, s, rows⟩)) q = f q := by
    intro q hq
    rw [Function.update_of_ne (fun h => hq (by rw [h])), h5Groups, if_neg (fun h => hq h.1)]
  refine ⟨hup [] (List.nil_prefix) (Ne.symm hp0), ?_, ?_⟩
  · intro q o ho
    by_cases hqp : q = p
    · subst hqp
      rw [Function.update_self] at ho
      right
      exact ⟨_, (Option.some.inj ho).symm, hp, rfl, hrows⟩
    · by_cases hq : q <+: p
      · rw [hup q hq hqp] at ho
        left
        exact ⟨(Option.some.inj ho).symm, prefix_not_declared hT hp hq hqp⟩
      · rw [hother q hq] at ho
        exact h.obj q o ho
  · intro q q' hq hq' hne
    by_cases hpre : q' <+: p
    · by_cases hq'p : q' = p
      · -- nothing lies inside a dataset
        exfalso
        subst hq'p
        have hqn : ¬ q <+: q' := fun h2 => hne (hq'.eq_of_length (le_antisymm hq'.length_le h2.length_le))
        rw [hother q hqn] at hq
        have := h.above q q' hq hq' hne
        rcases h.obj _ _ this with ⟨_, h2⟩ | ⟨d, h2, _⟩
        · rw [hp] at h2; cases h2
        · cases h2
      · exact hup q' hpre hq'p
    · rw [hother q' hpre]
      have hqn : ¬ q <+: p := fun h2 => hpre (hq'.trans h2)
      rw [hother q hqn] at hq
      exact h.above q q' hq hq' hne

theorem declared_touch {T : H5Decl} (hT : PrefixFree T) {f : H5File} (h : Declared T f) {p : List String}
    (v : NdArr) (hp : T p = some v.shape) (hp0 : p ≠ []) : Declared T (touch f p v) := by
  refine declared_update hT h hp hp0 _ ?_
  intro r hr
  rw [List.mem_append, List.mem_singleton] at hr
  rcases hr with hr | rfl
  · rcases declared_dset h hp with h' | ⟨d, h', _, _, h4⟩
    · unfold rowsAt at hr; rw [h'] at hr; cases hr
    · unfold rowsAt at hr; rw [h'] at hr; exact h4 r hr
  · exact clip_clip _ _

/-- Creating groups. -/
theorem declared_group {T : H5Decl} {f : H5File} (h : Declared T f) {p : List String}
    (hp : ∀ q, q <+: p → T q = none) :
    Declared T (Function.update (h5Groups f p) p (some .group)) := by
  have hg : ∀ q, q <+: p → f q = none ∨ f q = some .group := by
    intro q hq
    cases hf : f q with
    | none => exact .inl rfl
    | some o =>
      right
      rcases h.obj q o hf with ⟨rfl, _⟩ | ⟨d, _, h2, _⟩
      · rfl
      · rw [hp q hq] at h2
        cases h2
  have hup : ∀ q, q <+: p → Function.update (h5Groups f p) p (some .group) q = some .group := by
    intro q hq
    by_cases hne : q = p
    · rw [hne, Function.update_self]
    rw [Function.update_of_ne hne]
    unfold h5Groups
    rcases hg q hq with h' | h'
    · rw [if_pos ⟨hq, hne, by rw [h']; rfl⟩]
    · rw [if_neg (by rw [h']; simp), h']
  have hother : ∀ q, ¬ q <+: p → Function.update (h5Groups f p) p (some .group) q = f q := by
    intro q hq
    rw [Function.update_of_ne (fun h => hq (by rw [h])), h5Groups, if_neg (fun h => hq h.1)]
  refine ⟨hup [] (List.nil_prefix), ?_, ?_⟩
  · intro q o ho
    by_cases hq : q <+: p
    · rw [hup q hq] at ho
      left
      exact ⟨(Option.some.inj ho).symm, hp q hq⟩
    · rw [hother q hq] at ho
      exact h.obj q o ho
  · intro q q' hq hq' hne
    by_cases hpre : q' <+: p
    · exact hup q' hpre
    · rw [hother q' hpre]
      have hqn : ¬ q <+: p := fun h2 => hpre (hq'.trans h2)
      rw [hother q hqn] at hq
      exact h.above q q' hq hq' hne

theorem rowsAt_group {T : H5Decl} {f : H5File} (h : Declared T f) {p : List String}
    (hp : T p = none) (q : List String) :
    rowsAt (Function.update (h5Groups f p) p (some .group)) q = rowsAt f q := by
  by_cases hqp : q = p
  · subst hqp
    unfold rowsAt
    rw [Function.update_self]
    cases hf : f q with
    | none => rfl
    | some o =>
      rcases h.obj q o hf with ⟨rfl, _⟩ | ⟨d, _, h2, _⟩
      · rfl
      · rw [hp] at h2; cases h2
  · unfold rowsAt
    rw [Function.update_of_ne hqp]
    unfold h5Groups
    split_ifs with h2
    · rw [Option.isNone_iff_eq_none.mp h2.2.2]
    · rfl

theorem not_blocked {T : H5Decl} {f : H5File} (h : Declared T f) {p : List String}
    (hp : ∀ q, q <+: p → q ≠ p → T q = none) : h5Blocked f p = false := by
  unfold h5Blocked
  rw [List.any_eq_false]
  intro q hq
  rw [List.mem_inits] at hq
  by_cases hne : q = p
  · simp [hne]
  · cases hf : f q with
    | none => simp
    | some o =>
      rcases h.obj q o hf with ⟨rfl, _⟩ | ⟨d, _, h2, _⟩
      · simp
      · rw [hp q hq hne] at h2; cases h2

theorem intact_refl (f : H5File) : Intact f f := fun _ d h => ⟨d, h, rfl, List.prefix_rfl⟩

theorem intact_trans {f g h : H5File} (a : Intact f g) (b : Intact g h) : Intact f h := by
  intro q d hd
  obtain ⟨d', h1, h2, h3⟩ := a q d hd
  obtain ⟨d'', h4, h5, h6⟩ := b q d' h1
  exact ⟨d'', h4, h5.trans h2, h3.trans h6⟩

/-- Code that takes one file to another, keeping all rows at all times. -/
def Does (m : H5M Unit) (f f' : H5File) : Prop :=
  ∀ past, ∃ new, m.call ⟨f, past⟩ = (.ok (), ⟨f', new ++ past⟩) ∧ (∀ g ∈ new, Intact f g) ∧ Intact f f'

theorem Does.bind {m : H5M Unit} {k : Unit → H5M Unit} {f g h : H5File} (a : Does m f g) (b : Does (k ()) g h) :
    Does (m >>= k) f h := by
  intro past
  obtain ⟨n1, e1, k1, k1'⟩ := a past
  obtain ⟨n2, e2, k2, k2'⟩ := b (n1 ++ past)
  refine ⟨n2 ++ n1, ?_, ?_, intact_trans k1' k2'⟩
  · rw [h5_bind_ok _ _ _ _ _ e1, e2, List.append_assoc]
  · intro x hx
    rw [List.mem_append] at hx
    rcases hx with hx | hx
    · exact intact_trans k1' (k2 x hx)
    · exact k1 x hx

theorem Does.pure (f : H5File) : Does (pure ()) f f := fun _ => ⟨[], rfl, by simp, intact_refl f⟩

/-- Code that only reads can be replaced by its result. -/
theorem Does.read {A : Type} {m : H5M A} {k : A → H5M Unit} {f h : H5File} (a : A)
    (hm : ∀ past, m.call ⟨f, past⟩ = (.ok a, ⟨f, past⟩)) (b : Does (k a) f h) : Does (m >>= k) f h := by
  intro past
  rw [h5_bind_ok _ _ _ _ _ (hm past)]
  exact b past

theorem call_in (f : H5File) (name group : HName) (hg : f group.path = some .group) (past : List H5File) :
    (h5In name group).call ⟨f, past⟩ = (.ok (f (HName.path (group ++ name))).isSome, ⟨f, past⟩) := by
  unfold h5In
  rw [h5_bind_ok _ _ _ _ _ (call_h5File _)]
  dsimp only
  rw [hg]
  rfl

theorem call_dset (f : H5File) (name : HName) (d : H5Dset) (h : f name.path = some (.dset d)) (past : List H5File) :
    (h5Dset name).call ⟨f, past⟩ = (.ok d, ⟨f, past⟩) := by
  unfold h5Dset
  rw [h5_bind_ok _ _ _ _ _ (call_h5File _)]
  dsimp only
  rw [h]
  rfl

theorem keeps_update {f : H5File} {p : List String} {d : H5Dset} {o : H5Dset} (h : f p = some (.dset d))
    (hs : o.rowShape = d.rowShape) (hr : d.rows <+: o.rows) :
    Intact f (Function.update f p (some (.dset o))) := by
  intro q e he
  by_cases hq : q = p
  · subst hq
    rw [h] at he
    cases he
    exact ⟨o, Function.update_self _ _ _, hs, hr⟩
  · exact ⟨e, by rw [Function.update_of_ne hq]; exact he, rfl, List.prefix_rfl⟩

/-- Appending a row to an existing dataset. -/
theorem does_append (f : H5File) (name : HName) (d : H5Dset) (s : List ℕ) (v : List ℕ → ℝ)
    (h : f name.path = some (.dset d)) (h1 : d.rowMax = s) (h2 : d.rowShape = s) (h3 : ∀ r ∈ d.rows, clip s r = r) :
    Does (do
      h5Resize name (d.rows.length + 1) s
      h5SetLast name v) f (Function.update f name.path (some (.dset ⟨s, s, d.rows ++ [clip s v]⟩))) := by
  have hmap : d.rows.map (clip s) = d.rows := by
    conv_rhs => rw [← List.map_id d.rows]
    exact List.map_congr_left h3
  have hrows : (d.rows.take (d.rows.length + 1) ++ List.replicate (d.rows.length + 1 - d.rows.length)
      fun _ => (0 : ℝ)).map (clip s) = d.rows ++ [clip s fun _ => 0] := by
    rw [List.take_of_length_le (by omega), show d.rows.length + 1 - d.rows.length = 1 by omega, List.map_append, hmap]
    rfl
  intro past
  refine ⟨[Function.update f name.path (some (.dset ⟨s, s, d.rows ++ [clip s fun _ => 0]⟩)), f], ?_, ?_,
    keeps_update h h2.symm (List.prefix_append _ _)⟩
  · have e1 : (h5Resize name (d.rows.length + 1) s).call ⟨f, past⟩ = (.ok (),
        ⟨Function.update f name.path (some (.dset ⟨s, s, d.rows ++ [clip s fun _ => 0]⟩)), f :: past⟩) := by
      unfold h5Resize
      rw [h5_bind_ok _ _ _ _ _ (call_dset f name d h past)]
      dsimp only
      rw [if_neg, h5_bind_ok _ _ _ _ _ (call_h5File _), call_h5Put, hrows, h1]
      rw [h1]
      rintro (hc | ⟨x, hx, hc⟩)
      · exact hc rfl
      · obtain ⟨i, hi, rfl⟩ := List.getElem_of_mem hx
        rw [List.getElem_zip] at hc
        exact absurd hc (lt_irrefl _)
    rw [h5_bind_ok _ _ _ _ _ e1]
    unfold h5SetLast
    rw [h5_bind_ok _ _ _ _ _ (call_dset _ name ⟨s, s, d.rows ++ [clip s fun _ => 0]⟩ (Function.update_self _ _ _) _)]
    dsimp only
    rw [if_neg (by simp), h5_bind_ok _ _ _ _ _ (call_h5File _), call_h5Put]
    dsimp only
    rw [Function.update_idem]
    simp only [List.length_append, List.length_singleton, Nat.add_sub_cancel]
    rw [List.set_append_right _ _ le_rfl, Nat.sub_self]
    rfl
  · intro g hg
    rw [List.mem_cons, List.mem_singleton] at hg
    rcases hg with rfl | rfl
    · exact keeps_update h h2.symm (List.prefix_append _ _)
    · exact intact_refl _

/-- Creating an object. -/
theorem does_create (f : H5File) (name : HName) (o : H5Obj) (h : f name.path = none)
    (hb : h5Blocked f name.path = false) :
    Does (h5Create name o) f (Function.update (h5Groups f name.path) name.path (some o)) := by
  intro past
  refine ⟨[f], ?_, by simpa using intact_refl f, ?_⟩
  · unfold h5Create
    rw [h5_bind_ok _ _ _ _ _ (call_h5File _)]
    dsimp only
    rw [if_neg (by simp [h, hb])]
    rfl
  · intro q d hd
    refine ⟨d, ?_, rfl, List.prefix_rfl⟩
    rw [Function.update_of_ne (by rintro rfl; rw [h] at hd; cases hd)]
    unfold h5Groups
    rw [if_neg (by rw [hd]; simp), hd]

/-- The whole block: create the dataset if missing, append a row. -/
theorem does_writeKey {T : H5Decl} (hT : PrefixFree T) {f : H5File} (hf : Declared T f) (grp key : HName) (v : NdArr)
    (hg : f grp.path = some .group) (hp : T (HName.path (grp ++ key)) = some v.shape) :
    Does (omWriteKey grp key (some v)) f (touch f (HName.path (grp ++ key)) v) := by
  unfold omWriteKey
  refine Does.read _ (fun past => call_in f key grp hg past) ?_
  rcases declared_dset hf hp with h0 | ⟨d, hd, h1, h2, h3⟩
  · rw [h0]
    simp only [Option.isSome_none, Bool.not_false, if_true]
    have hbl := not_blocked hf (p := HName.path (grp ++ key)) fun q hq hne => prefix_not_declared hT hp hq hne
    refine Does.read v (fun past => rfl) ?_
    refine (does_create f (grp ++ key) (.dset ⟨v.shape, v.shape, []⟩) h0 hbl).bind ?_
    refine Does.read _ (fun past => call_dset _ _ ⟨v.shape, v.shape, []⟩ (Function.update_self _ _ _) past) ?_
    refine Does.read v (fun past => rfl) ?_
    have := does_append (Function.update (h5Groups f (HName.path (grp ++ key))) (HName.path (grp ++ key))
      (some (.dset ⟨v.shape, v.shape, []⟩))) (grp ++ key) ⟨v.shape, v.shape, []⟩ v.shape v.val
      (Function.update_self _ _ _) rfl rfl (by simp)
    rw [Function.update_idem] at this
    have e : touch f (HName.path (grp ++ key)) v = Function.update (h5Groups f (HName.path (grp ++ key)))
        (HName.path (grp ++ key)) (some (.dset ⟨v.shape, v.shape, [] ++ [clip v.shape v.val]⟩)) := by
      unfold touch rowsAt
      rw [h0]
      rfl
    rw [e]
    exact this
  · rw [hd]
    simp only [Option.isSome_some, Bool.not_true, Bool.false_eq_true, if_false]
    refine Does.read _ (fun past => call_dset _ _ d hd past) ?_
    refine Does.read v (fun past => rfl) ?_
    have e : touch f (HName.path (grp ++ key)) v = Function.update f
        (HName.path (grp ++ key)) (some (.dset ⟨v.shape, v.shape, d.rows ++ [clip v.shape v.val]⟩)) := by
      unfold touch
      have hgr : h5Groups f (HName.path (grp ++ key)) = f := by
        funext q
        unfold h5Groups
        rw [if_neg]
        rintro ⟨a, b, c⟩
        rw [hf.above _ q (by rw [hd]; simp) a b] at c
        cases c
      rw [hgr]
      unfold rowsAt
      rw [hd]
      rfl
    rw [e]
    exact does_append f (grp ++ key) d v.shape v.val hd h1 h2 h3

/-- The same, with the group of the dataset created if missing. -/
theorem does_groupKey {T : H5Decl} (hT : PrefixFree T) {f : H5File} (hf : Declared T f) (base sub key : HName)
    (v : NdArr) (hg : f base.path = some .group) (hkey : key.path ≠ [])
    (hp : T (HName.path (base ++ sub ++ key)) = some v.shape) :
    Does (do
      if !(← h5In sub base) then h5CreateGroup (base ++ sub)
      omWriteKey (base ++ sub) key (some v)) f (touch f (HName.path (base ++ sub ++ key)) v) := by
  have hpre0 : HName.path (base ++ sub) <+: HName.path (base ++ sub ++ key) := by
    rw [path_append (base ++ sub)]; exact List.prefix_append _ _
  have hne0 : HName.path (base ++ sub) ≠ HName.path (base ++ sub ++ key) := by
    rw [path_append (base ++ sub)]
    intro h
    have := congrArg List.length h
    rw [List.length_append] at this
    exact hkey (List.length_eq_zero_iff.mp (by omega))
  have hpre : ∀ q, q <+: HName.path (base ++ sub) → T q = none := by
    intro q hq
    refine prefix_not_declared hT hp (hq.trans hpre0) ?_
    rintro rfl
    exact hne0 (hpre0.eq_of_length (le_antisymm hpre0.length_le hq.length_le))
  refine Does.read _ (fun past => call_in f sub base hg past) ?_
  cases hx : f (HName.path (base ++ sub)) with
  | some o =>
    simp only [Option.isSome_some, Bool.not_true, Bool.false_eq_true, if_false]
    refine does_writeKey hT hf (base ++ sub) key v ?_ hp
    rcases hf.obj _ _ hx with ⟨rfl, _⟩ | ⟨d, _, h2, _⟩
    · exact hx
    · rw [hpre _ List.prefix_rfl] at h2
      cases h2
  | none =>
    simp only [Option.isSome_none, Bool.not_false, if_true]
    have hbl := not_blocked hf (p := HName.path (base ++ sub)) fun q hq _ => hpre q hq
    have e : touch f (HName.path (base ++ sub ++ key)) v = touch (Function.update (h5Groups f (HName.path (base ++ sub)))
        (HName.path (base ++ sub)) (some .group)) (HName.path (base ++ sub ++ key)) v := by
      unfold touch
      rw [rowsAt_group hf (hpre _ List.prefix_rfl)]
      congr 1
      funext q
      unfold h5Groups
      by_cases hq : q = HName.path (base ++ sub)
      · subst hq
        rw [Function.update_self, if_pos ⟨hpre0, hne0, by rw [hx]; rfl⟩, if_neg (by simp)]
      · rw [Function.update_of_ne hq]
        by_cases hq2 : q <+: HName.path (base ++ sub) ∧ q ≠ HName.path (base ++ sub) ∧ (f q).isNone
        · have hA : q <+: HName.path (base ++ sub ++ key) ∧ q ≠ HName.path (base ++ sub ++ key) ∧ (f q).isNone := by
            refine ⟨hq2.1.trans hpre0, ?_, hq2.2.2⟩
            rintro rfl
            exact hne0 (hpre0.eq_of_length (le_antisymm hpre0.length_le hq2.1.length_le))
          rw [if_pos hA, if_pos hq2, if_neg (by simp)]
        · rw [if_neg hq2]
    rw [e]
    exact (does_create f (base ++ sub) .group hx hbl).bind
      (does_writeKey hT (declared_group hf hpre) (base ++ sub) key v (Function.update_self _ _ _) hp)

theorem does_writeTime {T : H5Decl} (hT : PrefixFree T) {f : H5File} (hf : Declared T f) (cur grp : HName)
    (t : ℝ) (hg : f cur.path = some .group)
    (hp : T (HName.path (cur ++ grp ++ ["times"])) = some []) :
    Does (omWriteTime cur grp t) f (touch f (HName.path (cur ++ grp ++ ["times"])) (scalarArr t)) :=
  does_groupKey hT hf cur grp ["times"] (scalarArr t) hg (by decide) hp

/-- Rows appended in order. -/
def touchAll (f : H5File) (ws : List (List String × NdArr)) : H5File := ws.foldl (fun f w => touch f w.1 w.2) f

theorem touchAll_append (f : H5File) (a b : List (List String × NdArr)) :
    touchAll f (a ++ b) = touchAll (touchAll f a) b := List.foldl_append

/-- The rows have the declared shapes. -/
def Fits5 (T : H5Decl) (ws : List (List String × NdArr)) : Prop := ∀ w ∈ ws, T w.1 = some w.2.shape ∧ w.1 ≠ []

theorem declared_touchAll {T : H5Decl} (hT : PrefixFree T) (ws : List (List String × NdArr)) (hw : Fits5 T ws) :
    ∀ f : H5File, Declared T f → Declared T (touchAll f ws) := by
  induction ws with
  | nil => intro f h; exact h
  | cons w ws ih =>
    intro f h
    exact ih (fun x hx => hw x (by simp [hx])) _ (declared_touch hT h w.2 (hw w (by simp)).1 (hw w (by simp)).2)

theorem rowsAt_touchAll (ws : List (List String × NdArr)) (q : List String) :
    ∀ f : H5File, rowsAt (touchAll f ws) q
      = rowsAt f q ++ (ws.filter fun w => w.1 = q).map fun w => NdArr.row w.2 := by
  induction ws with
  | nil => intro f; simp [touchAll]
  | cons w ws ih =>
    intro f
    change rowsAt (touchAll (touch f w.1 w.2) ws) q = _
    rw [ih, rowsAt_touch]
    by_cases h : q = w.1
    · rw [if_pos h, List.filter_cons_of_pos (by simp [h]), ← h]
      simp
    · rw [if_neg h, List.filter_cons_of_neg (by simpa using fun h' => h h'.symm)]

/-- Groups stay. -/
theorem touch_group {T : H5Decl} {f : H5File} (hf : Declared T f) {p : List String} {v : NdArr}
    (hp : T p = some v.shape) {q : List String} (hq : f q = some .group) : touch f p v q = some .group := by
  unfold touch
  have hne : q ≠ p := by
    rintro rfl
    rcases hf.obj _ _ hq with ⟨_, h⟩ | ⟨d, h, _⟩
    · rw [hp] at h; cases h
    · cases h
  rw [Function.update_of_ne hne]
  unfold h5Groups
  rw [if_neg (by rw [hq]; simp), hq]

theorem touchAll_group {T : H5Decl} (hT : PrefixFree T) (ws : List (List String × NdArr)) (hw : Fits5 T ws)
    {q : List String} : ∀ f : H5File, Declared T f → f q = some .group → touchAll f ws q = some .group := by
  induction ws with
  | nil => intro f _ h; exact h
  | cons w ws ih =>
    intro f hf h
    exact ih (fun x hx => hw x (by simp [hx])) _ (declared_touch hT hf w.2 (hw w (by simp)).1 (hw w (by simp)).2)
      (touch_group hf (hw w (by simp)).1 h)

/-- A loop of writes. -/
theorem does_forM {A : Type} {T : H5Decl} (hT : PrefixFree T) (G : List String) (k : A → H5M Unit)
    (w : A → List (List String × NdArr)) : ∀ (l : List A) (f : H5File), Declared T f → f G = some .group →
    (∀ a ∈ l, Fits5 T (w a)) →
    (∀ a ∈ l, ∀ g, Declared T g → g G = some .group → Does (k a) g (touchAll g (w a))) →
    Does (l.forM k) f (touchAll f (l.flatMap w))
  | [], f, _, _, _, _ => Does.pure f
  | a :: l, f, hf, hg, hfit, hk => by
    rw [List.flatMap_cons, touchAll_append]
    change Does (k a >>= fun _ => l.forM k) _ _
    refine (hk a (by simp) f hf hg).bind ?_
    have ha := hfit a (by simp)
    exact does_forM hT G k w l _ (declared_touchAll hT _ ha f hf) (touchAll_group hT _ ha f hf hg)
      (fun b hb => hfit b (by simp [hb])) (fun b hb => hk b (by simp [hb]))

end JVMC
