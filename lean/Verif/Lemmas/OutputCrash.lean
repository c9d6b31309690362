import Verif.Lemmas.OutputHistory

/-!
# The states of a file in the middle of a call

Whatever happens in a call, and whenever it is interrupted, the file stays one of the kind `Declared`.
-/

namespace JVMC

open Spec

/-- All states of the file, now and in the past, have the property. -/
def Always (P : H5File → Prop) (l : H5Log) : Prop := P l.now ∧ ∀ g ∈ l.past, P g

/-- Code that keeps a property in all states, whether it returns or raises. -/
def H5Keeps {A : Type} (P : H5File → Prop) (m : H5M A) : Prop := ∀ l, Always P l → Always P (m.call l).2

section

variable {P : H5File → Prop} {A B : Type}

theorem H5Keeps.pure (a : A) : H5Keeps P (pure a : H5M A) := fun _ h => h

theorem H5Keeps.throw (e : PyErr) : H5Keeps P (throw e : H5M A) := fun _ h => h

theorem H5Keeps.file : H5Keeps P h5File := fun _ h => h

theorem H5Keeps.bind {m : H5M A} {k : A → H5M B} (hm : H5Keeps P m) (hk : ∀ a, H5Keeps P (k a)) :
    H5Keeps P (m >>= k) := by
  intro l h
  rw [h5_bind]
  have h1 := hm l h
  cases hc : m.call l with
  | mk r s =>
    rw [hc] at h1
    cases r with
    | error e => exact h1
    | ok a => exact hk a s h1

/-- The file is read; what is done then may depend on it. -/
theorem H5Keeps.withFile {k : H5File → H5M B} (hk : ∀ l, Always P l → Always P ((k l.now).call l).2) :
    H5Keeps P (h5File >>= k) := by
  intro l h
  rw [h5_bind_ok _ _ _ _ _ (call_h5File l)]
  exact hk l h

theorem always_put {l : H5Log} (h : Always P l) {f : H5File} (hf : P f) : Always P ((h5Put f).call l).2 := by
  rw [call_h5Put]
  refine ⟨hf, fun g hg => ?_⟩
  rcases List.mem_cons.mp hg with rfl | hg
  · exact h.1
  · exact h.2 g hg

theorem H5Keeps.forM {C : Type} (k : C → H5M Unit) : ∀ l : List C, (∀ c ∈ l, H5Keeps P (k c)) → H5Keeps P (l.forM k)
  | [], _ => H5Keeps.pure ()
  | c :: l, h => by
    change H5Keeps P (k c >>= fun _ => l.forM k)
    exact H5Keeps.bind (h c (by simp)) fun _ => H5Keeps.forM k l fun c hc => h c (by simp [hc])

end

theorem h5keeps_in {P : H5File → Prop} (name group : HName) : H5Keeps P (h5In name group) := by
  unfold h5In
  refine H5Keeps.withFile fun l h => ?_
  cases l.now group.path with
  | none => exact h
  | some o => cases o <;> exact h

theorem h5keeps_dset {P : H5File → Prop} (name : HName) : H5Keeps P (h5Dset name) := by
  unfold h5Dset
  refine H5Keeps.withFile fun l h => ?_
  cases l.now name.path with
  | none => exact h
  | some o => cases o <;> exact h

theorem call_dset_ok (l l' : H5Log) (name : HName) (d : H5Dset) (h : (h5Dset name).call l = (.ok d, l')) :
    l' = l ∧ l.now name.path = some (.dset d) := by
  unfold h5Dset at h
  rw [h5_bind_ok _ _ _ _ _ (call_h5File l)] at h
  cases hx : l.now name.path with
  | none => rw [hx] at h; cases h
  | some o =>
    rw [hx] at h
    cases o with
    | dset d' => cases h; exact ⟨rfl, rfl⟩
    | group => cases h
    | fixed a => cases h

section

variable {T : H5Decl} (hT : PrefixFree T)

theorem h5keeps_createGroup (name : HName) (hp : ∀ q, q <+: name.path → T q = none) :
    H5Keeps (Declared T) (h5CreateGroup name) := by
  unfold h5CreateGroup h5Create
  refine H5Keeps.withFile fun l h => ?_
  dsimp only
  split_ifs
  · exact h
  · exact always_put h (declared_group h.1 hp)

include hT in
theorem h5keeps_createDset (name : HName) (s : List ℕ) (hp : T name.path = some s) (hp0 : name.path ≠ []) :
    H5Keeps (Declared T) (h5CreateDset name s) := by
  unfold h5CreateDset h5Create
  refine H5Keeps.withFile fun l h => ?_
  dsimp only
  split_ifs
  · exact h
  · exact always_put h (declared_update hT h.1 hp hp0 [] (by simp))

/-- A dataset that is there is replaced. -/
theorem declared_replace {f : H5File} (h : Declared T f) {p : List String} {s : List ℕ} (hp : T p = some s)
    (d : H5Dset) (hd : f p = some (.dset d)) (rows : List (List ℕ → ℝ)) (hrows : ∀ r ∈ rows, clip s r = r) :
    Declared T (Function.update f p (some (.dset ⟨s, s, rows⟩))) := by
  have hp0 : p ≠ [] := by
    rintro rfl
    rw [h.root] at hd
    cases hd
  refine ⟨by rw [Function.update_of_ne (Ne.symm hp0)]; exact h.root, ?_, ?_⟩
  · intro q o ho
    by_cases hq : q = p
    · subst hq
      rw [Function.update_self] at ho
      exact .inr ⟨_, (Option.some.inj ho).symm, hp, rfl, hrows⟩
    · rw [Function.update_of_ne hq] at ho
      exact h.obj q o ho
  · intro q q' hq hq' hne
    have hfq : f q ≠ none := by
      by_cases hqp : q = p
      · rw [hqp, hd]; simp
      · rwa [Function.update_of_ne hqp] at hq
    have := h.above q q' hfq hq' hne
    rw [Function.update_of_ne]
    · exact this
    · rintro rfl
      rw [hd] at this
      cases this

theorem clip_zero (s : List ℕ) : clip s (fun _ => (0 : ℝ)) = fun _ => 0 := by
  funext idx
  unfold clip
  split_ifs <;> rfl

theorem h5keeps_resize (name : HName) (k : ℕ) (s : List ℕ) (hp : T name.path = some s) :
    H5Keeps (Declared T) (h5Resize name k s) := by
  unfold h5Resize
  intro l h
  rw [h5_bind]
  cases hc : (h5Dset name).call l with
  | mk r l' =>
    cases r with
    | error e =>
      have := h5keeps_dset (P := Declared T) name l h
      rw [hc] at this
      exact this
    | ok d =>
      obtain ⟨rfl, hd⟩ := call_dset_ok l l' name d hc
      dsimp only
      split_ifs
      · exact h
      · rw [h5_bind_ok _ _ _ _ _ (call_h5File _)]
        refine always_put h ?_
        rcases h.1.obj _ _ hd with ⟨h1, _⟩ | ⟨d', h1, h2, h3, h4⟩
        · cases h1
        · cases h1
          have hs : d.rowMax = s := by rw [hp] at h2; exact (Option.some.inj h2).symm
          rw [hs]
          refine declared_replace h.1 hp d hd _ ?_
          intro r hr
          obtain ⟨r', _, rfl⟩ := List.mem_map.mp hr
          exact clip_clip _ _

theorem h5keeps_setLast (name : HName) (v : List ℕ → ℝ) : H5Keeps (Declared T) (h5SetLast name v) := by
  unfold h5SetLast
  intro l h
  rw [h5_bind]
  cases hc : (h5Dset name).call l with
  | mk r l' =>
    cases r with
    | error e =>
      have := h5keeps_dset (P := Declared T) name l h
      rw [hc] at this
      exact this
    | ok d =>
      obtain ⟨rfl, hd⟩ := call_dset_ok l l' name d hc
      dsimp only
      split_ifs
      · exact h
      · rw [h5_bind_ok _ _ _ _ _ (call_h5File _)]
        refine always_put h ?_
        rcases h.1.obj _ _ hd with ⟨h1, _⟩ | ⟨d', h1, h2, h3, h4⟩
        · cases h1
        · cases h1
          rw [show ({ d with rows := d.rows.set (d.rows.length - 1) (clip d.rowShape v) } : H5Dset)
            = ⟨d.rowMax, d.rowMax, d.rows.set (d.rows.length - 1) (clip d.rowMax v)⟩ by rw [h3]]
          refine declared_replace h.1 h2 d hd _ ?_
          intro r hr
          rcases List.mem_or_eq_of_mem_set hr with hr | rfl
          · exact h4 r hr
          · exact clip_clip _ _

theorem h5keeps_valShape {P : H5File → Prop} (v : PyVal) : H5Keeps P (valShape v) := by
  cases v with
  | none => exact H5Keeps.throw _
  | some a => exact H5Keeps.pure a

/-- Paths before a declared one are not declared. -/
theorem before_declared (hT : PrefixFree T) {p q : List String} {s : List ℕ} (hp : T p = some s) (hq : q <+: p)
    (hne : q ≠ p) : ∀ q', q' <+: q → T q' = none := by
  intro q' h
  refine prefix_not_declared hT hp (h.trans hq) ?_
  rintro rfl
  exact hne (hq.eq_of_length (le_antisymm hq.length_le h.length_le))

theorem H5Keeps.value {P : H5File → Prop} {B : Type} {a : NdArr} {k : NdArr → H5M B} (h : H5Keeps P (k a)) :
    H5Keeps P (valShape (some a) >>= k) := fun l hl => h l hl

theorem H5Keeps.ite {P : H5File → Prop} {A : Type} {c : Prop} [Decidable c] {m m' : H5M A} (h : H5Keeps P m)
    (h' : H5Keeps P m') : H5Keeps P (if c then m else m') := by
  split_ifs
  · exact h
  · exact h'

variable {hT}

include hT in
theorem h5keeps_writeTime (cur group : HName) (t : ℝ) (hp : T (HName.path (cur ++ group ++ ["times"])) = some []) :
    H5Keeps (Declared T) (omWriteTime cur group t) := by
  have hne : HName.path (cur ++ group ++ ["times"]) = HName.path (cur ++ group) ++ ["times"] := by
    rw [path_append (cur ++ group) ["times"]]; rfl
  unfold omWriteTime
  refine H5Keeps.bind (h5keeps_in _ _) fun b => H5Keeps.ite (H5Keeps.bind (h5keeps_createGroup _ ?_) fun _ => ?_) ?_
  · exact before_declared hT hp (by rw [hne]; exact List.prefix_append _ _) (by rw [hne]; simp)
  all_goals
    refine H5Keeps.bind (h5keeps_in _ _) fun b =>
      H5Keeps.ite (H5Keeps.bind (h5keeps_createDset hT _ _ hp (by rw [hne]; simp)) fun _ => ?_) ?_
    all_goals
      refine H5Keeps.bind (h5keeps_dset _) fun d => ?_
      exact H5Keeps.bind (h5keeps_resize _ _ _ hp) fun _ => h5keeps_setLast _ _

include hT in
theorem h5keeps_writeKey (grp key : HName) (a : NdArr) (hp : T (HName.path (grp ++ key)) = some a.shape)
    (hp0 : HName.path (grp ++ key) ≠ []) : H5Keeps (Declared T) (omWriteKey grp key (some a)) := by
  unfold omWriteKey
  refine H5Keeps.bind (h5keeps_in _ _) fun b =>
    H5Keeps.ite (H5Keeps.value (H5Keeps.bind (h5keeps_createDset hT _ _ hp hp0) fun _ => ?_)) ?_
  all_goals
    refine H5Keeps.bind (h5keeps_dset _) fun d => ?_
    exact H5Keeps.value (H5Keeps.bind (h5keeps_resize _ _ _ hp) fun _ => h5keeps_setLast _ _)

include hT in
/-- Every call of the usual kinds keeps the file well-formed, at every moment. -/
theorem h5keeps_op (cur : HName) (op : OmOp) (hn : Natural op) (hfit : Fits5 T (opRows cur.path op))
    (hset : ∀ g, op = .setGroup g → ∀ q, q <+: g.path → T q = none) :
    H5Keeps (Declared T) (op.code (op.group cur)) := by
  have h2 : ∀ c x : String, c ≠ "" → x ≠ "" → HName.path (cur ++ [c] ++ [x]) = cur.path ++ [c, x] := by
    intro c x hc hx
    rw [path_append, path_append, path_of_ne [c] (by simpa using hc), path_of_ne [x] (by simpa using hx)]
    simp
  have h1 : ∀ c : String, c ≠ "" → HName.path (cur ++ [c]) = cur.path ++ [c] := by
    intro c hc
    rw [path_append, path_of_ne [c] (by simpa using hc)]
  cases op with
  | setGroup g =>
    have hcur : OmOp.group cur (.setGroup g) = "" :: g := by
      change omSelect cur g = _
      unfold omSelect
      rw [if_pos hn.1]
    rw [hcur]
    change H5Keeps (Declared T) (omEnsureGroup ("" :: g))
    unfold omEnsureGroup
    exact H5Keeps.bind (h5keeps_in _ _) fun b => H5Keeps.ite (h5keeps_createGroup _ (hset g rfl)) (H5Keeps.pure _)
  | writeError n d => exact hn.elim
  | writeDataset n d g => exact hn.elim
  | writeCheckpoint t w =>
    cases w with
    | none => cases hn
    | some v =>
      change H5Keeps (Declared T) (omWriteCheckpoint cur t (some v))
      have e1 := h2 "network_checkpoints" "times" (by decide) (by decide)
      have e2 := h2 "network_checkpoints" "checkpoints" (by decide) (by decide)
      have f1 := hfit (cur.path ++ ["network_checkpoints", "times"], scalarArr t) (by simp [opRows])
      have f2 := hfit (cur.path ++ ["network_checkpoints", "checkpoints"], v) (by simp [opRows])
      exact H5Keeps.bind (h5keeps_writeTime (hT := hT) _ _ _ (by rw [e1]; exact f1.1)) fun _ =>
        h5keeps_writeKey (hT := hT) _ _ _ (by rw [e2]; exact f2.1) (by rw [e2]; simp)
  | writeMetadata t kw =>
    change H5Keeps (Declared T) (omWriteMetadata cur t kw)
    have e1 := h2 "metadata" "times" (by decide) (by decide)
    have f1 := hfit (cur.path ++ ["metadata", "times"], scalarArr t) (by simp [opRows])
    refine H5Keeps.bind (h5keeps_writeTime (hT := hT) _ _ _ (by rw [e1]; exact f1.1)) fun _ => H5Keeps.forM _ _ ?_
    intro k hk
    obtain ⟨⟨c, ⟨hc, hc0⟩⟩, hv⟩ := hn k hk
    obtain ⟨name, val⟩ := k
    cases val with
    | none => cases hv
    | some v =>
      have hp : HName.path (cur ++ ["metadata"] ++ name) = cur.path ++ "metadata" :: HName.path name := by
        rw [path_append, h1 _ (by decide)]; simp
      have f2 := hfit (cur.path ++ "metadata" :: HName.path name, v)
        (List.mem_cons_of_mem _ (List.mem_flatMap.mpr ⟨_, hk, by simp⟩))
      exact h5keeps_writeKey (hT := hT) _ _ _ (by rw [hp]; exact f2.1) (by rw [hp]; simp)
  | writeObservables t kw =>
    change H5Keeps (Declared T) (omWriteObservables cur t kw)
    have e1 := h2 "observables" "times" (by decide) (by decide)
    have f1 := hfit (cur.path ++ ["observables", "times"], scalarArr t) (by simp [opRows])
    refine H5Keeps.bind (h5keeps_writeTime (hT := hT) _ _ _ (by rw [e1]; exact f1.1)) fun _ => H5Keeps.forM _ _ ?_
    intro k hk
    obtain ⟨key, dict⟩ := k
    refine H5Keeps.forM _ _ ?_
    intro nv hnm
    obtain ⟨_, hnk⟩ := hn _ hk
    obtain ⟨⟨c', ⟨hc', hc0'⟩⟩, hv⟩ := hnk nv hnm
    obtain ⟨name, val⟩ := nv
    cases val with
    | none => cases hv
    | some v =>
      dsimp only at hc'
      have hp : HName.path (cur ++ ["observables"] ++ key ++ name)
          = cur.path ++ "observables" :: (HName.path key ++ HName.path name) := by
        rw [path_append, path_append, h1 _ (by decide)]; simp
      have hp' : HName.path (cur ++ ["observables"] ++ key) = cur.path ++ "observables" :: HName.path key := by
        rw [path_append, h1 _ (by decide)]; simp
      have f2 := hfit (cur.path ++ "observables" :: (HName.path key ++ HName.path name), v)
        (List.mem_cons_of_mem _ (List.mem_flatMap.mpr ⟨_, hk, List.mem_flatMap.mpr ⟨_, hnm, by simp⟩⟩))
      have f3 := f2.1
      rw [← hp] at f3
      have hname : HName.path name ≠ [] := by
        rw [hc', path_of_ne [c'] (by simpa using hc0')]; simp
      dsimp only
      refine H5Keeps.bind (h5keeps_in _ _) fun b => H5Keeps.ite (H5Keeps.bind (h5keeps_createGroup _ ?_) fun _ => ?_) ?_
      · refine before_declared hT f3 ?_ ?_
        · rw [hp, hp']
          exact ⟨HName.path name, by simp⟩
        · rw [hp, hp']
          simpa using hname
      all_goals
        refine H5Keeps.bind (h5keeps_in _ _) fun b =>
          H5Keeps.ite (H5Keeps.value (H5Keeps.bind (h5keeps_createDset hT _ _ f3 (by
            rw [hp]; simp)) fun _ => ?_)) ?_
        all_goals
          refine H5Keeps.bind (h5keeps_dset _) fun d => ?_
          exact H5Keeps.value (H5Keeps.bind (h5keeps_resize _ _ _ f3) fun _ => h5keeps_setLast _ _)

end

/-- All moments of a history of calls. -/
theorem run_always {T : H5Decl} (hT : PrefixFree T) : ∀ (ops : List OmOp) (cur : HName) (f : H5File)
    (past : List H5File), (∀ op ∈ ops, Natural op) → Always (Declared T) ⟨f, past⟩ → f cur.path = some .group →
    Fits5 T (intended cur.path ops) → (∀ g, .setGroup g ∈ ops → ∀ q, q <+: g.path → T q = none) →
    Always (Declared T) (omRun ⟨⟨cur, true⟩, ⟨f, past⟩⟩ ops).log
  | [], _, _, _, _, hf, _, _, _ => hf
  | op :: ops, cur, f, past, hn, hf, hg, hfit, hset => by
    obtain ⟨c1, f1, n1, e1, s1, _, hg1, _⟩ := call_general hT op (hn op (by simp)) cur f past hf.1 hg
      (fun w hw => hfit w (List.mem_append_left _ hw)) (fun g h => hset g (by simp [h]))
    have hk := h5keeps_op (hT := hT) cur op (hn op (by simp)) (fun w hw => hfit w (List.mem_append_left _ hw))
      (fun g h => hset g (by simp [h])) ⟨f, past⟩ hf
    have e2 : ((op.code (op.group cur)).call ⟨f, past⟩).2 = ⟨f1, n1 ++ past⟩ := by
      have := congrArg (fun x : Except PyErr Unit × OmState => x.2.log) e1
      exact this
    rw [e2] at hk
    have e1' := congrArg Prod.snd e1
    dsimp only at e1'
    have := run_always hT ops c1 f1 (n1 ++ past) (fun o ho => hn o (by simp [ho])) hk hg1
      (fun w hw => hfit w (List.mem_append_right _ (by rw [← s1]; exact hw))) (fun g h => hset g (by simp [h]))
    unfold omRun at this ⊢
    rw [List.foldl_cons, e1']
    exact this

theorem init_always (shape : List String → List ℕ) (fs : Option H5File) (group : HName) (append : Bool)
    (hf0 : Declared (libDecl shape) (h5Open append fs)) (hgroup : GroupPath group.path) :
    Always (Declared (libDecl shape)) (omInit fs group append).2.log := by
  have hcur : HName.path (omSelect ["", ""] group) = group.path := by
    unfold omSelect
    split_ifs with h
    · exact path_cons_empty group
    · rw [not_not.mp h]
  have : H5Keeps (Declared (libDecl shape)) (omEnsureGroup (omSelect ["", ""] group)) := by
    unfold omEnsureGroup
    exact H5Keeps.bind (h5keeps_in _ _) fun b => H5Keeps.ite (h5keeps_createGroup _ (by
      rw [hcur]
      exact libDecl_group shape _ hgroup)) (H5Keeps.pure _)
  exact this ⟨h5Open append fs, []⟩ ⟨hf0, by simp⟩

/-- At every moment of a history the file is well-formed. -/
theorem history_always (shape : List String → List ℕ) (fs : Option H5File) (group : HName) (append : Bool)
    (hf0 : Declared (libDecl shape) (h5Open append fs)) (hgroup : GroupPath group.path) (ops : List OmOp)
    (hn : ∀ op ∈ ops, Natural op) (hs : ∀ w ∈ intended group.path ops, shape w.1 = w.2.shape) :
    Always (Declared (libDecl shape)) (omRun (omInit fs group append).2 ops).log := by
  have h0 := init_always shape fs group append hf0 hgroup
  obtain ⟨cur, f, past, e, hc, h1, h2, _⟩ := init_general shape fs group append hf0 hgroup
  rw [e] at h0 ⊢
  exact run_always (libDecl_prefixFree shape) ops cur f past hn h0 h2
    (by rw [hc]; exact intended_fits shape ops _ hgroup hn hs)
    (fun g hg q hq => libDecl_group shape _ (hn _ hg).2 q hq)

end JVMC
