import Verif.Lemmas.OutputManager

/-!
# Histories of `OutputManager` calls

What a history of calls leaves in the file; the properties are in `Verif.Props.OutputManager`.
-/

namespace JVMC

open Spec

/-! ## Histories -/

theorem path_idem (s : HName) : HName.path (HName.path s) = HName.path s := by
  unfold HName.path
  rw [List.filter_filter]
  congr 1
  funext c
  simp

theorem path_of_ne (l : List String) (h : ∀ c ∈ l, c ≠ "") : HName.path l = l := by
  unfold HName.path
  rw [List.filter_eq_self]
  intro c hc
  simpa using h c hc

theorem path_cons_empty (s : HName) : HName.path ("" :: s) = HName.path s := rfl

/-- One call of the kinds that append rows. -/
theorem does_op {T : H5Decl} (hT : PrefixFree T) {f : H5File} (hf : Declared T f) (cur : HName) (op : OmOp)
    (hg : f cur.path = some .group) (hn : Natural op) (hfit : Fits5 T (opRows cur.path op))
    (hw : ∀ g, op ≠ .setGroup g) : Does (op.code cur) f (touchAll f (opRows cur.path op)) := by
  have h2 : ∀ c x : String, c ≠ "" → x ≠ "" → HName.path (cur ++ [c] ++ [x]) = cur.path ++ [c, x] := by
    intro c x hc hx
    rw [path_append, path_append, path_of_ne [c] (by simpa using hc), path_of_ne [x] (by simpa using hx)]
    simp
  have h1 : ∀ c : String, c ≠ "" → HName.path (cur ++ [c]) = cur.path ++ [c] := by
    intro c hc
    rw [path_append, path_of_ne [c] (by simpa using hc)]
  cases op with
  | setGroup g => exact absurd rfl (hw g)
  | writeError n d => exact hn.elim
  | writeDataset n d g => exact hn.elim
  | writeCheckpoint t w =>
    cases w with
    | none => cases hn
    | some v =>
      have e1 := h2 "network_checkpoints" "times" (by decide) (by decide)
      have e2 := h2 "network_checkpoints" "checkpoints" (by decide) (by decide)
      have f1 := hfit (cur.path ++ ["network_checkpoints", "times"], scalarArr t) (by simp [opRows])
      have f2 := hfit (cur.path ++ ["network_checkpoints", "checkpoints"], v) (by simp [opRows])
      have d1 := does_writeTime hT hf cur ["network_checkpoints"] t hg (by rw [e1]; exact f1.1)
      rw [e1] at d1
      refine d1.bind ?_
      have hf1 := declared_touch hT hf (scalarArr t) f1.1 f1.2
      have hgrp : touch f (cur.path ++ ["network_checkpoints", "times"]) (scalarArr t)
          (HName.path (cur ++ ["network_checkpoints"])) = some .group := by
        refine hf1.above (cur.path ++ ["network_checkpoints", "times"]) _ ?_ ?_ ?_
        · unfold touch; rw [Function.update_self]; simp
        · rw [h1 _ (by decide)]; exact ⟨["times"], by simp⟩
        · rw [h1 _ (by decide)]; simp
      have d2 := does_writeKey hT hf1 (cur ++ ["network_checkpoints"]) ["checkpoints"] v hgrp (by rw [e2]; exact f2.1)
      rw [e2] at d2
      exact d2
  | writeMetadata t kw =>
    have e1 := h2 "metadata" "times" (by decide) (by decide)
    have f1 := hfit (cur.path ++ ["metadata", "times"], scalarArr t) (by simp [opRows])
    have d1 := does_writeTime hT hf cur ["metadata"] t hg (by rw [e1]; exact f1.1)
    rw [e1] at d1
    refine d1.bind ?_
    have hf1 := declared_touch hT hf (scalarArr t) f1.1 f1.2
    have hgrp : touch f (cur.path ++ ["metadata", "times"]) (scalarArr t)
        (HName.path (cur ++ ["metadata"])) = some .group := by
      refine hf1.above (cur.path ++ ["metadata", "times"]) _ ?_ ?_ ?_
      · unfold touch; rw [Function.update_self]; simp
      · rw [h1 _ (by decide)]; exact ⟨["times"], by simp⟩
      · rw [h1 _ (by decide)]; simp
    refine does_forM hT (HName.path (cur ++ ["metadata"])) _
      (fun k : HName × PyVal => k.2.toList.map fun v => (cur.path ++ "metadata" :: HName.path k.1, v))
      kw _ hf1 hgrp ?_ ?_
    · intro k hk w hw
      exact hfit w (List.mem_cons_of_mem _ (List.mem_flatMap.mpr ⟨k, hk, hw⟩))
    · intro k hk g hg1 hg2
      obtain ⟨⟨c, ⟨hc, hc0⟩⟩, hv⟩ := hn k hk
      obtain ⟨name, val⟩ := k
      cases val with
      | none => cases hv
      | some v =>
        have hp : HName.path (cur ++ ["metadata"] ++ name) = cur.path ++ "metadata" :: HName.path name := by
          rw [path_append, h1 _ (by decide)]; simp
        have f2 := hfit (cur.path ++ "metadata" :: HName.path name, v)
          (List.mem_cons_of_mem _ (List.mem_flatMap.mpr ⟨_, hk, by simp⟩))
        have := does_writeKey hT hg1 (cur ++ ["metadata"]) name v hg2 (by rw [hp]; exact f2.1)
        rw [hp] at this
        exact this
  | writeObservables t kw =>
    have e1 := h2 "observables" "times" (by decide) (by decide)
    have f1 := hfit (cur.path ++ ["observables", "times"], scalarArr t) (by simp [opRows])
    have d1 := does_writeTime hT hf cur ["observables"] t hg (by rw [e1]; exact f1.1)
    rw [e1] at d1
    refine d1.bind ?_
    have hf1 := declared_touch hT hf (scalarArr t) f1.1 f1.2
    have hgrp : touch f (cur.path ++ ["observables", "times"]) (scalarArr t)
        (HName.path (cur ++ ["observables"])) = some .group := by
      refine hf1.above (cur.path ++ ["observables", "times"]) _ ?_ ?_ ?_
      · unfold touch; rw [Function.update_self]; simp
      · rw [h1 _ (by decide)]; exact ⟨["times"], by simp⟩
      · rw [h1 _ (by decide)]; simp
    refine does_forM hT (HName.path (cur ++ ["observables"])) _
      (fun k : HName × List (HName × PyVal) => k.2.flatMap fun n => n.2.toList.map fun v =>
        (cur.path ++ "observables" :: (HName.path k.1 ++ HName.path n.1), v)) kw _ hf1 hgrp ?_ ?_
    · intro k hk w hw
      exact hfit w (List.mem_cons_of_mem _ (List.mem_flatMap.mpr ⟨k, hk, hw⟩))
    · intro k hk g hg1 hg2
      refine does_forM hT (HName.path (cur ++ ["observables"])) _
        (fun n : HName × PyVal => n.2.toList.map fun v =>
          (cur.path ++ "observables" :: (HName.path k.1 ++ HName.path n.1), v)) k.2 g hg1 hg2 ?_ ?_
      · intro n hn w hw
        exact hfit w (List.mem_cons_of_mem _ (List.mem_flatMap.mpr ⟨k, hk, List.mem_flatMap.mpr ⟨n, hn, hw⟩⟩))
      · intro n hnm g' hg1' hg2'
        obtain ⟨_, hnk⟩ := hn k hk
        obtain ⟨⟨c', ⟨hc', hc0'⟩⟩, hv⟩ := hnk n hnm
        obtain ⟨name, val⟩ := n
        obtain ⟨key, dict⟩ := k
        cases val with
        | none => cases hv
        | some v =>
          have hp : HName.path (cur ++ ["observables"] ++ key ++ name)
              = cur.path ++ "observables" :: (HName.path key ++ HName.path name) := by
            rw [path_append, path_append, h1 _ (by decide)]; simp
          have f2 := hfit (cur.path ++ "observables" :: (HName.path key ++ HName.path name), v)
            (List.mem_cons_of_mem _ (List.mem_flatMap.mpr ⟨_, hk, List.mem_flatMap.mpr ⟨_, hnm, by simp⟩⟩))
          have := does_groupKey hT hg1' (cur ++ ["observables"]) key name v hg2'
            (by dsimp only at hc'; rw [hc', path_of_ne [c'] (by simpa using hc0')]; simp) (by rw [hp]; exact f2.1)
          rw [hp] at this
          exact this

theorem does_ensure {T : H5Decl} {f : H5File} (hf : Declared T f) (cur : HName)
    (hp : ∀ q, q <+: cur.path → T q = none) : ∃ f', Does (omEnsureGroup cur) f f' ∧ Declared T f' ∧
      f' cur.path = some .group ∧ ∀ q, rowsAt f' q = rowsAt f q := by
  unfold omEnsureGroup
  cases hx : f cur.path with
  | some o =>
    refine ⟨f, ?_, hf, ?_, fun _ => rfl⟩
    · refine Does.read _ (fun past => call_in f cur [] hf.root past) ?_
      rw [List.nil_append, hx]
      exact Does.pure f
    · rcases hf.obj _ _ hx with ⟨rfl, _⟩ | ⟨d, _, h2, _⟩
      · exact hx
      · rw [hp _ List.prefix_rfl] at h2; cases h2
  | none =>
    refine ⟨Function.update (h5Groups f cur.path) cur.path (some .group), ?_, declared_group hf hp,
      Function.update_self _ _ _, rowsAt_group hf (hp _ List.prefix_rfl)⟩
    refine Does.read _ (fun past => call_in f cur [] hf.root past) ?_
    rw [List.nil_append, hx]
    exact does_create f cur .group hx (not_blocked hf fun q hq _ => hp q hq)

/-- One call: it returns, appends its rows, and leaves all other rows intact at all times. -/
theorem call_general {T : H5Decl} (hT : PrefixFree T) (op : OmOp) (hn : Natural op) (cur : HName) (f : H5File)
    (past : List H5File) (hf : Declared T f) (hg : f cur.path = some .group) (hfit : Fits5 T (opRows cur.path op))
    (hset : ∀ g, op = .setGroup g → ∀ q, q <+: g.path → T q = none) :
    ∃ cur' f' new, omCall ⟨⟨cur, true⟩, ⟨f, past⟩⟩ op = (.ok (), ⟨⟨cur', true⟩, ⟨f', new ++ past⟩⟩) ∧
      cur'.path = selected cur.path op ∧ Declared T f' ∧ f' cur'.path = some .group ∧
      (∀ q, rowsAt f' q = rowsAt f q ++ ((opRows cur.path op).filter fun w => w.1 = q).map fun w => NdArr.row w.2) ∧
      Intact f f' ∧ ∀ g ∈ new, Intact f g := by
  by_cases hop : ∃ g, op = .setGroup g
  · obtain ⟨g, rfl⟩ := hop
    have hcur : OmOp.group cur (.setGroup g) = "" :: g := by
      change omSelect cur g = _
      unfold omSelect
      rw [if_pos hn.1]
    obtain ⟨f', hd, h1, h2, h3⟩ := does_ensure hf ("" :: g) (by rw [path_cons_empty]; exact hset g rfl)
    obtain ⟨new, e, h4, h5⟩ := hd past
    refine ⟨"" :: g, f', new, ?_, path_cons_empty g, h1, h2, fun q => ?_, h5, h4⟩
    · unfold omCall
      dsimp only
      rw [hcur]
      rw [show (OmOp.code ("" :: g) (.setGroup g)).call ⟨f, past⟩ = _ from e]
    · rw [h3 q]; simp [opRows]
  · have hop' : ∀ g, op ≠ .setGroup g := fun g h => hop ⟨g, h⟩
    have hcur : OmOp.group cur op = cur := by
      cases op with
      | setGroup g => exact absurd rfl (hop' g)
      | _ => rfl
    have hsel : selected cur.path op = cur.path := by
      cases op with
      | setGroup g => exact absurd rfl (hop' g)
      | _ => rfl
    obtain ⟨new, e, h4, h5⟩ := does_op hT hf cur op hg hn hfit hop' past
    refine ⟨cur, touchAll f (opRows cur.path op), new, ?_, hsel.symm, declared_touchAll hT _ hfit f hf,
      touchAll_group hT _ hfit f hf hg, fun q => rowsAt_touchAll _ q f, h5, h4⟩
    unfold omCall
    dsimp only
    rw [hcur, e]

theorem run_general {T : H5Decl} (hT : PrefixFree T) : ∀ (ops : List OmOp) (cur : HName) (f : H5File)
    (past : List H5File), (∀ op ∈ ops, Natural op) → Declared T f → f cur.path = some .group →
    Fits5 T (intended cur.path ops) → (∀ g, .setGroup g ∈ ops → ∀ q, q <+: g.path → T q = none) →
    ∃ cur' f' new, omRun ⟨⟨cur, true⟩, ⟨f, past⟩⟩ ops = ⟨⟨cur', true⟩, ⟨f', new ++ past⟩⟩ ∧
      cur'.path = ops.foldl selected cur.path ∧ Declared T f' ∧ f' cur'.path = some .group ∧
      (∀ q, rowsAt f' q = rowsAt f q ++ ((intended cur.path ops).filter fun w => w.1 = q).map fun w => NdArr.row w.2) ∧
      Intact f f' ∧ (∀ g ∈ new, Intact f g) ∧
      ∀ pre op post, ops = pre ++ op :: post → (omCall (omRun ⟨⟨cur, true⟩, ⟨f, past⟩⟩ pre) op).1 = .ok ()
  | [], cur, f, past, _, hf, hg, _, _ =>
    ⟨cur, f, [], rfl, rfl, hf, hg, fun q => by simp [intended], intact_refl f, by simp, by simp⟩
  | op :: ops, cur, f, past, hn, hf, hg, hfit, hset => by
    obtain ⟨c1, f1, n1, e1, s1, hf1, hg1, r1, i1, j1⟩ := call_general hT op (hn op (by simp)) cur f past hf hg
      (fun w hw => hfit w (List.mem_append_left _ hw)) (fun g h => hset g (by simp [h]))
    obtain ⟨c2, f2, n2, e2, s2, hf2, hg2, r2, i2, j2, k2⟩ := run_general hT ops c1 f1 (n1 ++ past)
      (fun o ho => hn o (by simp [ho])) hf1 hg1
      (fun w hw => hfit w (List.mem_append_right _ (by rw [← s1]; exact hw))) (fun g h => hset g (by simp [h]))
    have e1' := congrArg Prod.snd e1
    dsimp only at e1'
    refine ⟨c2, f2, n2 ++ n1, ?_, ?_, hf2, hg2, ?_, intact_trans i1 i2, ?_, ?_⟩
    · unfold omRun at e2 ⊢
      rw [List.foldl_cons, e1', e2, List.append_assoc]
    · rw [s2, s1]; rfl
    · intro q
      rw [r2, r1, show intended cur.path (op :: ops)
        = opRows cur.path op ++ intended (selected cur.path op) ops from rfl]
      rw [s1, List.filter_append, List.map_append, List.append_assoc]
    · intro g hg
      rw [List.mem_append] at hg
      rcases hg with hg | hg
      · exact intact_trans i1 (j2 g hg)
      · exact j1 g hg
    · intro pre o post h
      cases pre with
      | nil =>
        rw [List.nil_append] at h
        cases h
        change (omCall ⟨⟨cur, true⟩, ⟨f, past⟩⟩ op).1 = _
        rw [e1]
      | cons p pre =>
        rw [List.cons_append] at h
        cases h
        have := k2 pre o post rfl
        unfold omRun at this ⊢
        rw [List.foldl_cons, e1']
        exact this

/-! ## The datasets of the library -/

/-- The paths of the datasets the library writes, with a shape for each. -/
noncomputable def libDecl (shape : List String → List ℕ) : H5Decl := fun p =>
  open Classical in
  if ∃ G c rest, GroupPath G ∧ p = G ++ c :: rest ∧
    ((c = "observables" ∧ (rest = ["times"] ∨ ∃ k n, k ≠ "times" ∧ rest = [k, n])) ∨
     (c = "metadata" ∧ ∃ k, rest = [k]) ∨
     (c = "network_checkpoints" ∧ ∃ k, rest = [k])) then some (shape p) else none

theorem split_reserved : ∀ (G G' : List String) (c c' : String) (rest rest' : List String), GroupPath G → GroupPath G' →
    c ∈ reserved → c' ∈ reserved → G ++ c :: rest <+: G' ++ c' :: rest' → G = G' ∧ c = c' ∧ rest <+: rest'
  | [], [], c, c', rest, rest', _, _, _, _, h => by
    rw [List.nil_append, List.nil_append, List.cons_prefix_cons] at h
    exact ⟨rfl, h⟩
  | [], x :: G', c, c', rest, rest', _, hG', hc, _, h => by
    rw [List.nil_append, List.cons_append, List.cons_prefix_cons] at h
    exact absurd (h.1 ▸ hc) (hG' x (by simp)).2
  | x :: G, [], c, c', rest, rest', hG, _, _, hc', h => by
    rw [List.nil_append, List.cons_append, List.cons_prefix_cons] at h
    exact absurd (h.1 ▸ hc') (hG x (by simp)).2
  | x :: G, y :: G', c, c', rest, rest', hG, hG', hc, hc', h => by
    rw [List.cons_append, List.cons_append, List.cons_prefix_cons] at h
    obtain ⟨rfl, h⟩ := h
    obtain ⟨rfl, h2, h3⟩ := split_reserved G G' c c' rest rest' (fun z hz => hG z (by simp [hz]))
      (fun z hz => hG' z (by simp [hz])) hc hc' h
    exact ⟨rfl, h2, h3⟩

theorem libDecl_prefixFree (shape : List String → List ℕ) : PrefixFree (libDecl shape) := by
  intro p q hp hq hpq
  have of : ∀ p, libDecl shape p ≠ none → ∃ G c rest, GroupPath G ∧ p = G ++ c :: rest ∧
      ((c = "observables" ∧ (rest = ["times"] ∨ ∃ k n, k ≠ "times" ∧ rest = [k, n])) ∨
       (c = "metadata" ∧ ∃ k, rest = [k]) ∨ (c = "network_checkpoints" ∧ ∃ k, rest = [k])) := by
    intro p hp
    by_contra hc
    exact hp (if_neg hc)
  obtain ⟨G, c, rest, hG, rfl, h⟩ := of _ hp
  obtain ⟨G', c', rest', hG', rfl, h'⟩ := of _ hq
  have hc : c ∈ reserved := by
    rcases h with ⟨rfl, _⟩ | ⟨rfl, _⟩ | ⟨rfl, _⟩ <;> decide
  have hc' : c' ∈ reserved := by
    rcases h' with ⟨rfl, _⟩ | ⟨rfl, _⟩ | ⟨rfl, _⟩ <;> decide
  obtain ⟨rfl, rfl, hr⟩ := split_reserved G G' c c' rest rest' hG hG' hc hc' hpq
  congr 2
  have one : ∀ a b : String, [a] <+: [b] → [a] = [b] := by
    intro a b hab
    exact hab.eq_of_length rfl
  rcases h with ⟨rfl, h⟩ | ⟨rfl, k, rfl⟩ | ⟨rfl, k, rfl⟩
  · rcases h' with ⟨_, h'⟩ | ⟨h0, _⟩ | ⟨h0, _⟩
    · rcases h with rfl | ⟨k, n, hk, rfl⟩
      · rcases h' with rfl | ⟨k', n', hk', rfl⟩
        · rfl
        · rw [List.cons_prefix_cons] at hr
          exact absurd hr.1.symm hk'
      · rcases h' with rfl | ⟨k', n', hk', rfl⟩
        · have := hr.length_le
          simp at this
        · exact hr.eq_of_length rfl
    · exact absurd h0 (by decide)
    · exact absurd h0 (by decide)
  · rcases h' with ⟨h0, _⟩ | ⟨_, k', rfl⟩ | ⟨h0, _⟩
    · exact absurd h0 (by decide)
    · exact one _ _ hr
    · exact absurd h0 (by decide)
  · rcases h' with ⟨h0, _⟩ | ⟨h0, _⟩ | ⟨_, k', rfl⟩
    · exact absurd h0 (by decide)
    · exact absurd h0 (by decide)
    · exact one _ _ hr

/-- Groups with admissible names do not contain or equal datasets on the way. -/
theorem libDecl_group (shape : List String → List ℕ) (G : List String) (hG : GroupPath G) (q : List String)
    (hq : q <+: G) : libDecl shape q = none := by
  unfold libDecl
  rw [if_neg]
  rintro ⟨H, c, rest, _, rfl, h⟩
  have hc : c ∈ reserved := by
    rcases h with ⟨rfl, _⟩ | ⟨rfl, _⟩ | ⟨rfl, _⟩ <;> decide
  exact (hG c (hq.subset (by simp))).2 hc

theorem declared_empty (T : H5Decl) (h : T [] = none) : Declared T H5File.empty := by
  refine ⟨rfl, ?_, ?_⟩
  · intro q o ho
    unfold H5File.empty at ho
    split_ifs at ho with hq
    cases ho
    subst hq
    exact .inl ⟨rfl, h⟩
  · intro q q' hq hq' hne
    unfold H5File.empty at hq
    split_ifs at hq with h0
    · subst h0
      exact absurd (List.prefix_nil.mp hq') hne
    · exact absurd rfl hq

/-- What a natural call writes is declared. -/
theorem natural_fits (shape : List String → List ℕ) (G : List String) (hG : GroupPath G) (op : OmOp)
    (hn : Natural op) (hs : ∀ w ∈ opRows G op, shape w.1 = w.2.shape) : Fits5 (libDecl shape) (opRows G op) := by
  intro w hw
  have hsw := hs w hw
  suffices h : ∃ G c rest, GroupPath G ∧ w.1 = G ++ c :: rest ∧
    ((c = "observables" ∧ (rest = ["times"] ∨ ∃ k n, k ≠ "times" ∧ rest = [k, n])) ∨
     (c = "metadata" ∧ ∃ k, rest = [k]) ∨
     (c = "network_checkpoints" ∧ ∃ k, rest = [k])) by
    refine ⟨?_, ?_⟩
    · unfold libDecl
      rw [if_pos h, hsw]
    · obtain ⟨G, c, rest, _, e, _⟩ := h
      rw [e]
      simp
  cases op with
  | setGroup g => cases hw
  | writeError n d => cases hw
  | writeDataset n d g => cases hw
  | writeCheckpoint t v =>
    unfold opRows at hw
    rw [List.mem_cons] at hw
    rcases hw with rfl | hw
    · exact ⟨G, _, _, hG, rfl, .inr (.inr ⟨rfl, _, rfl⟩)⟩
    · obtain ⟨v, _, rfl⟩ := List.mem_map.mp hw
      exact ⟨G, _, _, hG, rfl, .inr (.inr ⟨rfl, _, rfl⟩)⟩
  | writeMetadata t kw =>
    unfold opRows at hw
    rw [List.mem_cons] at hw
    rcases hw with rfl | hw
    · exact ⟨G, _, _, hG, rfl, .inr (.inl ⟨rfl, _, rfl⟩)⟩
    · obtain ⟨k, hk, hw⟩ := List.mem_flatMap.mp hw
      obtain ⟨v, _, rfl⟩ := List.mem_map.mp hw
      obtain ⟨⟨c, hc, hc0⟩, _⟩ := hn k hk
      refine ⟨G, _, _, hG, rfl, .inr (.inl ⟨rfl, c, ?_⟩)⟩
      rw [hc, path_of_ne [c] (by simpa using hc0)]
  | writeObservables t kw =>
    unfold opRows at hw
    rw [List.mem_cons] at hw
    rcases hw with rfl | hw
    · exact ⟨G, _, _, hG, rfl, .inl ⟨rfl, .inl rfl⟩⟩
    · obtain ⟨k, hk, hw⟩ := List.mem_flatMap.mp hw
      obtain ⟨n, hn', hw⟩ := List.mem_flatMap.mp hw
      obtain ⟨v, _, rfl⟩ := List.mem_map.mp hw
      obtain ⟨⟨c, ⟨hc, hc0⟩, hct⟩, hnk⟩ := hn k hk
      obtain ⟨⟨c', hc', hc0'⟩, _⟩ := hnk n hn'
      refine ⟨G, _, _, hG, rfl, .inl ⟨rfl, .inr ⟨c, c', hct, ?_⟩⟩⟩
      rw [hc, hc', path_of_ne [c] (by simpa using hc0), path_of_ne [c'] (by simpa using hc0')]
      rfl

theorem intended_fits (shape : List String → List ℕ) : ∀ (ops : List OmOp) (G : List String), GroupPath G →
    (∀ op ∈ ops, Natural op) → (∀ w ∈ intended G ops, shape w.1 = w.2.shape) →
    Fits5 (libDecl shape) (intended G ops)
  | [], _, _, _, _ => by intro w hw; cases hw
  | op :: ops, G, hG, hn, hs => by
    intro w hw
    unfold intended at hw hs
    rw [List.mem_append] at hw
    rcases hw with hw | hw
    · exact natural_fits shape G hG op (hn op (by simp)) (fun x hx => hs x (List.mem_append_left _ hx)) w hw
    · refine intended_fits shape ops _ ?_ (fun o ho => hn o (by simp [ho]))
        (fun x hx => hs x (List.mem_append_right _ hx)) w hw
      cases op with
      | setGroup g => exact (hn (.setGroup g) (by simp)).2
      | _ => exact hG

/-- The shapes of a history. -/
theorem exists_shape (ws : List (List String × NdArr)) (h : SameShapes ws) :
    ∃ shape : List String → List ℕ, ∀ w ∈ ws, shape w.1 = w.2.shape := by
  classical
  refine ⟨fun p => if hp : ∃ w ∈ ws, w.1 = p then (Classical.choose hp).2.shape else [], ?_⟩
  intro w hw
  have hp : ∃ x ∈ ws, x.1 = w.1 := ⟨w, hw, rfl⟩
  dsimp only
  rw [dif_pos hp]
  exact h _ (Classical.choose_spec hp).1 w hw (Classical.choose_spec hp).2

theorem init_general (shape : List String → List ℕ) (fs : Option H5File) (group : HName) (append : Bool)
    (hf0 : Declared (libDecl shape) (h5Open append fs)) (hgroup : GroupPath group.path) :
    ∃ cur f past, omInit fs group append = (.ok (), ⟨⟨cur, true⟩, ⟨f, past⟩⟩) ∧ cur.path = group.path ∧
      Declared (libDecl shape) f ∧ f cur.path = some .group ∧ Intact (h5Open append fs) f ∧
      (∀ g ∈ past, Intact (h5Open append fs) g) ∧ ∀ q, rowsAt f q = rowsAt (h5Open append fs) q := by
  have hcur : HName.path (omSelect ["", ""] group) = group.path := by
    unfold omSelect
    split_ifs with h
    · exact path_cons_empty group
    · rw [not_not.mp h]
  obtain ⟨f', hd, h1, h2, h3⟩ := does_ensure hf0 (omSelect ["", ""] group)
    (by rw [hcur]; exact fun q hq => libDecl_group shape _ hgroup q hq)
  obtain ⟨new, e, h4, h5⟩ := hd []
  refine ⟨omSelect ["", ""] group, f', new ++ [], ?_, hcur, h1, h2, h5, by simpa using h4, h3⟩
  unfold omInit
  dsimp only
  rw [e]

theorem declared_new (shape : List String → List ℕ) : Declared (libDecl shape) H5File.empty :=
  declared_empty _ (libDecl_group shape [] (by simp [GroupPath]) [] List.prefix_rfl)

theorem rowsAt_empty (p : List String) : rowsAt H5File.empty p = [] := by
  unfold rowsAt H5File.empty
  split_ifs <;> rfl

/-- All about a history on a new file. -/
theorem history_general (shape : List String → List ℕ) (fs : Option H5File) (group : HName) (append : Bool)
    (hf0 : Declared (libDecl shape) (h5Open append fs)) (hgroup : GroupPath group.path) (ops : List OmOp)
    (hn : ∀ op ∈ ops, Natural op) (hs : ∀ w ∈ intended group.path ops, shape w.1 = w.2.shape) :
    ∃ cur f past new, omInit fs group append = (.ok (), ⟨⟨cur, true⟩, ⟨f, past⟩⟩) ∧ ∃ cur' f',
      omRun ⟨⟨cur, true⟩, ⟨f, past⟩⟩ ops = ⟨⟨cur', true⟩, ⟨f', new ++ past⟩⟩ ∧
      cur'.path = ops.foldl selected group.path ∧ Declared (libDecl shape) f' ∧ f' cur'.path = some .group ∧
      (∀ q, rowsAt f' q = rowsAt (h5Open append fs) q ++
        ((intended group.path ops).filter fun w => w.1 = q).map fun w => NdArr.row w.2) ∧
      Intact (h5Open append fs) f' ∧ (∀ g ∈ new ++ past, Intact (h5Open append fs) g) ∧
      ∀ pre op post, ops = pre ++ op :: post → (omCall (omRun ⟨⟨cur, true⟩, ⟨f, past⟩⟩ pre) op).1 = .ok () := by
  obtain ⟨cur, f, past, e, hc, h1, h2, h3, h4, h5⟩ := init_general shape fs group append hf0 hgroup
  obtain ⟨c, f', n, e2, s2, d2, g2, r2, i2, j2, k2⟩ := run_general (libDecl_prefixFree shape) ops cur f past
    hn h1 h2 (by rw [hc]; exact intended_fits shape ops _ hgroup hn hs)
    (fun g hg q hq => libDecl_group shape _ (hn _ hg).2 q hq)
  refine ⟨cur, f, past, n, e, c, f', e2, by rw [s2, hc], d2, g2, fun q => by rw [r2, h5, hc], intact_trans h3 i2, ?_, k2⟩
  intro g hg
  rw [List.mem_append] at hg
  rcases hg with hg | hg
  · exact intact_trans h3 (j2 g hg)
  · exact h4 g hg

theorem lib_path_inj {G H : List String} {c c' : String} {rest rest' : List String} (hG : GroupPath G)
    (hH : GroupPath H) (hc : c ∈ reserved) (hc' : c' ∈ reserved) :
    G ++ c :: rest = H ++ c' :: rest' ↔ G = H ∧ c = c' ∧ rest = rest' := by
  constructor
  · intro h
    obtain ⟨rfl, rfl, _⟩ := split_reserved G H c c' rest rest' hG hH hc hc' (h ▸ List.prefix_rfl)
    refine ⟨rfl, rfl, ?_⟩
    have := List.append_cancel_left h
    simpa using this
  · rintro ⟨rfl, rfl, rfl⟩; rfl

theorem flatMap_lookup {A B C : Type} [DecidableEq A] [BEq A] [LawfulBEq A] (a : A) (g : B → List C) : ∀ l : List (A × B),
    (l.map Prod.fst).Nodup → l.flatMap (fun k => if k.1 = a then g k.2 else []) = (l.lookup a).elim [] g
  | [], _ => rfl
  | (x, b) :: l, h => by
    rw [List.map_cons, List.nodup_cons] at h
    rw [List.flatMap_cons, flatMap_lookup a g l h.2]
    by_cases hx : x = a
    · subst hx
      have : l.lookup x = none := by
        rw [List.lookup_eq_none_iff]
        intro p hp
        by_contra hc
        simp only [bne_iff_ne, ne_eq, Decidable.not_not] at hc
        exact h.1 (List.mem_map.mpr ⟨p, hp, hc.symm⟩)
      simp [this]
    · have : (a == x) = false := by simpa using fun h => hx h.symm
      simp [List.lookup_cons, this, hx]

/-- What a call appends to the times of the observables of a group. -/
theorem op_times {G H : List String} (hG : GroupPath G) (hH : GroupPath H) (op : OmOp) (hn : Natural op) :
    (opRows G op).filter (fun w => w.1 = H ++ ["observables", "times"])
      = match op with
        | .writeObservables t _ => if G = H then [(H ++ ["observables", "times"], scalarArr t)] else []
        | _ => [] := by
  have hr1 : "observables" ∈ reserved := by decide
  have hr2 : "metadata" ∈ reserved := by decide
  have hr3 : "network_checkpoints" ∈ reserved := by decide
  cases op with
  | setGroup g => rfl
  | writeError n d => rfl
  | writeDataset n d g => rfl
  | writeMetadata t kw =>
    rw [List.filter_eq_nil_iff]
    intro w hw
    rw [decide_eq_true_eq]
    intro hc
    unfold opRows at hw
    rw [List.mem_cons] at hw
    rcases hw with rfl | hw
    · rw [lib_path_inj hG hH hr2 hr1] at hc
      exact absurd hc.2.1 (by decide)
    · obtain ⟨k, _, hw⟩ := List.mem_flatMap.mp hw
      obtain ⟨v, _, rfl⟩ := List.mem_map.mp hw
      rw [lib_path_inj hG hH hr2 hr1] at hc
      exact absurd hc.2.1 (by decide)
  | writeCheckpoint t v =>
    rw [List.filter_eq_nil_iff]
    intro w hw
    rw [decide_eq_true_eq]
    intro hc
    unfold opRows at hw
    rw [List.mem_cons] at hw
    rcases hw with rfl | hw
    · rw [lib_path_inj hG hH hr3 hr1] at hc
      exact absurd hc.2.1 (by decide)
    · obtain ⟨v, _, rfl⟩ := List.mem_map.mp hw
      rw [lib_path_inj hG hH hr3 hr1] at hc
      exact absurd hc.2.1 (by decide)
  | writeObservables t kw =>
    unfold opRows
    rw [List.filter_cons]
    have hrest : List.filter (fun w => decide (w.1 = H ++ ["observables", "times"]))
        (kw.flatMap fun k => k.2.flatMap fun n => n.2.toList.map fun v =>
          (G ++ "observables" :: (HName.path k.1 ++ HName.path n.1), v)) = [] := by
      rw [List.filter_eq_nil_iff]
      intro w hw
      rw [decide_eq_true_eq]
      intro hc
      obtain ⟨k, hk, hw⟩ := List.mem_flatMap.mp hw
      obtain ⟨n, hn', hw⟩ := List.mem_flatMap.mp hw
      obtain ⟨v, _, rfl⟩ := List.mem_map.mp hw
      obtain ⟨⟨c, ⟨hc1, hc0⟩, hct⟩, hnk⟩ := hn k hk
      obtain ⟨⟨c', hc', hc0'⟩, _⟩ := hnk n hn'
      rw [lib_path_inj hG hH hr1 hr1, hc1, hc', path_of_ne [c] (by simpa using hc0),
        path_of_ne [c'] (by simpa using hc0')] at hc
      simp at hc
    rw [hrest]
    dsimp only
    by_cases h : G = H
    · subst h; simp
    · rw [if_neg h, if_neg]
      rw [decide_eq_true_eq, lib_path_inj hG hH hr1 hr1]
      exact fun hc => h hc.1

/-- What a call appends to the dataset of an observable of a group. -/
theorem op_obs {G H : List String} (hG : GroupPath G) (hH : GroupPath H) (op : OmOp) (hn : Natural op)
    (hd : ∀ t kw, op = .writeObservables t kw → DictKeys kw) (key name : String) :
    ((opRows G op).filter (fun w => w.1 = H ++ ["observables", key, name])).map (fun w => NdArr.row w.2)
      = match op with
        | .writeObservables _ kw => if G = H then ((obsValue key name kw).map NdArr.row).toList else []
        | _ => [] := by
  have hr1 : "observables" ∈ reserved := by decide
  have hr2 : "metadata" ∈ reserved := by decide
  have hr3 : "network_checkpoints" ∈ reserved := by decide
  cases op with
  | setGroup g => rfl
  | writeError n d => rfl
  | writeDataset n d g => rfl
  | writeMetadata t kw =>
    rw [List.map_eq_nil_iff, List.filter_eq_nil_iff]
    intro w hw
    rw [decide_eq_true_eq]
    intro hc
    unfold opRows at hw
    rw [List.mem_cons] at hw
    rcases hw with rfl | hw
    · rw [lib_path_inj hG hH hr2 hr1] at hc
      exact absurd hc.2.1 (by decide)
    · obtain ⟨k, _, hw⟩ := List.mem_flatMap.mp hw
      obtain ⟨v, _, rfl⟩ := List.mem_map.mp hw
      rw [lib_path_inj hG hH hr2 hr1] at hc
      exact absurd hc.2.1 (by decide)
  | writeCheckpoint t v =>
    rw [List.map_eq_nil_iff, List.filter_eq_nil_iff]
    intro w hw
    rw [decide_eq_true_eq]
    intro hc
    unfold opRows at hw
    rw [List.mem_cons] at hw
    rcases hw with rfl | hw
    · rw [lib_path_inj hG hH hr3 hr1] at hc
      exact absurd hc.2.1 (by decide)
    · obtain ⟨v, _, rfl⟩ := List.mem_map.mp hw
      rw [lib_path_inj hG hH hr3 hr1] at hc
      exact absurd hc.2.1 (by decide)
  | writeObservables t kw =>
    have hdk := hd t kw rfl
    unfold opRows
    rw [List.filter_cons, if_neg (by
      rw [decide_eq_true_eq, lib_path_inj hG hH hr1 hr1]
      rintro ⟨_, _, h⟩
      simp at h)]
    dsimp only
    rw [List.filter_flatMap]
    by_cases h : G = H
    · subst h
      rw [if_pos rfl]
      have e1 : ∀ k ∈ kw, List.filter (fun w => decide (w.1 = G ++ ["observables", key, name]))
            (k.2.flatMap fun n => n.2.toList.map fun v =>
              (G ++ "observables" :: (HName.path k.1 ++ HName.path n.1), v))
          = if k.1 = [key] then ((k.2.lookup [name]).elim [] fun v => v.toList.map fun x =>
              (G ++ ["observables", key, name], x)) else [] := by
        intro k hk
        obtain ⟨⟨c, ⟨hc1, hc0⟩, hct⟩, hnk⟩ := hn k hk
        rw [← flatMap_lookup [name] (fun v : PyVal => v.toList.map fun x =>
          (G ++ ["observables", key, name], x)) k.2 (hdk.2 k hk), List.filter_flatMap, hc1]
        by_cases hck : c = key
        · subst hck
          rw [if_pos rfl]
          refine List.flatMap_congr fun n hn' => ?_
          obtain ⟨⟨c', hc', hc0'⟩, _⟩ := hnk n hn'
          rw [hc', path_of_ne [c] (by simpa using hc0), path_of_ne [c'] (by simpa using hc0')]
          by_cases hcn : c' = name
          · subst hcn
            rw [if_pos rfl]
            apply List.filter_eq_self.mpr
            intro w hw
            obtain ⟨v, _, rfl⟩ := List.mem_map.mp hw
            simp
          · rw [if_neg (by simpa using hcn), List.filter_eq_nil_iff]
            intro w hw
            obtain ⟨v, _, rfl⟩ := List.mem_map.mp hw
            simpa using hcn
        · rw [if_neg (by simpa using hck), List.flatMap_eq_nil_iff]
          intro n hn'
          obtain ⟨⟨c', hc', hc0'⟩, _⟩ := hnk n hn'
          rw [hc', path_of_ne [c] (by simpa using hc0), path_of_ne [c'] (by simpa using hc0'),
            List.filter_eq_nil_iff]
          intro w hw
          obtain ⟨v, _, rfl⟩ := List.mem_map.mp hw
          simp [hck]
      rw [List.flatMap_congr e1, flatMap_lookup [key] (fun d : List (HName × PyVal) =>
        (d.lookup [name]).elim [] fun v => v.toList.map fun x => (G ++ ["observables", key, name], x)) kw hdk.1]
      unfold obsValue
      cases hk : kw.lookup [key] with
      | none => rfl
      | some d =>
        cases hl : d.lookup [name] with
        | none => simp [hl]
        | some v => cases v <;> simp [hl]
    · rw [if_neg h, List.map_eq_nil_iff, List.flatMap_eq_nil_iff]
      intro k hk
      rw [List.filter_eq_nil_iff]
      intro w hw
      obtain ⟨n, hn', hw⟩ := List.mem_flatMap.mp hw
      obtain ⟨v, _, rfl⟩ := List.mem_map.mp hw
      rw [decide_eq_true_eq, lib_path_inj hG hH hr1 hr1]
      exact fun hc => h hc.1

/-- What a call appends to the checkpoints of a group. -/
theorem op_checkpoint {G H : List String} (hG : GroupPath G) (hH : GroupPath H) (op : OmOp) (hn : Natural op) :
    (opRows G op).filter (fun w => w.1 = H ++ ["network_checkpoints", "times"])
      = (match op with
        | .writeCheckpoint t _ => if G = H then [(H ++ ["network_checkpoints", "times"], scalarArr t)] else []
        | _ => []) ∧
    (opRows G op).filter (fun w => w.1 = H ++ ["network_checkpoints", "checkpoints"])
      = (match op with
        | .writeCheckpoint _ (some v) => if G = H then [(H ++ ["network_checkpoints", "checkpoints"], v)] else []
        | _ => []) := by
  have hr1 : "observables" ∈ reserved := by decide
  have hr2 : "metadata" ∈ reserved := by decide
  have hr3 : "network_checkpoints" ∈ reserved := by decide
  cases op with
  | setGroup g => exact ⟨rfl, rfl⟩
  | writeError n d => exact ⟨rfl, rfl⟩
  | writeDataset n d g => exact ⟨rfl, rfl⟩
  | writeMetadata t kw =>
    have key : ∀ x, ∀ w ∈ opRows G (.writeMetadata t kw), w.1 ≠ H ++ ["network_checkpoints", x] := by
      intro x w hw hc
      unfold opRows at hw
      rw [List.mem_cons] at hw
      rcases hw with rfl | hw
      · rw [lib_path_inj hG hH hr2 hr3] at hc
        exact absurd hc.2.1 (by decide)
      · obtain ⟨k, _, hw⟩ := List.mem_flatMap.mp hw
        obtain ⟨v, _, rfl⟩ := List.mem_map.mp hw
        rw [lib_path_inj hG hH hr2 hr3] at hc
        exact absurd hc.2.1 (by decide)
    constructor <;> rw [List.filter_eq_nil_iff] <;> intro w hw <;> rw [decide_eq_true_eq] <;> exact key _ w hw
  | writeObservables t kw =>
    have key : ∀ x, ∀ w ∈ opRows G (.writeObservables t kw), w.1 ≠ H ++ ["network_checkpoints", x] := by
      intro x w hw hc
      unfold opRows at hw
      rw [List.mem_cons] at hw
      rcases hw with rfl | hw
      · rw [lib_path_inj hG hH hr1 hr3] at hc
        exact absurd hc.2.1 (by decide)
      · obtain ⟨k, _, hw⟩ := List.mem_flatMap.mp hw
        obtain ⟨n, _, hw⟩ := List.mem_flatMap.mp hw
        obtain ⟨v, _, rfl⟩ := List.mem_map.mp hw
        rw [lib_path_inj hG hH hr1 hr3] at hc
        exact absurd hc.2.1 (by decide)
    constructor <;> rw [List.filter_eq_nil_iff] <;> intro w hw <;> rw [decide_eq_true_eq] <;> exact key _ w hw
  | writeCheckpoint t v =>
    cases v with
    | none => exact absurd hn (by simp [Natural])
    | some v =>
      unfold opRows
      simp only [Option.toList_some, List.map_cons, List.map_nil, List.filter_cons, List.filter_nil,
        decide_eq_true_eq, lib_path_inj hG hH hr3 hr3]
      by_cases h : G = H
      · subst h; simp
      · simp [h]

theorem intended_times (H : List String) (hH : GroupPath H) : ∀ (ops : List OmOp) (G : List String), GroupPath G →
    (∀ op ∈ ops, Natural op) →
    ((intended G ops).filter (fun w => w.1 = H ++ ["observables", "times"])).map (fun w => NdArr.row w.2)
      = (obsCalls H G ops).map fun c => NdArr.row (scalarArr c.1)
  | [], _, _, _ => rfl
  | op :: ops, G, hG, hn => by
    have hG' : GroupPath (selected G op) := by
      cases op with
      | setGroup g => exact (hn (.setGroup g) (by simp)).2
      | _ => exact hG
    rw [show intended G (op :: ops) = opRows G op ++ intended (selected G op) ops from rfl, List.filter_append,
      List.map_append, intended_times H hH ops _ hG' (fun o ho => hn o (by simp [ho])),
      op_times hG hH op (hn op (by simp))]
    rw [show obsCalls H G (op :: ops) = _ ++ obsCalls H (selected G op) ops from rfl, List.map_append]
    congr 1
    cases op with
    | writeObservables t kw => dsimp only; split_ifs <;> rfl
    | _ => rfl

theorem intended_obs (H : List String) (hH : GroupPath H) (key name : String) : ∀ (ops : List OmOp) (G : List String),
    GroupPath G → (∀ op ∈ ops, Natural op) → (∀ t kw, .writeObservables t kw ∈ ops → DictKeys kw) →
    ((intended G ops).filter (fun w => w.1 = H ++ ["observables", key, name])).map (fun w => NdArr.row w.2)
      = (obsCalls H G ops).filterMap fun c => (obsValue key name c.2).map NdArr.row
  | [], _, _, _, _ => rfl
  | op :: ops, G, hG, hn, hd => by
    have hG' : GroupPath (selected G op) := by
      cases op with
      | setGroup g => exact (hn (.setGroup g) (by simp)).2
      | _ => exact hG
    rw [show intended G (op :: ops) = opRows G op ++ intended (selected G op) ops from rfl, List.filter_append,
      List.map_append, intended_obs H hH key name ops _ hG' (fun o ho => hn o (by simp [ho]))
        (fun t kw h => hd t kw (by simp [h])),
      op_obs hG hH op (hn op (by simp)) (fun t kw h => hd t kw (by simp [h]))]
    rw [show obsCalls H G (op :: ops) = _ ++ obsCalls H (selected G op) ops from rfl, List.filterMap_append]
    congr 1
    cases op with
    | writeObservables t kw =>
      dsimp only
      split_ifs
      · cases h : obsValue key name kw <;> simp [h]
      · rfl
    | _ => rfl

theorem intended_checkpoints (H : List String) (hH : GroupPath H) : ∀ (ops : List OmOp) (G : List String),
    GroupPath G → (∀ op ∈ ops, Natural op) →
    ((intended G ops).filter (fun w => w.1 = H ++ ["network_checkpoints", "times"])).map (fun w => NdArr.row w.2)
      = ((checkpoints H G ops).map fun c => NdArr.row (scalarArr c.1)) ∧
    ((intended G ops).filter (fun w => w.1 = H ++ ["network_checkpoints", "checkpoints"])).map
      (fun w => NdArr.row w.2) = (checkpoints H G ops).map fun c => NdArr.row c.2
  | [], _, _, _ => ⟨rfl, rfl⟩
  | op :: ops, G, hG, hn => by
    have hG' : GroupPath (selected G op) := by
      cases op with
      | setGroup g => exact (hn (.setGroup g) (by simp)).2
      | _ => exact hG
    obtain ⟨i1, i2⟩ := intended_checkpoints H hH ops _ hG' (fun o ho => hn o (by simp [ho]))
    obtain ⟨o1, o2⟩ := op_checkpoint hG hH op (hn op (by simp))
    rw [show intended G (op :: ops) = opRows G op ++ intended (selected G op) ops from rfl, List.filter_append,
      List.filter_append, List.map_append, List.map_append, i1, i2, o1, o2]
    rw [show checkpoints H G (op :: ops) = _ ++ checkpoints H (selected G op) ops from rfl, List.map_append,
      List.map_append]
    cases op with
    | writeCheckpoint t v =>
      cases v with
      | none => exact absurd (hn _ (List.mem_cons_self)) (by simp [Natural])
      | some v =>
        dsimp only
        constructor <;> congr 1 <;> split_ifs <;> rfl
    | _ => exact ⟨rfl, rfl⟩

theorem filterMap_all {A B : Type} (f : A → Option B) : ∀ l : List A, (∀ a ∈ l, (f a).isSome) →
    ∀ i : ℕ, (l.filterMap f)[i]? = l[i]?.bind f
  | [], _, i => by simp
  | a :: l, h, i => by
    obtain ⟨b, hb⟩ := Option.isSome_iff_exists.mp (h a (by simp))
    rw [List.filterMap_cons, hb]
    cases i with
    | zero => simp [hb]
    | succ i => simpa using filterMap_all f l (fun x hx => h x (by simp [hx])) i

end JVMC
