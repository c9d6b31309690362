import Verif.Model.ProductState
import Mathlib.Data.List.Nodup
import Mathlib.Data.List.Perm.Basic

/-!
# Lemmas about nested dictionaries of parameters
-/

namespace JVMC

variable {F : Type}

mutual

/-- Python dictionaries have every key once. -/
def ParamTree.UniqueKeys : ParamTree F → Prop
  | .arr _ => True
  | .dict e => (e.map Prod.fst).Nodup ∧ ParamTree.UniqueKeysAll e

def ParamTree.UniqueKeysAll : List (String × ParamTree F) → Prop
  | [] => True
  | (_, t) :: e => ParamTree.UniqueKeys t ∧ ParamTree.UniqueKeysAll e

end

mutual

/-- The same keys in the same order, arrays of the same size. -/
def ParamTree.Shape : ParamTree F → ParamTree F → Prop
  | .arr v, .arr w => w.length = v.length
  | .dict e, .dict e' => ParamTree.ShapeAll e e'
  | _, _ => False

def ParamTree.ShapeAll : List (String × ParamTree F) → List (String × ParamTree F) → Prop
  | [], [] => True
  | (k, t) :: e, (k', t') :: e' => k' = k ∧ ParamTree.Shape t t' ∧ ParamTree.ShapeAll e e'
  | _, _ => False

end

mutual

/-- Keys in increasing order. -/
def ParamTree.InOrder : ParamTree F → Prop
  | .arr _ => True
  | .dict e => e.Pairwise (fun a b => a.1 ≤ b.1) ∧ ParamTree.InOrderAll e

def ParamTree.InOrderAll : List (String × ParamTree F) → Prop
  | [] => True
  | (_, t) :: e => ParamTree.InOrder t ∧ ParamTree.InOrderAll e

end

open ParamTree

theorem uniqueKeysAll_iff (e : List (String × ParamTree F)) : UniqueKeysAll e ↔ ∀ x ∈ e, UniqueKeys x.2 := by
  induction e with
  | nil => simp [UniqueKeysAll]
  | cons x e ih => obtain ⟨k, t⟩ := x; simp [UniqueKeysAll, ih]

theorem inOrderAll_iff (e : List (String × ParamTree F)) : InOrderAll e ↔ ∀ x ∈ e, InOrder x.2 := by
  induction e with
  | nil => simp [InOrderAll]
  | cons x e ih => obtain ⟨k, t⟩ := x; simp [InOrderAll, ih]

theorem sortedAll_eq (e : List (String × ParamTree F)) : sortedAll e = e.map fun x => (x.1, x.2.sorted) := by
  induction e with
  | nil => simp [sortedAll]
  | cons x e ih => obtain ⟨k, t⟩ := x; simp [sortedAll, ih]

/-- Induction over nested dictionaries. -/
theorem tree_induction {P : ParamTree F → Prop} (h1 : ∀ v, P (.arr v))
    (h2 : ∀ e : List (String × ParamTree F), (∀ x ∈ e, P x.2) → P (.dict e)) : ∀ t, P t
  | .arr v => h1 v
  | .dict e => h2 e (go e)
where
  go : ∀ e : List (String × ParamTree F), ∀ x ∈ e, P x.2
  | [], x, hx => by simp at hx
  | (k, t) :: e, x, hx => by
    rcases List.mem_cons.mp hx with rfl | hx
    · exact tree_induction h1 h2 t
    · exact go e x hx

theorem shape_refl (t : ParamTree F) : Shape t t := by
  induction t using tree_induction with
  | h1 v => simp [Shape]
  | h2 e ih =>
    rw [Shape]
    induction e with
    | nil => simp [ShapeAll]
    | cons x e ih' =>
      obtain ⟨k, t⟩ := x
      rw [ShapeAll]
      exact ⟨rfl, ih (k, t) (by simp), ih' fun y hy => ih y (by simp [hy])⟩

theorem fill_shape (t : ParamTree F) : ∀ t' rest, Shape t t' → fill t (t'.entries ++ rest) = .ok (t', rest) := by
  induction t using tree_induction with
  | h1 v =>
    intro t' rest h
    cases t' with
    | dict e => simp [Shape] at h
    | arr w =>
      rw [Shape] at h
      rw [entries, fill, if_neg (by simp [h]), ← h]
      simp
  | h2 e ih =>
    intro t' rest h
    cases t' with
    | arr w => simp [Shape] at h
    | dict e' =>
      rw [Shape] at h
      rw [entries, fill]
      have : fillAll e (entriesAll e' ++ rest) = .ok (e', rest) := by
        induction e generalizing e' with
        | nil =>
          cases e' with
          | nil => simp [fillAll, entriesAll]
          | cons x e' => simp [ShapeAll] at h
        | cons x e ih' =>
          obtain ⟨k, t⟩ := x
          cases e' with
          | nil => simp [ShapeAll] at h
          | cons x' e' =>
            obtain ⟨k', t'⟩ := x'
            rw [ShapeAll] at h
            obtain ⟨rfl, h1, h2⟩ := h
            rw [entriesAll, fillAll, List.append_assoc, ih (k', t) (by simp) t' _ h1]
            change Except.bind (fillAll e (entriesAll e' ++ rest)) _ = _
            rw [ih' (fun y hy => ih y (by simp [hy])) e' h2]
            rfl
      rw [this]
      rfl

theorem leKey_trans (a b c : String × ParamTree F) (h1 : decide (a.1 ≤ b.1) = true) (h2 : decide (b.1 ≤ c.1) = true) :
    decide (a.1 ≤ c.1) = true := by
  simp only [decide_eq_true_eq] at *
  exact le_trans h1 h2

theorem leKey_total (a b : String × ParamTree F) : (decide (a.1 ≤ b.1) || decide (b.1 ≤ a.1)) = true := by
  simpa using le_total a.1 b.1

theorem sorted_inOrder (t : ParamTree F) : InOrder t.sorted := by
  induction t using tree_induction with
  | h1 v => simp [sorted, InOrder]
  | h2 e ih =>
    rw [sorted, InOrder]
    refine ⟨?_, ?_⟩
    · have := List.pairwise_mergeSort leKey_trans leKey_total (sortedAll e)
      exact this.imp fun h => by simpa using h
    · rw [inOrderAll_iff]
      intro x hx
      rw [List.mem_mergeSort, sortedAll_eq, List.mem_map] at hx
      obtain ⟨y, hy, rfl⟩ := hx
      exact ih y hy

theorem sorted_of_inOrder (t : ParamTree F) (h : InOrder t) : t.sorted = t := by
  induction t using tree_induction with
  | h1 v => rw [sorted]
  | h2 e ih =>
    rw [InOrder, inOrderAll_iff] at h
    rw [sorted, sortedAll_eq]
    have : (e.map fun x => (x.1, x.2.sorted)) = e := by
      conv_rhs => rw [← List.map_id e]
      refine List.map_congr_left fun x hx => ?_
      rw [ih x hx (h.2 x hx)]
      rfl
    rw [this, List.mergeSort_of_pairwise (h.1.imp fun h => by simpa using h)]

theorem shapeAll_keys : ∀ e e' : List (String × ParamTree F), ShapeAll e e' → e'.map Prod.fst = e.map Prod.fst
  | [], [], _ => rfl
  | [], _ :: _, h => by simp [ShapeAll] at h
  | _ :: _, [], h => by simp [ShapeAll] at h
  | (k, t) :: e, (k', t') :: e', h => by
    rw [ShapeAll] at h
    simp [h.1, shapeAll_keys e e' h.2.2]

theorem shape_inOrder (t : ParamTree F) : ∀ t', Shape t t' → InOrder t → InOrder t' := by
  induction t using tree_induction with
  | h1 v =>
    intro t' h _
    cases t' with
    | arr w => simp [InOrder]
    | dict e => simp [Shape] at h
  | h2 e ih =>
    intro t' h ho
    cases t' with
    | arr w => simp [Shape] at h
    | dict e' =>
      rw [Shape] at h
      rw [InOrder] at ho ⊢
      refine ⟨?_, ?_⟩
      · have hk := shapeAll_keys e e' h
        have h1 : (e.map Prod.fst).Pairwise (· ≤ ·) := List.pairwise_map.mpr ho.1
        rw [← hk] at h1
        exact List.pairwise_map.mp h1
      · have ho2 := ho.2
        clear ho
        induction e generalizing e' with
        | nil =>
          cases e' with
          | nil => simp [InOrderAll]
          | cons x e' => simp [ShapeAll] at h
        | cons x e ih' =>
          obtain ⟨k, t⟩ := x
          cases e' with
          | nil => simp [ShapeAll] at h
          | cons x' e' =>
            obtain ⟨k', t'⟩ := x'
            rw [ShapeAll] at h
            rw [InOrderAll] at ho2 ⊢
            exact ⟨ih (k, t) (by simp) t' h.2.1 ho2.1, ih' (fun y hy => ih y (by simp [hy])) e' h.2.2 ho2.2⟩

/-! ## Look-up -/

theorem get?_cons (k : String) (x : String × ParamTree F) (e : List (String × ParamTree F)) :
    PyDict.get? (x :: e) k = if x.1 = k then some x.2 else PyDict.get? e k := by
  obtain ⟨k', t⟩ := x
  unfold PyDict.get?
  rw [List.lookup_cons]
  by_cases h : k' = k
  · simp [h]
  · have : (k == k') = false := by simpa using fun h' => h h'.symm
    simp [this, h]

theorem get?_eq_some {e : List (String × ParamTree F)} (hn : (e.map Prod.fst).Nodup) (k : String) (t : ParamTree F) :
    PyDict.get? e k = some t ↔ (k, t) ∈ e := by
  induction e with
  | nil => simp [PyDict.get?]
  | cons x e ih =>
    rw [get?_cons]
    rw [List.map_cons, List.nodup_cons] at hn
    by_cases h : x.1 = k
    · rw [if_pos h]
      constructor
      · intro hx
        rw [Option.some.injEq] at hx
        subst h hx
        simp
      · intro hx
        rcases List.mem_cons.mp hx with rfl | hx
        · rfl
        · exact absurd (List.mem_map.mpr ⟨(k, t), hx, rfl⟩) (h ▸ hn.1)
    · rw [if_neg h, ih hn.2]
      constructor
      · intro hx; simp [hx]
      · intro hx
        rcases List.mem_cons.mp hx with rfl | hx
        · exact absurd rfl h
        · exact hx

theorem get?_perm {e e' : List (String × ParamTree F)} (hp : e.Perm e') (hn : (e.map Prod.fst).Nodup) (k : String) :
    PyDict.get? e k = PyDict.get? e' k := by
  have hn' : (e'.map Prod.fst).Nodup := (hp.map Prod.fst).nodup_iff.mp hn
  ext t
  rw [get?_eq_some hn, get?_eq_some hn', hp.mem_iff]

theorem get?_map (g : ParamTree F → ParamTree F) (e : List (String × ParamTree F)) (k : String) :
    PyDict.get? (e.map fun x => (x.1, g x.2)) k = (PyDict.get? e k).map g := by
  induction e with
  | nil => rfl
  | cons x e ih =>
    rw [List.map_cons, get?_cons, get?_cons, ih]
    by_cases h : x.1 = k <;> simp [h]

theorem get?_mem {e : List (String × ParamTree F)} {k : String} {t : ParamTree F} (h : PyDict.get? e k = some t) :
    (k, t) ∈ e := by
  induction e with
  | nil => simp [PyDict.get?] at h
  | cons x e ih =>
    rw [get?_cons] at h
    by_cases hx : x.1 = k
    · rw [if_pos hx, Option.some.injEq] at h
      subst hx h
      simp
    · rw [if_neg hx] at h
      simp [ih h]

theorem sorted_uniqueKeys (t : ParamTree F) (h : UniqueKeys t) : UniqueKeys t.sorted := by
  induction t using tree_induction with
  | h1 v => simp [sorted, UniqueKeys]
  | h2 e ih =>
    rw [UniqueKeys, uniqueKeysAll_iff] at h
    rw [sorted, UniqueKeys, uniqueKeysAll_iff]
    refine ⟨?_, fun x hx => ?_⟩
    · have hp := List.mergeSort_perm (sortedAll e) fun a b => decide (a.1 ≤ b.1)
      rw [(hp.map Prod.fst).nodup_iff, sortedAll_eq, List.map_map]
      exact h.1
    · rw [List.mem_mergeSort, sortedAll_eq, List.mem_map] at hx
      obtain ⟨y, hy, rfl⟩ := hx
      exact ih y hy (h.2 y hy)

theorem at_sorted (t : ParamTree F) (h : UniqueKeys t) (q : List String) : t.sorted.at q = t.at q := by
  induction t using tree_induction generalizing q with
  | h1 v => rw [sorted]
  | h2 e ih =>
    rw [UniqueKeys, uniqueKeysAll_iff] at h
    cases q with
    | nil => rw [sorted, ParamTree.at, ParamTree.at]
    | cons k ks =>
      rw [sorted, ParamTree.at, ParamTree.at]
      have hp := List.mergeSort_perm (sortedAll e) fun a b => decide (a.1 ≤ b.1)
      have hn : ((sortedAll e).map Prod.fst).Nodup := by
        rw [sortedAll_eq, List.map_map]
        exact h.1
      rw [← get?_perm hp.symm hn, sortedAll_eq, get?_map]
      cases hg : PyDict.get? e k with
      | none => rfl
      | some t =>
        have hm := get?_mem hg
        exact ih (k, t) hm (h.2 _ hm) ks

theorem copyDictLoop_eq (a : List (String × ParamTree F)) : ∀ b : List (String × ParamTree F),
    ((b ++ a).map Prod.fst).Nodup → (∀ x ∈ a, copyDict x.2 = x.2) → copyDictLoop b a = b ++ a := by
  induction a with
  | nil => intro b _ _; simp [copyDictLoop]
  | cons x a ih =>
    intro b hn hc
    obtain ⟨k, t⟩ := x
    rw [copyDictLoop, hc (k, t) (by simp)]
    have hk : k ∉ b.map Prod.fst := by
      intro hk
      rw [List.map_append, List.nodup_append] at hn
      exact hn.2.2 k hk k (by simp) rfl
    rw [PyDict.insert, if_neg hk, ih (b ++ [(k, t)]) (by simpa using hn) fun y hy => hc y (by simp [hy])]
    simp

theorem copyDict_eq (t : ParamTree F) (h : UniqueKeys t) : copyDict t = t := by
  induction t using tree_induction with
  | h1 v => rw [copyDict]
  | h2 e ih =>
    rw [UniqueKeys, uniqueKeysAll_iff] at h
    rw [copyDict, copyDictLoop_eq e [] (by simpa using h.1) fun x hx => ih x hx (h.2 x hx)]
    rfl

/-! ## Changing one dictionary -/

/-- The dictionary or array at a path. -/
def ParamTree.sub : List String → ParamTree F → Option (ParamTree F)
  | [], t => some t
  | _ :: _, .arr _ => none
  | k :: ks, .dict e => (PyDict.get? e k).bind fun t => ParamTree.sub ks t

theorem at_append (path q : List String) (t : ParamTree F) :
    t.at (path ++ q) = (t.sub path).bind fun d => d.at q := by
  induction path generalizing t with
  | nil => rfl
  | cons k ks ih =>
    cases t with
    | arr v => rfl
    | dict e =>
      rw [List.cons_append, ParamTree.at, ParamTree.sub]
      cases PyDict.get? e k with
      | none => rfl
      | some c => exact ih c

theorem insert_of_mem (e : List (String × ParamTree F)) (k : String) (c c' : ParamTree F)
    (hg : PyDict.get? e k = some c) : PyDict.insert e k c' = e.map fun x => if x.1 = k then (k, c') else x := by
  rw [PyDict.insert, if_pos (List.mem_map.mpr ⟨(k, c), get?_mem hg, rfl⟩)]

theorem get?_insert (e : List (String × ParamTree F)) (k k' : String) (c c' : ParamTree F)
    (hg : PyDict.get? e k = some c) :
    PyDict.get? (PyDict.insert e k c') k' = if k' = k then some c' else PyDict.get? e k' := by
  rw [insert_of_mem e k c c' hg]
  induction e with
  | nil => simp [PyDict.get?] at hg
  | cons x e ih =>
    rw [get?_cons] at hg
    rw [List.map_cons, get?_cons, get?_cons]
    by_cases hx : x.1 = k
    · rw [if_pos hx]
      by_cases hk : k' = k
      · simp [hk]
      · rw [if_neg (Ne.symm hk), if_neg hk, if_neg (by rw [hx]; exact Ne.symm hk)]
        clear hg ih
        induction e with
        | nil => rfl
        | cons y e ih =>
          rw [List.map_cons, get?_cons, get?_cons, ih]
          by_cases hy : y.1 = k
          · rw [if_pos hy, if_neg (Ne.symm hk), if_neg (by rw [hy]; exact Ne.symm hk)]
          · rw [if_neg hy]
    · rw [if_neg hx] at hg ⊢
      rw [ih hg]
      by_cases hk : k' = k
      · rw [if_pos hk, if_neg (by rw [hk]; exact hx), if_pos hk]
      · rw [if_neg hk, if_neg hk]

theorem shapeAll_replace (k : String) (c' : ParamTree F) : ∀ e : List (String × ParamTree F),
    (∀ x ∈ e, x.1 = k → Shape x.2 c') → ShapeAll e (e.map fun x => if x.1 = k then (k, c') else x)
  | [], _ => by simp [ShapeAll]
  | (k', t) :: e, h => by
    rw [List.map_cons]
    have ih := shapeAll_replace k c' e fun x hx => h x (by simp [hx])
    by_cases hk : k' = k
    · simp only [hk, if_true]
      rw [ShapeAll]
      exact ⟨rfl, h (k', t) (by simp) hk, ih⟩
    · simp only [hk, if_false]
      rw [ShapeAll]
      exact ⟨rfl, shape_refl t, ih⟩

theorem setItem_ok (e : List (String × ParamTree F)) (hu : UniqueKeys (.dict e)) (k : String) (c c' : ParamTree F)
    (hg : PyDict.get? e k = some c) (hs : Shape c c') (hc : UniqueKeys c') :
    Shape (.dict e) (.dict (PyDict.insert e k c')) ∧ UniqueKeys (.dict (PyDict.insert e k c')) := by
  rw [UniqueKeys, uniqueKeysAll_iff] at hu
  have hsh : ShapeAll e (PyDict.insert e k c') := by
    rw [insert_of_mem e k c c' hg]
    refine shapeAll_replace k c' e fun x hx hk => ?_
    have : PyDict.get? e k = some x.2 := (get?_eq_some hu.1 k x.2).mpr (by rw [← hk]; exact hx)
    rw [hg, Option.some.injEq] at this
    rw [← this]
    exact hs
  refine ⟨by rw [Shape]; exact hsh, ?_⟩
  rw [UniqueKeys, uniqueKeysAll_iff, shapeAll_keys _ _ hsh]
  refine ⟨hu.1, fun x hx => ?_⟩
  rw [insert_of_mem e k c c' hg, List.mem_map] at hx
  obtain ⟨y, hy, rfl⟩ := hx
  by_cases hk : y.1 = k
  · rw [if_pos hk]; exact hc
  · rw [if_neg hk]; exact hu.2 y hy

theorem changeAt_ok (f : ParamTree F → Except PyErr (ParamTree F)) (d d' : ParamTree F) (hf : f d = .ok d')
    (hsh : Shape d d') (hu' : UniqueKeys d') (path : List String) : ∀ t : ParamTree F, UniqueKeys t →
    t.sub path = some d → ∃ t', changeAt f path t = .ok t' ∧ Shape t t' ∧ UniqueKeys t' ∧ t'.sub path = some d' ∧
      ∀ q, ¬ path <+: q → t'.at q = t.at q := by
  induction path with
  | nil =>
    intro t hu hs
    rw [sub, Option.some.injEq] at hs
    subst hs
    exact ⟨d', hf, hsh, hu', rfl, fun q hq => absurd (List.nil_prefix) hq⟩
  | cons k ks ih =>
    intro t hu hs
    cases t with
    | arr v => simp [sub] at hs
    | dict e =>
      rw [sub] at hs
      obtain ⟨c, hg, hc⟩ := Option.bind_eq_some_iff.mp hs
      have hcu : UniqueKeys c := by
        have := hu
        rw [UniqueKeys, uniqueKeysAll_iff] at this
        exact this.2 _ (get?_mem hg)
      obtain ⟨c', h1, h2, h3, h4, h5⟩ := ih c hcu hc
      obtain ⟨h6, h7⟩ := setItem_ok e hu k c c' hg h2 h3
      refine ⟨.dict (PyDict.insert e k c'), ?_, h6, h7, ?_, ?_⟩
      · rw [changeAt, getItem, hg]
        change Except.bind (changeAt f ks c) _ = _
        rw [h1]
        rfl
      · rw [sub, get?_insert e k k c c' hg, if_pos rfl]
        exact h4
      · intro q hq
        cases q with
        | nil => rfl
        | cons k' ks' =>
          rw [ParamTree.at, ParamTree.at, get?_insert e k k' c c' hg]
          by_cases hk : k' = k
          · rw [if_pos hk, hk, hg]
            refine h5 ks' fun hp => hq ?_
            rw [hk]
            exact List.cons_prefix_cons.mpr ⟨rfl, hp⟩
          · rw [if_neg hk]

/-! ## The preparation -/

theorem sub_of_at {path : List String} {k : String} {t : ParamTree F} {v : List F} (h : t.at (path ++ [k]) = some v) :
    ∃ e, t.sub path = some (.dict e) ∧ PyDict.get? e k = some (.arr v) := by
  rw [at_append] at h
  obtain ⟨d, hd, hk⟩ := Option.bind_eq_some_iff.mp h
  cases d with
  | arr w => simp [ParamTree.at] at hk
  | dict e =>
    refine ⟨e, hd, ?_⟩
    rw [ParamTree.at] at hk
    obtain ⟨c, hc, hc'⟩ := Option.bind_eq_some_iff.mp hk
    cases c with
    | dict e' => simp [ParamTree.at] at hc'
    | arr w =>
      rw [ParamTree.at, Option.some.injEq] at hc'
      rw [hc, hc']

theorem sub_uniqueKeys (path : List String) : ∀ {t d : ParamTree F}, UniqueKeys t → t.sub path = some d → UniqueKeys d := by
  induction path with
  | nil =>
    intro t d hu hs
    rw [sub, Option.some.injEq] at hs
    exact hs ▸ hu
  | cons k ks ih =>
    intro t d hu hs
    cases t with
    | arr v => simp [sub] at hs
    | dict e =>
      rw [sub] at hs
      obtain ⟨c, hg, hc⟩ := Option.bind_eq_some_iff.mp hs
      rw [UniqueKeys, uniqueKeysAll_iff] at hu
      exact ih (hu.2 _ (get?_mem hg)) hc

theorem shape_trans (t : ParamTree F) : ∀ t' t'', Shape t t' → Shape t' t'' → Shape t t'' := by
  induction t using tree_induction with
  | h1 v =>
    intro t' t'' h h'
    cases t' <;> cases t'' <;> simp only [Shape] at h h' ⊢
    omega
  | h2 e ih =>
    intro t' t'' h h'
    cases t' with
    | arr w => simp [Shape] at h
    | dict e' =>
      cases t'' with
      | arr w => simp [Shape] at h'
      | dict e'' =>
        rw [Shape] at h h' ⊢
        induction e generalizing e' e'' with
        | nil =>
          cases e' with
          | nil => exact h'
          | cons x e' => simp [ShapeAll] at h
        | cons x e ih' =>
          obtain ⟨k, t⟩ := x
          cases e' with
          | nil => simp [ShapeAll] at h
          | cons x' e' =>
            obtain ⟨k', t'⟩ := x'
            cases e'' with
            | nil => simp [ShapeAll] at h'
            | cons x'' e'' =>
              obtain ⟨k'', t''⟩ := x''
              rw [ShapeAll] at h h' ⊢
              exact ⟨h'.1.trans h.1, ih (k, t) (by simp) t' t'' h.2.1 h'.2.1,
                ih' (fun y hy => ih y (by simp [hy])) e' h.2.2 e'' h'.2.2⟩

theorem treeUnflatten_shape (params t : ParamTree F) (h : Shape params.sorted t) :
    treeUnflatten params (treeVector t) = .ok t := by
  have ho := shape_inOrder _ _ h (sorted_inOrder params)
  have := fill_shape params.sorted t [] h
  rw [List.append_nil] at this
  rw [treeUnflatten, treeVector, sorted_of_inOrder t ho, this]
  rfl

theorem treeVector_sorted (params : ParamTree F) : treeVector params = treeVector params.sorted := by
  rw [treeVector, treeVector, sorted_of_inOrder _ (sorted_inOrder params)]

theorem not_prefix {path q : List String} {k : String} (h : ¬ path <+: q) : q ≠ path ++ [k] := fun e =>
  h (e ▸ List.prefix_append _ _)

/-- What the preparation does to the parameters. -/
theorem prepareParams_ok (path : List String) (biases : List Dbl) (params : ParamTree Dbl) (hu : UniqueKeys params)
    (b k : List Dbl) (hb : params.at (path ++ ["bias"]) = some b) (hk : params.at (path ++ ["kernel"]) = some k)
    (hl : biases.length = b.length) :
    ∃ params', prepareParams path biases params = .ok params' ∧ UniqueKeys params' ∧
      params'.at (path ++ ["bias"]) = some biases ∧
      params'.at (path ++ ["kernel"]) = some (k.map fun x => (Dbl.fin 1e-15).mul x) ∧
      ∀ q, q ≠ path ++ ["bias"] → q ≠ path ++ ["kernel"] → params'.at q = params.at q := by
  have hu0 := sorted_uniqueKeys params hu
  have hb0 := hb
  have hk0 := hk
  rw [← at_sorted params hu] at hb0 hk0
  obtain ⟨e, he, hgb⟩ := sub_of_at hb0
  obtain ⟨e', he', hgk⟩ := sub_of_at hk0
  rw [he, Option.some.injEq, ParamTree.dict.injEq] at he'
  subst he'
  have hue : UniqueKeys (.dict e) := sub_uniqueKeys path hu0 he
  -- the bias
  obtain ⟨hs1, hu1⟩ := setItem_ok e hue "bias" (.arr b) (.arr biases) hgb (by rw [Shape]; exact hl) (by simp [UniqueKeys])
  set e1 := PyDict.insert e "bias" (.arr biases) with he1
  have hgk1 : PyDict.get? e1 "kernel" = some (.arr k) := by
    rw [he1, get?_insert e "bias" "kernel" _ _ hgb, if_neg (by decide), hgk]
  obtain ⟨t1, h11, h12, h13, h14, h15⟩ := changeAt_ok (setItem "bias" (.arr biases)) (.dict e) (.dict e1) rfl hs1 hu1
    path params.sorted hu0 he
  -- the kernel
  obtain ⟨hs2, hu2⟩ := setItem_ok e1 hu1 "kernel" (.arr k) (.arr (k.map fun x => (Dbl.fin 1e-15).mul x)) hgk1
    (by rw [Shape]; simp) (by simp [UniqueKeys])
  set e2 := PyDict.insert e1 "kernel" (.arr (k.map fun x => (Dbl.fin 1e-15).mul x)) with he2
  obtain ⟨t2, h21, h22, h23, h24, h25⟩ := changeAt_ok (fun d => do
    let k ← getItem "kernel" d
    let k' ← scaleArr 1e-15 k
    setItem "kernel" k' d) (.dict e1) (.dict e2) (by rw [getItem, hgk1]; rfl) hs2 hu2
    path t1 h13 h14
  have hat : ∀ q, t2.at (path ++ q) = ParamTree.at q (.dict e2) := by
    intro q
    rw [at_append, h24]
    rfl
  have hg2 : ∀ k', PyDict.get? e2 k' = if k' = "kernel" then some (.arr (k.map fun x => (Dbl.fin 1e-15).mul x))
      else if k' = "bias" then some (.arr biases) else PyDict.get? e k' := by
    intro k'
    rw [he2, get?_insert e1 "kernel" k' _ _ hgk1, he1, get?_insert e "bias" k' _ _ hgb]
  refine ⟨t2, ?_, h23, ?_, ?_, ?_⟩
  · unfold prepareParams
    rw [treeVector_sorted, treeUnflatten_shape params params.sorted (shape_refl _)]
    change Except.bind (changeAt (setItem "bias" (.arr biases)) path (copyDict params.sorted)) _ = _
    rw [copyDict_eq _ hu0, h11]
    change Except.bind (changeAt _ path t1) _ = _
    rw [h21]
    exact treeUnflatten_shape params t2 (shape_trans _ _ _ h12 h22)
  · rw [hat, ParamTree.at, hg2, if_neg (by decide), if_pos rfl]
    rfl
  · rw [hat, ParamTree.at, hg2, if_pos rfl]
    rfl
  · intro q hq1 hq2
    by_cases hp : path <+: q
    · obtain ⟨q', rfl⟩ := hp
      rw [hat, ← at_sorted params hu, at_append, he]
      change _ = ParamTree.at q' (.dict e)
      cases q' with
      | nil => rfl
      | cons k' ks' =>
        rw [ParamTree.at, ParamTree.at, hg2]
        by_cases h1 : k' = "kernel"
        · subst h1
          rw [if_pos rfl, hgk]
          cases ks' with
          | nil => exact absurd rfl hq2
          | cons a as => rfl
        · rw [if_neg h1]
          by_cases h2 : k' = "bias"
          · subst h2
            rw [if_pos rfl, hgb]
            cases ks' with
            | nil => exact absurd rfl hq1
            | cons a as => rfl
          · rw [if_neg h2]
    · rw [h25 q hp, h15 q hp, at_sorted params hu]

/-- A missing key. -/
theorem prepareParams_missing (k : String) (path : List String) (biases : List Dbl) (e : List (String × ParamTree Dbl))
    (hu : UniqueKeys (.dict e)) (hk : k ∉ e.map Prod.fst) :
    prepareParams (k :: path) biases (.dict e) = .error .keyError := by
  have hu0 := sorted_uniqueKeys _ hu
  unfold prepareParams
  rw [treeVector_sorted, treeUnflatten_shape _ _ (shape_refl _)]
  change Except.bind (changeAt (setItem "bias" (.arr biases)) (k :: path) (copyDict _)) _ = _
  rw [copyDict_eq _ hu0, sorted, changeAt, getItem]
  have : PyDict.get? ((sortedAll e).mergeSort fun a b => decide (a.1 ≤ b.1)) k = none := by
    cases hg : PyDict.get? ((sortedAll e).mergeSort fun a b => decide (a.1 ≤ b.1)) k with
    | none => rfl
    | some t =>
      have hm := get?_mem hg
      rw [List.mem_mergeSort, sortedAll_eq, List.mem_map] at hm
      obtain ⟨y, hy, h⟩ := hm
      rw [Prod.mk.injEq] at h
      exact absurd (List.mem_map.mpr ⟨y, hy, h.1⟩) hk
  rw [this]
  rfl

end JVMC
