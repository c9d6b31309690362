import Verif.Spec.ParamDict

/-!
# Helper lemmas: flattening nested dictionaries
-/

namespace JVMC

open Spec

namespace PyTree

variable {A B : Type}

/-- The dictionaries are sorted by their keys. -/
def Sorted : {b : Bool} → PyTree A b → Prop
  | _, .leaf _ => True
  | _, .dict d => d.Sorted
  | _, .nil => True
  | _, .cons k v r => (∀ k' ∈ dictKeys r, k < k') ∧ v.Sorted ∧ r.Sorted

theorem mem_insertItem (k : String) (v : PyTree A true) (x : String) : ∀ d : PyTree A false,
    x ∈ dictKeys (insertItem k v d) ↔ x = k ∨ x ∈ dictKeys d
  | .nil => by simp [insertItem, dictKeys]
  | .cons k' v' r => by
    rw [insertItem]
    split
    · simp [dictKeys]
    · simp only [dictKeys, List.mem_cons, mem_insertItem k v x r]
      tauto

theorem sorted_insertItem (k : String) (v : PyTree A true) (hv : v.Sorted) : ∀ d : PyTree A false, d.Sorted →
    k ∉ dictKeys d → (insertItem k v d).Sorted
  | .nil, _, _ => by simp [insertItem, Sorted, dictKeys, hv]
  | .cons k' v' r, ⟨h1, h2, h3⟩, hk => by
    simp only [dictKeys, List.mem_cons, not_or] at hk
    rw [insertItem]
    split
    · rename_i hle
      have hlt : k < k' := lt_of_le_of_ne hle hk.1
      refine ⟨fun x hx => ?_, hv, h1, h2, h3⟩
      rcases List.mem_cons.mp hx with rfl | hx
      · exact hlt
      · exact hlt.trans (h1 x hx)
    · rename_i hle
      refine ⟨fun x hx => ?_, h2, sorted_insertItem k v hv r h3 hk.2⟩
      rcases (mem_insertItem k v x r).mp hx with rfl | hx
      · exact lt_of_not_ge hle
      · exact h1 x hx

theorem mem_sortKeys (x : String) : ∀ {b : Bool} (t : PyTree A b), x ∈ dictKeys t.sortKeys ↔ x ∈ dictKeys t
  | _, .leaf _ => by simp [sortKeys]
  | _, .dict d => by simp [sortKeys, dictKeys]
  | _, .nil => by simp [sortKeys]
  | _, .cons k v r => by rw [sortKeys, mem_insertItem, mem_sortKeys x r, dictKeys, List.mem_cons]

theorem sorted_sortKeys : ∀ {b : Bool} (t : PyTree A b), IsDict t → t.sortKeys.Sorted
  | _, .leaf _, _ => trivial
  | _, .dict d, h => sorted_sortKeys d h
  | _, .nil, _ => trivial
  | _, .cons k v r, ⟨h1, h2, h3⟩ =>
    sorted_insertItem k _ (sorted_sortKeys v h2) _ (sorted_sortKeys r h3) (by rwa [mem_sortKeys])

theorem isDict_of_sorted : ∀ {b : Bool} (t : PyTree A b), t.Sorted → IsDict t
  | _, .leaf _, _ => trivial
  | _, .dict d, h => isDict_of_sorted d h
  | _, .nil, _ => trivial
  | _, .cons k v r, ⟨h1, h2, h3⟩ => ⟨fun hk => lt_irrefl _ (h1 k hk), isDict_of_sorted v h2, isDict_of_sorted r h3⟩

theorem insertItem_lt (k : String) (v : PyTree A true) : ∀ d : PyTree A false, (∀ x ∈ dictKeys d, k < x) →
    insertItem k v d = .cons k v d
  | .nil, _ => by rw [insertItem]
  | .cons k' v' r, h => by rw [insertItem, if_pos (h k' (by simp [dictKeys])).le]

theorem sortKeys_of_sorted : ∀ {b : Bool} (t : PyTree A b), t.Sorted → t.sortKeys = t
  | _, .leaf _, _ => rfl
  | _, .dict d, h => by rw [sortKeys, sortKeys_of_sorted d h]
  | _, .nil, _ => rfl
  | _, .cons k v r, ⟨h1, h2, h3⟩ => by
    rw [sortKeys, sortKeys_of_sorted v h2, sortKeys_of_sorted r h3, insertItem_lt k v r h1]

/-! ## Looking up -/

theorem lookup_not_mem : ∀ (d : PyTree A false) (k : String) (p : List String), k ∉ dictKeys d → lookup d (k :: p) = none
  | .nil, _, _, _ => rfl
  | .cons k' v r, k, p, h => by
    simp only [dictKeys, List.mem_cons, not_or] at h
    rw [lookup, if_neg (Ne.symm h.1), lookup_not_mem r k p h.2]

theorem lookup_items_nil : ∀ (d : PyTree A false), lookup d [] = none
  | .nil => rfl
  | .cons _ _ _ => rfl

theorem lookup_insertItem (k : String) (v : PyTree A true) (p : List String) : ∀ d : PyTree A false, k ∉ dictKeys d →
    lookup (insertItem k v d) p = lookup (.cons k v d) p
  | .nil, _ => by rw [insertItem]
  | .cons k' v' r, h => by
    simp only [dictKeys, List.mem_cons, not_or] at h
    rw [insertItem]
    split
    · rfl
    · cases p with
      | nil => rfl
      | cons x p =>
        rw [lookup, lookup_insertItem k v (x :: p) r h.2, lookup, lookup, lookup]
        by_cases h1 : k' = x
        · rw [if_pos h1, if_neg (by rintro rfl; exact h.1 h1.symm), if_pos h1]
        · rw [if_neg h1, if_neg h1]

theorem lookup_sortKeys : ∀ {b : Bool} (t : PyTree A b) (p : List String), IsDict t → lookup t.sortKeys p = lookup t p
  | _, .leaf _, _, _ => rfl
  | _, .dict d, p, h => by rw [sortKeys, lookup, lookup, lookup_sortKeys d p h]
  | _, .nil, _, _ => rfl
  | _, .cons k v r, p, ⟨h1, h2, h3⟩ => by
    rw [sortKeys, lookup_insertItem _ _ _ _ (by rwa [mem_sortKeys])]
    cases p with
    | nil => rfl
    | cons x p => rw [lookup, lookup, lookup_sortKeys v p h2, lookup_sortKeys r _ h3]

/-- The paths to the leaves in the order of `leaves`. -/
def paths : {b : Bool} → PyTree A b → List (List String)
  | _, .leaf _ => [[]]
  | _, .dict d => d.paths
  | _, .nil => []
  | _, .cons k v r => v.paths.map (k :: ·) ++ r.paths

theorem paths_head : ∀ (d : PyTree A false) (p : List String), p ∈ d.paths → ∃ k ∈ dictKeys d, ∃ q, p = k :: q
  | .nil, _, h => by cases h
  | .cons k v r, p, h => by
    rw [paths, List.mem_append, List.mem_map] at h
    rcases h with ⟨q, _, rfl⟩ | h
    · exact ⟨k, by simp [dictKeys], q, rfl⟩
    · obtain ⟨k', hk', q, rfl⟩ := paths_head r p h
      exact ⟨k', by simp [dictKeys, hk'], q, rfl⟩

theorem paths_sorted : ∀ {b : Bool} (t : PyTree A b), t.Sorted → t.paths.Pairwise (· < ·)
  | _, .leaf _, _ => by simp [paths]
  | _, .dict d, h => paths_sorted d h
  | _, .nil, _ => by simp [paths]
  | _, .cons k v r, ⟨h1, h2, h3⟩ => by
    rw [paths, List.pairwise_append]
    refine ⟨?_, paths_sorted r h3, ?_⟩
    · rw [List.pairwise_map]
      exact (paths_sorted v h2).imp fun h => List.cons_lt_cons_iff.mpr (Or.inr ⟨rfl, h⟩)
    · intro p hp q hq
      obtain ⟨p, _, rfl⟩ := List.mem_map.mp hp
      obtain ⟨k', hk', q, rfl⟩ := paths_head r q hq
      exact List.cons_lt_cons_iff.mpr (Or.inl (h1 k' hk'))

theorem lookup_paths : ∀ {b : Bool} (t : PyTree A b), IsDict t →
    List.Forall₂ (fun p a => lookup t p = some a) t.paths t.leaves
  | _, .leaf a, _ => by
    rw [paths, leaves]
    exact .cons rfl .nil
  | _, .dict d, h => lookup_paths d h
  | _, .nil, _ => by rw [paths, leaves]; exact .nil
  | _, .cons k v r, ⟨h1, h2, h3⟩ => by
    rw [paths, leaves]
    refine List.rel_append ?_ ?_
    · rw [List.forall₂_map_left_iff]
      exact (lookup_paths v h2).imp fun p a h => by rw [lookup, if_pos rfl, h]
    · have hr := lookup_paths r h3
      have : ∀ p ∈ r.paths, lookup (.cons k v r) p = lookup r p := by
        intro p hp
        obtain ⟨k', hk', q, rfl⟩ := paths_head r p hp
        rw [lookup, if_neg]
        rintro rfl
        exact h1 hk'
      generalize r.leaves = l at hr
      clear h1 h2 h3
      revert this hr
      generalize r.paths = ps
      intro this hr
      induction hr with
      | nil => exact .nil
      | cons h _ ih => exact .cons ((this _ (by simp)).trans h) (ih fun p hp => this p (by simp [hp]))

theorem mem_paths_iff : ∀ {b : Bool} (t : PyTree A b), IsDict t → ∀ p, p ∈ t.paths ↔ (lookup t p).isSome
  | _, .leaf a, _, p => by cases p <;> simp [paths, lookup]
  | _, .dict d, h, p => by rw [paths, lookup]; exact mem_paths_iff d h p
  | _, .nil, _, p => by simp [paths, lookup]
  | _, .cons k v r, ⟨h1, h2, h3⟩, p => by
    cases p with
    | nil =>
      simp only [paths, lookup, Option.isSome_none, Bool.false_eq_true, iff_false, List.mem_append, List.mem_map, not_or]
      refine ⟨?_, fun h => ?_⟩
      · rintro ⟨q, _, hq⟩
        cases hq
      · obtain ⟨_, _, _, hq⟩ := paths_head r _ h
        cases hq
    | cons x p =>
      rw [paths, List.mem_append, List.mem_map, lookup]
      by_cases hx : k = x
      · subst hx
        rw [if_pos rfl, ← mem_paths_iff v h2]
        constructor
        · rintro (⟨q, hq, he⟩ | h)
          · cases he; exact hq
          · obtain ⟨k', hk', q, he⟩ := paths_head r _ h
            cases he
            exact absurd hk' h1
        · exact fun h => Or.inl ⟨p, h, rfl⟩
      · rw [if_neg hx, ← mem_paths_iff r h3]
        constructor
        · rintro (⟨q, hq, he⟩ | h)
          · cases he; exact absurd rfl hx
          · exact h
        · exact Or.inr

/-- What `tree_flatten` returns. -/
theorem flatten_inOrder {b : Bool} (t : PyTree A b) (h : IsDict t) : InOrder t t.flatten := by
  have hs := sorted_sortKeys t h
  have hd := isDict_of_sorted _ hs
  refine ⟨t.sortKeys.paths, paths_sorted _ hs, fun p => ?_, ?_⟩
  · rw [mem_paths_iff _ hd, lookup_sortKeys t p h]
  · exact (lookup_paths _ hd).imp fun p a hp => by rw [← lookup_sortKeys t p h, hp]

theorem inOrder_unique {b b' : Bool} {t : PyTree A b} {t' : PyTree A b'} (h : ∀ p, lookup t p = lookup t' p) {l l' : List A}
    (hl : InOrder t l) (hl' : InOrder t' l') : l = l' := by
  obtain ⟨ps, h1, h2, h3⟩ := hl
  obtain ⟨ps', h1', h2', h3'⟩ := hl'
  have hps : ps = ps' := by
    refine List.Perm.eq_of_pairwise (le := (· < ·)) (fun a b _ _ h h' => absurd h (lt_asymm h')) h1 h1' ?_
    refine (List.perm_ext_iff_of_nodup (h1.imp fun h => h.ne) (h1'.imp fun h => h.ne)).mpr fun p => ?_
    rw [h2, h2', h]
  subst hps
  clear h1 h2 h1' h2'
  induction h3 generalizing l' with
  | nil => cases h3'; rfl
  | cons h1 _ ih =>
    cases h3' with
    | cons h1' h2' =>
      rw [h, h1'] at h1
      rw [Option.some.inj h1, ih h2']

/-! ## Structures -/

theorem dictKeys_map (f : A → B) : ∀ {b : Bool} (t : PyTree A b), dictKeys (t.map f) = dictKeys t
  | _, .leaf _ => rfl
  | _, .dict _ => rfl
  | _, .nil => rfl
  | _, .cons k v r => by rw [map, dictKeys, dictKeys, dictKeys_map f r]

theorem sorted_map (f : A → B) : ∀ {b : Bool} (t : PyTree A b), (t.map f).Sorted ↔ t.Sorted
  | _, .leaf _ => Iff.rfl
  | _, .dict d => by rw [map, Sorted, Sorted, sorted_map f d]
  | _, .nil => Iff.rfl
  | _, .cons k v r => by rw [map, Sorted, Sorted, sorted_map f v, sorted_map f r, dictKeys_map]

theorem fill_map : ∀ {b : Bool} (t : PyTree A b) (l : List A),
    fill (t.map fun _ => ()) (t.leaves ++ l) = some (t, l)
  | _, .leaf a, l => rfl
  | _, .dict d, l => by rw [map, leaves, fill, fill_map d l]
  | _, .nil, l => rfl
  | _, .cons k v r, l => by
    rw [map, leaves, fill, List.append_assoc, fill_map v]
    dsimp only
    rw [fill_map r]

theorem fill_ok : ∀ {b : Bool} (d : PyTree Unit b) (l : List A), d.leaves.length ≤ l.length →
    ∃ t l', fill d l = some (t, l') ∧ l = t.leaves ++ l' ∧ (t.map fun _ => ()) = d
  | _, .leaf (), [], h => by simp [leaves] at h
  | _, .leaf (), a :: l, _ => ⟨.leaf a, l, rfl, rfl, rfl⟩
  | _, .dict d, l, h => by
    obtain ⟨t, l', h1, h2, h3⟩ := fill_ok d l h
    exact ⟨.dict t, l', by rw [fill, h1], h2, by rw [map, h3]⟩
  | _, .nil, l, _ => ⟨.nil, l, rfl, rfl, rfl⟩
  | _, .cons k v r, l, h => by
    rw [leaves, List.length_append] at h
    obtain ⟨t, l', h1, h2, h3⟩ := fill_ok v l (by omega)
    have hlen : v.leaves.length = t.leaves.length := by
      rw [← h3]
      clear h1 h2 h3 h
      exact leaves_map_length t
    have h2' := congrArg List.length h2
    rw [List.length_append] at h2'
    obtain ⟨t', l'', h1', h2', h3'⟩ := fill_ok r l' (by omega)
    refine ⟨.cons k t t', l'', ?_, ?_, by rw [map, h3, h3']⟩
    · rw [fill, h1]
      dsimp only
      rw [h1']
    · rw [h2, h2', leaves, List.append_assoc]
where
  leaves_map_length : ∀ {b : Bool} (t : PyTree A b), (t.map fun _ => ()).leaves.length = t.leaves.length
    | _, .leaf _ => rfl
    | _, .dict d => leaves_map_length d
    | _, .nil => rfl
    | _, .cons k v r => by
      rw [map, leaves, leaves, List.length_append, List.length_append, leaves_map_length v, leaves_map_length r]

/-- `tree_unflatten` with the structure of a tree and the right number of leaves. -/
theorem unflatten_ok {t₀ : PyTree B true} (h₀ : IsDict t₀) (l : List A) (hl : l.length = t₀.flatten.length) :
    ∃ t : PyTree A true, unflatten t₀.structure' l = .ok t ∧ t.flatten = l ∧ t.structure' = t₀.structure' ∧ IsDict t := by
  have hlen : (t₀.structure').leaves.length = l.length := by
    rw [structure', fill_ok.leaves_map_length, hl, flatten]
  obtain ⟨t, l', h1, h2, h3⟩ := fill_ok t₀.structure' l hlen.le
  have hl' : l' = [] := by
    rw [h2, List.length_append, ← h3, fill_ok.leaves_map_length] at hlen
    exact List.length_eq_zero_iff.mp (by omega)
  subst hl'
  have hs : t.Sorted := by
    rw [← sorted_map (fun _ => ()), h3, structure', sorted_map]
    exact sorted_sortKeys t₀ h₀
  refine ⟨t, ?_, ?_, ?_, isDict_of_sorted t hs⟩
  · rw [unflatten, h1]
  · rw [flatten, sortKeys_of_sorted t hs, h2, List.append_nil]
  · rw [structure', sortKeys_of_sorted t hs, h3]

theorem flatten_length_of_structure {t : PyTree A true} {t' : PyTree B true} (h : t.structure' = t'.structure') :
    t.flatten.length = t'.flatten.length := by
  rw [flatten, flatten, ← fill_ok.leaves_map_length t.sortKeys, ← fill_ok.leaves_map_length t'.sortKeys]
  exact congrArg (fun d => d.leaves.length) h

theorem lookup_map (f : A → B) : ∀ {b : Bool} (t : PyTree A b) (p : List String), lookup (t.map f) p = (lookup t p).map f
  | _, .leaf _, [] => rfl
  | _, .leaf _, _ :: _ => rfl
  | _, .dict d, p => by rw [map, lookup, lookup, lookup_map f d]
  | _, .nil, _ => rfl
  | _, .cons _ _ _, [] => rfl
  | _, .cons k v r, x :: p => by
    rw [map, lookup, lookup, lookup_map f v, lookup_map f r]
    split <;> rfl

theorem leaves_map (f : A → B) : ∀ {b : Bool} (t : PyTree A b), (t.map f).leaves = t.leaves.map f
  | _, .leaf _ => rfl
  | _, .dict d => leaves_map f d
  | _, .nil => rfl
  | _, .cons k v r => by rw [map, leaves, leaves, leaves_map f v, leaves_map f r, List.map_append]

theorem map_unit (f : A → B) : ∀ {b : Bool} (t : PyTree A b), ((t.map f).map fun _ => ()) = t.map fun _ => ()
  | _, .leaf _ => rfl
  | _, .dict d => by rw [map, map, map, map_unit f d]
  | _, .nil => rfl
  | _, .cons k v r => by rw [map, map, map, map_unit f v, map_unit f r]

theorem eq_of_leaves {b : Bool} {t t' : PyTree A b} (h : (t.map fun _ => ()) = t'.map fun _ => ())
    (hl : t.leaves = t'.leaves) : t = t' := by
  have h1 := fill_map t []
  have h2 := fill_map t' []
  rw [h, hl, h2] at h1
  exact (congrArg Prod.fst (Option.some.inj h1)).symm

theorem lookup_length {F G : Type} {t : PyTree (List F) true} {t' : PyTree (List G) true} (h : IsDict t) (h' : IsDict t')
    (hs : t.structure' = t'.structure') (hl : t.flatten.map List.length = t'.flatten.map List.length) (p : List String) :
    (lookup t p).map List.length = (lookup t' p).map List.length := by
  rw [← lookup_sortKeys t p h, ← lookup_sortKeys t' p h', ← lookup_map, ← lookup_map]
  refine congrArg (fun x => lookup x p) (eq_of_leaves ?_ ?_)
  · rw [map_unit, map_unit]
    exact hs
  · rw [leaves_map, leaves_map]
    exact hl

end PyTree

end JVMC
