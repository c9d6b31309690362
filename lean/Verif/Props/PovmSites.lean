import Verif.Lemmas.PovmSites
import Verif.Props.PovmOperator

/-!
# C130 — sites of the terms of a `POVMOperator`

`OpDictZ` is a dictionary given to `add` whose tuple `"sites"` contains any integers; `compilePovmZ` and `povmSPrimesZ` are
`compile` and `get_s_primes`.
-/

namespace JVMC

open Spec

variable {N : ℕ} {R : Type} [Ring R]

/-- Terms whose sites are `0, …, N-1`: the compiled operator is the sum of all terms. Missing: other sites, which should
be refused (or count from the end), see `c130_dropped_violated` and `c130_beyond_violated`. -/
theorem c130_sites_partial [NeZero N] (operators : String → Option (ℕ × LocMat R)) (matOf : String → LocMat R)
    (enum : List (List ℤ) → List (List ℤ)) (henum : ∀ l x, x ∈ enum l ↔ x ∈ l)
    (opsZ : List (OpDictZ R)) (ops : List (OpDict N R))
    (hops : List.Forall₂ (fun o o' => o.name = o'.name ∧ o.strength = o'.strength ∧ o.id = o'.id ∧
      o.sites = o'.sites.map fun i : Fin N => ((i : ℕ) : ℤ)) opsZ ops) (h0 : ops ≠ [])
    (hok : ∀ op ∈ ops, op.sites ≠ [] ∧ op.sites.Nodup ∧
      operators op.name = some (op.sites.length, matOf op.name))
    (hid : ∀ a ∈ ops, ∀ b ∈ ops, a.id = b.id → a.sites = b.sites) :
    ∃ c, compilePovmZ operators enum opsZ = .ok c ∧ ∀ s, ∃ l, povmSPrimesZ c s = .ok l ∧ ∀ s',
      elementOf l s' = (ops.map fun op => op.strength * onSites op.sites (matOf op.name) s s').sum := by
  have hz : opsZ = ops.map dictZ := by
    clear h0 hok hid
    induction hops with
    | nil => rfl
    | cons h _ ih =>
      rw [List.map_cons, ← ih]
      obtain ⟨h1, h2, h3, h4⟩ := h
      congr 1
      rename_i o o' _ _ _
      cases o
      simp only at h1 h2 h3 h4
      subst h1 h2 h3 h4
      rfl
  subst hz
  rw [compilePovmZ_eq operators enum henum]
  obtain ⟨c, hc, h2, h3⟩ := compilePovm_ok operators matOf (enumFin N enum) (enumFin_mem enum henum) ops h0 hok hid
  rw [hc]
  refine ⟨_, rfl, fun s => ⟨povmSPrimes c s, ?_, fun s' => ?_⟩⟩
  · apply povmSPrimesZ_eq
    obtain ⟨op, ops', rfl⟩ := List.exists_cons_of_ne_nil h0
    have hcz := compilePovmZ_eq operators enum henum (op :: ops')
    rw [hc] at hcz
    have hz := compilePovmZ_couplings operators enum henum _ _ hcz (dictZ op) (by simp)
    obtain ⟨i, is, hi⟩ := List.exists_cons_of_ne_nil (hok op List.mem_cons_self).1
    have := hz i.val (by simp [dictZ, toZ, hi])
    simpa using this
  · obtain ⟨m, cs⟩ := c
    rw [elementOf_povmSPrimes m cs h2]
    exact h3 s s'

/-- Two bonds and a field, in a chain of three sites. -/
example : ∃ c, compilePovmZ exampleOps List.dedup [⟨"zz", 1, [0, 1], 1⟩, ⟨"zz", 3, [2, 0], 2⟩, ⟨"z", 5, [0], 3⟩] = .ok c ∧
    ∀ s : Config 3 4, ∃ l, povmSPrimesZ c s = .ok l ∧ ∀ s', elementOf l s'
      = ([(⟨"zz", 1, [0, 1], 1⟩ : OpDict 3 ℤ), ⟨"zz", 3, [2, 0], 2⟩, ⟨"z", 5, [0], 3⟩].map fun op => op.strength *
          onSites op.sites (((exampleOps op.name).getD (0, fun _ _ => 0)).2) s s').sum :=
  c130_sites_partial exampleOps (fun n => ((exampleOps n).getD (0, fun _ _ => 0)).2) List.dedup
    (fun l x => List.mem_dedup) _ _ (by simp) (by simp) (by simp [exampleOps]) (by simp)

theorem pyMaxZ_iff (l : List ℤ) (m : ℤ) : pyMaxZ l = .ok m ↔ m ∈ l ∧ ∀ x ∈ l, x ≤ m := by
  have hmem : ∀ (l : List ℤ) (a : ℤ), l.foldl max a ∈ a :: l := by
    intro l
    induction l with
    | nil => intro a; simp
    | cons b l ih =>
      intro a
      rw [List.foldl_cons]
      rcases List.mem_cons.mp (ih (max a b)) with h | h
      · rw [h]
        rcases max_choice a b with h' | h' <;> rw [h'] <;> simp
      · exact List.mem_cons_of_mem _ (List.mem_cons_of_mem _ h)
  constructor
  · intro h
    refine ⟨?_, pyMaxZ_ge l m h⟩
    cases l with
    | nil => cases h
    | cons a l =>
      have : l.foldl max a = m := by injection h
      rw [← this]
      exact hmem l a
  · rintro ⟨h1, h2⟩
    cases l with
    | nil => cases h1
    | cons a l =>
      have h3 := pyMaxZ_ge (a :: l) _ rfl m h1
      have h4 := h2 _ (hmem l a)
      exact congrArg Except.ok (le_antisymm h4 h3)

theorem pyMaxZ_dominated (l₁ l₂ : List ℤ) (x : ℤ) (h : ∃ y ∈ l₁ ++ l₂, x ≤ y) :
    pyMaxZ (l₁ ++ x :: l₂) = pyMaxZ (l₁ ++ l₂) := by
  obtain ⟨y, hy, hxy⟩ := h
  cases hm : pyMaxZ (l₁ ++ l₂) with
  | error e =>
    exfalso
    cases hl : l₁ ++ l₂ with
    | nil => rw [hl] at hy; cases hy
    | cons a l => rw [hl] at hm; cases hm
  | ok m =>
    rw [pyMaxZ_iff] at hm ⊢
    obtain ⟨h1, h2⟩ := hm
    have := h2 y hy
    refine ⟨by simp only [List.mem_append, List.mem_cons] at h1 ⊢; tauto, fun z hz => ?_⟩
    simp only [List.mem_append, List.mem_cons] at hz
    rcases hz with hz | rfl | hz
    · exact h2 z (by simp [hz])
    · omega
    · exact h2 z (by simp [hz])

theorem pyMax_dominated (l₁ l₂ : List ℕ) (x : ℕ) (h : ∃ y ∈ l₁ ++ l₂, x ≤ y) :
    pyMax (l₁ ++ x :: l₂) = pyMax (l₁ ++ l₂) := by
  obtain ⟨y, hy, hxy⟩ := h
  have hz := pyMaxZ_dominated (l₁.map fun n : ℕ => (n : ℤ)) (l₂.map fun n : ℕ => (n : ℤ)) x
    ⟨y, by rw [← List.map_append]; exact List.mem_map_of_mem hy, by omega⟩
  have h1 := pyMaxZ_cast (l₁ ++ x :: l₂)
  have h2 := pyMaxZ_cast (l₁ ++ l₂)
  rw [List.map_append] at h1 h2
  rw [List.map_cons, hz, h2] at h1
  cases ha : pyMax (l₁ ++ x :: l₂) <;> cases hb : pyMax (l₁ ++ l₂) <;> rw [ha, hb] at h1
  · simpa [Except.map] using h1.symm
  · cases h1
  · cases h1
  · simp only [Except.map, Except.ok.injEq] at h1 ⊢
    omega

/-- Python counts negative indices from the end, and so do branch-free operators (C129). A term of a `POVMOperator` whose
first site is negative is dropped without a word: the operator is compiled to the same as without the term, provided that
the remaining terms contain one on as many sites, and a site that is as large. -/
theorem c130_dropped_violated (operators : String → Option (ℕ × LocMat R)) (enum : List (List ℤ) → List (List ℤ))
    (ops₁ ops₂ : List (OpDictZ R)) (o : OpDictZ R) (first : ℤ) (rest : List ℤ) (hsites : o.sites = first :: rest)
    (hneg : first < 0) (hlen : ∃ p ∈ ops₁ ++ ops₂, o.sites.length ≤ p.sites.length)
    (hmax : ∃ p ∈ ops₁ ++ ops₂, ∃ z ∈ p.sites, ∀ x ∈ o.sites, x ≤ z) :
    compilePovmZ operators enum (ops₁ ++ o :: ops₂) = compilePovmZ operators enum (ops₁ ++ ops₂) := by
  have hord : ∀ (m idx : ℕ), opsOrderedZ m (ops₁ ++ o :: ops₂) idx = opsOrderedZ m (ops₁ ++ ops₂) idx := by
    intro m idx
    unfold opsOrderedZ
    apply List.map_congr_left
    intro n _
    rw [List.filter_append, List.filter_append, List.filter_cons_of_neg]
    rw [hsites]
    simp
    intro h
    omega
  have hsite : ∀ (m : ℕ) (ms : ℤ), compileSiteZ operators enum m ms (ops₁ ++ o :: ops₂)
      = compileSiteZ operators enum m ms (ops₁ ++ ops₂) := by
    intro m ms
    funext cs idx
    unfold compileSiteZ
    rw [hord]
  have h1 : pyMax ((ops₁ ++ o :: ops₂).map fun op => op.sites.length)
      = pyMax ((ops₁ ++ ops₂).map fun op => op.sites.length) := by
    rw [List.map_append, List.map_append, List.map_cons]
    apply pyMax_dominated
    obtain ⟨p, hp, hp'⟩ := hlen
    exact ⟨_, by rw [← List.map_append]; exact List.mem_map_of_mem hp, hp'⟩
  obtain ⟨mo, hmo⟩ : ∃ mo, pyMaxZ o.sites = .ok mo := by rw [hsites]; exact ⟨_, rfl⟩
  unfold compilePovmZ
  rw [h1]
  simp only [hsite]
  cases hm : (ops₁ ++ ops₂).mapM fun op => pyMaxZ op.sites with
  | error e =>
    have h2 : (ops₁ ++ o :: ops₂).mapM (fun op => pyMaxZ op.sites) = .error e := by
      rw [List.mapM_append] at hm ⊢
      rw [List.mapM_cons, hmo]
      cases ha : ops₁.mapM fun op => pyMaxZ op.sites with
      | error e' => rw [ha] at hm; exact hm
      | ok a =>
        rw [ha] at hm
        cases hb : ops₂.mapM fun op => pyMaxZ op.sites with
        | error e' => rw [hb] at hm; exact hm
        | ok b => rw [hb] at hm; cases hm
    rw [h2]
  | ok maxima =>
    obtain ⟨p, hp, z, hz, hle⟩ := hmax
    obtain ⟨mp, hmp, hmp'⟩ := mapM_pyMaxZ_mem _ _ hm p hp
    have hmole : mo ≤ mp := (hle _ ((pyMaxZ_iff _ _).1 hmo).1).trans (pyMaxZ_ge _ _ hmp' z hz)
    rw [List.mapM_append] at hm
    have h2 : ∃ m', (ops₁ ++ o :: ops₂).mapM (fun op => pyMaxZ op.sites) = .ok m' ∧ pyMaxZ m' = pyMaxZ maxima := by
      rw [List.mapM_append, List.mapM_cons, hmo]
      cases ha : ops₁.mapM fun op => pyMaxZ op.sites with
      | error e' => rw [ha] at hm; cases hm
      | ok a =>
        rw [ha] at hm
        cases hb : ops₂.mapM fun op => pyMaxZ op.sites with
        | error e' => rw [hb] at hm; cases hm
        | ok b =>
          rw [hb] at hm
          cases hm
          exact ⟨_, rfl, pyMaxZ_dominated a b mo ⟨mp, hmp, hmole⟩⟩
    obtain ⟨m', h3, h4⟩ := h2
    rw [h3]
    cases pyMax ((ops₁ ++ ops₂).map fun op => op.sites.length) with
    | error e => rfl
    | ok m => simp only [h4]

/-- The bond `(-1, 0)` that should close a ring of three sites: the operator is that of the open chain. -/
example (enum : List (List ℤ) → List (List ℤ)) :
    compilePovmZ exampleOps enum [⟨"zz", 1, [0, 1], 1⟩, ⟨"zz", 1, [1, 2], 2⟩, ⟨"zz", 1, [-1, 0], 3⟩]
      = compilePovmZ exampleOps enum [⟨"zz", 1, [0, 1], 1⟩, ⟨"zz", 1, [1, 2], 2⟩] :=
  c130_dropped_violated exampleOps enum [⟨"zz", 1, [0, 1], 1⟩, ⟨"zz", 1, [1, 2], 2⟩] [] ⟨"zz", 1, [-1, 0], 3⟩ (-1) [0] rfl
    (by norm_num) ⟨_, List.mem_cons_self, le_rfl⟩ ⟨⟨"zz", 1, [0, 1], 1⟩, by simp, 1, by simp, by simp⟩

/-- With `(0, -1)` instead it is the bond between the first and the last site. -/
example : ∃ c c', compilePovmZ exampleOps List.dedup
      [⟨"z", 1, [1], 1⟩, ⟨"zz", 1, [0, -1], 2⟩] = .ok c ∧
    compilePovmZ exampleOps List.dedup [⟨"z", 1, [1], 1⟩, ⟨"zz", 1, [0, 2], 2⟩] = .ok c' ∧
    (povmSPrimesZ c (![1, 3, 1] : Config 3 4)).toOption.map (fun l => elementOf l ![1, 3, 1]) = some 3 ∧
    (povmSPrimesZ c' (![1, 3, 1] : Config 3 4)).toOption.map (fun l => elementOf l ![1, 3, 1]) = some 3 :=
  ⟨_, _, rfl, rfl, by decide, by decide⟩

theorem compileSiteZ_skip (operators : String → Option (ℕ × LocMat R)) (enum : List (List ℤ) → List (List ℤ))
    (henum : ∀ l x, x ∈ enum l ↔ x ∈ l) (maxInt : ℕ) (maxSite : ℤ) (ops : List (OpDictZ R))
    (cs : List (List ℤ × LocMat R)) (idx : ℕ) (h : ∀ o ∈ ops, o.sites.head? ≠ some (idx : ℤ)) :
    compileSiteZ operators enum maxInt maxSite ops cs idx = .ok cs := by
  have hoo : ∀ n, (opsOrderedZ maxInt ops idx).getD n [] = [] := by
    intro n
    unfold opsOrderedZ
    simp only [List.getD_eq_getElem?_getD, List.getElem?_map]
    cases (List.range maxInt)[n]? with
    | none => rfl
    | some k =>
      simp only [Option.map_some, Option.getD_some]
      rw [List.filter_eq_nil_iff]
      intro o ho
      simp [h o ho]
  have hlen : ∀ n, compileLenZ operators enum maxInt maxSite { oo := opsOrderedZ maxInt ops idx, couplings := cs } n
      = .ok { oo := opsOrderedZ maxInt ops idx, couplings := cs } := by
    intro n
    unfold compileLenZ
    have : enum ((({ oo := opsOrderedZ maxInt ops idx, couplings := cs } : CompStateZ R).oo.getD n []).map
        OpDictZ.sites) = [] := by
      rw [List.eq_nil_iff_forall_not_mem]
      intro x hx
      rw [henum, hoo] at hx
      cases hx
    rw [this]
    rfl
  have hfold : ∀ ns : List ℕ, ns.foldlM (compileLenZ operators enum maxInt maxSite)
      { oo := opsOrderedZ maxInt ops idx, couplings := cs }
        = .ok { oo := opsOrderedZ maxInt ops idx, couplings := cs } := by
    intro ns
    induction ns with
    | nil => rfl
    | cons n ns ih => rw [List.foldlM_cons, hlen]; exact ih
  unfold compileSiteZ
  rw [hfold]
  rfl

theorem foldSitesZ_skip (operators : String → Option (ℕ × LocMat R)) (enum : List (List ℤ) → List (List ℤ))
    (henum : ∀ l x, x ∈ enum l ↔ x ∈ l) (maxInt : ℕ) (maxSite : ℤ) (ops : List (OpDictZ R))
    (cs : List (List ℤ × LocMat R)) (idxs : List ℕ)
    (h : ∀ idx ∈ idxs, ∀ o ∈ ops, o.sites.head? ≠ some (idx : ℤ)) :
    idxs.foldlM (compileSiteZ operators enum maxInt maxSite ops) cs = .ok cs := by
  induction idxs with
  | nil => rfl
  | cons idx idxs ih =>
    rw [List.foldlM_cons, compileSiteZ_skip operators enum henum _ _ _ _ _ (h idx List.mem_cons_self)]
    exact ih fun i hi => h i (List.mem_cons_of_mem _ hi)

/-- If the first sites of all terms are negative, `compile` succeeds with nothing, and the use of the operator raises
`TypeError`. -/
theorem c130_all_negative [NeZero N] (operators : String → Option (ℕ × LocMat R)) (enum : List (List ℤ) → List (List ℤ))
    (henum : ∀ l x, x ∈ enum l ↔ x ∈ l) (ops : List (OpDictZ R)) (h0 : ops ≠ [])
    (hneg : ∀ o ∈ ops, ∃ first rest, o.sites = first :: rest ∧ first < 0) :
    ∃ c, compilePovmZ operators enum ops = .ok c ∧ ∀ s : Config N 4, povmSPrimesZ c s = .error .typeError := by
  obtain ⟨m, h1, -⟩ := pyMax_ok (ops.map fun op => op.sites.length) (by simpa using h0)
  have h2 : ∃ maxima, ops.mapM (fun op => pyMaxZ op.sites) = .ok maxima ∧ maxima.length = ops.length := by
    clear h1 h0
    induction ops with
    | nil => exact ⟨[], rfl, rfl⟩
    | cons o ops ih =>
      obtain ⟨mx, g1, g2⟩ := ih fun o ho => hneg o (List.mem_cons_of_mem _ ho)
      obtain ⟨f, r, hf, _⟩ := hneg o List.mem_cons_self
      exact ⟨_ :: mx, by rw [List.mapM_cons, hf, g1]; rfl, by simp [g2]⟩
  obtain ⟨maxima, h2, h3⟩ := h2
  cases maxima with
  | nil => exact absurd (List.length_eq_zero_iff.mp h3.symm) h0
  | cons a l =>
    refine ⟨(m, []), ?_, fun s => rfl⟩
    unfold compilePovmZ
    rw [h1, h2]
    simp only [pyMaxZ]
    rw [foldSitesZ_skip operators enum henum]
    · rfl
    · intro idx _ o ho
      obtain ⟨f, r, hf, hlt⟩ := hneg o ho
      rw [hf]
      simp
      omega

example (s : Config 3 4) : ∃ c, compilePovmZ exampleOps List.dedup [⟨"zz", 1, [-1, 0], 1⟩] = .ok c ∧
    povmSPrimesZ c s = .error .typeError := by
  obtain ⟨c, h, h'⟩ := c130_all_negative (N := 3) exampleOps List.dedup (fun l x => List.mem_dedup)
    [⟨"zz", 1, [-1, 0], 1⟩] (by simp) (by simp)
  exact ⟨c, h, h' s⟩

/-- A site beyond the lattice is not refused: a one-body term on such a site changes no configuration, and what is returned
for a configuration is the whole row of the matrix that belongs to the outcome of the last site. -/
theorem c130_beyond_violated [NeZero N] (operators : String → Option (ℕ × LocMat R)) (A : LocMat R)
    (enum : List (List ℤ) → List (List ℤ)) (henum : ∀ l x, x ∈ enum l ↔ x ∈ l) (hnd : ∀ l, (enum l).Nodup)
    (name : String) (hA : operators name = some (1, A)) (strength : R) (z : ℕ) (hz : N ≤ z) :
    ∃ c, compilePovmZ operators enum [⟨name, strength, [(z : ℤ)], 1⟩] = .ok c ∧ ∀ s : Config N 4, ∃ l,
      povmSPrimesZ c s = .ok l ∧ ∀ s', elementOf l s' = if s' = s then
        ∑ b : Fin 4, strength * A [s ⟨N - 1, by have := NeZero.pos N; omega⟩] [b] else 0 := by
  have henum1 : enum [[(z : ℤ)]] = [[(z : ℤ)]] := by
    have hp : (enum [[(z : ℤ)]]).Perm [[(z : ℤ)]] :=
      (List.perm_ext_iff_of_nodup (hnd _) (List.nodup_singleton _)).2 fun x => henum _ x
    exact List.perm_singleton.1 hp
  have hsite : compileSiteZ operators enum 1 (z : ℤ) [⟨name, strength, [(z : ℤ)], 1⟩] [] z
      = .ok [([(z : ℤ)], fun s t => 0 + strength * A s t)] := by
    unfold compileSiteZ
    have hoo : opsOrderedZ 1 [(⟨name, strength, [(z : ℤ)], 1⟩ : OpDictZ R)] z
        = [[⟨name, strength, [(z : ℤ)], 1⟩]] := by
      simp [opsOrderedZ]
    rw [hoo]
    have hlen : compileLenZ operators enum 1 (z : ℤ) ⟨[[⟨name, strength, [(z : ℤ)], 1⟩]], []⟩ 0
        = .ok ⟨[[]], [([(z : ℤ)], fun s t => 0 + strength * A s t)]⟩ := by
      unfold compileLenZ
      have he : enum (((⟨[[⟨name, strength, [(z : ℤ)], 1⟩]], []⟩ : CompStateZ R).oo.getD 0 []).map OpDictZ.sites)
          = [[(z : ℤ)]] := henum1
      rw [he, List.foldlM_cons]
      have hs : opsSameZ [[(⟨name, strength, [(z : ℤ)], 1⟩ : OpDictZ R)]] 0 [(z : ℤ)]
          = [[⟨name, strength, [(z : ℤ)], 1⟩]] := by simp [opsSameZ]
      have hn : neighbourCompZ operators 1 [[(⟨name, strength, [(z : ℤ)], 1⟩ : OpDictZ R)]]
          = .ok fun s t => 0 + strength * A s t := by
        have ho : opTermZ operators 1 0 (⟨name, strength, [(z : ℤ)], 1⟩ : OpDictZ R)
            = .ok fun s t => strength * A s t := by
          unfold opTermZ
          simp only [hA]
          rfl
        have hl : ((List.range ([[(⟨name, strength, [(z : ℤ)], 1⟩ : OpDictZ R)]] : List (List (OpDictZ R))).length).flatMap
            fun j => (([[(⟨name, strength, [(z : ℤ)], 1⟩ : OpDictZ R)]] : List (List (OpDictZ R))).getD j []).map
              fun op => (j, op)) = [(0, ⟨name, strength, [(z : ℤ)], 1⟩)] := rfl
        unfold neighbourCompZ
        rw [hl, List.foldlM_cons, ho]
        rfl
      have hr : removeUsedZ 1 0 [[1]] [[(⟨name, strength, [(z : ℤ)], 1⟩ : OpDictZ R)]] = .ok [[]] := by
        simp [removeUsedZ, pure, Except.pure]
        rfl
      have hi : compileIndicesZ operators 1 (z : ℤ) 0 ⟨[[⟨name, strength, [(z : ℤ)], 1⟩]], []⟩ [(z : ℤ)]
          = .ok ⟨[[]], [([(z : ℤ)], fun s t => 0 + strength * A s t)]⟩ := by
        unfold compileIndicesZ
        dsimp only
        rw [hs, hn]
        simp only [List.map_cons, List.map_nil]
        rw [hr]
        rfl
      rw [hi]
      rfl
    have hrange : (List.range 1).reverse = [0] := rfl
    rw [hrange, List.foldlM_cons, hlen]
    rfl
  refine ⟨(1, [([(z : ℤ)], fun s t => 0 + strength * A s t)]), ?_, fun s => ⟨_, rfl, fun s' => ?_⟩⟩
  · have h1 : pyMax ([(⟨name, strength, [(z : ℤ)], 1⟩ : OpDictZ R)].map fun op => op.sites.length) = .ok 1 := rfl
    have h2 : [(⟨name, strength, [(z : ℤ)], 1⟩ : OpDictZ R)].mapM (fun op => pyMaxZ op.sites) = .ok [(z : ℤ)] := rfl
    unfold compilePovmZ
    rw [h1, h2]
    simp only [pyMaxZ, List.foldl_nil]
    have ht : ((z : ℤ) + 1).toNat = z + 1 := by omega
    rw [ht, List.range_succ, List.foldlM_append, foldSitesZ_skip operators enum henum _ _ _ _ (List.range z)]
    · change Except.bind (List.foldlM (compileSiteZ operators enum 1 (z : ℤ) [⟨name, strength, [(z : ℤ)], 1⟩]) [] [z]) _ = _
      rw [List.foldlM_cons, hsite]
      rfl
    · intro idx hidx o ho
      rw [List.mem_range] at hidx
      simp only [List.mem_singleton] at ho
      subst ho
      simp
      omega
  · have hpos := NeZero.pos N
    have hw : writeIdx N (z : ℤ) = none := by
      unfold writeIdx normIdx
      rw [dif_neg]
      have : ¬ ((z : ℤ) < 0) := by omega
      simp only [this, if_false]
      omega
    have hr : readIdx N (z : ℤ) = ⟨N - 1, by omega⟩ := by
      apply Fin.ext
      simp only [readIdx, normIdx]
      split <;> omega
    have hset : ∀ t, setSitesZ s [(z : ℤ)] t = s := by
      intro t
      cases t with
      | nil => rfl
      | cons a t => simp [setSitesZ, hw]
    simp only [List.flatMap_cons, List.flatMap_nil, List.append_nil, List.map_cons, List.map_nil, hset, hr, zero_add]
    have ht : tuples 1 = [[0], [1], [2], [3]] := by decide
    rw [ht]
    by_cases hs : s' = s
    · subst hs
      simp [elementOf, Fin.sum_univ_four, add_assoc]
    · simp [elementOf, hs, Ne.symm hs]

example (s : Config 3 4) : ∃ c, compilePovmZ exampleOps List.dedup [⟨"z", 5, [7], 1⟩] = .ok c ∧ ∃ l,
    povmSPrimesZ c s = .ok l ∧ elementOf l s = 10 := by
  obtain ⟨c, hc, h⟩ := c130_beyond_violated (N := 3) exampleOps (fun s t => if s = t then 2 else 0) List.dedup
    (fun l x => List.mem_dedup) List.nodup_dedup "z" rfl 5 7 (by norm_num)
  obtain ⟨l, hl, h'⟩ := h s
  refine ⟨c, hc, l, hl, ?_⟩
  rw [h', if_pos rfl]
  generalize s ⟨3 - 1, _⟩ = a
  revert a
  decide

end JVMC
