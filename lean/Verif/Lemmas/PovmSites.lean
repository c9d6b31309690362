import Verif.Model.PovmSites
import Verif.Lemmas.PovmCompile
import Verif.Lemmas.SiteIndex

/-! # Helper lemmas for `Model/PovmSites`: terms on sites of the lattice -/

namespace JVMC

open Spec

variable {N : ℕ} {R : Type} [Ring R]

/-- The tuple of Python integers for sites of the lattice. -/
def toZ (sites : List (Fin N)) : List ℤ := sites.map fun i => (i.val : ℤ)

/-- The dictionary with the sites as Python integers. -/
def dictZ (op : OpDict N R) : OpDictZ R := ⟨op.name, op.strength, toZ op.sites, op.id⟩

theorem toZ_injective : Function.Injective (toZ (N := N)) :=
  List.map_injective_iff.2 fun a b h => Fin.ext (by simpa using h)

theorem toZ_inj (a b : List (Fin N)) : toZ a = toZ b ↔ a = b := toZ_injective.eq_iff

theorem toZ_take (l : List (Fin N)) (k : ℕ) : (toZ l).take k = toZ (l.take k) := by simp [toZ, List.map_take]

theorem toZ_mem (i : Fin N) (l : List (Fin N)) : (i.val : ℤ) ∈ toZ l ↔ i ∈ l := by
  unfold toZ
  rw [List.mem_map]
  exact ⟨fun ⟨a, ha, h⟩ => by rwa [show a = i from Fin.ext (by omega)] at ha, fun h => ⟨i, h, rfl⟩⟩

omit [Ring R] in
theorem getD_mapmap (oo : List (List (OpDict N R))) (j : ℕ) :
    (oo.map (List.map dictZ)).getD j [] = (oo.getD j []).map dictZ := by
  simp only [List.getD_eq_getElem?_getD, List.getElem?_map]
  cases oo[j]? <;> rfl

omit [Ring R] in
theorem opsSameZ_eq (oo : List (List (OpDict N R))) (n : ℕ) (indices : List (Fin N)) :
    opsSameZ (oo.map (List.map dictZ)) n (toZ indices) = (opsSame oo n indices).map (List.map dictZ) := by
  unfold opsSameZ opsSame
  rw [List.map_map]
  apply List.map_congr_left
  intro j _
  simp only [Function.comp, getD_mapmap, List.filter_map]
  congr 1
  apply List.filter_congr
  intro op _
  simp only [Function.comp, dictZ, toZ_take, toZ_inj]

theorem neighbourCompZ_eq (operators : String → Option (ℕ × LocMat R)) (maxInt : ℕ)
    (same : List (List (OpDict N R))) :
    neighbourCompZ operators maxInt (same.map (List.map dictZ)) = neighbourComp operators maxInt same := by
  unfold neighbourCompZ neighbourComp
  have h : ((List.range (same.map (List.map dictZ)).length).flatMap fun j =>
        ((same.map (List.map dictZ)).getD j []).map fun op => (j, op))
      = ((List.range same.length).flatMap fun j => (same.getD j []).map fun op => (j, op)).map
        fun e => (e.1, dictZ e.2) := by
    rw [List.length_map, List.map_flatMap]
    congr 1
    funext j
    rw [getD_mapmap, List.map_map, List.map_map]
    rfl
  rw [h, List.foldlM_map]
  rfl

omit [Ring R] in
theorem removeUsedZ_eq (maxInt n : ℕ) (used : List (List ℕ)) (oo : List (List (OpDict N R))) :
    removeUsedZ maxInt n used (oo.map (List.map dictZ))
      = (removeUsed maxInt n used oo).map (List.map (List.map dictZ)) := by
  unfold removeUsedZ removeUsed
  generalize List.range maxInt = l
  induction l with
  | nil => rfl
  | cons k l ih =>
    rw [List.mapM_cons, List.mapM_cons, ih]
    generalize hm : (List.mapM (fun k => if oo.getD k [] = [] then (Except.ok [] : Except PyErr (List (OpDict N R)))
      else if k ≤ n then .ok ((oo.getD k []).filter fun op => decide (op.id ∉ used.getD k []))
      else .error .indexError) l) = r
    rw [getD_mapmap]
    by_cases h1 : oo.getD k [] = []
    · rw [h1]
      cases r <;> rfl
    · have h1' : ((oo.getD k []).map dictZ).isEmpty = false := by
        cases h : oo.getD k [] with
        | nil => exact absurd h h1
        | cons => rfl
      rw [h1', if_neg h1]
      by_cases h2 : k ≤ n
      · rw [if_pos h2]
        simp only [Bool.false_eq_true, if_false, if_pos h2, List.filter_map]
        cases r <;> rfl
      · rw [if_neg h2]
        simp only [Bool.false_eq_true, if_false, if_neg h2]
        rfl

theorem nextFreeZ_eq (maxSite : ℕ) (hN : maxSite < N) (indices : List (Fin N)) :
    nextFreeZ maxSite (toZ indices) = (nextFree maxSite indices).map fun i => (i.val : ℤ) := by
  unfold nextFreeZ nextFree
  have hl : (toZ indices).getLast? = indices.getLast?.map fun i => (i.val : ℤ) := by
    simp [toZ, List.getLast?_map]
  rw [hl]
  cases indices.getLast? with
  | none => rfl
  | some last =>
    dsimp only [Option.map_some]
    have ht : ((maxSite : ℤ) + 1).toNat = maxSite + 1 := by omega
    rw [ht]
    generalize List.range (maxSite + 1) = ks
    induction ks with
    | nil => rfl
    | cons k ks ih =>
      have hlt : (last.val + 1 + k) % (maxSite + 1) < N :=
        lt_of_lt_of_le (Nat.mod_lt _ (Nat.succ_pos _)) hN
      have hc : ((last.val : ℤ) + 1 + (k : ℤ)) % ((maxSite : ℤ) + 1)
          = (((last.val + 1 + k) % (maxSite + 1) : ℕ) : ℤ) := by push_cast; rfl
      have hm := toZ_mem (⟨_, hlt⟩ : Fin N) indices
      simp only at hm
      rw [List.map_cons, List.filterMap_cons, dif_pos hlt]
      simp only [List.find?_cons]
      rw [hc]
      by_cases hin : (⟨_, hlt⟩ : Fin N) ∈ indices
      · have hin' := hm.2 hin
        simp only [hin, hin', not_true, decide_false]
        exact ih
      · have hin' := mt hm.1 hin
        simp only [hin, hin', not_false_iff, decide_true]
        rfl

theorem padIndicesZ_eq (maxSite : ℕ) (hN : maxSite < N) (r : ℕ) (indices : List (Fin N)) :
    padIndicesZ maxSite r (toZ indices) = (padIndices maxSite r indices).map toZ := by
  induction r generalizing indices with
  | zero => rfl
  | succ r ih =>
    unfold padIndicesZ padIndices
    rw [nextFreeZ_eq maxSite hN]
    cases nextFree maxSite indices with
    | none => rfl
    | some i =>
      dsimp only [Option.map_some]
      rw [← ih]
      simp [toZ]

/-- The state of the loops with sites as Python integers. -/
def stateZ (st : CompState N R) : CompStateZ R :=
  ⟨st.oo.map (List.map dictZ), st.couplings.map fun e => (toZ e.1, e.2)⟩

theorem compileIndicesZ_eq (operators : String → Option (ℕ × LocMat R)) (maxInt maxSite n : ℕ) (hN : maxSite < N)
    (st : CompState N R) (indices : List (Fin N)) :
    compileIndicesZ operators maxInt maxSite n (stateZ st) (toZ indices)
      = (compileIndices operators maxInt maxSite n st indices).map stateZ := by
  unfold compileIndicesZ compileIndices
  dsimp only [stateZ]
  rw [opsSameZ_eq, neighbourCompZ_eq]
  have hu : ((opsSame st.oo n indices).map (List.map dictZ)).map (fun l => l.map OpDictZ.id)
      = (opsSame st.oo n indices).map fun l => l.map OpDict.id := by
    rw [List.map_map]
    apply List.map_congr_left
    intro l _
    simp only [Function.comp, List.map_map]
    rfl
  rw [hu, removeUsedZ_eq]
  have hl : (toZ indices).length = indices.length := by simp [toZ]
  rw [hl, padIndicesZ_eq maxSite hN]
  cases neighbourComp operators maxInt (opsSame st.oo n indices) with
  | error e => rfl
  | ok A =>
    cases removeUsed maxInt n ((opsSame st.oo n indices).map fun l => l.map OpDict.id) st.oo with
    | error e => rfl
    | ok oo =>
      cases padIndices maxSite (maxInt - indices.length) indices with
      | none => rfl
      | some idx => simp [Except.map, stateZ]

theorem foldlM_sim {A A' B B' E : Type} (f : A → B → Except E A) (g : A' → B' → Except E A') (φ : A → A') (ψ : B → B')
    (h : ∀ a b, g (φ a) (ψ b) = (f a b).map φ) (l : List B) (a : A) :
    (l.map ψ).foldlM g (φ a) = (l.foldlM f a).map φ := by
  induction l generalizing a with
  | nil => rfl
  | cons b l ih =>
    rw [List.map_cons, List.foldlM_cons, List.foldlM_cons, h]
    cases f a b with
    | error e => rfl
    | ok a' => exact ih a'

/-- The order in which the tuples are enumerated. -/
def enumFin (N : ℕ) [NeZero N] (enum : List (List ℤ) → List (List ℤ)) (l : List (List (Fin N))) : List (List (Fin N)) :=
  (enum (l.map toZ)).map fun t => t.map (readIdx N)

theorem readIdx_val [NeZero N] (i : Fin N) : readIdx N (i.val : ℤ) = i := by
  apply Fin.ext
  simp only [readIdx, normIdx]
  split <;> omega

theorem writeIdx_val [NeZero N] (i : Fin N) : writeIdx N (i.val : ℤ) = some i := by
  unfold writeIdx normIdx
  have h : ¬ ((i.val : ℤ) < 0) := by omega
  simp [h]

theorem readIdx_toZ [NeZero N] (l : List (Fin N)) : (toZ l).map (readIdx N) = l := by
  simp [toZ, Function.comp_def, readIdx_val]

theorem enumFin_mem [NeZero N] (enum : List (List ℤ) → List (List ℤ)) (henum : ∀ l x, x ∈ enum l ↔ x ∈ l)
    (l : List (List (Fin N))) (x : List (Fin N)) : x ∈ enumFin N enum l ↔ x ∈ l := by
  unfold enumFin
  rw [List.mem_map]
  constructor
  · rintro ⟨t, ht, rfl⟩
    rw [henum, List.mem_map] at ht
    obtain ⟨y, hy, rfl⟩ := ht
    rwa [readIdx_toZ]
  · intro h
    exact ⟨toZ x, (henum _ _).2 (List.mem_map_of_mem h), readIdx_toZ x⟩

theorem enumFin_toZ [NeZero N] (enum : List (List ℤ) → List (List ℤ)) (henum : ∀ l x, x ∈ enum l ↔ x ∈ l)
    (l : List (List (Fin N))) : (enumFin N enum l).map toZ = enum (l.map toZ) := by
  unfold enumFin
  rw [List.map_map]
  conv_rhs => rw [← List.map_id (enum (l.map toZ))]
  apply List.map_congr_left
  intro t ht
  rw [henum, List.mem_map] at ht
  obtain ⟨y, _, rfl⟩ := ht
  simp [readIdx_toZ]

theorem compileLenZ_eq [NeZero N] (operators : String → Option (ℕ × LocMat R)) (enum : List (List ℤ) → List (List ℤ))
    (henum : ∀ l x, x ∈ enum l ↔ x ∈ l) (maxInt maxSite : ℕ) (hN : maxSite < N) (st : CompState N R) (n : ℕ) :
    compileLenZ operators enum maxInt maxSite (stateZ st) n
      = (compileLen operators (enumFin N enum) maxInt maxSite st n).map stateZ := by
  unfold compileLenZ compileLen
  have h : (((stateZ st).oo.getD n []).map OpDictZ.sites) = ((st.oo.getD n []).map OpDict.sites).map toZ := by
    simp only [stateZ, getD_mapmap, List.map_map]
    rfl
  rw [h, ← enumFin_toZ enum henum]
  exact foldlM_sim _ _ stateZ toZ (fun a b => compileIndicesZ_eq operators maxInt maxSite n hN a b) _ st

omit [Ring R] in
theorem opsOrderedZ_eq (maxInt : ℕ) (ops : List (OpDict N R)) (idx : ℕ) :
    opsOrderedZ maxInt (ops.map dictZ) idx = ((List.range maxInt).map fun n =>
      ops.filter fun op => decide (op.sites.head?.map Fin.val = some idx ∧ op.sites.length = n + 1)).map
        (List.map dictZ) := by
  unfold opsOrderedZ
  rw [List.map_map]
  apply List.map_congr_left
  intro n _
  simp only [Function.comp, List.filter_map]
  congr 1
  apply List.filter_congr
  intro op _
  simp only [Function.comp, dictZ, toZ, List.head?_map, List.length_map]
  cases op.sites.head? <;> simp

theorem compileSiteZ_eq [NeZero N] (operators : String → Option (ℕ × LocMat R)) (enum : List (List ℤ) → List (List ℤ))
    (henum : ∀ l x, x ∈ enum l ↔ x ∈ l) (maxInt maxSite : ℕ) (hN : maxSite < N) (ops : List (OpDict N R))
    (cs : List (List (Fin N) × LocMat R)) (idx : ℕ) :
    compileSiteZ operators enum maxInt maxSite (ops.map dictZ) (cs.map fun e => (toZ e.1, e.2)) idx
      = (compileSite operators (enumFin N enum) maxInt maxSite ops cs idx).map
        (List.map fun e => (toZ e.1, e.2)) := by
  unfold compileSiteZ compileSite
  rw [opsOrderedZ_eq]
  have h := foldlM_sim (compileLen operators (enumFin N enum) maxInt maxSite) (compileLenZ operators enum maxInt maxSite)
    stateZ id (fun a b => compileLenZ_eq operators enum henum maxInt maxSite hN a b) (List.range maxInt).reverse
    { oo := (List.range maxInt).map fun n =>
        ops.filter fun op => decide (op.sites.head?.map Fin.val = some idx ∧ op.sites.length = n + 1), couplings := cs }
  rw [List.map_id] at h
  simp only [stateZ] at h
  rw [h]
  dsimp only
  generalize (List.foldlM (compileLen operators (enumFin N enum) maxInt maxSite) _ _) = r
  cases r <;> rfl

theorem pyMaxZ_toZ (l : List (Fin N)) : pyMaxZ (toZ l) = (pyMax (l.map Fin.val)).map fun (n : ℕ) => (n : ℤ) := by
  cases l with
  | nil => rfl
  | cons x xs =>
    simp only [toZ, List.map_cons, pyMaxZ, pyMax, Except.map]
    congr 1
    generalize x.val = a
    induction xs generalizing a with
    | nil => rfl
    | cons y ys ih =>
      simp only [List.map_cons, List.foldl_cons]
      rw [← ih]
      simp

theorem pyMaxZ_cast (l : List ℕ) : pyMaxZ (l.map fun n : ℕ => (n : ℤ)) = (pyMax l).map fun (n : ℕ) => (n : ℤ) := by
  cases l with
  | nil => rfl
  | cons x xs =>
    simp only [List.map_cons, pyMaxZ, pyMax, Except.map]
    congr 1
    induction xs generalizing x with
    | nil => rfl
    | cons y ys ih =>
      simp only [List.map_cons, List.foldl_cons]
      rw [← ih]
      simp

omit [Ring R] in
theorem mapM_pyMaxZ (ops : List (OpDict N R)) :
    (ops.map dictZ).mapM (fun op => pyMaxZ op.sites)
      = (ops.mapM fun op => pyMax (op.sites.map Fin.val)).map (List.map fun (n : ℕ) => (n : ℤ)) := by
  induction ops with
  | nil => rfl
  | cons op ops ih =>
    rw [List.map_cons, List.mapM_cons, List.mapM_cons, ih]
    change Except.bind (pyMaxZ (toZ op.sites)) _ = _
    rw [pyMaxZ_toZ]
    cases pyMax (op.sites.map Fin.val) with
    | error e => rfl
    | ok a =>
      cases ops.mapM fun op => pyMax (op.sites.map Fin.val) with
      | error e => rfl
      | ok l => rfl

theorem compilePovmZ_eq [NeZero N] (operators : String → Option (ℕ × LocMat R)) (enum : List (List ℤ) → List (List ℤ))
    (henum : ∀ l x, x ∈ enum l ↔ x ∈ l) (ops : List (OpDict N R)) :
    compilePovmZ operators enum (ops.map dictZ)
      = (compilePovm operators (enumFin N enum) ops).map fun c => (c.1, c.2.map fun e => (toZ e.1, e.2)) := by
  unfold compilePovmZ compilePovm
  rw [mapM_pyMaxZ, List.map_map]
  have hl : ((fun op : OpDictZ R => op.sites.length) ∘ dictZ) = fun op : OpDict N R => op.sites.length := by
    funext op; simp [dictZ, toZ]
  rw [hl]
  cases pyMax (ops.map fun op => op.sites.length) with
  | error e => rfl
  | ok maxInt =>
    cases hmx : ops.mapM fun op => pyMax (op.sites.map Fin.val) with
    | error e => rfl
    | ok maxima =>
      simp only [Except.map]
      rw [pyMaxZ_cast]
      cases hms : pyMax maxima with
      | error e => rfl
      | ok maxSite =>
        simp only [Except.map]
        have hN : maxSite < N := by
          have hne : maxima ≠ [] := by rintro rfl; cases hms
          obtain ⟨m, h1, h2, _⟩ := pyMax_ok maxima hne
          rw [hms] at h1
          cases h1
          -- every maximum is a site
          have hmem : ∀ (ops : List (OpDict N R)) (maxima : List ℕ),
              (ops.mapM fun op => pyMax (op.sites.map Fin.val)) = .ok maxima → ∀ x ∈ maxima, x < N := by
            intro ops
            induction ops with
            | nil => intro maxima h x hx; cases h; cases hx
            | cons op ops ih =>
              intro maxima h x hx
              rw [List.mapM_cons] at h
              cases ha : pyMax (op.sites.map Fin.val) with
              | error e => rw [ha] at h; cases h
              | ok a =>
                cases hb : ops.mapM fun op => pyMax (op.sites.map Fin.val) with
                | error e => rw [ha, hb] at h; cases h
                | ok l =>
                  rw [ha, hb] at h
                  cases h
                  rcases List.mem_cons.mp hx with rfl | hx
                  · have hne' : op.sites.map Fin.val ≠ [] := by intro h0; rw [h0] at ha; cases ha
                    obtain ⟨m, g1, g2, _⟩ := pyMax_ok _ hne'
                    rw [ha] at g1
                    cases g1
                    obtain ⟨i, _, rfl⟩ := List.mem_map.mp g2
                    exact i.isLt
                  · exact ih l hb x hx
          exact hmem ops maxima hmx maxSite h2
        have ht : ((maxSite : ℤ) + 1).toNat = maxSite + 1 := by omega
        rw [ht]
        have h := foldlM_sim (compileSite operators (enumFin N enum) maxInt maxSite ops)
          (compileSiteZ operators enum maxInt maxSite (ops.map dictZ)) (List.map fun e => (toZ e.1, e.2)) id
          (fun a b => compileSiteZ_eq operators enum henum maxInt maxSite hN ops a b) (List.range (maxSite + 1)) []
        rw [List.map_id, List.map_nil] at h
        rw [h]
        generalize (List.foldlM (compileSite operators (enumFin N enum) maxInt maxSite ops) _ _) = r
        cases r <;> rfl

theorem setSitesZ_eq [NeZero N] (s : Config N 4) (sites : List (Fin N)) (t : List (Fin 4)) :
    setSitesZ s (toZ sites) t = setSites s sites t := by
  unfold setSitesZ setSites toZ
  rw [List.zip_map_left, List.foldl_map]
  congr 1
  funext c e
  simp [writeIdx_val]

omit [Ring R] in
theorem povmSPrimesZ_eq [NeZero N] (c : ℕ × List (List (Fin N) × LocMat R)) (hc : c.2 ≠ []) (s : Config N 4) :
    povmSPrimesZ (c.1, c.2.map fun e => (toZ e.1, e.2)) s = .ok (povmSPrimes c s) := by
  unfold povmSPrimesZ povmSPrimes
  have h : (c.2.map fun e => (toZ e.1, e.2)).isEmpty = false := by
    cases h : c.2 with
    | nil => exact absurd h hc
    | cons => rfl
  rw [h]
  simp only [Bool.false_eq_true, if_false]
  rw [List.flatMap_map]
  congr 2
  funext e
  have : (toZ e.1).map (fun z => s (readIdx N z)) = e.1.map s := by
    simp [toZ, Function.comp_def, readIdx_val]
  simp only [setSitesZ_eq, this]

/-! ## When there are no couplings -/

theorem compileIndicesZ_couplings (operators : String → Option (ℕ × LocMat R)) (maxInt : ℕ) (maxSite : ℤ) (n : ℕ)
    (st st' : CompStateZ R) (indices : List ℤ)
    (h : compileIndicesZ operators maxInt maxSite n st indices = .ok st') : st'.couplings ≠ [] := by
  unfold compileIndicesZ at h
  dsimp only at h
  split at h
  · cases h
  split at h
  · cases h
  split at h
  · cases h
  cases h
  simp

theorem foldIndicesZ_couplings (operators : String → Option (ℕ × LocMat R)) (maxInt : ℕ) (maxSite : ℤ) (n : ℕ)
    (l : List (List ℤ)) (st st' : CompStateZ R)
    (h : l.foldlM (compileIndicesZ operators maxInt maxSite n) st = .ok st') (hc : st'.couplings = []) :
    l = [] ∧ st' = st := by
  induction l generalizing st with
  | nil => cases h; exact ⟨rfl, rfl⟩
  | cons i l ih =>
    exfalso
    rw [List.foldlM_cons] at h
    cases h1 : compileIndicesZ operators maxInt maxSite n st i with
    | error e => rw [h1] at h; cases h
    | ok st1 =>
      rw [h1] at h
      obtain ⟨rfl, rfl⟩ := ih st1 h
      exact compileIndicesZ_couplings _ _ _ _ _ _ _ h1 hc

theorem foldLensZ_couplings (operators : String → Option (ℕ × LocMat R)) (enum : List (List ℤ) → List (List ℤ))
    (henum : ∀ l x, x ∈ enum l ↔ x ∈ l) (maxInt : ℕ) (maxSite : ℤ) (ns : List ℕ) (st st' : CompStateZ R)
    (h : ns.foldlM (compileLenZ operators enum maxInt maxSite) st = .ok st') (hc : st'.couplings = []) :
    st' = st ∧ ∀ n ∈ ns, st.oo.getD n [] = [] := by
  induction ns generalizing st with
  | nil => cases h; exact ⟨rfl, by simp⟩
  | cons n ns ih =>
    rw [List.foldlM_cons] at h
    cases h1 : compileLenZ operators enum maxInt maxSite st n with
    | error e => rw [h1] at h; cases h
    | ok st1 =>
      rw [h1] at h
      obtain ⟨rfl, h2⟩ := ih st1 h
      obtain ⟨h3, rfl⟩ := foldIndicesZ_couplings _ _ _ _ _ _ _ h1 hc
      refine ⟨rfl, fun k hk => ?_⟩
      rcases List.mem_cons.mp hk with rfl | hk
      · cases h4 : st'.oo.getD k [] with
        | nil => rfl
        | cons o os =>
          exfalso
          have := (henum ((st'.oo.getD k []).map OpDictZ.sites) o.sites).2 (by rw [h4]; simp)
          rw [h3] at this
          cases this
      · exact h2 k hk

theorem foldSitesZ_couplings (operators : String → Option (ℕ × LocMat R)) (enum : List (List ℤ) → List (List ℤ))
    (henum : ∀ l x, x ∈ enum l ↔ x ∈ l) (maxInt : ℕ) (maxSite : ℤ) (ops : List (OpDictZ R)) (idxs : List ℕ)
    (cs cs' : List (List ℤ × LocMat R))
    (h : idxs.foldlM (compileSiteZ operators enum maxInt maxSite ops) cs = .ok cs') (hc : cs' = []) :
    cs = [] ∧ ∀ idx ∈ idxs, ∀ n < maxInt, (opsOrderedZ maxInt ops idx).getD n [] = [] := by
  induction idxs generalizing cs with
  | nil => cases h; exact ⟨hc, by simp⟩
  | cons idx idxs ih =>
    rw [List.foldlM_cons] at h
    cases h1 : compileSiteZ operators enum maxInt maxSite ops cs idx with
    | error e => rw [h1] at h; cases h
    | ok cs1 =>
      rw [h1] at h
      obtain ⟨rfl, h2⟩ := ih cs1 h
      unfold compileSiteZ at h1
      cases h3 : (List.range maxInt).reverse.foldlM (compileLenZ operators enum maxInt maxSite)
          { oo := opsOrderedZ maxInt ops idx, couplings := cs } with
      | error e => rw [h3] at h1; cases h1
      | ok st1 =>
        rw [h3] at h1
        have hst : st1.couplings = [] := by injection h1
        obtain ⟨rfl, h4⟩ := foldLensZ_couplings _ _ henum _ _ _ _ _ h3 hst
        refine ⟨hst, fun k hk n hn => ?_⟩
        rcases List.mem_cons.mp hk with rfl | hk
        · exact h4 n (by simpa using hn)
        · exact h2 k hk n hn

theorem pyMaxZ_ge (l : List ℤ) (m : ℤ) (h : pyMaxZ l = .ok m) : ∀ x ∈ l, x ≤ m := by
  cases l with
  | nil => cases h
  | cons a l =>
    have hm : l.foldl max a = m := by injection h
    have key : ∀ (l : List ℤ) (a : ℤ), a ≤ l.foldl max a ∧ ∀ y ∈ l, y ≤ l.foldl max a := by
      intro l
      induction l with
      | nil => intro a; simp
      | cons b l ih =>
        intro a
        obtain ⟨h1, h2⟩ := ih (max a b)
        refine ⟨le_trans (le_max_left _ _) h1, ?_⟩
        intro y hy
        rcases List.mem_cons.mp hy with rfl | hy
        · exact le_trans (le_max_right _ _) h1
        · exact h2 y hy
    intro x hx
    rw [← hm]
    rcases List.mem_cons.mp hx with rfl | hx
    · exact (key l x).1
    · exact (key l a).2 x hx

omit [Ring R] in
theorem mapM_pyMaxZ_mem (ops : List (OpDictZ R)) (maxima : List ℤ)
    (h : ops.mapM (fun op => pyMaxZ op.sites) = .ok maxima) : ∀ op ∈ ops, ∃ m ∈ maxima, pyMaxZ op.sites = .ok m := by
  induction ops generalizing maxima with
  | nil => simp
  | cons o ops ih =>
    rw [List.mapM_cons] at h
    cases ha : pyMaxZ o.sites with
    | error e => rw [ha] at h; cases h
    | ok a =>
      cases hb : ops.mapM fun op => pyMaxZ op.sites with
      | error e => rw [ha, hb] at h; cases h
      | ok l =>
        rw [ha, hb] at h
        cases h
        intro op hop
        rcases List.mem_cons.mp hop with rfl | hop
        · exact ⟨a, List.mem_cons_self, ha⟩
        · obtain ⟨m, hm, hm'⟩ := ih l hb op hop
          exact ⟨m, List.mem_cons_of_mem _ hm, hm'⟩

/-- There is a coupling as soon as the first site of some term is not negative. -/
theorem compilePovmZ_couplings (operators : String → Option (ℕ × LocMat R)) (enum : List (List ℤ) → List (List ℤ))
    (henum : ∀ l x, x ∈ enum l ↔ x ∈ l) (ops : List (OpDictZ R)) (c : ℕ × List (List ℤ × LocMat R))
    (h : compilePovmZ operators enum ops = .ok c) (op : OpDictZ R) (hop : op ∈ ops) (i : ℕ)
    (hi : op.sites.head? = some (i : ℤ)) : c.2 ≠ [] := by
  intro hc
  unfold compilePovmZ at h
  split at h
  · cases h
  · cases h
  · next maxInt maxima h1 h2 =>
    split at h
    · cases h
    · next maxSite h3 =>
      cases h4 : (List.range (maxSite + 1).toNat).foldlM (compileSiteZ operators enum maxInt maxSite ops) [] with
      | error e => rw [h4] at h; cases h
      | ok cs =>
        rw [h4] at h
        cases h
        obtain ⟨_, h5⟩ := foldSitesZ_couplings _ _ henum _ _ _ _ _ _ h4 hc
        have hmem : (i : ℤ) ∈ op.sites := List.mem_of_head? hi
        obtain ⟨m, hm, hm'⟩ := mapM_pyMaxZ_mem ops maxima h2 op hop
        have hle1 := pyMaxZ_ge _ _ hm' _ hmem
        have hle2 := pyMaxZ_ge _ _ h3 _ hm
        have hlen : op.sites.length ≤ maxInt := by
          obtain ⟨m', g1, _, g3⟩ := pyMax_ok (ops.map fun op => op.sites.length)
            (fun h0 => by rw [List.map_eq_nil_iff] at h0; rw [h0] at hop; cases hop)
          rw [h1] at g1
          cases g1
          exact g3 _ (List.mem_map.mpr ⟨op, hop, rfl⟩)
        have hpos : 0 < op.sites.length := List.length_pos_of_mem hmem
        have h6 := h5 i (List.mem_range.mpr (by omega)) (op.sites.length - 1) (by omega)
        unfold opsOrderedZ at h6
        simp only [List.getD_eq_getElem?_getD, List.getElem?_map,
          List.getElem?_range (show op.sites.length - 1 < maxInt by omega), Option.map_some, Option.getD_some] at h6
        have : op ∈ ops.filter fun o => decide (o.sites.head? = some (i : ℤ) ∧
            o.sites.length = op.sites.length - 1 + 1) := by
          rw [List.mem_filter]
          exact ⟨hop, by simp [hi]; omega⟩
        rw [h6] at this
        cases this

end JVMC
