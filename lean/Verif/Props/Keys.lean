import Mathlib.Data.List.Infix
import Mathlib.Data.List.Pairwise
import Verif.Model.MCSampler
import Verif.Lemmas.MCSampler
import Verif.Spec.Keys

/-! # Property C20: freshness of random keys -/

namespace JVMC

open Spec

theorem Spec.Independent.symm {A : Type*} {a b : List A} (h : Independent a b) :
    Independent b a := ⟨h.2, h.1⟩

/-- Every key of `l'` was derived from a key of `l`. -/
private def Derived (l l' : List Key) : Prop := ∀ x ∈ l', ∃ k ∈ l, k <+: x

private theorem indep_of_ext {a b x y : Key} (h : Independent a b) (hx : a <+: x) (hy : b <+: y) :
    Independent x y := by
  constructor
  · intro hxy
    rcases List.prefix_or_prefix_of_prefix (hx.trans hxy) hy with h' | h'
    · exact h.1 h'
    · exact h.2 h'
  · intro hyx
    rcases List.prefix_or_prefix_of_prefix (hy.trans hyx) hx with h' | h'
    · exact h.2 h'
    · exact h.1 h'

private theorem flatMap_indep {A : Type*} (l : List A) (key : A → Key) (f : A → List Key)
    (hl : (l.map key).Pairwise Independent) (hf : ∀ a ∈ l, AllIndependent (f a))
    (hext : ∀ a ∈ l, ∀ x ∈ f a, key a <+: x) : AllIndependent (l.flatMap f) := by
  unfold AllIndependent at *
  rw [List.pairwise_flatMap]
  refine ⟨hf, ?_⟩
  rw [List.pairwise_map] at hl
  apply hl.imp_of_mem
  intro a b ha hb hab x hx y hy
  exact indep_of_ext hab (hext a ha x hx) (hext b hb y hy)

private theorem perm_indep {l l' : List Key} (h : l.Perm l') : AllIndependent l → AllIndependent l' :=
  (h.pairwise_iff (fun h => Independent.symm h)).mp

private theorem split_indep (k : Key) (n i j : ℕ) (h : i ≠ j) :
    Independent (keySplit k n i) (keySplit k n j) := by
  unfold keySplit Independent
  rw [List.prefix_append_right_inj, List.prefix_append_right_inj]
  simp [List.cons_prefix_cons, h, h.symm]

private theorem prefix_split (k : Key) (n i : ℕ) : k <+: keySplit k n i := List.prefix_append _ _

private theorem splits_indep (k : Key) (n m : ℕ) :
    AllIndependent ((List.range m).map fun i => keySplit k n i) := by
  unfold AllIndependent
  rw [List.pairwise_map]
  apply List.nodup_range.imp
  intro a b h
  exact split_indep k n a b h

private theorem update_indep (c : ℕ) (k : Key) :
    AllIndependent ((mcUpdateKeys c k).1 :: (mcUpdateKeys c k).2) ∧
    ∀ x ∈ (mcUpdateKeys c k).1 :: (mcUpdateKeys c k).2, k <+: x := by
  unfold mcUpdateKeys
  dsimp only
  set carry := keySplit k (c + 1) c with hcarry
  have hkc : k <+: carry := prefix_split _ _ _
  constructor
  · unfold AllIndependent
    rw [List.pairwise_cons, List.pairwise_append]
    refine ⟨?_, splits_indep k (c + 1) c, List.pairwise_singleton _ _, ?_⟩
    · intro x hx
      rcases List.mem_append.mp hx with hx | hx
      · obtain ⟨i, hi, rfl⟩ := List.mem_map.mp hx
        exact indep_of_ext (split_indep k (c + 1) c i (List.mem_range.mp hi).ne')
          (prefix_split _ _ _) List.prefix_rfl
      · rw [List.mem_singleton] at hx
        subst hx
        exact split_indep carry 2 1 0 (by simp)
    · intro x hx y hy
      obtain ⟨i, hi, rfl⟩ := List.mem_map.mp hx
      rw [List.mem_singleton] at hy
      subst hy
      exact indep_of_ext (split_indep k (c + 1) i c (List.mem_range.mp hi).ne)
        List.prefix_rfl (prefix_split _ _ _)
  · intro x hx
    rcases List.mem_cons.mp hx with rfl | hx
    · exact hkc.trans (prefix_split _ _ _)
    rcases List.mem_append.mp hx with hx | hx
    · obtain ⟨i, hi, rfl⟩ := List.mem_map.mp hx
      exact prefix_split _ _ _
    · rw [List.mem_singleton] at hx
      subst hx
      exact hkc.trans (prefix_split _ _ _)

private theorem sweep_indep (c n : ℕ) (k : Key) :
    AllIndependent ((mcSweepKeys c n k).1 :: (mcSweepKeys c n k).2) ∧
    ∀ x ∈ (mcSweepKeys c n k).1 :: (mcSweepKeys c n k).2, k <+: x := by
  induction n generalizing k with
  | zero => exact ⟨List.pairwise_singleton _ _, by simp [mcSweepKeys]⟩
  | succ n ih =>
    obtain ⟨hu, hue⟩ := update_indep c k
    obtain ⟨hs, hse⟩ := ih (mcUpdateKeys c k).1
    simp only [mcSweepKeys]
    set k' := (mcUpdateKeys c k).1 with hk'
    set u := (mcUpdateKeys c k).2
    set k'' := (mcSweepKeys c n k').1
    set u' := (mcSweepKeys c n k').2
    have hperm : (u ++ (k'' :: u')).Perm (k'' :: (u ++ u')) := List.perm_middle
    constructor
    · apply perm_indep hperm
      unfold AllIndependent at *
      rw [List.pairwise_append]
      rw [List.pairwise_cons] at hu
      refine ⟨hu.2, hs, ?_⟩
      intro x hx y hy
      exact indep_of_ext (hu.1 x hx).symm List.prefix_rfl (hse y hy)
    · intro x hx
      have hx' := hperm.mem_iff.mpr hx
      rcases List.mem_append.mp hx' with hx' | hx'
      · exact hue x (by simp [hx'])
      · exact (hue k' (by simp)).trans (hse x hx')

private theorem mcmc_perm (c n : ℕ) (ks : List Key) :
    (ks.flatMap fun k => (mcSweepKeys c n k).1 :: (mcSweepKeys c n k).2).Perm
      ((mcmcCallKeys c n ks).2 ++ (mcmcCallKeys c n ks).1) := by
  unfold mcmcCallKeys
  dsimp only
  induction ks with
  | nil => simp
  | cons k ks ih =>
    simp only [List.flatMap_cons, List.map_cons, List.flatten_cons, List.cons_append]
    refine (List.Perm.cons _ (List.Perm.append_left _ ih)).trans ?_
    rw [← List.append_assoc]
    exact List.perm_middle.symm

private theorem step_indep (s r D : ℕ) (ks : List Key) (hks : AllIndependent ks)
    (op : KeyOp) (hop : ∀ root, op ≠ .setKey root) :
    AllIndependent ((keyStep s r D ks op).2 ++ (keyStep s r D ks op).1) ∧
    Derived ks ((keyStep s r D ks op).2 ++ (keyStep s r D ks op).1) := by
  cases op with
  | setKey root => exact absurd rfl (hop root)
  | mcmc c n =>
    simp only [keyStep]
    have hp := mcmc_perm c n ks
    constructor
    · apply perm_indep hp
      exact flatMap_indep ks id _ (by rw [List.map_id]; exact hks) (fun k _ => (sweep_indep c n k).1)
        (fun k _ => (sweep_indep c n k).2)
    · intro x hx
      obtain ⟨k, hk, hx⟩ := List.mem_flatMap.mp (hp.mem_iff.mpr hx)
      exact ⟨k, hk, (sweep_indep c n k).2 x hx⟩
  | gen =>
    simp only [keyStep]
    cases ks with
    | nil => exact ⟨List.Pairwise.nil, by simp [genCallKeys, Derived]⟩
    | cons k ks =>
      simp only [genCallKeys]
      have hp : ((List.range (3 * D)).map fun i => keySplit k (3 * D) i).Perm
          (((List.range (3 * D)).map fun i => keySplit k (3 * D) i).drop D
            ++ ((List.range (3 * D)).map fun i => keySplit k (3 * D) i).take D) := by
        conv_lhs => rw [← List.take_append_drop D ((List.range (3 * D)).map _)]
        exact List.perm_append_comm
      constructor
      · exact perm_indep hp (splits_indep k _ _)
      · intro x hx
        obtain ⟨i, _, rfl⟩ := List.mem_map.mp (hp.mem_iff.mpr hx)
        exact ⟨k, by simp, prefix_split _ _ _⟩

private theorem run_indep (s r D : ℕ) (ops : List KeyOp)
    (hop : ∀ op ∈ ops, ∀ root, op ≠ .setKey root) (ks : List Key) (hks : AllIndependent ks) :
    AllIndependent ((keyRun s r D ks ops).2 ++ (keyRun s r D ks ops).1) ∧
    Derived ks ((keyRun s r D ks ops).2 ++ (keyRun s r D ks ops).1) := by
  induction ops generalizing ks with
  | nil => exact ⟨by simpa [keyRun] using hks, fun x hx => ⟨x, by simpa [keyRun] using hx,
      List.prefix_rfl⟩⟩
  | cons op ops ih =>
    obtain ⟨h1, h1d⟩ := step_indep s r D ks hks op (hop op (by simp))
    have hlive : AllIndependent (keyStep s r D ks op).1 := (List.pairwise_append.mp h1).2.1
    obtain ⟨h2, h2d⟩ := ih (fun op' h => hop op' (by simp [h])) _ hlive
    simp only [keyRun]
    rw [List.append_assoc]
    constructor
    · unfold AllIndependent at *
      rw [List.pairwise_append]
      refine ⟨(List.pairwise_append.mp h1).1, h2, ?_⟩
      intro x hx y hy
      obtain ⟨k, hk, hky⟩ := h2d y hy
      exact indep_of_ext ((List.pairwise_append.mp h1).2.2 x hx k hk) List.prefix_rfl hky
    · intro x hx
      rcases List.mem_append.mp hx with hx | hx
      · exact h1d x (by simp [hx])
      · obtain ⟨k, hk, hkx⟩ := h2d x hx
        obtain ⟨k', hk', hkk⟩ := h1d k (by simp [hk])
        exact ⟨k', hk', hkk.trans hkx⟩

/-- **C20**, the part that holds: as long as `set_random_key` is not called, all keys consumed by
all ranks, devices, chains, update steps and successive sample calls of either kind are pairwise
independent; in particular no key is consumed twice. (The claim includes `set_random_key`, see
`c20_violated`; and `c20_single_rank` for one rank.) -/
theorem c20_fresh_keys_partial (root : Key) (s D : ℕ) (ops : List KeyOp)
    (hop : ∀ op ∈ ops, ∀ root', op ≠ .setKey root') :
    AllIndependent (worldKeys root s D ops) := by
  unfold worldKeys
  have hinit : ∀ r, AllIndependent (keysInit root s r D) := fun r => splits_indep _ _ _
  apply flatMap_indep (List.range s) (fun r => keySplit root s r)
  · exact splits_indep root s s
  · intro r _
    exact (List.pairwise_append.mp (run_indep s r D ops hop _ (hinit r)).1).1
  · intro r _ x hx
    obtain ⟨k, hk, hkx⟩ := (run_indep s r D ops hop _ (hinit r)).2 x (by simp [hx])
    obtain ⟨d, _, rfl⟩ := List.mem_map.mp hk
    exact (prefix_split _ _ _).trans hkx

example := c20_fresh_keys_partial [] 2 2 [.mcmc 2 1, .gen] (by simp)

/-- The roots passed to `set_random_key` in a history. -/
def setRoots (ops : List KeyOp) : List Key :=
  ops.filterMap fun op => match op with
    | .setKey root => some root
    | _ => none

/-- **C20** on a single rank, including `set_random_key`: if the keys the user passes (to the
constructor and to `set_random_key`) are independent, all consumed keys are. -/
theorem c20_single_rank (root : Key) (D : ℕ) (ops : List KeyOp)
    (hroots : AllIndependent (root :: setRoots ops)) :
    AllIndependent (worldKeys root 1 D ops) := by
  have key : ∀ (ops : List KeyOp) (ks : List Key), AllIndependent (ks ++ setRoots ops) →
      AllIndependent (keyRun 1 0 D ks ops).2 ∧
        Derived (ks ++ setRoots ops) (keyRun 1 0 D ks ops).2 := by
    intro ops
    induction ops with
    | nil => intro ks _; exact ⟨List.Pairwise.nil, by simp [keyRun, Derived]⟩
    | cons op ops ih =>
      intro ks hks
      by_cases hop : ∃ root', op = .setKey root'
      · obtain ⟨root', rfl⟩ := hop
        have hsr : setRoots (.setKey root' :: ops) = root' :: setRoots ops := rfl
        rw [hsr] at hks ⊢
        have h0 := (List.pairwise_append.mp hks).2.1
        rw [List.pairwise_cons] at h0
        have hnew : AllIndependent (setRandomKey root' 1 0 D ++ setRoots ops) := by
          unfold AllIndependent
          rw [List.pairwise_append]
          refine ⟨splits_indep _ _ _, h0.2, ?_⟩
          intro x hx y hy
          obtain ⟨d, _, rfl⟩ := List.mem_map.mp hx
          exact indep_of_ext (h0.1 y hy) (prefix_split _ _ _) List.prefix_rfl
        obtain ⟨h1, h2⟩ := ih _ hnew
        simp only [keyRun, keyStep, List.nil_append]
        refine ⟨h1, ?_⟩
        intro x hx
        obtain ⟨k, hk, hkx⟩ := h2 x hx
        rcases List.mem_append.mp hk with hk | hk
        · obtain ⟨d, _, rfl⟩ := List.mem_map.mp hk
          exact ⟨root', by simp, (prefix_split _ _ _).trans hkx⟩
        · exact ⟨k, by simp [hk], hkx⟩
      · have hne : ∀ root', op ≠ .setKey root' := fun r h => hop ⟨r, h⟩
        have hsr : setRoots (op :: ops) = setRoots ops := by
          cases op with
          | setKey r => exact absurd rfl (hne r)
          | mcmc _ _ => rfl
          | gen => rfl
        rw [hsr] at hks ⊢
        have hp := List.pairwise_append.mp hks
        obtain ⟨s1, s2⟩ := step_indep 1 0 D ks hp.1 op hne
        have s1' := List.pairwise_append.mp s1
        have hnew : AllIndependent ((keyStep 1 0 D ks op).1 ++ setRoots ops) := by
          unfold AllIndependent
          rw [List.pairwise_append]
          refine ⟨s1'.2.1, hp.2.1, ?_⟩
          intro x hx y hy
          obtain ⟨k, hk, hkx⟩ := s2 x (by simp [hx])
          exact indep_of_ext (hp.2.2 k hk y hy) hkx List.prefix_rfl
        obtain ⟨h1, h2⟩ := ih _ hnew
        simp only [keyRun]
        constructor
        · unfold AllIndependent
          rw [List.pairwise_append]
          refine ⟨s1'.1, h1, ?_⟩
          intro x hx y hy
          obtain ⟨k, hk, hky⟩ := h2 y hy
          rcases List.mem_append.mp hk with hk | hk
          · exact indep_of_ext (s1'.2.2 x hx k hk) List.prefix_rfl hky
          · obtain ⟨k', hk', hkx⟩ := s2 x (by simp [hx])
            exact indep_of_ext (hp.2.2 k' hk' k hk) hkx hky
        · intro x hx
          rcases List.mem_append.mp hx with hx | hx
          · obtain ⟨k, hk, hkx⟩ := s2 x (by simp [hx])
            exact ⟨k, by simp [hk], hkx⟩
          · obtain ⟨k, hk, hkx⟩ := h2 x hx
            rcases List.mem_append.mp hk with hk | hk
            · obtain ⟨k', hk', hkk⟩ := s2 k (by simp [hk])
              exact ⟨k', by simp [hk'], hkk.trans hkx⟩
            · exact ⟨k, by simp [hk], hkx⟩
  have hr := List.pairwise_cons.mp hroots
  have hinit : AllIndependent (keysInit root 1 0 D ++ setRoots ops) := by
    unfold AllIndependent
    rw [List.pairwise_append]
    refine ⟨splits_indep _ _ _, hr.2, ?_⟩
    intro x hx y hy
    obtain ⟨d, _, rfl⟩ := List.mem_map.mp hx
    exact indep_of_ext (hr.1 y hy) ((prefix_split _ _ _).trans (prefix_split _ _ _))
      List.prefix_rfl
  have := (key ops _ hinit).1
  simpa [worldKeys] using this

/-- **C20 is violated** by `set_random_key` on two or more ranks: afterwards all ranks hold
the same device keys, so every key consumed on rank 0 is consumed on rank 1 as well. -/
theorem c20_violated (root root' : Key) (s D : ℕ) (hs : 2 ≤ s) (ops : List KeyOp)
    (hop : ∀ op ∈ ops, ∀ r, op ≠ .setKey r)
    (hused : (keyRun s 0 D (setRandomKey root' s 0 D) ops).2 ≠ []) :
    ¬ (worldKeys root s D (.setKey root' :: ops)).Nodup := by
  intro hnd
  unfold worldKeys at hnd
  have hrank : ∀ r, (keyRun s r D (keysInit root s r D) (.setKey root' :: ops)).2
      = (keyRun s 0 D (setRandomKey root' s 0 D) ops).2 := by
    intro r
    simp only [keyRun, keyStep, List.nil_append]
    have hgen : ∀ (ops : List KeyOp) (ks : List Key), (∀ op ∈ ops, ∀ r, op ≠ .setKey r) →
        keyRun s r D ks ops = keyRun s 0 D ks ops := by
      intro ops
      induction ops with
      | nil => intro ks _; rfl
      | cons op ops ih =>
        intro ks h
        have hstep : keyStep s r D ks op = keyStep s 0 D ks op := by
          cases op <;> rfl
        simp only [keyRun]
        rw [hstep, ih _ (fun op' h' => h op' (by simp [h']))]
    rw [hgen ops _ hop]
    rfl
  obtain ⟨x, hx⟩ := List.exists_mem_of_ne_nil _ hused
  have h0 : (List.range s) = 0 :: 1 :: (List.range (s - 2)).map (· + 2) := by
    obtain ⟨t, rfl⟩ := Nat.exists_eq_add_of_le hs
    rw [Nat.add_comm 2 t, List.range_succ_eq_map, List.range_succ_eq_map]
    simp [List.map_map, Function.comp_def]
  rw [h0, List.flatMap_cons, List.flatMap_cons, hrank 0, hrank 1] at hnd
  have := (List.nodup_append.mp hnd).2.2 x hx x (by simp [hx])
  exact this rfl

/-- Non-vacuity: keys consumed by 2 ranks with 2 devices in one update of 2 chains, then one direct
sampling call: 12 proposal/acceptance keys and 8 sampling keys. -/
example : (worldKeys [] 2 2 [.mcmc 2 1, .gen]).length = 20 := by decide

/-- Non-vacuity of `c20_violated`. -/
example : (keyRun 2 0 1 (setRandomKey [(0, 7)] 2 0 1) [.mcmc 1 1]).2 ≠ [] := by decide

/-- Non-vacuity of `c20_single_rank`: two independent roots. -/
example : AllIndependent ([(0, 1)] :: setRoots [.mcmc 1 1, .setKey [(0, 2)], .gen]) := by
  unfold AllIndependent Independent
  simp [setRoots]

/-! ### Link to the sampler model -/

variable {S P : Type}

private theorem update_keys (c : McConfig S P Key) (hsplit : c.rng.split = keySplit) (params : P)
    (d : ChainState S Key) (prop' : Key → S → S) (uni' : Key → ℕ → ℝ)
    (h : ∀ k ∈ (mcUpdateKeys d.states.length d.key).2,
      c.proposer k = prop' k ∧ c.rng.uniform k = uni' k) :
    performMcUpdate { c with rng := ⟨keySplit, uni'⟩, proposer := prop' } params d
      = performMcUpdate c params d := by
  have h1 : ∀ i < d.states.length, c.proposer (keySplit d.key (d.states.length + 1) i)
      = prop' (keySplit d.key (d.states.length + 1) i) := by
    intro i hi
    refine (h _ ?_).1
    simp only [mcUpdateKeys, List.mem_append, List.mem_map, List.mem_range]
    exact Or.inl ⟨i, hi, rfl⟩
  have h2 : c.rng.uniform (keySplit (keySplit d.key (d.states.length + 1) d.states.length) 2 0)
      = uni' (keySplit (keySplit d.key (d.states.length + 1) d.states.length) 2 0) := by
    refine (h _ ?_).2
    simp [mcUpdateKeys]
  unfold performMcUpdate
  dsimp only
  rw [hsplit, h2]
  have h3 : (d.states.mapIdx fun i s => c.proposer (keySplit d.key (d.states.length + 1) i) s)
      = d.states.mapIdx fun i s => prop' (keySplit d.key (d.states.length + 1) i) s := by
    apply List.ext_getElem (by simp)
    intro i hi _
    rw [List.getElem_mapIdx, List.getElem_mapIdx, h1 i (by simpa using hi)]
  rw [h3]

private theorem update_key (c : McConfig S P Key) (hsplit : c.rng.split = keySplit) (params : P)
    (d : ChainState S Key) :
    (performMcUpdate c params d).key = (mcUpdateKeys d.states.length d.key).1 := by
  unfold performMcUpdate mcUpdateKeys
  dsimp only
  rw [hsplit]

private theorem sweep_keys (c : McConfig S P Key) (hsplit : c.rng.split = keySplit) (params : P)
    (prop' : Key → S → S) (uni' : Key → ℕ → ℝ) (n : ℕ) (d : ChainState S Key)
    (hd : d.logAccProb.length = d.states.length) :
    ((performMcUpdate c params)^[n] d).key = (mcSweepKeys d.states.length n d.key).1 ∧
    ((∀ k ∈ (mcSweepKeys d.states.length n d.key).2,
        c.proposer k = prop' k ∧ c.rng.uniform k = uni' k) → ∀ j ≤ n,
      (performMcUpdate { c with rng := ⟨keySplit, uni'⟩, proposer := prop' } params)^[j] d
        = (performMcUpdate c params)^[j] d) := by
  induction n generalizing d with
  | zero => exact ⟨rfl, fun _ j hj => by rw [Nat.le_zero.mp hj]; rfl⟩
  | succ n ih =>
    have hl := update_length c params d hd
    obtain ⟨i1, i2⟩ := ih (performMcUpdate c params d) (by rw [hl.1, hl.2])
    rw [hl.1, update_key c hsplit] at i1 i2
    rw [Function.iterate_succ_apply]
    refine ⟨i1, ?_⟩
    intro h j hj
    simp only [mcSweepKeys, List.mem_append] at h
    cases j with
    | zero => rfl
    | succ j =>
      rw [Function.iterate_succ_apply, Function.iterate_succ_apply,
        update_keys c hsplit params d prop' uni' fun k hk => h k (Or.inl hk)]
      exact i2 (fun k hk => h k (Or.inr hk)) j (by omega)

/-- **C20**, link to the sampler: with the splitting tree as random number generator, a `sample` call
on a device leaves the device key and uses the random functions (proposer and uniform numbers) at
the keys that the key bookkeeping of this file says: replacing proposer and generator by ones that
agree on these keys changes neither the samples nor the new state. -/
theorem c20_sampler_keys (c : McConfig S P Key) (hsplit : c.rng.split = keySplit) (params : P)
    (n : ℕ) (d : ChainState S Key) (prop' : Key → S → S) (uni' : Key → ℕ → ℝ) :
    (getSamples c params n (mcInit c params d)).1.key
      = (mcSweepKeys d.states.length ((c.thermSweeps + n) * c.sweepSteps) d.key).1 ∧
    ((∀ k ∈ (mcSweepKeys d.states.length ((c.thermSweeps + n) * c.sweepSteps) d.key).2,
        c.proposer k = prop' k ∧ c.rng.uniform k = uni' k) →
      getSamples { c with rng := ⟨keySplit, uni'⟩, proposer := prop' } params n (mcInit c params d)
        = getSamples c params n (mcInit c params d)) := by
  obtain ⟨h1, h2⟩ := sweep_keys c hsplit params prop' uni' ((c.thermSweeps + n) * c.sweepSteps)
    (mcInit c params d) (mcInit_length c params d)
  rw [getSamples_fst]
  refine ⟨h1, fun h => ?_⟩
  apply Prod.ext
  · rw [getSamples_fst, getSamples_fst]
    exact h2 h _ le_rfl
  · rw [getSamples_snd, getSamples_snd]
    rw [List.flatMap_def, List.flatMap_def]
    congr 1
    apply List.map_congr_left
    intro j hj
    rw [List.mem_range] at hj
    rw [h2 h ((c.thermSweeps + j + 1) * c.sweepSteps) (Nat.mul_le_mul_right _ (by omega))]

/-- Non-vacuity of `c20_sampler_keys`: one sample call of one chain with two updates uses four
keys. -/
example : (mcSweepKeys 1 ((1 + 1) * 1) []).2.length = 4 := by decide

end JVMC
