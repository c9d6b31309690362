import Verif.Model.Ising
import Verif.Spec.Ising
import Verif.Props.Variational

/-!
# Lemmas for C138: operators built from scaled strings
-/

namespace JVMC

open Spec Matrix

variable {Arg : Type} {L : ℕ} [NeZero L]

/-! ## Building the operator -/

/-- The string that `scal_opstr(a, ops)` returns. -/
def scaledStr (t : ℂ × List (LocalOp L 2)) : OpStr Arg L 2 := .fn (.const t.1) :: t.2.map StrItem.op

omit [NeZero L] in
theorem strFactors_ops (ops : List (LocalOp L 2)) :
    strFactors ((ops.map StrItem.op).map (StrArg.item (Arg := Arg))) = [] := by
  induction ops with
  | nil => rfl
  | cons o ops ih => exact ih

omit [NeZero L] in
theorem strOps_ops (ops : List (LocalOp L 2)) :
    strOps ((ops.map StrItem.op).map (StrArg.item (Arg := Arg))) = ops := by
  induction ops with
  | nil => rfl
  | cons o ops ih =>
    change o :: strOps _ = _
    rw [ih]

omit [NeZero L] in
theorem scalOpstr_ops (a : ℂ) (o : LocalOp L 2) (ops : List (LocalOp L 2)) :
    scalOpstr (Arg := Arg) (.const a) ((o :: ops).map StrItem.op) = .ok (scaledStr (a, o :: ops)) := by
  have h1 : OpStr.new (((o :: ops).map StrItem.op).map (StrArg.item (Arg := Arg))) = (o :: ops).map StrItem.op := by
    unfold OpStr.new
    rw [strFactors_ops, strOps_ops]
  unfold scalOpstr
  rw [h1]
  change Except.ok (OpStr.new ((StrItem.fn (.const a) :: (o :: ops).map StrItem.op).map StrArg.item)) = _
  unfold OpStr.new
  have h2 : strFactors ((StrItem.fn (.const a) :: (o :: ops).map StrItem.op).map (StrArg.item (Arg := Arg))) =
      [.const a] := by
    rw [List.map_cons]
    change PreFun.const a :: strFactors _ = _
    rw [strFactors_ops]
  have h3 : strOps ((StrItem.fn (.const a) :: (o :: ops).map StrItem.op).map (StrArg.item (Arg := Arg))) = o :: ops := by
    rw [List.map_cons]
    exact strOps_ops (o :: ops)
  rw [h2, h3]
  rfl

/-- An operator object to which the given strings have been added. -/
def builtOp (terms : List (ℂ × List (LocalOp L 2))) : OpState (OpStr Arg L 2) :=
  ⟨terms.map scaledStr, false, -1, none, none⟩

omit [NeZero L] in
theorem addScaled_built (terms : List (ℂ × List (LocalOp L 2))) (a : ℂ) (o : LocalOp L 2) (ops : List (LocalOp L 2)) :
    addScaled L (builtOp (Arg := Arg) terms) a (o :: ops) = .ok (builtOp (terms ++ [(a, o :: ops)])) := by
  unfold addScaled
  rw [scalOpstr_ops]
  change Except.ok _ = _
  simp [OpState.add, builtOp]

/-- The strings that one pass of the loop adds. -/
noncomputable def isingTerms (g : ℂ) (h : Option ℂ) (l : ℕ) : List (ℂ × List (LocalOp L 2)) :=
  [(-1, [opSz (Fin.ofNat L l), opSz (Fin.ofNat L ((l + 1) % L))]), (g, [opSx (Fin.ofNat L l)])] ++
    h.toList.map fun h => (h, [opSz (Fin.ofNat L l)])

omit [NeZero L] in
theorem foldlM_built (pass : OpState (OpStr Arg L 2) → ℕ → Except PyErr (OpState (OpStr Arg L 2)))
    (f : ℕ → List (ℂ × List (LocalOp L 2))) (hp : ∀ terms l, pass (builtOp terms) l = .ok (builtOp (terms ++ f l)))
    (ls : List ℕ) (terms : List (ℂ × List (LocalOp L 2))) :
    ls.foldlM pass (builtOp terms) = .ok (builtOp (terms ++ ls.flatMap f)) := by
  induction ls generalizing terms with
  | nil =>
    rw [List.flatMap_nil, List.append_nil]
    rfl
  | cons l ls ih =>
    rw [List.foldlM_cons, hp]
    change ls.foldlM pass (builtOp (terms ++ f l)) = _
    rw [ih, List.flatMap_cons, List.append_assoc]

theorem okBind {A B : Type} (x : A) (f : A → Except PyErr B) : (Except.ok x >>= f) = f x := rfl

theorem isingOperator_eq (g : ℂ) (h : Option ℂ) :
    isingOperator (Arg := Arg) L g h = .ok (builtOp ((List.range L).flatMap (isingTerms g h))) := by
  have := foldlM_built (Arg := Arg) (isingPass L g h) (isingTerms g h) (by
    intro terms l
    unfold isingPass
    rw [addScaled_built, okBind, addScaled_built, okBind]
    cases h with
    | none =>
      change Except.ok _ = _
      simp [isingTerms]
    | some h =>
      change addScaled L (builtOp _) h [opSz (Fin.ofNat L l)] = _
      rw [addScaled_built]
      simp [isingTerms]) (List.range L) []
  rw [List.nil_append] at this
  exact this

theorem magnetOperator_eq : magnetOperator (Arg := Arg) L =
    .ok (builtOp ((List.range L).flatMap fun l => [(1 / (L : ℂ), [opSx (Fin.ofNat L l)])])) := by
  have := foldlM_built (Arg := Arg) (magnetPass L) (fun l => [(1 / (L : ℂ), [opSx (Fin.ofNat L l)])]) (by
    intro terms l
    exact addScaled_built _ _ _ _) (List.range L) []
  rw [List.nil_append] at this
  exact this

/-! ## Prefactors -/

omit [NeZero L] in
theorem evalPrefactors_scaled (args : List Arg) (terms : List (ℂ × List (LocalOp L 2))) (o : ℕ) :
    evalPrefactors args o (terms.map scaledStr) = .ok ((List.range' o terms.length).zip (terms.map Prod.fst)) := by
  induction terms generalizing o with
  | nil => rfl
  | cons t terms ih =>
    rw [List.map_cons]
    unfold scaledStr evalPrefactors
    dsimp only
    rw [show PreFun.call (PreFun.const t.1) args = .ok t.1 from rfl]
    change (evalPrefactors args (o + 1) (terms.map scaledStr) >>= _) = _
    rw [ih]
    rfl

theorem writeAll_all {A : Type} (vals pre init : List A) (h : init.length = vals.length) :
    writeAll 0 ((List.range' pre.length vals.length).zip vals) (pre ++ init) = .ok (pre ++ vals) := by
  induction vals generalizing pre init with
  | nil =>
    rw [List.length_nil, List.length_eq_zero_iff] at h
    subst h
    rfl
  | cons v vals ih =>
    obtain _ | ⟨x, init⟩ := init
    · simp at h
    · have hs : setChecked (pre ++ x :: init) ((pre.length : ℤ) - 0) v = .ok (pre ++ v :: init) := by
        unfold setChecked
        rw [if_pos (by simp)]
        simp
      rw [List.length_cons, List.range'_succ, List.zip_cons_cons]
      unfold writeAll
      rw [hs]
      change writeAll 0 _ _ = _
      have := ih (pre ++ [v]) init (by simpa using h)
      simpa using this

omit [NeZero L] in
theorem prep_scaled (args : List Arg) (terms : List (ℂ × List (LocalOp L 2))) (k : ℕ) :
    (do
      let pre ← evalPrefactors args 0 (terms.map scaledStr)
      argFun pre (List.replicate (terms.map (scaledStr (Arg := Arg))).length 1) k) =
    argFun ((List.range terms.length).zip (terms.map Prod.fst)) (List.replicate terms.length (1 : ℂ)) k := by
  rw [evalPrefactors_scaled, List.range_eq_range', List.length_map]
  rfl

theorem argFun_scaled (vals : List ℂ) (k : ℕ) (hk : k = 1 ∨ vals.length < 50) :
    argFun ((List.range vals.length).zip vals) (List.replicate vals.length (1 : ℂ)) k = .ok vals := by
  have hseq : argFunSequential ((List.range vals.length).zip vals) (List.replicate vals.length (1 : ℂ)) = .ok vals := by
    have := writeAll_all vals [] (List.replicate vals.length (1 : ℂ)) (by simp)
    rw [List.range_eq_range']
    exact this
  rcases hk with rfl | hk
  · rw [c32_single_rank, hseq]
    · rw [List.pairwise_iff_getElem]
      intro i j hi hj hij
      simpa using hij
    · intro p hp
      have := (List.of_mem_zip hp).1
      simpa using this
  · unfold argFun
    rw [if_pos (by simpa using hk), hseq]

theorem opKernel_built (terms : List (ℂ × List (LocalOp L 2))) (args : List Arg) (k : ℕ)
    (hk : k = 1 ∨ terms.length < 50) :
    (opKernel (branchFreeClass L 2 Arg k) (builtOp terms) args).1 =
      .ok (branchFreeKernel (terms.map Prod.snd) (terms.map Prod.fst)) := by
  have hp : (branchFreeClass L 2 Arg k).prep (terms.map scaledStr) args = .ok (terms.map Prod.fst) := by
    refine (prep_scaled args terms k).trans ?_
    have := argFun_scaled (terms.map Prod.fst) k (by simpa using hk)
    rwa [List.length_map] at this
  have he : OpState.eval (fun ts => succeeds ((branchFreeClass L 2 Arg k).prep ts args)) (builtOp terms) args.length =
      (.ok (terms.map scaledStr, args.length, terms.map scaledStr),
        ⟨terms.map scaledStr, true, args.length, some (terms.map scaledStr, args.length), some (terms.map scaledStr)⟩) := by
    unfold OpState.eval builtOp
    simp [hp, succeeds]
  unfold opKernel
  rw [he]
  dsimp only
  rw [hp]
  dsimp only
  unfold branchFreeClass
  dsimp only
  rw [List.map_map]
  refine congrArg Except.ok ?_
  refine congrArg (fun strs => branchFreeKernel strs (terms.map Prod.fst)) ?_
  refine List.map_congr_left fun t _ => ?_
  change OpStr.localOps (scaledStr t) = t.2
  unfold OpStr.localOps scaledStr
  simp only [List.filterMap_cons, List.filterMap_map]
  exact List.filterMap_some

/-! ## The matrix -/

omit [NeZero L] in
theorem sum_scaledTerms (terms : List (ℂ × List (LocalOp L 2))) :
    sumOfProducts ((terms.map Prod.fst).zip ((terms.map Prod.snd).map fun ops => (ops.map opMatrix).reverse)) =
      (terms.map fun t => t.1 • (t.2.map opMatrix).reverse.prod).sum := by
  unfold sumOfProducts
  congr 1
  induction terms with
  | nil => rfl
  | cons t terms ih =>
    simp only [List.map_cons, List.zip_cons_cons, ih]

omit [NeZero L] in
theorem sum_range_flatMap {M : Type} [AddCommMonoid M] {A : Type} (f : ℕ → List A) (F : A → M) :
    (((List.range L).flatMap f).map F).sum = ∑ l : Fin L, ((f l).map F).sum := by
  rw [Fin.sum_univ_eq_sum_range (fun l => ((f l).map F).sum) L]
  generalize L = n
  induction n with
  | zero => rfl
  | succ n ih =>
    rw [List.range_succ, List.flatMap_append, List.map_append, List.sum_append, ih, Finset.sum_range_succ]
    simp

omit [NeZero L] in
theorem siteZ_mulVec (l : Fin L) (ψ : Config L 2 → ℂ) (s : Config L 2) :
    (siteOperator l sigmaZ *ᵥ ψ) s = (spinValue (s l) : ℂ) * ψ s := by
  rw [siteOperator_mulVec, Fin.sum_univ_two]
  obtain h | h : s l = 0 ∨ s l = 1 := by omega
  · have e : Function.update s l 0 = s := by rw [← h]; exact Function.update_eq_self l s
    simp [h, sigmaZ, e, spinValue]
  · have e : Function.update s l 1 = s := by rw [← h]; exact Function.update_eq_self l s
    simp [h, sigmaZ, e, spinValue]

omit [NeZero L] in
theorem siteX_mulVec (l : Fin L) (ψ : Config L 2 → ℂ) (s : Config L 2) :
    (siteOperator l sigmaX *ᵥ ψ) s = ψ (flipSpin s l) := by
  rw [siteOperator_mulVec, Fin.sum_univ_two]
  unfold flipSpin
  obtain h | h : s l = 0 ∨ s l = 1 := by omega
  · simp [h, sigmaX]
  · simp [h, sigmaX]

theorem ising_mulVec (g h : ℂ) (ψ : Config L 2 → ℂ) (s : Config L 2) :
    (ising g h *ᵥ ψ) s = classicalEnergy h s * ψ s + g * ∑ l, ψ (flipSpin s l) := by
  unfold ising classicalEnergy
  rw [sum_mulVec, Finset.sum_apply, Finset.sum_mul, Finset.mul_sum, ← Finset.sum_add_distrib]
  refine Finset.sum_congr rfl fun l _ => ?_
  rw [add_mulVec, add_mulVec, neg_mulVec, smul_mulVec, smul_mulVec, ← mulVec_mulVec]
  simp only [Pi.add_apply, Pi.neg_apply, Pi.smul_apply, siteZ_mulVec, siteX_mulVec, smul_eq_mul]
  push_cast
  ring

omit [NeZero L] in
theorem transverse_mulVec (ψ : Config L 2 → ℂ) (s : Config L 2) :
    (transverse *ᵥ ψ) s = 1 / (L : ℂ) * ∑ l, ψ (flipSpin s l) := by
  unfold transverse
  rw [sum_mulVec, Finset.sum_apply, Finset.mul_sum]
  refine Finset.sum_congr rfl fun l _ => ?_
  rw [smul_mulVec]
  simp only [Pi.smul_apply, siteX_mulVec, smul_eq_mul]

omit [NeZero L] in
theorem siteZ_commute (i j : Fin L) :
    siteOperator i sigmaZ * siteOperator j sigmaZ = siteOperator j sigmaZ * siteOperator i sigmaZ := by
  apply eq_of_mulVec
  intro ψ s
  rw [← mulVec_mulVec, ← mulVec_mulVec]
  simp only [siteZ_mulVec]
  ring

theorem ofNat_next (l : Fin L) : Fin.ofNat L ((l.val + 1) % L) = l + 1 := by
  apply Fin.ext
  simp [Fin.ofNat, Fin.val_add, Nat.add_mod]

theorem ofNat_self (l : Fin L) : Fin.ofNat L l.val = l := by
  apply Fin.ext
  simp [Fin.ofNat, Nat.mod_eq_of_lt l.isLt]

theorem ising_sum (g : ℂ) (h : Option ℂ) :
    (((List.range L).flatMap (isingTerms g h)).map fun t => t.1 • (t.2.map opMatrix).reverse.prod).sum =
      ising (L := L) g (h.getD 0) := by
  rw [sum_range_flatMap]
  unfold ising
  refine Finset.sum_congr rfl fun l _ => ?_
  unfold isingTerms
  rw [ofNat_self, ofNat_next]
  have hz := fun i : Fin L => (c65_pauli_matrices_partial i).2.2.1
  have hx := fun i : Fin L => (c65_pauli_matrices_partial i).1
  cases h with
  | none => simp [hz, hx, siteZ_commute (l + 1) l]
  | some h => simp [hz, hx, siteZ_commute (l + 1) l, add_assoc]

theorem magnet_sum :
    (((List.range L).flatMap fun l => [(1 / (L : ℂ), [opSx (Fin.ofNat L l)])]).map
      fun t => t.1 • (t.2.map opMatrix).reverse.prod).sum = transverse (L := L) := by
  rw [sum_range_flatMap]
  unfold transverse
  refine Finset.sum_congr rfl fun l _ => ?_
  have hx := fun i : Fin L => (c65_pauli_matrices_partial i).1
  rw [ofNat_self]
  simp [hx]

/-! ## Sizes of the matrix elements -/

theorem getElem?_foldl_set_zero (ks : List ℕ) (f : List ℂ) (k : ℕ) :
    (ks.foldl (fun m k => m.set k 0) f)[k]? = if k ∈ ks then f[k]?.map (fun _ => 0) else f[k]? := by
  induction ks generalizing f with
  | nil => simp
  | cons j ks ih =>
    rw [List.foldl_cons, ih, List.getElem?_set]
    by_cases hk : k ∈ ks
    · by_cases hj : j = k
      · subst hj
        simp [hk]
        split_ifs with hl <;> simp [hl]
      · simp [hk, hj]
    · by_cases hj : j = k
      · subst hj
        simp [hk]
        split_ifs with hl <;> simp [hl]
      · simp [hk, hj, Ne.symm hj]

/-- An element of the list after the diagonal strings have been merged. -/
theorem mergeDiag_cases (diag : List ℕ) (m : List ℂ) (x : ℂ) (hx : x ∈ mergeDiag diag m) :
    x = 0 ∨ x = (diag.map fun k => m.getD k 0).sum ∨ ∃ k, k ∉ diag ∧ m[k]? = some x := by
  match diag, hx with
  | [], hx =>
    obtain ⟨k, hk⟩ := List.mem_iff_getElem?.1 hx
    exact Or.inr (Or.inr ⟨k, by simp, hk⟩)
  | [d], hx =>
    obtain ⟨k, hk⟩ := List.mem_iff_getElem?.1 hx
    have hk' : m[k]? = some x := hk
    by_cases h : k = d
    · subst h
      exact Or.inr (Or.inl (by simp [hk']))
    · exact Or.inr (Or.inr ⟨k, by simpa using h, hk'⟩)
  | d0 :: d1 :: ds, hx =>
    obtain ⟨k, hk⟩ := List.mem_iff_getElem?.1 hx
    unfold mergeDiag at hk
    dsimp only at hk
    rw [getElem?_foldl_set_zero] at hk
    by_cases h : k ∈ d1 :: ds
    · rw [if_pos h, Option.map_eq_some_iff] at hk
      obtain ⟨_, _, h0⟩ := hk
      exact Or.inl h0.symm
    · rw [if_neg h, List.getElem?_set] at hk
      by_cases h0 : d0 = k
      · rw [if_pos h0] at hk
        split_ifs at hk with h1
        exact Or.inr (Or.inl (Option.some.inj hk).symm)
      · rw [if_neg h0] at hk
        exact Or.inr (Or.inr ⟨k, by
          rw [List.mem_cons]
          exact fun hh => hh.elim (fun e => h0 e.symm) h, hk⟩)

theorem sum_filter_getD {A : Type} (P : A → Bool) (z : A) (strs : List A) (m : List ℂ) (hl : strs.length = m.length) :
    (((List.range strs.length).filter fun k => P (strs.getD k z)).map fun k => m.getD k 0).sum =
      (List.zipWith (fun a v => if P a then v else 0) strs m).sum := by
  induction strs generalizing m with
  | nil => rfl
  | cons a strs ih =>
    obtain _ | ⟨v, m⟩ := m
    · simp at hl
    · have ih := ih m (by simpa using hl)
      rw [List.length_cons, List.range_succ_eq_map, List.filter_cons, List.filter_map, List.zipWith_cons_cons,
        List.sum_cons, ← ih]
      have e : ((fun k => P ((a :: strs).getD k z)) ∘ Nat.succ) = fun k => P (strs.getD k z) := rfl
      rw [e]
      by_cases h : P a
      · simp [h, Function.comp_def]
      · simp [h, Function.comp_def]

/-- The element that a string contributes before the diagonal strings are merged. -/
noncomputable def rawElement (M : ℕ) (s : Config L 2) (t : ℂ × List (LocalOp L 2)) : ℂ :=
  ((compileStr M t.2).foldl (applyFun triMask) (s, t.1)).2

theorem rawSPrimes_terms (terms : List (ℂ × List (LocalOp L 2))) (s : Config L 2) :
    (rawSPrimes triMask (terms.map Prod.snd) (terms.map Prod.fst) s).map Prod.snd =
      terms.map (rawElement (maxOpStrLength (terms.map Prod.snd)) s) := by
  unfold rawSPrimes
  generalize maxOpStrLength (terms.map Prod.snd) = M
  induction terms with
  | nil => rfl
  | cons t terms ih =>
    simp only [List.map_cons, List.zipWith_cons_cons, ih]
    rfl

/-- What the entries of a row can be. -/
theorem kernel_entries (terms : List (ℂ × List (LocalOp L 2))) (s : Config L 2) (e : Config L 2 × ℂ)
    (he : e ∈ branchFreeKernel (terms.map Prod.snd) (terms.map Prod.fst) s) :
    e.2 = 0 ∨
    e.2 = (terms.map fun t => if (t.2.all fun o => o.diag) then rawElement (maxOpStrLength (terms.map Prod.snd)) s t
      else 0).sum ∨
    ∃ t ∈ terms, (t.2.all fun o => o.diag) = false ∧
      e.2 = rawElement (maxOpStrLength (terms.map Prod.snd)) s t := by
  have h2 := (List.of_mem_zip he).2
  rw [rawSPrimes_terms] at h2
  generalize maxOpStrLength (terms.map Prod.snd) = M at h2 ⊢
  rcases mergeDiag_cases _ _ _ h2 with h | h | ⟨k, hk, h⟩
  · exact Or.inl h
  · refine Or.inr (Or.inl (h.trans ?_))
    unfold diagIndices
    rw [sum_filter_getD (fun ops : List (LocalOp L 2) => ops.all fun o => o.diag) [] _ _ (by simp)]
    congr 1
    rw [List.zipWith_map, List.zipWith_self]
  · rw [List.getElem?_map, Option.map_eq_some_iff] at h
    obtain ⟨t, ht, h⟩ := h
    refine Or.inr (Or.inr ⟨t, List.mem_of_getElem? ht, ?_, h.symm⟩)
    obtain ⟨hlt, hget⟩ := List.getElem?_eq_some_iff.1 ht
    by_contra hd
    apply hk
    unfold diagIndices
    rw [List.mem_filter]
    refine ⟨by simpa using hlt, ?_⟩
    rw [List.getD_eq_getElem?_getD, List.getElem?_map, ht]
    simpa using hd

theorem rawElement_eq (M : ℕ) (s : Config L 2) (t : ℂ × List (LocalOp L 2)) (h : t.2.length ≤ M) :
    rawElement M s t = (t.2.reverse.foldl (applyFun triMask) (s, t.1)).2 := by
  unfold rawElement
  rw [compileStr_eq _ _ h, List.foldl_append, foldl_opId]

omit [NeZero L] in
theorem applyFun_sz (l : Fin L) (s : Config L 2) (a : ℂ) :
    applyFun triMask (s, a) (opSz l) = (s, a * (spinValue (s l) : ℂ)) := by
  unfold applyFun opSz
  dsimp only
  rw [fermiFactor_bosonic]
  have hm : arr2 (0 : Fin 2) 1 (s l) = s l := by
    obtain h | h : s l = 0 ∨ s l = 1 := by omega
    all_goals rw [h]; rfl
  rw [hm, Function.update_eq_self]
  obtain h | h : s l = 0 ∨ s l = 1 := by omega
  all_goals rw [h]; simp [arr2, spinValue]

omit [NeZero L] in
theorem applyFun_sx (l : Fin L) (s : Config L 2) (a : ℂ) :
    (applyFun triMask (s, a) (opSx l)).2 = a := by
  unfold applyFun opSx
  dsimp only
  rw [fermiFactor_bosonic]
  obtain h | h : s l = 0 ∨ s l = 1 := by omega
  all_goals rw [h]; simp [arr2]

/-- The entries of the rows of the Ising Hamiltonian. -/
theorem ising_entries (g : ℂ) (h : Option ℂ) (s : Config L 2) (e : Config L 2 × ℂ)
    (he : e ∈ branchFreeKernel (((List.range L).flatMap (isingTerms (L := L) g h)).map Prod.snd)
      (((List.range L).flatMap (isingTerms (L := L) g h)).map Prod.fst) s) :
    e.2 = 0 ∨ e.2 = classicalEnergy (h.getD 0) s ∨ e.2 = g := by
  have hle : ∀ t ∈ (List.range L).flatMap (isingTerms (L := L) g h),
      t.2.length ≤ maxOpStrLength (((List.range L).flatMap (isingTerms g h)).map Prod.snd) := fun t ht =>
    length_le_max _ _ (List.mem_map_of_mem ht)
  rcases kernel_entries _ s e he with h1 | h1 | ⟨t, ht, hd, h1⟩
  · exact Or.inl h1
  · refine Or.inr (Or.inl (h1.trans ?_))
    rw [List.map_congr_left fun t ht => by rw [rawElement_eq _ s t (hle t ht)], sum_range_flatMap]
    unfold classicalEnergy
    refine Finset.sum_congr rfl fun l _ => ?_
    unfold isingTerms
    rw [ofNat_self, ofNat_next]
    have hz : ∀ i : Fin L, (opSz i).diag = true := fun _ => rfl
    have hx : ∀ i : Fin L, (opSx i).diag = false := fun _ => rfl
    cases h with
    | none => simp [hz, hx, applyFun_sz, mul_comm]
    | some h => simp [hz, hx, applyFun_sz, mul_comm]
  · rw [rawElement_eq _ s t (hle t ht)] at h1
    obtain ⟨l, _, ht⟩ := List.mem_flatMap.1 ht
    unfold isingTerms at ht
    have hz : ∀ i : Fin L, (opSz i).diag = true := fun _ => rfl
    rw [List.mem_append, List.mem_cons, List.mem_singleton, List.mem_map] at ht
    rcases ht with (rfl | rfl) | ⟨x, _, rfl⟩
    · simp [hz] at hd
    · exact Or.inr (Or.inr (h1.trans (applyFun_sx _ s g)))
    · simp [hz] at hd

theorem magnet_entries (s : Config L 2) (e : Config L 2 × ℂ)
    (he : e ∈ branchFreeKernel
      (((List.range L).flatMap fun l => [(1 / (L : ℂ), [opSx (Fin.ofNat L l)])]).map Prod.snd)
      (((List.range L).flatMap fun l => [(1 / (L : ℂ), [opSx (Fin.ofNat L l)])]).map Prod.fst) s) :
    e.2 = 0 ∨ e.2 = 1 / (L : ℂ) := by
  rcases kernel_entries _ s e he with h1 | h1 | ⟨t, ht, hd, h1⟩
  · exact Or.inl h1
  · refine Or.inl (h1.trans (List.sum_eq_zero fun x hx => ?_))
    obtain ⟨t, ht, rfl⟩ := List.mem_map.1 hx
    obtain ⟨l, _, ht⟩ := List.mem_flatMap.1 ht
    rw [List.mem_singleton] at ht
    subst ht
    exact if_neg (by simp [opSx])
  · rw [rawElement_eq _ s t (length_le_max _ _ (List.mem_map_of_mem ht))] at h1
    obtain ⟨l, _, ht⟩ := List.mem_flatMap.1 ht
    rw [List.mem_singleton] at ht
    subst ht
    exact Or.inr (h1.trans (applyFun_sx _ s _))

end JVMC
