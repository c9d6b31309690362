import Verif.Lemmas.SiteIndex
import Verif.Props.BranchFree

/-!
# C129 — site indices of operators

`LocalOpZ` is an operator dictionary whose `idx` is any integer, `kernelZ` is `get_s_primes` for operators made of them.
-/

namespace JVMC

open Matrix Spec

variable {N d : ℕ}

/-- The index of `o` names the site of `o'`, from the front or (negative) from the end; everything else agrees. -/
def Names (o : LocalOpZ d) (o' : LocalOp N d) : Prop :=
  (o.idx = (o'.idx : ℕ) ∨ o.idx = (o'.idx : ℕ) - (N : ℤ)) ∧ o.map = o'.map ∧ o.matEls = o'.matEls ∧
    o.diag = o'.diag ∧ o.fermionic = o'.fermionic

/-- The index of `o` is beyond the lattice; `o'` is diagonal on the site at that end, with the matrix elements of `o`. -/
def Beyond (o : LocalOpZ d) (o' : LocalOp N d) : Prop :=
  ((N ≤ o.idx ∧ (o'.idx : ℕ) + 1 = N) ∨ (o.idx < -(N : ℤ) ∧ (o'.idx : ℕ) = 0)) ∧ o'.map = id ∧ o.matEls = o'.matEls ∧
    o.diag = o'.diag ∧ o.fermionic = o'.fermionic

theorem toLocal_names [NeZero N] {o : LocalOpZ d} {o' : LocalOp N d} (h : Names o o') : toLocal N o = o' := by
  obtain ⟨hi, hm, he, hg, hf⟩ := h
  have hlt := o'.idx.isLt
  have hn : normIdx N o.idx = (o'.idx : ℕ) := by unfold normIdx; split <;> omega
  have hr : readIdx N o.idx = o'.idx := Fin.ext (by simp only [readIdx, hn]; omega)
  have hw : (writeIdx N o.idx).isSome = true := by simp [writeIdx, hn]
  cases o'
  simp only [toLocal, hw, if_true] at *
  subst hm he hg hf hr
  rfl

theorem toLocal_beyond [NeZero N] {o : LocalOpZ d} {o' : LocalOp N d} (h : Beyond o o') : toLocal N o = o' := by
  obtain ⟨hi, hm, he, hg, hf⟩ := h
  have hpos := NeZero.pos N
  have hlt := o'.idx.isLt
  have hw : (writeIdx N o.idx).isSome = false := by
    unfold writeIdx
    rw [dif_neg]
    · rfl
    · unfold normIdx; split <;> omega
  have hr : readIdx N o.idx = o'.idx := by
    apply Fin.ext
    simp only [readIdx, normIdx]
    split <;> omega
  cases o'
  simp only [toLocal, hw] at *
  subst hm he hg hf hr
  rfl

theorem forall₂_toLocal [NeZero N] {R : LocalOpZ d → LocalOp N d → Prop} (hR : ∀ o o', R o o' → toLocal N o = o')
    {strs : List (List (LocalOpZ d))} {strs' : List (List (LocalOp N d))}
    (h : List.Forall₂ (List.Forall₂ R) strs strs') : strs.map (List.map (toLocal N)) = strs' := by
  induction h with
  | nil => rfl
  | cons h _ ih =>
    rw [List.map_cons, ih]
    congr 1
    induction h with
    | nil => rfl
    | cons ho _ ih' => rw [List.map_cons, hR _ _ ho, ih']

/-- An operator whose indices name sites of the lattice, from the front or from the end, has the matrix elements of the
operator on these sites (products in reversed order, as in C26). Missing: indices that name no site, which should be
refused, see `c129_beyond_violated`. -/
theorem c129_sites_partial [NeZero N] (strs : List (List (LocalOpZ d))) (strs' : List (List (LocalOp N d)))
    (pfs : List ℂ) (h : List.Forall₂ (List.Forall₂ Names) strs strs') (hlen : pfs.length = strs.length)
    (hf : ∀ ops ∈ strs', ∀ o ∈ ops, o.fermionic = true → d = 2)
    (hd : ∀ ops ∈ strs', ∀ o ∈ ops, o.diag = true → o.map = id) (s s' : Config N d) :
    kernelZ strs pfs s = branchFreeKernel strs' pfs s ∧
    elementOf (kernelZ strs pfs s) s'
      = sumOfProducts (pfs.zip (strs'.map fun ops => (ops.map opMatrix).reverse)) s s' := by
  have hk : kernelZ strs pfs s = branchFreeKernel strs' pfs s := by
    rw [kernelZ_toLocal, forall₂_toLocal (fun _ _ => toLocal_names) h]
  exact ⟨hk, by rw [hk, c26_reversed_product strs' pfs (by rw [hlen, h.length_eq]) hf hd]⟩

/-- `Sz(-1) Sz(0)` is the bond that closes a ring. -/
example (s s' : Config 3 2) :
    elementOf (kernelZ [[opSzZ (-1), opSzZ 0], [opSxZ 1]] [1, 2] s) s'
      = sumOfProducts [(1, [opMatrix (opSz 0), opMatrix (opSz 2)]), (2, [opMatrix (opSx 1)])] s s' := by
  have hid : arr2 (0 : Fin 2) 1 = id := by funext x; fin_cases x <;> rfl
  rw [(c129_sites_partial [[opSzZ (-1), opSzZ 0], [opSxZ 1]] [[opSz 2, opSz 0], [opSx 1]] [1, 2]
    (by simp [Names, opSzZ, opSxZ, opSz, opSx]) rfl (fun _ _ _ _ _ => rfl) (by simp [opSz, opSx, hid]) s s').2]
  rfl

/-- Every index acts as that of some site: each operator either names a site, or is beyond the lattice and acts as the
diagonal operator with its matrix elements on the site at that end. -/
theorem c129_any [NeZero N] (o : LocalOpZ d) : ∃ o' : LocalOp N d, Names o o' ∨ Beyond o o' := by
  have hpos := NeZero.pos N
  by_cases h1 : (N : ℤ) ≤ o.idx
  · exact ⟨⟨⟨N - 1, by omega⟩, id, o.matEls, o.diag, o.fermionic⟩, .inr ⟨.inl ⟨h1, by simp; omega⟩, rfl, rfl, rfl, rfl⟩⟩
  by_cases h2 : o.idx < -(N : ℤ)
  · exact ⟨⟨⟨0, hpos⟩, id, o.matEls, o.diag, o.fermionic⟩, .inr ⟨.inr ⟨h2, rfl⟩, rfl, rfl, rfl, rfl⟩⟩
  by_cases h3 : 0 ≤ o.idx
  · exact ⟨⟨⟨o.idx.toNat, by omega⟩, o.map, o.matEls, o.diag, o.fermionic⟩,
      .inl ⟨.inl (by simp [h3]), rfl, rfl, rfl, rfl⟩⟩
  · exact ⟨⟨⟨(o.idx + N).toNat, by omega⟩, o.map, o.matEls, o.diag, o.fermionic⟩,
      .inl ⟨.inr (by simp only; omega), rfl, rfl, rfl, rfl⟩⟩

/-- What is computed for any indices whatsoever. Nothing is refused: there is no error to return. -/
theorem c129_computed [NeZero N] (strs : List (List (LocalOpZ d))) (strs' : List (List (LocalOp N d)))
    (pfs : List ℂ) (h : List.Forall₂ (List.Forall₂ fun o o' => Names o o' ∨ Beyond o o') strs strs')
    (hlen : pfs.length = strs.length)
    (hf : ∀ ops ∈ strs', ∀ o ∈ ops, o.fermionic = true → d = 2)
    (hd : ∀ ops ∈ strs', ∀ o ∈ ops, o.diag = true → o.map = id) (s s' : Config N d) :
    elementOf (kernelZ strs pfs s) s'
      = sumOfProducts (pfs.zip (strs'.map fun ops => (ops.map opMatrix).reverse)) s s' := by
  have hk : kernelZ strs pfs s = branchFreeKernel strs' pfs s := by
    rw [kernelZ_toLocal, forall₂_toLocal (fun _ _ h => h.elim toLocal_names toLocal_beyond) h]
  rw [hk, c26_reversed_product strs' pfs (by rw [hlen, h.length_eq]) hf hd]

/-- An index that is in range, one beyond the end and one before the front. -/
example (s s' : Config 3 2) :
    elementOf (kernelZ [[opSxZ 0, opSzZ 7], [opSxZ (-5)]] [Complex.I, 2] s) s'
      = sumOfProducts [(Complex.I, [opMatrix (opSz 2), opMatrix (opSx 0)]),
          (2, [opMatrix ⟨0, id, arr2 1 1, false, false⟩])] s s' := by
  have hid : arr2 (0 : Fin 2) 1 = id := by funext x; fin_cases x <;> rfl
  rw [c129_computed [[opSxZ 0, opSzZ 7], [opSxZ (-5)]] [[opSx 0, opSz 2], [⟨0, id, arr2 1 1, false, false⟩]]
    [Complex.I, 2] (by simp [Names, Beyond, opSxZ, opSzZ, opSx, opSz, hid]) rfl (fun _ _ _ _ _ => rfl)
    (by simp [opSx, opSz, hid])]
  rfl

theorem opMatrix_szDiag [NeZero N] (i : Fin N) : opMatrix (⟨i, id, arr2 1 1, false, false⟩ : LocalOp N 2) = 1 := by
  apply eq_of_mulVec
  intro ψ s
  rw [opMatrix_mulVec]
  have : arr2 (1 : ℂ) 1 (s i) = 1 := by generalize s i = a; fin_cases a <;> rfl
  simp [opSign, this]

/-- An index beyond the lattice raises nothing, for any number of sites: `Sx(N)` is the identity, and `Sz(N)` is
`Sz(N-1)`. -/
theorem c129_beyond_violated [NeZero N] (i : ℤ) (hi : (N : ℤ) ≤ i) (s s' : Config N 2) :
    elementOf (kernelZ [[opSxZ i]] [1] s) s' = (1 : Matrix (Config N 2) (Config N 2) ℂ) s s' ∧
    elementOf (kernelZ [[opSzZ i]] [1] s) s' = elementOf (kernelZ [[opSzZ (-1)]] [1] s) s' := by
  have hpos := NeZero.pos N
  have hid : arr2 (0 : Fin 2) 1 = id := by funext x; fin_cases x <;> rfl
  constructor
  · rw [c129_computed [[opSxZ i]] [[⟨⟨N - 1, by omega⟩, id, arr2 1 1, false, false⟩]] [1]
      (by simp [Beyond, opSxZ, hi]; right; omega) rfl (fun _ _ _ _ _ => rfl) (by simp)]
    simp [sumOfProducts, opMatrix_szDiag]
  · rw [c129_computed [[opSzZ i]] [[opSz ⟨N - 1, by omega⟩]] [1]
      (by simp [Beyond, opSzZ, opSz, hi, hid]; right; omega) rfl (fun _ _ _ _ _ => rfl) (by simp [opSz, hid]),
      c129_computed [[opSzZ (-1)]] [[opSz ⟨N - 1, by omega⟩]] [1]
      (by simp [Names, opSzZ, opSz]; left; omega) rfl (fun _ _ _ _ _ => rfl) (by simp [opSz, hid])]

/-- The value `±1` of a spin. -/
def spinVal (b : Fin 2) : ℂ := if b = 1 then 1 else -1

theorem opMatrix_sz_mul (i j : Fin N) (ψ : Config N 2 → ℂ) (s : Config N 2) :
    ((opMatrix (opSz i) * opMatrix (opSz j)) *ᵥ ψ) s = spinVal (s i) * spinVal (s j) * ψ s := by
  have hid : arr2 (0 : Fin 2) 1 = id := by funext x; fin_cases x <;> rfl
  have hv : ∀ a : Fin 2, arr2 (-1 : ℂ) 1 a = spinVal a := by intro a; fin_cases a <;> rfl
  rw [← mulVec_mulVec, opMatrix_mulVec, opMatrix_mulVec]
  simp [opSign, opSz, hid, hv, mul_assoc]

/-- A sum of bonds `∑_{l < N} Sz(l) Sz(l+1)` in which the `% N` has been forgotten: the bond beyond the end adds the
constant `1` to the energy of every configuration of the open chain. -/
theorem c129_open_chain_violated (n : ℕ) (s : Config (n + 1) 2) :
    elementOf (kernelZ ((List.range (n + 1)).map fun l : ℕ => [opSzZ l, opSzZ ((l : ℤ) + 1)]) (List.replicate (n + 1) 1) s) s
      = (∑ l : Fin n, spinVal (s l.castSucc) * spinVal (s l.succ)) + 1 := by
  have hid : arr2 (0 : Fin 2) 1 = id := by funext x; fin_cases x <;> rfl
  let site : ℕ → Fin (n + 1) := fun l => ⟨min l n, by omega⟩
  have hrep : List.replicate (n + 1) (1 : ℂ) = (List.range (n + 1)).map fun _ => 1 := by
    simp [List.map_const']
  rw [c129_computed _ ((List.range (n + 1)).map fun l => [opSz (site l), opSz (site (l + 1))]) _ ?_ (by simp)
    (fun _ _ _ _ _ => rfl) (by simp [opSz, hid])]
  · rw [List.map_map, hrep, List.zip_map']
    unfold sumOfProducts
    rw [List.map_map]
    have hel : ∀ l, (1 : ℂ) • ([opSz (site l), opSz (site (l + 1))].map opMatrix).reverse.prod
        = Matrix.diagonal fun s : Config (n + 1) 2 => spinVal (s (site (l + 1))) * spinVal (s (site l)) := by
      intro l
      apply eq_of_mulVec
      intro ψ s
      rw [mulVec_diagonal, ← opMatrix_sz_mul]
      simp
    simp only [Function.comp_def, hel]
    have hsum : ∀ (ls : List ℕ) (f : ℕ → Config (n + 1) 2 → ℂ),
        (ls.map fun l => Matrix.diagonal (f l)).sum s s = (ls.map fun l => f l s).sum := by
      intro ls f
      induction ls with
      | nil => simp
      | cons l ls ih => simp [Matrix.add_apply, ih]
    rw [hsum _ fun l s => spinVal (s (site (l + 1))) * spinVal (s (site l))]
    have hfin : ∀ (m : ℕ) (f : ℕ → ℂ), ((List.range m).map f).sum = ∑ l ∈ Finset.range m, f l := by
      intro m f
      induction m with
      | zero => rfl
      | succ m ih => rw [List.sum_range_succ, Finset.sum_range_succ, ih]
    rw [hfin, Finset.sum_range_succ, Finset.sum_range]
    congr 1
    · refine Finset.sum_congr rfl fun l _ => ?_
      have h1 : site l = l.castSucc := Fin.ext (by simp [site])
      have h2 : site (l + 1) = l.succ := Fin.ext (by simp [site]; omega)
      rw [h1, h2, mul_comm]
    · have h2 : site (n + 1) = site n := Fin.ext (by simp [site])
      rw [h2]
      generalize s (site n) = a
      fin_cases a <;> simp [spinVal]
  · rw [List.forall₂_map_left_iff, List.forall₂_map_right_iff, List.forall₂_same]
    intro l hl
    rw [List.mem_range] at hl
    have h1 : (Names (opSzZ l) (opSz (site l)) ∨ Beyond (opSzZ l) (opSz (site l))) := by
      left
      simp [Names, opSzZ, opSz, site]; left; omega
    refine .cons h1 (.cons ?_ .nil)
    by_cases hln : l < n
    · left
      simp [Names, opSzZ, opSz, site]; left; omega
    · right
      simp [Beyond, opSzZ, opSz, site, hid]; left; omega

end JVMC
