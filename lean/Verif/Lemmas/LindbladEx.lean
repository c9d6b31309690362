import Verif.Props.PovmMany
import Verif.Model.LindbladEx
import Verif.Spec.LindbladEx
import Verif.Lemmas.Ising
import Verif.Lemmas.PovmSic
import Verif.Props.PovmObs

/-!
# Lemmas: the Lindbladians of the example scripts
-/

namespace JVMC

open Spec Matrix

variable {N : ℕ}

/-- Adding the dictionary of a term. -/
noncomputable def addMaster (w : PovmOps N ℝ) (t : ℝ × MasterTerm N) : PovmOps N ℝ :=
  addTerm w (termDict t).name (termDict t).strength (termDict t).sites

theorem termDict_id (t : ℝ × MasterTerm N) : (termDict t).id = 0 := by
  unfold termDict
  cases t.2 <;> rfl

/-- More dictionaries. -/
def PovmOps.extend (w : PovmOps N ℝ) (d : OpDict N ℝ) : PovmOps N ℝ := ⟨w.heap ++ [d], w.ops⟩

theorem extend_add (w : PovmOps N ℝ) (d : OpDict N ℝ) (o k : ℕ) (hk : k < w.heap.length) :
    (w.extend d).add o k = (w.add o k).extend d := by
  unfold PovmOps.extend PovmOps.add
  dsimp only
  congr 1
  generalize w.heap = h at hk
  induction h generalizing k with
  | nil => simp at hk
  | cons a h ih =>
    cases k with
    | zero => rfl
    | succ k =>
      rw [List.cons_append, List.modify_succ_cons, List.modify_succ_cons, List.cons_append, ih k (by simpa using hk)]

theorem add_length (w : PovmOps N ℝ) (o k : ℕ) : (w.add o k).heap.length = w.heap.length := by
  unfold PovmOps.add
  simp

theorem extend_run (d : OpDict N ℝ) (calls : List (ℕ × ℕ)) (w : PovmOps N ℝ) (h : ∀ c ∈ calls, c.2 < w.heap.length) :
    (w.extend d).run calls = (w.run calls).extend d ∧ (w.run calls).heap.length = w.heap.length := by
  induction calls generalizing w with
  | nil => exact ⟨rfl, rfl⟩
  | cons c calls ih =>
    have := ih (w.add c.1 c.2) fun c' hc' => by
      rw [add_length]
      exact h c' (List.mem_cons_of_mem _ hc')
    unfold PovmOps.run at this ⊢
    rw [List.foldl_cons, List.foldl_cons, extend_add _ _ _ _ (h c List.mem_cons_self)]
    exact ⟨this.1, this.2.trans (add_length _ _ _)⟩

/-- Creating and adding dictionaries one after the other. -/
theorem foldl_addMaster (terms : List (ℝ × MasterTerm N)) :
    terms.foldl addMaster (PovmOps.fresh []) =
        (PovmOps.fresh (terms.map termDict)).run ((List.range terms.length).map fun k => (0, k)) ∧
      ((PovmOps.fresh (terms.map termDict)).run ((List.range terms.length).map fun k => (0, k))).heap.length
        = terms.length := by
  induction terms using List.reverseRecOn with
  | nil => exact ⟨rfl, rfl⟩
  | append_singleton l t ih =>
    have e := extend_run (termDict t) ((List.range l.length).map fun k => (0, k)) (PovmOps.fresh (l.map termDict)) (by
      intro c hc
      obtain ⟨k, hk, rfl⟩ := List.mem_map.1 hc
      simpa [PovmOps.fresh] using hk)
    have hx : (PovmOps.fresh ((l ++ [t]).map termDict)) = (PovmOps.fresh (l.map termDict)).extend (termDict t) := by
      rw [List.map_append]
      rfl
    have hr : (PovmOps.fresh ((l ++ [t]).map termDict)).run ((List.range (l ++ [t]).length).map fun k => (0, k))
        = (((PovmOps.fresh (l.map termDict)).run ((List.range l.length).map fun k => (0, k))).extend (termDict t)).add 0
            l.length := by
      rw [hx, List.length_append, List.length_singleton, List.range_succ, List.map_append]
      unfold PovmOps.run at e ⊢
      rw [List.foldl_append, e.1]
      rfl
    rw [hr]
    constructor
    · rw [List.foldl_append, ih.1]
      change addMaster _ t = _
      unfold addMaster addTerm
      rw [ih.2]
      congr 1
      unfold PovmOps.extend
      congr 2
      have := termDict_id t
      revert this
      cases termDict t
      rintro rfl
      rfl
    · rw [add_length]
      unfold PovmOps.extend
      rw [List.length_append, ih.2, List.length_append]
      rfl

/-- The operator built from a list of terms generates the master equation. -/
theorem built_generates (M : Fin 4 → Matrix (Fin 2) (Fin 2) ℂ) (θ φ : ℝ) (hM : povmInit θ φ "SIC" = .ok (M, standardReg M))
    (enum : List (List (Fin N)) → List (List (Fin N))) (henum : ∀ l x, x ∈ enum l ↔ x ∈ l)
    (terms : List (ℝ × MasterTerm N)) (hne : terms ≠ []) (hp : ∀ t ∈ terms, t.2.Proper) :
    ∃ c, compilePovm (standardReg M).operators.get? enum ((terms.foldl addMaster (PovmOps.fresh [])).dicts 0) = .ok c ∧
      Generates (productPovm M) (fun s s' => elementOf (povmKernel c s) s') (masterEquation terms) := by
  obtain ⟨M', hM', h⟩ := c94_master_equation (N := N) θ φ
  have hMM : M' = M := by
    have := hM'.symm.trans hM
    exact congrArg Prod.fst (Except.ok.inj this)
  subst hMM
  have hpos : 0 < terms.length := List.length_pos_iff.2 hne
  obtain ⟨c, h1, h2⟩ := h [] enum henum terms hp ((List.finRange terms.length).map fun k => (0, k))
    (by
      intro c hc c' hc' _
      obtain ⟨k, -, rfl⟩ := List.mem_map.1 hc
      obtain ⟨k', -, rfl⟩ := List.mem_map.1 hc'
      rfl) 0 ⟨(0, ⟨0, hpos⟩), List.mem_map.2 ⟨_, List.mem_finRange _, rfl⟩, rfl⟩
  have e1 : (((List.finRange terms.length).map fun k => ((0 : ℕ), k)).map fun c => (c.1, c.2.val))
      = (List.range terms.length).map fun k => (0, k) := by
    rw [List.map_map, ← List.map_coe_finRange_eq_range, List.map_map]
    rfl
  have e2 : ((((List.finRange terms.length).map fun k => ((0 : ℕ), k)).filter fun c => decide (c.1 = 0)).map
      fun c => terms[c.2]) = terms := by
    rw [List.filter_eq_self.2 (by simp), List.map_map]
    exact List.ext_getElem (by simp) (by simp)
  rw [e1] at h1
  rw [e2] at h2
  refine ⟨c, ?_, h2⟩
  rw [(foldl_addMaster terms).1]
  exact h1

/-! ## The terms of the scripts -/

/-- The terms of one pass of the loop of ex5. -/
noncomputable def chainTerms (L : ℕ) [NeZero L] (l : ℕ) : List (ℝ × MasterTerm L) :=
  [(1, .coupling .z (Fin.ofNat L l) (Fin.ofNat L ((l + 1) % L))), (3, .field .x (Fin.ofNat L l)),
    (1, .loss .dephasing (Fin.ofNat L l))]

/-- The terms of one pass of the inner loop of ex6. -/
noncomputable def squareTerms (L : ℕ) [NeZero L] (x y : ℕ) : List (ℝ × MasterTerm (L * L)) :=
  [(1, .coupling .z (Fin.ofNat (L * L) (xyToId x y L)) (Fin.ofNat (L * L) (xyToId ((x + 1) % L) y L))),
    (1, .coupling .z (Fin.ofNat (L * L) (xyToId x y L)) (Fin.ofNat (L * L) (xyToId x ((y + 1) % L) L))),
    (3, .field .x (Fin.ofNat (L * L) (xyToId x y L))), (0.5, .loss .dephasing (Fin.ofNat (L * L) (xyToId x y L)))]

theorem foldl_flatMap_eq {A B C : Type} (f : A → List B) (g : C → B → C) (l : List A) (c : C) :
    (l.flatMap f).foldl g c = l.foldl (fun c a => (f a).foldl g c) c := by
  induction l generalizing c with
  | nil => rfl
  | cons a l ih => rw [List.flatMap_cons, List.foldl_append, ih, List.foldl_cons]

theorem chainLindbladian_eq (L : ℕ) [NeZero L] :
    chainLindbladian L = ((List.range L).flatMap (chainTerms L)).foldl addMaster (PovmOps.fresh []) := by
  rw [foldl_flatMap_eq]
  rfl

theorem squareLindbladian_eq (L : ℕ) [NeZero L] :
    squareLindbladian L = ((List.range L).flatMap fun x => (List.range L).flatMap (squareTerms L x)).foldl addMaster
      (PovmOps.fresh []) := by
  rw [foldl_flatMap_eq]
  simp only [foldl_flatMap_eq]
  rfl

theorem oneSite_z_sq (i : Fin N) : oneSite Axis.z.pauli i * oneSite Axis.z.pauli i = 1 := by
  unfold oneSite
  rw [siteMat_mul, ← siteMat_one]
  congr 1
  funext k
  by_cases h : k = i
  · simp only [h, if_true]
    ext a b
    fin_cases a <;> fin_cases b <;> simp [Axis.pauli, Matrix.mul_apply]
  · simp [h]

theorem oneSite_z_conj (i : Fin N) : (oneSite Axis.z.pauli i)ᴴ = oneSite Axis.z.pauli i := by
  ext s t
  unfold oneSite siteMat
  rw [Matrix.conjTranspose_apply, Matrix.of_apply, Matrix.of_apply, star_prod]
  refine Finset.prod_congr rfl fun k _ => ?_
  by_cases h : k = i
  · simp only [h, if_true]
    generalize s i = a
    generalize t i = b
    fin_cases a <;> fin_cases b <;> simp [Axis.pauli]
  · simp only [h, if_false]
    by_cases e : s k = t k
    · simp [Matrix.one_apply, e]
    · simp [Matrix.one_apply, e, Ne.symm e]

theorem lindblad_z (i : Fin N) (ρ : Matrix (Fin N → Fin 2) (Fin N → Fin 2) ℂ) :
    lindblad (oneSite Loss.dephasing.jump i) ρ = oneSite Axis.z.pauli i * ρ * oneSite Axis.z.pauli i - ρ := by
  have : Loss.dephasing.jump = Axis.z.pauli := rfl
  unfold lindblad
  rw [this, oneSite_z_conj, oneSite_z_sq, Matrix.one_mul, Matrix.mul_one, ← two_smul ℂ ρ, smul_smul]
  norm_num

theorem ofNat_square {L : ℕ} [NeZero L] (x y : Fin L) : Fin.ofNat (L * L) (xyToId x.val y.val L) = squareSite x y := by
  apply Fin.ext
  have hx := x.isLt
  have h : xyToId x.val y.val L = (squareSite x y).val := by
    simp [squareSite, finProdFinEquiv, xyToId]
  rw [h]
  exact Nat.mod_eq_of_lt (squareSite x y).isLt

theorem next_val {L : ℕ} [NeZero L] (l : Fin L) : (l.val + 1) % L = (l + 1).val := by
  simp [Fin.val_add, Nat.add_mod]

theorem chainMaster_eq (L : ℕ) [NeZero L] : masterEquation ((List.range L).flatMap (chainTerms L)) = chainMaster L := by
  funext ρ
  have he : totalEnergy ((List.range L).flatMap (chainTerms L)) =
      ∑ l : Fin L, (oneSite Axis.z.pauli l * oneSite Axis.z.pauli (l + 1) + (3 : ℂ) • oneSite Axis.x.pauli l) := by
    unfold totalEnergy
    rw [sum_range_flatMap]
    refine Finset.sum_congr rfl fun l _ => ?_
    unfold chainTerms
    rw [ofNat_self, ofNat_next]
    simp [MasterTerm.energy, -Complex.coe_smul]
  unfold masterEquation chainMaster
  rw [he, sum_range_flatMap]
  refine congrArg₂ _ rfl (Finset.sum_congr rfl fun l _ => ?_)
  unfold chainTerms
  rw [ofNat_self, ofNat_next]
  simp [MasterTerm.dissipation, lindblad_z]

theorem sum_map_flatMap {M A B : Type} [AddCommMonoid M] (l : List A) (f : A → List B) (F : B → M) :
    ((l.flatMap f).map F).sum = (l.map fun a => ((f a).map F).sum).sum := by
  induction l with
  | nil => rfl
  | cons a l ih => rw [List.flatMap_cons, List.map_append, List.sum_append, ih, List.map_cons, List.sum_cons]

theorem squareMaster_eq (L : ℕ) [NeZero L] :
    masterEquation ((List.range L).flatMap fun x => (List.range L).flatMap (squareTerms L x)) = squareMaster L := by
  funext ρ
  have he : totalEnergy ((List.range L).flatMap fun x => (List.range L).flatMap (squareTerms L x)) = squareEnergy L := by
    unfold totalEnergy squareEnergy
    rw [sum_range_flatMap]
    refine Finset.sum_congr rfl fun x _ => ?_
    rw [sum_range_flatMap]
    refine Finset.sum_congr rfl fun y _ => ?_
    unfold squareTerms
    rw [next_val, next_val, ofNat_square, ofNat_square, ofNat_square]
    simp [MasterTerm.energy, add_assoc, -Complex.coe_smul]
  unfold masterEquation squareMaster
  rw [he, sum_range_flatMap]
  refine congrArg₂ _ rfl (Finset.sum_congr rfl fun x _ => ?_)
  rw [sum_range_flatMap]
  refine Finset.sum_congr rfl fun y _ => ?_
  unfold squareTerms
  rw [next_val, next_val, ofNat_square, ofNat_square, ofNat_square]
  simp only [List.map_cons, List.map_nil, List.sum_cons, List.sum_nil, MasterTerm.dissipation, lindblad_z, smul_zero,
    zero_add, add_zero]
  norm_num

theorem next_ne {L : ℕ} [NeZero L] (hL : 2 ≤ L) (l : Fin L) : l ≠ l + 1 := by
  intro h
  have := congrArg Fin.val h
  rw [← next_val] at this
  have hl := l.isLt
  rcases Nat.lt_or_ge (l.val + 1) L with h1 | h1
  · rw [Nat.mod_eq_of_lt h1] at this
    omega
  · have e : l.val + 1 = L := by omega
    rw [e, Nat.mod_self] at this
    omega

theorem chainTerms_proper (L : ℕ) [NeZero L] (hL : 2 ≤ L) : ∀ t ∈ (List.range L).flatMap (chainTerms L), t.2.Proper := by
  intro t ht
  obtain ⟨l, hl, ht⟩ := List.mem_flatMap.1 ht
  have hl' : l < L := List.mem_range.1 hl
  have e1 := ofNat_self (L := L) ⟨l, hl'⟩
  have e2 := ofNat_next (L := L) ⟨l, hl'⟩
  simp only at e1 e2
  unfold chainTerms at ht
  rw [e1, e2] at ht
  simp only [List.mem_cons, List.not_mem_nil, or_false] at ht
  rcases ht with rfl | rfl | rfl
  · exact next_ne hL _
  · trivial
  · trivial

theorem squareTerms_proper (L : ℕ) [NeZero L] (hL : 2 ≤ L) :
    ∀ t ∈ (List.range L).flatMap fun x => (List.range L).flatMap (squareTerms L x), t.2.Proper := by
  intro t ht
  obtain ⟨x, hx, ht⟩ := List.mem_flatMap.1 ht
  obtain ⟨y, hy, ht⟩ := List.mem_flatMap.1 ht
  obtain ⟨x, rfl⟩ : ∃ x' : Fin L, x'.val = x := ⟨⟨x, List.mem_range.1 hx⟩, rfl⟩
  obtain ⟨y, rfl⟩ : ∃ y' : Fin L, y'.val = y := ⟨⟨y, List.mem_range.1 hy⟩, rfl⟩
  unfold squareTerms at ht
  rw [next_val, next_val, ofNat_square, ofNat_square, ofNat_square] at ht
  simp only [List.mem_cons, List.not_mem_nil, or_false] at ht
  have hinj : ∀ a b c d : Fin L, squareSite a b = squareSite c d → a = c ∧ b = d := by
    intro a b c d h
    have := finProdFinEquiv.injective h
    exact ⟨congrArg Prod.snd this, congrArg Prod.fst this⟩
  rcases ht with rfl | rfl | rfl | rfl
  · exact fun h => next_ne hL _ (hinj _ _ _ _ h).1
  · exact fun h => next_ne hL _ (hinj _ _ _ _ h).2
  · trivial
  · trivial

theorem range_flatMap_ne_nil {A : Type} (L : ℕ) [NeZero L] (f : ℕ → List A) (hf : ∀ l, f l ≠ []) :
    (List.range L).flatMap f ≠ [] := by
  intro h
  have h0 : 0 ∈ List.range L := List.mem_range.2 (Nat.pos_of_ne_zero (NeZero.ne L))
  exact hf 0 (List.flatMap_eq_nil_iff.1 h 0 h0)

/-! ## The uniform distribution -/

theorem master_one (hz : ∀ t ∈ terms, ∀ c i, (t : ℝ × MasterTerm N).2 = .loss c i → c = .dephasing) :
    masterEquation terms 1 = 0 := by
  unfold masterEquation vonNeumann
  rw [Matrix.mul_one, Matrix.one_mul, sub_self, smul_zero, zero_add]
  apply List.sum_eq_zero
  intro x hx
  obtain ⟨t, ht, rfl⟩ := List.mem_map.1 hx
  rcases h : t.2 with _ | _ | ⟨c, i⟩
  · simp [MasterTerm.dissipation]
  · simp [MasterTerm.dissipation]
  · rw [hz t ht c i h]
    simp only [MasterTerm.dissipation, lindblad_z, Matrix.mul_one, oneSite_z_sq, sub_self, smul_zero]

theorem sic_trace (θ φ : ℝ) (a : Fin 4) : (blochElement (povmVectors θ φ a)).trace = 1 / 2 := by
  rw [blochElement_entries, Matrix.trace_fin_two]
  simp
  ring

theorem outcome_uniform (θ φ : ℝ) (s : Config N 4) :
    outcomeProb (productPovm fun a => blochElement (povmVectors θ φ a)) (1 : Matrix (Fin N → Fin 2) (Fin N → Fin 2) ℂ) s
      = (1 / 2) ^ N := by
  unfold outcomeProb productPovm
  rw [Matrix.one_mul, siteMat_trace]
  simp only [sic_trace, Finset.prod_const, Finset.card_univ, Fintype.card_fin]

end JVMC
