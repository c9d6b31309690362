import Mathlib.Algebra.BigOperators.Pi
import Verif.Lemmas.Mpi
import Verif.Lemmas.Spmd
import Verif.Model.SpmdCode

/-!
# Lemmas for C102: the programs of the ranks and the functions on the data of all ranks
-/

namespace JVMC

open Spec

/-! ## Buffers -/

/-- Buffers hold what is put into them, and are added entry by entry. -/
class LawfulBuf (A : Type) [AddCommMonoid A] [MpiBuf A] : Prop where
  pos : 0 < MpiBuf.len A
  enc_zero : MpiBuf.enc (0 : A) = 0
  enc_add : ∀ a b : A, MpiBuf.enc (a + b) = MpiBuf.enc a + MpiBuf.enc b
  outside : ∀ (a : A) (j : ℕ), MpiBuf.len A ≤ j → MpiBuf.enc a j = 0
  dec_enc : ∀ a : A, MpiBuf.dec (MpiBuf.enc a) = a

instance : LawfulBuf ℂ where
  pos := Nat.one_pos
  enc_zero := by funext j; simp [MpiBuf.enc]
  enc_add a b := by funext j; by_cases h : j = 0 <;> simp [MpiBuf.enc, h]
  outside a j h := by
    have : 1 ≤ j := h
    simp [MpiBuf.enc, show j ≠ 0 by omega]
  dec_enc a := by simp [MpiBuf.enc, MpiBuf.dec]

instance : LawfulBuf ℝ where
  pos := Nat.one_pos
  enc_zero := by funext j; simp [MpiBuf.enc]
  enc_add a b := by funext j; by_cases h : j = 0 <;> simp [MpiBuf.enc, h]
  outside a j h := by
    have : 1 ≤ j := h
    simp [MpiBuf.enc, show j ≠ 0 by omega]
  dec_enc a := by simp [MpiBuf.enc, MpiBuf.dec]

instance : LawfulBuf ℕ where
  pos := Nat.one_pos
  enc_zero := by funext j; simp [MpiBuf.enc]
  enc_add a b := by funext j; by_cases h : j = 0 <;> simp [MpiBuf.enc, h]
  outside a j h := by
    have : 1 ≤ j := h
    simp [MpiBuf.enc, show j ≠ 0 by omega]
  dec_enc a := by simp [MpiBuf.enc, MpiBuf.dec]

instance {m : ℕ} {A : Type} [AddCommMonoid A] [MpiBuf A] [h : LawfulBuf A] [NeZero m] :
    LawfulBuf (Fin m → A) where
  pos := Nat.mul_pos (Nat.pos_of_ne_zero (NeZero.ne m)) h.pos
  enc_zero := by
    funext j
    change (if h : j / MpiBuf.len A < m then MpiBuf.enc (0 : A) (j % MpiBuf.len A) else 0) = 0
    split_ifs
    · rw [h.enc_zero]; rfl
    · rfl
  enc_add a b := by
    funext j
    change (if h : j / MpiBuf.len A < m then MpiBuf.enc (a ⟨j / MpiBuf.len A, h⟩ +
      b ⟨j / MpiBuf.len A, h⟩) (j % MpiBuf.len A) else 0) =
      (if h : j / MpiBuf.len A < m then MpiBuf.enc (a ⟨j / MpiBuf.len A, h⟩) (j % MpiBuf.len A) else 0) +
      (if h : j / MpiBuf.len A < m then MpiBuf.enc (b ⟨j / MpiBuf.len A, h⟩) (j % MpiBuf.len A) else 0)
    split_ifs
    · rw [h.enc_add]; rfl
    · simp
  outside a j hj := by
    have hj' : m * MpiBuf.len A ≤ j := hj
    change (if h : j / MpiBuf.len A < m then MpiBuf.enc (a ⟨j / MpiBuf.len A, h⟩) (j % MpiBuf.len A)
      else 0) = 0
    rw [dif_neg]
    rw [not_lt, Nat.le_div_iff_mul_le h.pos]
    exact hj'
  dec_enc a := by
    funext i
    change MpiBuf.dec (fun j => if j < MpiBuf.len A then
      (if hh : (i.val * MpiBuf.len A + j) / MpiBuf.len A < m then
        MpiBuf.enc (a ⟨(i.val * MpiBuf.len A + j) / MpiBuf.len A, hh⟩)
          ((i.val * MpiBuf.len A + j) % MpiBuf.len A) else 0) else 0) = a i
    rw [← h.dec_enc (a i)]
    congr 1
    funext j
    split_ifs with h1 h2
    · have hq : (i.val * MpiBuf.len A + j) / MpiBuf.len A = i.val := by
        rw [Nat.mul_comm, Nat.mul_add_div h.pos, Nat.div_eq_of_lt h1]
        rfl
      have hr : (i.val * MpiBuf.len A + j) % MpiBuf.len A = j := by
        rw [Nat.mul_comm, Nat.mul_add_mod, Nat.mod_eq_of_lt h1]
      rw [hr]
      congr 2
      exact Fin.ext hq
    · exfalso
      apply h2
      rw [Nat.mul_comm, Nat.mul_add_div h.pos, Nat.div_eq_of_lt h1]
      exact i.isLt
    · exact (h.outside (a i) j (not_lt.mp h1)).symm

instance {m k : ℕ} {A : Type} [AddCommMonoid A] [MpiBuf A] [LawfulBuf A] [NeZero m] [NeZero k] :
    LawfulBuf (Fin m × Fin k → A) where
  pos := (inferInstance : LawfulBuf (Fin m → Fin k → A)).pos
  enc_zero := (inferInstance : LawfulBuf (Fin m → Fin k → A)).enc_zero
  enc_add a b := (inferInstance : LawfulBuf (Fin m → Fin k → A)).enc_add
    (fun i j => a (i, j)) (fun i j => b (i, j))
  outside a j h := (inferInstance : LawfulBuf (Fin m → Fin k → A)).outside (fun i j => a (i, j)) j h
  dec_enc a := by
    funext ij
    exact congrFun (congrFun ((inferInstance : LawfulBuf (Fin m → Fin k → A)).dec_enc
      (fun i j => a (i, j))) ij.1) ij.2

variable {n : ℕ} {A B α β : Type} [AddCommMonoid A] [MpiBuf A] [LawfulBuf A]

theorem enc_sum (s : Finset (Fin n)) (x : Fin n → A) :
    MpiBuf.enc (∑ r ∈ s, x r) = ∑ r ∈ s, MpiBuf.enc (x r) := by
  classical
  induction s using Finset.induction_on with
  | empty => simp [LawfulBuf.enc_zero]
  | insert a s ha ih => rw [Finset.sum_insert ha, Finset.sum_insert ha, LawfulBuf.enc_add, ih]

/-! ## The collective operations -/

theorem lockstep_pure (v : Fin n → α) : Lockstep (fun r => (pure (v r) : Prog α)) v :=
  Lockstep.done v

theorem lockstep_allreduce (x : Fin n → A) :
    Lockstep (fun r => allreduceR (x r)) (fun _ => ∑ r, x r) := by
  refine Lockstep.coll _ (by simp) (fun r => [some (MpiBuf.enc (x r))])
    (fun _ res => .ret (MpiBuf.dec (((res.headD []).headD none).getD 0))) _ ?_
  have : ∀ r : Fin n, MpiBuf.dec (A := A) (((((Coll.allreduce (MpiBuf.len A)).combine
      fun r => [some (MpiBuf.enc (x r))]).headD []).headD none).getD 0) = ∑ r, x r := by
    intro r
    simp only [Coll.combine, List.headD_cons, Option.isSome_some, implies_true, if_true,
      Option.getD_some]
    rw [← enc_sum, LawfulBuf.dec_enc]
  rw [show (fun r : Fin n => (Prog.ret (MpiBuf.dec (A := A) (((((Coll.allreduce (MpiBuf.len A)).combine
      fun r => [some (MpiBuf.enc (x r))]).headD []).headD none).getD 0)) : Prog A)) =
    fun _ => Prog.ret (∑ r, x r) from funext fun r => by rw [this r]]
  exact Lockstep.done _

theorem lockstep_allreduceNan (x : Fin n → Option A) (y : Option A)
    (h1 : ∀ a : Fin n → A, (∀ r, x r = some (a r)) → y = some (∑ r, a r))
    (h2 : (∃ r, x r = none) → y = none) :
    Lockstep (fun r => allreduceNan (x r)) (fun _ => y) := by
  refine Lockstep.coll _ (by simp) (fun r => [(x r).map MpiBuf.enc])
    (fun _ res => .ret (((res.headD []).headD none).map MpiBuf.dec)) _ ?_
  have : ((((Coll.allreduce (MpiBuf.len A)).combine
      fun r => [(x r).map MpiBuf.enc]).headD []).headD none).map MpiBuf.dec = y := by
    simp only [Coll.combine, List.headD_cons, Option.isSome_map]
    split_ifs with h
    · have hx : ∀ r, x r = some ((x r).getD 0) := by
        intro r
        obtain ⟨a, ha⟩ := Option.isSome_iff_exists.mp (h r)
        rw [ha]
        rfl
      rw [h1 _ hx]
      simp only [List.headD_cons, Option.map_some]
      congr 1
      have : ∀ r : Fin n, ((x r).map MpiBuf.enc).getD 0 = MpiBuf.enc ((x r).getD 0) := by
        intro r
        obtain ⟨a, ha⟩ := Option.isSome_iff_exists.mp (h r)
        rw [ha]
        rfl
      rw [Finset.sum_congr rfl fun r _ => this r, ← enc_sum, LawfulBuf.dec_enc]
    · push Not at h
      obtain ⟨r, hr⟩ := h
      rw [h2 ⟨r, by simpa using hr⟩]
      rfl
  rw [this]
  exact Lockstep.done _

theorem lockstep_allgather (x : Fin n → List A) :
    Lockstep (fun r => allgatherR (x r)) (fun _ => List.ofFn x) := by
  refine Lockstep.coll .allgather (by simp) (fun r => (x r).map fun a => some (MpiBuf.enc a))
    (fun _ res => .ret (res.map fun l => l.map fun a => MpiBuf.dec (A := A) (a.getD 0))) _ ?_
  have : (Coll.allgather.combine fun r => (x r).map fun a => some (MpiBuf.enc a)).map
      (fun l => l.map fun a => MpiBuf.dec (A := A) (a.getD 0)) = List.ofFn x := by
    simp only [Coll.combine, List.map_ofFn]
    congr 1
    funext r
    simp [Function.comp_def, LawfulBuf.dec_enc]
  rw [this]
  exact Lockstep.done _

theorem lockstep_bcast (root : Fin n) (x : Fin n → List A) :
    Lockstep (fun r => bcastR root.val (x r)) (fun _ => x root) := by
  refine Lockstep.coll (.bcast root.val) (by rintro _ ⟨⟩; exact root.isLt)
    (fun r => (x r).map fun a => some (MpiBuf.enc a))
    (fun _ res => .ret ((res.headD []).map fun a => MpiBuf.dec (A := A) (a.getD 0))) _ ?_
  have : (((Coll.bcast root.val).combine fun r => (x r).map fun a => some (MpiBuf.enc a)).headD []).map
      (fun a => MpiBuf.dec (A := A) (a.getD 0)) = x root := by
    simp [Coll.combine, root.isLt, Function.comp_def, LawfulBuf.dec_enc]
  rw [this]
  exact Lockstep.done _

/-! ## Sequencing -/

theorem lockstep_seq {p : Fin n → Prog α} {v : Fin n → α} (h : Lockstep p v)
    {f : Fin n → α → Prog β} {w : Fin n → β} (hf : Lockstep (fun r => f r (v r)) w) :
    Lockstep (fun r => (p r >>= f r)) w :=
  lockstep_bind h hf

theorem prog_bind_assoc {γ : Type} (p : Prog α) (f : α → Prog β) (g : β → Prog γ) :
    (p.bind f).bind g = p.bind fun a => (f a).bind g := by
  induction p with
  | ret a => rfl
  | raise e => rfl
  | coll c send k ih =>
    change Prog.coll c send _ = Prog.coll c send _
    congr 1
    funext x
    exact ih x

theorem prog_bind_ret (p : Prog α) : p.bind .ret = p := by
  induction p with
  | ret a => rfl
  | raise e => rfl
  | coll c send k ih =>
    change Prog.coll c send _ = Prog.coll c send _
    congr 1
    funext x
    exact ih x

instance : LawfulMonad Prog :=
  LawfulMonad.mk' Prog (fun p => prog_bind_ret p) (fun _ _ => rfl) (fun p f g => prog_bind_assoc p f g)

theorem lockstep_lift (x : Fin n → Except PyErr α) (v : Fin n → α) (h : ∀ r, x r = .ok (v r)) :
    Lockstep (fun r => Prog.lift (x r)) v := by
  rw [show (fun r => Prog.lift (x r)) = fun r => Prog.ret (v r) from funext fun r => by rw [h r]; rfl]
  exact Lockstep.done v

/-! ## Lists over ranks -/

theorem ofFn_mapM_ok {A B : Type} {n : ℕ} {f : A → Except PyErr B} {a : Fin n → A} {l : List B}
    (h : (List.ofFn a).mapM f = .ok l) : ∃ b : Fin n → B, l = List.ofFn b ∧ ∀ r, f (a r) = .ok (b r) := by
  induction n generalizing l with
  | zero =>
    refine ⟨Fin.elim0, ?_, fun r => r.elim0⟩
    simp only [List.ofFn_zero, List.mapM_nil] at h
    rw [List.ofFn_zero]
    exact (Except.ok.inj h).symm
  | succ n ih =>
    rw [List.ofFn_succ, List.mapM_cons] at h
    cases h0 : f (a 0) with
    | error e =>
      rw [h0] at h
      cases h
    | ok b0 =>
      rw [h0] at h
      change Except.bind _ _ = _ at h
      cases h1 : (List.ofFn fun i : Fin n => a i.succ).mapM f with
      | error e =>
        rw [h1] at h
        cases h
      | ok l1 =>
        rw [h1] at h
        obtain ⟨b, rfl, hb⟩ := ih h1
        refine ⟨Fin.cons b0 b, ?_, ?_⟩
        · rw [List.ofFn_succ]
          simp only [Fin.cons_zero, Fin.cons_succ]
          exact (Except.ok.inj h).symm
        · intro r
          refine Fin.cases ?_ ?_ r
          · exact h0
          · exact hb

theorem ofFn_zipWith {A B C : Type} (f : A → B → C) (a : Fin n → A) (b : Fin n → B) :
    List.zipWith f (List.ofFn a) (List.ofFn b) = List.ofFn fun r => f (a r) (b r) := by
  apply List.ext_getElem
  · simp
  · intro i h1 h2
    simp

theorem ofFn_zip {A B : Type} (a : Fin n → A) (b : Fin n → B) :
    (List.ofFn a).zip (List.ofFn b) = List.ofFn fun r => (a r, b r) := by
  rw [List.zip_eq_zipWith]
  exact ofFn_zipWith _ a b

theorem ofFn_const_map {A B : Type} (a : Fin n → A) (b : B) :
    ((List.ofFn a).map fun _ => b) = List.ofFn fun _ : Fin n => b := by
  rw [List.map_ofFn]
  rfl

theorem sum_list_ofFn {A : Type} [AddCommMonoid A] (a : Fin n → A) : (List.ofFn a).sum = ∑ r, a r :=
  List.sum_ofFn

/-! ## `mpi_wrapper` -/

theorem globalSum_ranks {d : Fin n → List (List A)} {l : List A} (h : globalSum (List.ofFn d) = .ok l) :
    ∃ tot : A, (l = List.ofFn fun _ : Fin n => tot) ∧
      Lockstep (fun r => globalSumR (d r)) fun _ => tot := by
  unfold globalSum at h
  cases hm : (List.ofFn d).mapM fun data => pyHead (sumUpPmapd data) with
  | error e => rw [hm] at h; cases h
  | ok locals =>
    rw [hm] at h
    obtain ⟨b, rfl, hb⟩ := ofFn_mapM_ok hm
    refine ⟨∑ r, b r, ?_, ?_⟩
    · rw [← Except.ok.inj h]
      unfold allreduceSum
      rw [ofFn_const_map, sum_list_ofFn]
    · exact lockstep_seq (lockstep_lift _ b hb) (lockstep_allreduce b)

theorem globalMean_ranks [SMul ℝ A] {d : Fin n → List (List (ℝ × A))} {l : List A}
    (h : globalMean (List.ofFn d) = .ok l) :
    ∃ tot : A, (l = List.ofFn fun _ : Fin n => tot) ∧
      Lockstep (fun r => globalMeanR (d r)) fun _ => tot := by
  unfold globalMean at h
  rw [List.map_ofFn] at h
  exact globalSum_ranks h

theorem globalVariance_ranks {ι : Type} [MpiBuf (ι → ℂ)] [LawfulBuf (ι → ℂ)]
    {d : Fin n → List (List (ℝ × (ι → ℂ)))} {l : List (ι → ℂ)}
    (h : globalVariance (List.ofFn d) = .ok l) :
    ∃ tot : ι → ℂ, (l = List.ofFn fun _ : Fin n => tot) ∧
      Lockstep (fun r => globalVarianceR (d r)) fun _ => tot := by
  unfold globalVariance at h
  cases hm : globalMean (List.ofFn d) with
  | error e => rw [hm] at h; cases h
  | ok means =>
    rw [hm] at h
    obtain ⟨m, rfl, hl⟩ := globalMean_ranks hm
    change Except.bind (((List.ofFn d).zip (List.ofFn fun _ : Fin n => m)).mapM _) _ = _ at h
    rw [ofFn_zip] at h
    cases hv : (List.ofFn fun r => (d r, m)).mapM fun dm => pyHead (sumSqPmapd dm.2 dm.1) with
    | error e => rw [hv] at h; cases h
    | ok locals =>
      rw [hv] at h
      obtain ⟨b, rfl, hb⟩ := ofFn_mapM_ok hv
      refine ⟨∑ r, b r, ?_, ?_⟩
      · rw [← Except.ok.inj h]
        unfold allreduceSum
        rw [ofFn_const_map, sum_list_ofFn]
      · exact lockstep_seq hl (lockstep_seq (lockstep_lift _ b hb) (lockstep_allreduce b))

theorem globalCovariance_ranks {ι : Type} [MpiBuf (ι → ι → ℂ)] [LawfulBuf (ι → ι → ℂ)]
    {d : Fin n → List (List (ℝ × (ι → ℂ)))} {l : List (ι → ι → ℂ)}
    (h : globalCovariance (List.ofFn d) = .ok l) :
    ∃ tot : ι → ι → ℂ, (l = List.ofFn fun _ : Fin n => tot) ∧
      Lockstep (fun r => globalCovarianceR (d r)) fun _ => tot := by
  unfold globalCovariance at h
  rw [List.map_ofFn] at h
  exact globalSum_ranks h

theorem gather_ranks (d : Fin n → List (List A)) :
    ∃ all : List A, (gather (List.ofFn d) = List.ofFn fun _ : Fin n => all) ∧
      Lockstep (fun r => gatherR (d r)) fun _ => all := by
  refine ⟨((List.ofFn d).map List.flatten).flatten, ofFn_const_map _ _, ?_⟩
  refine lockstep_seq (lockstep_allgather _) ?_
  rw [List.map_ofFn]
  exact lockstep_pure _

theorem bcastUnknownSize_ranks (root : Fin n) (d : Fin n → RootData) (hf : (d root).isFloat64 = true) :
    Lockstep (fun r : Fin n => bcastUnknownSizeR r.val root.val (d r)) fun _ => (d root).data := by
  have hp : (fun r : Fin n => bcastUnknownSizeR r.val root.val (d r)) = fun r : Fin n =>
      bcastR (A := ℕ) root.val (if r = root then [(d root).data.length] else []) >>= fun dim =>
        bcastR (A := ℝ) root.val (if r = root then (d root).data else []) >>= fun buf =>
          pure (if r = root then (d root).data else buf.take (dim.headD 0)) := by
    funext r
    unfold bcastUnknownSizeR
    by_cases h : r = root
    · subst h
      simp [hf]
    · simp [h, Fin.ext_iff.not.mp h]
  rw [hp]
  refine lockstep_seq (lockstep_bcast root _) (lockstep_seq (lockstep_bcast root _) ?_)
  have : (fun r : Fin n => (pure (if r = root then (d root).data else
      (if root = root then (d root).data else []).take
        ((if root = root then [(d root).data.length] else []).headD 0)) : Prog (List ℝ))) =
      fun _ => pure (d root).data := by
    funext r
    simp
  rw [this]
  exact lockstep_pure _

/-! ## Samplers -/

theorem exactSample_ranks [NeZero n] {lpf ln : ℝ} {d : Fin n → List (List ExactEntry)} {ln' : ℝ}
    {p : List (List (List ℝ))} (h : exactSample lpf ln (List.ofFn d) = .ok (ln', p)) :
    ∃ q : Fin n → List (List ℝ), p = List.ofFn q ∧
      Lockstep (fun r => exactSampleR lpf ln (d r)) fun r => (ln', q r) := by
  unfold exactSample at h
  simp only [List.map_ofFn] at h
  cases hm : globalSum (List.ofFn ((fun rk : List (List ExactEntry) => rk.map fun dev =>
      dev.map (exactUnnormalised lpf ln)) ∘ d)) with
  | error e => rw [hm] at h; cases h
  | ok nrms =>
    rw [hm] at h
    obtain ⟨tot, rfl, hl⟩ := globalSum_ranks hm
    obtain ⟨k, rfl⟩ := Nat.exists_eq_succ_of_ne_zero (NeZero.ne n)
    rw [List.ofFn_succ (f := fun _ : Fin (k + 1) => tot)] at h
    change Except.ok _ = _ at h
    obtain ⟨h1, h2⟩ := Prod.mk.inj (Except.ok.inj h)
    refine ⟨_, h2.symm, ?_⟩
    rw [← h1]
    exact lockstep_seq hl (lockstep_pure _)

theorem mcmcWeights_ranks {lpf mu : ℝ} {d : Fin n → List (List ℂ)} {p : List (List (List ℝ))}
    (h : mcmcWeights lpf mu (List.ofFn d) = .ok p) :
    ∃ q : Fin n → List (List ℝ), p = List.ofFn q ∧
      Lockstep (fun r => mcmcWeightsR lpf mu (d r)) q := by
  unfold mcmcWeights at h
  simp only [List.map_ofFn] at h
  cases hm : globalSum (List.ofFn ((fun rk : List (List ℂ) => rk.map fun dev =>
      dev.map fun logPsi => Real.exp ((1 / lpf - mu) * logPsi.re)) ∘ d)) with
  | error e => rw [hm] at h; cases h
  | ok nrms =>
    rw [hm] at h
    obtain ⟨tot, rfl, hl⟩ := globalSum_ranks hm
    change Except.ok _ = _ at h
    rw [ofFn_zip, List.map_ofFn] at h
    refine ⟨_, (Except.ok.inj h).symm, ?_⟩
    exact lockstep_seq hl (lockstep_pure _)

theorem globalSumR_ranks (d : Fin n → List (List A)) (h : ∀ r, d r ≠ []) :
    Lockstep (fun r => globalSumR (d r)) fun _ => ∑ r, (d r).flatten.sum :=
  lockstep_seq (lockstep_lift _ _ fun r => pyHead_sumUp (d r) (h r)) (lockstep_allreduce _)

theorem acceptanceRatio_ranks (p a : Fin n → List ℕ) (hp : ∀ r, p r ≠ []) (ha : ∀ r, a r ≠ []) :
    Lockstep (fun r => acceptanceRatioR (p r) (a r))
      fun _ => acceptanceRatio (List.ofFn p) (List.ofFn a) := by
  have key : ∀ x : Fin n → List ℕ, ∑ r, (((x r).map fun y => [y]).flatten).sum =
      (List.ofFn x).flatten.sum := by
    intro x
    rw [List.sum_flatten, List.map_ofFn, sum_list_ofFn]
    refine Finset.sum_congr rfl fun r _ => ?_
    congr 1
    generalize x r = l
    induction l with
    | nil => rfl
    | cons b l ih => simpa using ih
  refine lockstep_seq (globalSumR_ranks _ fun r => by simpa using hp r) ?_
  unfold acceptanceRatio
  rw [key]
  by_cases h : 0 < (List.ofFn p).flatten.sum
  · simp only [h, if_true]
    refine lockstep_seq (globalSumR_ranks _ fun r => by simpa using ha r) ?_
    rw [key]
    exact lockstep_pure _
  · simp only [h, if_false]
    exact lockstep_pure _

/-! ## `stats` -/

variable {ι κ μ : Type}

/-- The objects of all ranks. -/
def joinObs (o : Fin n → RObs ι) : SObs ι :=
  ⟨List.ofFn fun r => (o r).rows, List.ofFn fun r => (o r).mean⟩

theorem create_ranks [MpiBuf (ι → ℂ)] [LawfulBuf (ι → ℂ)] {d : Fin n → List (List (ℝ × (ι → ℂ)))}
    {O : SObs ι} (h : SObs.create (List.ofFn d) = .ok O) :
    ∃ o : Fin n → RObs ι, O = joinObs o ∧ Lockstep (fun r => RObs.create (d r)) o := by
  unfold SObs.create at h
  cases hm : globalMean (List.ofFn d) with
  | error e => rw [hm] at h; cases h
  | ok means =>
    rw [hm] at h
    obtain ⟨m, rfl, hl⟩ := globalMean_ranks hm
    change Except.ok _ = _ at h
    unfold dataPrep at h
    rw [ofFn_zipWith] at h
    exact ⟨fun r => ⟨dataPrepR (d r) m, m⟩, (Except.ok.inj h).symm, lockstep_seq hl (lockstep_pure _)⟩

theorem zipWorld_ranks {A B : Type} {a : Fin n → List (List A)} {b : Fin n → List (List B)}
    {z : World (A × B)} (h : zipWorld (List.ofFn a) (List.ofFn b) = .ok z) :
    ∃ y : Fin n → List (List (A × B)), z = List.ofFn y ∧ ∀ r, zipRank (a r) (b r) = .ok (y r) := by
  unfold zipWorld zipE at h
  simp only [List.length_ofFn, if_true] at h
  change List.mapM _ _ = _ at h
  rw [ofFn_zip] at h
  exact ofFn_mapM_ok h

theorem covar_ranks [MpiBuf (ι → κ → ℂ)] [LawfulBuf (ι → κ → ℂ)] {a : Fin n → RObs ι}
    {b : Fin n → RObs κ} {l : List (ι → κ → ℂ)} (h : (joinObs a).covar (joinObs b) = .ok l) :
    ∃ c : ι → κ → ℂ, (l = List.ofFn fun _ : Fin n => c) ∧
      Lockstep (fun r => (a r).covar (b r)) fun _ => c := by
  unfold SObs.covar joinObs at h
  dsimp only at h
  cases hz : zipWorld (List.ofFn fun r => (a r).rows) (List.ofFn fun r => (b r).rows) with
  | error e => rw [hz] at h; cases h
  | ok z =>
    rw [hz] at h
    obtain ⟨y, rfl, hy⟩ := zipWorld_ranks hz
    change globalSum _ = _ at h
    rw [List.map_ofFn] at h
    obtain ⟨c, rfl, hl⟩ := globalSum_ranks h
    exact ⟨c, rfl, lockstep_seq (lockstep_lift _ y hy) hl⟩

theorem var_ranks [MpiBuf (ι → ℝ)] [LawfulBuf (ι → ℝ)] {a : Fin n → RObs ι} {l : List (ι → ℝ)}
    (h : (joinObs a).var = .ok l) :
    ∃ c : ι → ℝ, (l = List.ofFn fun _ : Fin n => c) ∧ Lockstep (fun r => (a r).var) fun _ => c := by
  unfold SObs.var joinObs World.map at h
  dsimp only at h
  rw [List.map_ofFn] at h
  exact globalSum_ranks h

theorem createNan_ranks [MpiBuf (ι → ℂ)] [LawfulBuf (ι → ℂ)]
    {d : Fin n → List (List (ℝ × Option (ι → ℂ)))} {O : Option (SObs ι)}
    (h : SObs.createNan (List.ofFn d) = .ok O) :
    ∃ o : Option (Fin n → RObs ι), O = o.map joinObs ∧
      Lockstep (fun r => RObs.createNan (d r)) fun r => o.map fun x => x r := by
  unfold SObs.createNan SObs.create World.map globalMean globalSum at h
  rw [List.map_ofFn, List.map_ofFn] at h
  cases hm : (List.ofFn (meanHelper ∘ ((fun rk : List (List (ℝ × Option (ι → ℂ))) => List.map (fun dev =>
      List.map (fun s => (s.1, s.2.getD fun _ => 0)) dev) rk) ∘ d))).mapM
      fun data => pyHead (sumUpPmapd data) with
  | error e => rw [hm] at h; cases h
  | ok locals =>
    rw [hm] at h
    obtain ⟨b, rfl, hb⟩ := ofFn_mapM_ok hm
    change (if (List.ofFn d).flatten.flatten.all (fun s => s.2.isSome) = true then
      (Except.ok (some (⟨dataPrep _ (allreduceSum (List.ofFn b)), allreduceSum (List.ofFn b)⟩ : SObs ι)) :
        Except PyErr (Option (SObs ι))) else Except.ok none) = Except.ok O at h
    have hall : (List.ofFn d).flatten.flatten.all (fun s => s.2.isSome) = true ↔
        ∀ r, (d r).flatten.all (fun s => s.2.isSome) = true := by
      simp only [List.all_eq_true, List.mem_flatten, List.mem_ofFn]
      constructor
      · rintro hx r s ⟨l, hl, hs⟩
        exact hx s ⟨l, ⟨d r, ⟨r, rfl⟩, hl⟩, hs⟩
      · rintro hx s ⟨l, ⟨_, ⟨r, rfl⟩, hl⟩, hs⟩
        exact hx r s ⟨l, hl, hs⟩
    by_cases hfin : ∀ r, (d r).flatten.all (fun s => s.2.isSome) = true
    · rw [if_pos (hall.mpr hfin)] at h
      refine ⟨some fun r => ⟨dataPrepR ((d r).map fun dev => dev.map fun s =>
        (s.1, s.2.getD fun _ => 0)) (∑ r, b r), ∑ r, b r⟩, ?_, ?_⟩
      · rw [← Except.ok.inj h]
        unfold allreduceSum dataPrep
        rw [ofFn_const_map, sum_list_ofFn, ofFn_zipWith]
        rfl
      · refine lockstep_seq (lockstep_lift _ b hb) (lockstep_seq
          (lockstep_allreduceNan _ (some (∑ r, b r)) ?_ ?_) (lockstep_pure _))
        · intro x hx
          congr 1
          refine Finset.sum_congr rfl fun r _ => ?_
          have := hx r
          rw [if_pos (hfin r)] at this
          exact Option.some.inj this
        · rintro ⟨r, hr⟩
          rw [if_pos (hfin r)] at hr
          cases hr
    · rw [if_neg (fun hc => hfin (hall.mp hc))] at h
      refine ⟨none, (Except.ok.inj h).symm, ?_⟩
      refine lockstep_seq (lockstep_lift _ b hb) (lockstep_seq
          (lockstep_allreduceNan _ none ?_ fun _ => rfl) (lockstep_pure _))
      intro x hx
      exfalso
      apply hfin
      intro r
      by_contra hc
      have := hx r
      rw [if_neg hc] at this
      cases this

theorem covarData_ranks [MpiBuf (ι × κ → ℂ)] [LawfulBuf (ι × κ → ℂ)] {a : Fin n → RObs ι}
    {b : Fin n → RObs κ} {O : Option (SObs (ι × κ))} (h : (joinObs a).covarData (joinObs b) = .ok O) :
    ∃ o : Option (Fin n → RObs (ι × κ)), O = o.map joinObs ∧
      Lockstep (fun r => (a r).covarData (b r)) fun r => o.map fun x => x r := by
  unfold SObs.covarData joinObs at h
  dsimp only at h
  cases hz : zipWorld (List.ofFn fun r => (a r).rows) (List.ofFn fun r => (b r).rows) with
  | error e => rw [hz] at h; cases h
  | ok z =>
    rw [hz] at h
    obtain ⟨y, rfl, hy⟩ := zipWorld_ranks hz
    change SObs.createNan _ = _ at h
    unfold World.map at h
    rw [List.map_ofFn] at h
    obtain ⟨o, ho, hl⟩ := createNan_ranks h
    exact ⟨o, ho, lockstep_seq (lockstep_lift _ y hy) hl⟩

theorem recover_ranks (a : Fin n → RObs ι) :
    (joinObs a).recover = List.ofFn fun r => (a r).recover := by
  unfold SObs.recover joinObs
  dsimp only
  rw [ofFn_zipWith]
  rfl

theorem transform_ranks [MpiBuf (κ → ℂ)] [LawfulBuf (κ → ℂ)] {a : Fin n → RObs ι}
    {f : List (Option (ι → ℂ)) → List (Option (κ → ℂ))} {O : Option (SObs κ)}
    (h : (joinObs a).transform f = .ok O) :
    ∃ o : Option (Fin n → RObs κ), O = o.map joinObs ∧
      Lockstep (fun r => (a r).transform f) fun r => o.map fun x => x r := by
  unfold SObs.transform at h
  rw [recover_ranks] at h
  cases hm : (List.ofFn fun r => (a r).recover).mapM fun rk => rk.mapM fun dev =>
      zipE (dev.map Prod.fst) (f (dev.map Prod.snd)) with
  | error e => rw [hm] at h; cases h
  | ok obs =>
    rw [hm] at h
    obtain ⟨b, rfl, hb⟩ := ofFn_mapM_ok hm
    change SObs.createNan _ = _ at h
    obtain ⟨o, ho, hl⟩ := createNan_ranks h
    exact ⟨o, ho, lockstep_seq (lockstep_lift _ b hb) hl⟩

theorem transformLinear_ranks [Fintype ι] [MpiBuf (μ × κ → ℂ)] [LawfulBuf (μ × κ → ℂ)]
    {a : Fin n → RObs (ι × κ)} {v : μ → ι → ℂ} {f : ℂ → ℂ} {O : Option (SObs (μ × κ))}
    (h : (joinObs a).transformLinear v f = .ok O) :
    ∃ o : Option (Fin n → RObs (μ × κ)), O = o.map joinObs ∧
      Lockstep (fun r => (a r).transformLinear v f) fun r => o.map fun x => x r :=
  transform_ranks h

theorem subset_ranks [NeZero n] [MpiBuf (ι → ℂ)] [LawfulBuf (ι → ℂ)] {a : Fin n → RObs ι}
    {start stop step : Option ℤ} {O : Option (SObs ι)}
    (h : (joinObs a).subset start stop step = .ok O) :
    ∃ o : Option (Fin n → RObs ι), O = o.map joinObs ∧
      Lockstep (fun r => (a r).subset start stop step) fun r => o.map fun x => x r := by
  unfold SObs.subset joinObs at h
  dsimp only at h
  cases hm : (List.ofFn fun r => (a r).rows).mapM fun rk => rk.mapM fun dev =>
      sliceList start stop step dev with
  | error e => rw [hm] at h; cases h
  | ok sel =>
    rw [hm] at h
    obtain ⟨b, rfl, hb⟩ := ofFn_mapM_ok hm
    change Except.bind (globalSum _) _ = _ at h
    unfold World.map at h
    rw [List.map_ofFn] at h
    cases hn : globalSum (List.ofFn ((fun rk : List (List (ℝ × (ι → ℂ))) =>
        List.map (fun dev => List.map (fun s => s.1) dev) rk) ∘ b)) with
    | error e => rw [hn] at h; cases h
    | ok norms =>
      rw [hn] at h
      obtain ⟨norm, rfl, hl⟩ := globalSum_ranks hn
      change Except.bind (globalSum _) _ = _ at h
      rw [ofFn_zipWith, List.map_ofFn] at h
      unfold globalSum at h
      have hzero : ((List.ofFn fun _ : Fin n => norm).all fun n => decide (n ≠ 0)) = true ↔ norm ≠ 0 := by
        simp only [List.all_eq_true, List.mem_ofFn, decide_eq_true_eq]
        constructor
        · intro hx
          exact hx norm ⟨0, rfl⟩
        · rintro hx _ ⟨_, rfl⟩
          exact hx
      cases hs : (List.ofFn ((fun rk : List (List (ℝ × (ι → ℂ))) => List.map (fun dev =>
          [(List.map (fun s : ℝ × (ι → ℂ) => fun i => (Real.sqrt s.1 : ℂ) * s.2 i) dev).sum]) rk) ∘
          fun r => List.map (fun dev => List.map (fun s : ℝ × (ι → ℂ) => ((s.1 / norm,
            fun i => s.2 i / (Real.sqrt norm : ℂ)) : ℝ × (ι → ℂ))) dev) (b r))).mapM
          fun data => pyHead (sumUpPmapd data) with
      | error e => rw [hs] at h; cases h
      | ok locals =>
        rw [hs] at h
        obtain ⟨c, rfl, hc⟩ := ofFn_mapM_ok hs
        change (if ((List.ofFn fun _ : Fin n => norm).all fun n => decide (n ≠ 0)) = true then
          (_ : Except PyErr (Option (SObs ι))) else _) = _ at h
        by_cases h0 : norm = 0
        · rw [if_neg (fun hx => hzero.mp hx h0)] at h
          refine ⟨none, (Except.ok.inj h).symm, ?_⟩
          refine lockstep_seq (lockstep_lift _ b hb) (lockstep_seq hl (lockstep_seq
            (lockstep_lift _ c hc) (lockstep_seq
              (lockstep_allreduceNan _ none ?_ fun _ => rfl) (lockstep_pure _))))
          intro x hx
          have := hx 0
          rw [if_pos h0] at this
          cases this
        · rw [if_pos (hzero.mpr h0)] at h
          change Except.ok _ = _ at h
          unfold allreduceSum at h
          rw [ofFn_const_map, sum_list_ofFn, ofFn_zipWith, ofFn_zip, ofFn_zipWith] at h
          refine ⟨some fun r => ⟨_, _⟩, (Except.ok.inj h).symm, ?_⟩
          refine lockstep_seq (lockstep_lift _ b hb) (lockstep_seq hl (lockstep_seq
            (lockstep_lift _ c hc) (lockstep_seq
              (lockstep_allreduceNan _ (some (∑ r, c r)) ?_ ?_) (lockstep_pure _))))
          · intro x hx
            congr 1
            refine Finset.sum_congr rfl fun r _ => ?_
            have := hx r
            rw [if_neg h0] at this
            exact Option.some.inj this
          · rintro ⟨r, hr⟩
            rw [if_neg h0] at hr
            cases hr

theorem tangentKernel_ranks [Fintype ι] [MpiBuf (ι → ℂ)] [LawfulBuf (ι → ℂ)] (a : Fin n → RObs ι) :
    ∃ T : List (List ℂ), ((joinObs a).tangentKernel = List.ofFn fun _ : Fin n => T) ∧
      Lockstep (fun r => (a r).tangentKernel) fun _ => T := by
  unfold SObs.tangentKernel joinObs World.map
  dsimp only
  rw [List.map_ofFn]
  obtain ⟨all, h1, h2⟩ := gather_ranks
    ((fun rk : List (List (ℝ × (ι → ℂ))) => List.map (fun dev => List.map Prod.snd dev) rk) ∘
      fun r => (a r).rows)
  refine ⟨_, ?_, lockstep_seq h2 (lockstep_pure _)⟩
  rw [h1, List.map_ofFn]
  rfl

/-! ## `measure` -/

theorem measureOne_ranks {ns : Option ℕ} {d : Fin n → List (List (ℝ × (Fin 1 → ℂ)))}
    {l : List MeasResult} (h : measureOne ns (List.ofFn d) = .ok l) :
    ∃ m : MeasResult, (l = List.ofFn fun _ : Fin n => m) ∧
      Lockstep (fun r => measureOneR ns (d r)) fun _ => m := by
  unfold measureOne at h
  cases hm : globalMean (List.ofFn d) with
  | error e => rw [hm] at h; cases h
  | ok means =>
    rw [hm] at h
    obtain ⟨m, rfl, hl⟩ := globalMean_ranks hm
    change Except.bind (globalVariance _) _ = _ at h
    cases hv : globalVariance (List.ofFn d) with
    | error e => rw [hv] at h; cases h
    | ok vars =>
      rw [hv] at h
      obtain ⟨v, rfl, hl'⟩ := globalVariance_ranks hv
      change Except.ok _ = _ at h
      rw [ofFn_zipWith] at h
      exact ⟨_, (Except.ok.inj h).symm, lockstep_seq hl (lockstep_seq hl' (lockstep_pure _))⟩

theorem lockstep_mapM {X : Type} {f : Fin n → X → Prog β} {g : X → β} (l : List X)
    (h : ∀ x ∈ l, Lockstep (fun r => f r x) fun _ => g x) :
    Lockstep (fun r => l.mapM (f r)) fun _ => l.map g := by
  induction l with
  | nil => exact lockstep_pure _
  | cons x l ih =>
    simp only [List.mapM_cons, List.map_cons]
    exact lockstep_seq (h x (by simp)) (lockstep_seq (ih fun y hy => h y (by simp [hy]))
      (lockstep_pure _))

theorem except_mapM_ok {A B : Type} {f : A → Except PyErr B} {l : List A} {m : List B}
    (h : l.mapM f = .ok m) : List.Forall₂ (fun a b => f a = .ok b) l m := by
  induction l generalizing m with
  | nil =>
    simp only [List.mapM_nil] at h
    obtain rfl := Except.ok.inj h
    exact List.Forall₂.nil
  | cons a l ih =>
    rw [List.mapM_cons] at h
    cases h0 : f a with
    | error e => rw [h0] at h; cases h
    | ok b =>
      rw [h0] at h
      change Except.bind _ _ = _ at h
      cases h1 : l.mapM f with
      | error e => rw [h1] at h; cases h
      | ok m' =>
        rw [h1] at h
        obtain rfl := Except.ok.inj h
        exact List.Forall₂.cons h0 (ih h1)

theorem measurePovm_ranks {ns : Option ℕ} {d : Fin n → List (List (ℝ × (Fin 1 → ℂ)))}
    {corrs : List (Fin n → List (List (ℝ × (Fin 1 → ℂ))))} {l : List MeasResult}
    {cs : List (List MeasResult)}
    (h : measurePovm ns (List.ofFn d) (corrs.map List.ofFn) = .ok (l, cs)) :
    ∃ (m : MeasResult) (ms : List MeasResult), (l = List.ofFn fun _ : Fin n => m) ∧
      (cs = ms.map fun m => List.ofFn fun _ : Fin n => m) ∧
      Lockstep (fun r => measurePovmR ns (d r) (corrs.map fun c => c r)) fun _ => (m, ms) := by
  unfold measurePovm at h
  cases hm : globalMean (List.ofFn d) with
  | error e => rw [hm] at h; cases h
  | ok means =>
    rw [hm] at h
    obtain ⟨m, rfl, hl⟩ := globalMean_ranks hm
    change Except.bind (globalVariance _) _ = _ at h
    cases hv : globalVariance (List.ofFn d) with
    | error e => rw [hv] at h; cases h
    | ok vars =>
      rw [hv] at h
      obtain ⟨v, rfl, hl'⟩ := globalVariance_ranks hv
      change Except.bind (List.mapM _ _) _ = _ at h
      rw [ofFn_zipWith] at h
      generalize hmain : (⟨(m 0).re, (v 0).re, divSqrtN (v 0).re ns⟩ : MeasResult) = main at h
      cases hc : (corrs.map List.ofFn).mapM fun w => (do
          let cm ← globalMean w
          let cv ← globalVariance w
          return List.zipWith (fun (r : MeasResult) (x : (Fin 1 → ℂ) × (Fin 1 → ℂ)) =>
            (⟨(x.1 0).re - r.mean ^ 2, (x.2 0).re, divSqrtN r.variance ns⟩ : MeasResult))
            (List.ofFn fun _ : Fin n => main) (cm.zip cv) : Except PyErr (List MeasResult)) with
      | error e => rw [hc] at h; cases h
      | ok cs' =>
        rw [hc] at h
        obtain ⟨rfl, rfl⟩ := Prod.mk.inj (Except.ok.inj h)
        have hf := except_mapM_ok hc
        rw [List.forall₂_map_left_iff] at hf
        have key : ∃ ms : List MeasResult, (cs' = ms.map fun m => List.ofFn fun _ : Fin n => m) ∧
            Lockstep (fun r => (corrs.map fun c => c r).mapM fun w => (do
              let cm ← globalMeanR w
              let cv ← globalVarianceR w
              return (⟨(cm 0).re - main.mean ^ 2, (cv 0).re, divSqrtN main.variance ns⟩ : MeasResult) :
                Prog MeasResult)) fun _ => ms := by
          clear hc h
          induction hf with
          | nil => exact ⟨[], rfl, lockstep_pure _⟩
          | @cons a b l m' h1 h2 ih =>
            obtain ⟨ms, rfl, hms⟩ := ih
            cases hm1 : globalMean (List.ofFn a) with
            | error e => rw [hm1] at h1; cases h1
            | ok cm =>
              rw [hm1] at h1
              change Except.bind (globalVariance _) _ = _ at h1
              cases hv1 : globalVariance (List.ofFn a) with
              | error e => rw [hv1] at h1; cases h1
              | ok cv =>
                rw [hv1] at h1
                obtain ⟨cm, rfl, hl1⟩ := globalMean_ranks hm1
                obtain ⟨cv, rfl, hl2⟩ := globalVariance_ranks hv1
                change Except.ok _ = _ at h1
                rw [ofFn_zip, ofFn_zipWith] at h1
                obtain rfl := Except.ok.inj h1
                refine ⟨_ :: ms, rfl, ?_⟩
                simp only [List.map_cons, List.mapM_cons]
                have h3 : Lockstep (fun r => (do
                    let cm ← globalMeanR (a r)
                    let cv ← globalVarianceR (a r)
                    return (⟨(cm 0).re - main.mean ^ 2, (cv 0).re, divSqrtN main.variance ns⟩ :
                      MeasResult) : Prog MeasResult)) _ :=
                  lockstep_seq hl1 (lockstep_seq hl2 (lockstep_pure fun _ => _))
                exact lockstep_seq h3 (lockstep_seq hms (lockstep_pure _))
        obtain ⟨ms, rfl, hms⟩ := key
        refine ⟨main, ms, rfl, rfl, ?_⟩
        subst hmain
        exact lockstep_seq hl (lockstep_seq hl' (lockstep_seq hms (lockstep_pure _)))

end JVMC
