import Verif.Lemmas.SpmdCall
import Verif.Lemmas.BranchFreeArgs

/-!
# Lemmas for C102: prefactors, several operators, time steps; ranks that hang
-/

namespace JVMC

open Spec

variable {N n : ℕ} [NeZero N]

/-! ## Prefactors -/

omit [NeZero N] in
theorem range_mapM_ofFn {B : Type} (f : ℕ → Except PyErr B) (l : List B)
    (h : (List.range N).mapM f = .ok l) : ∃ b : Fin N → B, l = List.ofFn b ∧ ∀ r : Fin N, f r.val = .ok (b r) := by
  have hr : List.range N = List.ofFn fun r : Fin N => r.val := by
    apply List.ext_getElem
    · simp
    · intro i h1 h2
      simp
  rw [hr] at h
  exact ofFn_mapM_ok h

omit [NeZero N] in
theorem argFun_ranks {A : Type} [AddCommMonoid A] [MpiBuf A] [LawfulBuf A] (pre : List (ℕ × A))
    (init v : List A) (h : argFun pre init N = .ok v) :
    Lockstep (fun r : Fin N => argFunR pre init N r.val) fun _ => v := by
  unfold argFun at h
  unfold argFunR
  by_cases hl : pre.length < 50
  · simp only [if_pos hl] at h ⊢
    exact lockstep_lift _ _ fun _ => h
  · simp only [if_neg hl] at h ⊢
    cases hm : (List.range N).mapM fun r => argFunRank pre init N r with
    | error e => rw [hm] at h; cases h
    | ok parts =>
      rw [hm] at h
      obtain ⟨b, rfl, hb⟩ := range_mapM_ofFn _ _ hm
      refine lockstep_seq (lockstep_lift _ b hb) (lockstep_seq (lockstep_allgather _) ?_)
      exact lockstep_return _ _ fun _ => Except.ok.inj h

/-! ## Several operators -/

omit [NeZero N] in
theorem measureMany_ranks {ns : Option ℕ} (ds : List (Fin N → List (List (ℝ × (Fin 1 → ℂ)))))
    (ls : List (List MeasResult)) (h : (ds.map List.ofFn).mapM (measureOne ns) = .ok ls) :
    ∃ ms : List MeasResult, (ls = ms.map fun m => List.ofFn fun _ : Fin N => m) ∧
      Lockstep (fun r => measureManyR ns (ds.map fun d => d r)) fun _ => ms := by
  unfold measureManyR
  induction ds generalizing ls with
  | nil =>
    obtain rfl : [] = ls := Except.ok.inj h
    exact ⟨[], rfl, lockstep_pure _⟩
  | cons d ds ih =>
    rw [List.map_cons, List.mapM_cons] at h
    obtain ⟨l, hl, h⟩ := except_bind_ok h
    obtain ⟨ls', hls, h⟩ := except_bind_ok h
    obtain ⟨m, rfl, lm⟩ := measureOne_ranks hl
    obtain ⟨ms, rfl, lms⟩ := ih ls' hls
    obtain rfl := Except.ok.inj h
    refine ⟨m :: ms, rfl, ?_⟩
    simp only [List.map_cons, List.mapM_cons]
    exact lockstep_seq lm (lockstep_seq lms (lockstep_pure _))

/-! ## Time steps -/

section
variable {M σ : Type}

variable [AddCommGroup M] [Module ℝ M]

omit [NeZero N] in
theorem euler_ranks {inv : (Fin N → σ) → Prop} {f : RhsR M σ} (hf : RhsInStep inv f) (dt t : ℝ) (y : M)
    (s : Fin N → σ) (hs : inv s) : ∃ (y' : M) (s' : Fin N → σ), inv s' ∧
      Lockstep (fun r => eulerStepR dt t f y (s r)) fun r => ((y', dt), s' r) := by
  obtain ⟨dy, s', hs', l⟩ := hf y t 0 s hs
  exact ⟨_, s', hs', lockstep_seq l (lockstep_pure _)⟩

omit [NeZero N] in
theorem heun_ranks {inv : (Fin N → σ) → Prop} {f : RhsR M σ} (hf : RhsInStep inv f) (dt t : ℝ) (y : M)
    (s : Fin N → σ) (hs : inv s) : ∃ (y' : M) (s' : Fin N → σ), inv s' ∧
      Lockstep (fun r => heunStepR dt t f y (s r)) fun r => ((y', dt), s' r) := by
  obtain ⟨k0, s1, hs1, l1⟩ := hf y t 0 s hs
  obtain ⟨k1, s2, hs2, l2⟩ := hf (y + dt • k0) (t + dt) 1 s1 hs1
  exact ⟨_, s2, hs2, lockstep_seq l1 (lockstep_seq l2 (lockstep_pure _))⟩

omit [NeZero N] in
theorem ahLoop_ranks {inv : (Fin N → σ) → Prop} {f : RhsR M σ} (hf : RhsInStep inv f) (obj : AHeun)
    (norm : M → ℝ) (t : ℝ) (y : M) (passes : ℕ) : ∀ (dt : ℝ) (s : Fin N → σ), inv s →
      ∃ (out : Option (M × ℝ × Flt ℝ)) (s' : Fin N → σ), inv s' ∧
        Lockstep (fun r => ahLoopR obj norm t f y passes dt (s r)) fun r => (out, s' r) := by
  induction passes with
  | zero => exact fun dt s hs => ⟨none, s, hs, lockstep_pure _⟩
  | succ passes ih =>
    intro dt s hs
    obtain ⟨k0, s1, hs1, l1⟩ := hf y t 0 s hs
    obtain ⟨k1, s2, hs2, l2⟩ := hf (y + dt • k0) (t + dt) 1 s1 hs1
    obtain ⟨k10, s3, hs3, l3⟩ :=
      hf (y + dt • k0 - ((1 / 2 : ℝ) * dt) • k0) (t + (1 / 2) * dt) 2 s2 hs2
    obtain ⟨k01, s4, hs4, l4⟩ := hf (y + ((1 / 4 : ℝ) * dt) • (k0 + k10)) (t + (1 / 2) * dt) 3 s3 hs3
    obtain ⟨k11, s5, hs5, l5⟩ := hf (y + ((1 / 4 : ℝ) * dt) • (k0 + k10) + ((1 / 2 : ℝ) * dt) • k01)
      (t + dt) 4 s4 hs4
    unfold ahLoopR
    set fe := Num.quot obj.tolerance (norm (((1 / 4 : ℝ) * dt) • (k0 + k10) +
      ((1 / 4 : ℝ) * dt) • (k01 + k11) - ((1 / 2 : ℝ) * dt) • (k0 + k1))) with hfe
    set dt' : Flt ℝ := (ahFactor fe).map fun tmp =>
      if dt * tmp > obj.maxStep then obj.maxStep else dt * tmp with hdt
    rcases hb : fe.below 1 with _ | _
    · refine ⟨some (y + (((1 / 4 : ℝ) * dt) • (k0 + k10) + ((1 / 4 : ℝ) * dt) • (k01 + k11)), dt, dt'),
        s5, hs5, lockstep_seq l1 (lockstep_seq l2 (lockstep_seq l3 (lockstep_seq l4 (lockstep_seq l5 ?_))))⟩
      simp only [← hfe, ← hdt, hb]
      exact lockstep_pure _
    · rcases hd : dt' with _ | d
      · refine ⟨some (y + (((1 / 4 : ℝ) * dt) • (k0 + k10) + ((1 / 4 : ℝ) * dt) • (k01 + k11)), dt, none),
          s5, hs5, lockstep_seq l1 (lockstep_seq l2 (lockstep_seq l3 (lockstep_seq l4 (lockstep_seq l5 ?_))))⟩
        simp only [← hfe, ← hdt, hb, hd]
        exact lockstep_pure _
      · obtain ⟨out, s', hs', l⟩ := ih d s5 hs5
        refine ⟨out, s', hs', lockstep_seq l1 (lockstep_seq l2 (lockstep_seq l3 (lockstep_seq l4
          (lockstep_seq l5 ?_))))⟩
        simp only [← hfe, ← hdt, hb, hd]
        exact l

end

/-! ## Ranks that hang -/

/-- A rank that needs another one, which has ended without taking part, never returns. -/
theorem hangs_of_ended {α : Type} (p : Fin n → Prog α) (q r : Fin n) (o : Except PyErr α) (c : Coll)
    (send : List Wired) (k : List (List Wired) → Prog α) (hq : (p q).outcome = some o)
    (hr : p r = .coll c send k) (hc : ∀ root, c = .bcast root → root = q.val) : HangsForever p r := by
  have key : ∀ (sched : List (Fin n)) (s : SpmdSt n α),
      ((s q).prog = p q ∧ (s q).hist = []) →
      ((s r).prog = .coll c send k ∧ ((s r).hist.length = if (s r).waiting then 1 else 0)) →
      (spmdRun s sched r).prog.outcome = none := by
    intro sched
    induction sched with
    | nil =>
      rintro s - ⟨h1, -⟩
      unfold spmdRun
      rw [h1]
      rfl
    | cons x xs ih =>
      rintro s ⟨hq1, hq2⟩ ⟨hr1, hr2⟩
      unfold spmdRun
      have hstep : ∀ s', spmdStep x s = some s' →
          ((s' q).prog = p q ∧ (s' q).hist = []) ∧
          ((s' r).prog = .coll c send k ∧ ((s' r).hist.length = if (s' r).waiting then 1 else 0)) := by
        intro s' hs'
        have hxq : x ≠ q := by
          rintro rfl
          unfold spmdStep at hs'
          rw [hq1] at hs'
          cases hp : p x with
          | ret a => rw [hp] at hs'; cases hs'
          | raise e => rw [hp] at hs'; cases hs'
          | coll _ _ _ => rw [hp] at hq; cases hq
        by_cases hxr : x = r
        · subst hxr
          unfold spmdStep at hs'
          rw [hr1] at hs'
          dsimp only at hs'
          by_cases hw : (s x).waiting = true
          · rw [if_pos hw] at hs'
            rw [if_pos hw] at hr2
            have hnr : ¬ Coll.ready s ((s x).hist.length - 1) c := by
              rw [hr2]
              intro hready
              have hcontra : (((s q).hist[0]?).map Prod.fst) = some c → False := by
                rw [hq2]
                simp
              cases c with
              | allreduce len => exact hcontra (hready q)
              | allgather => exact hcontra (hready q)
              | bcast root =>
                obtain ⟨y, hy, hy'⟩ := hready
                obtain rfl : y = q := Fin.ext (hy.trans (hc root rfl))
                exact hcontra hy'
            rw [if_neg hnr] at hs'
            cases hs'
          · rw [if_neg hw] at hs'
            rw [if_neg hw] at hr2
            obtain rfl := Option.some.inj hs'
            have hqx : q ≠ x := fun h => hxq h.symm
            refine ⟨⟨by rw [Function.update_of_ne hqx]; exact hq1,
              by rw [Function.update_of_ne hqx]; exact hq2⟩, ?_⟩
            rw [Function.update_self]
            simp [hr2]
        · have hsame : s' q = s q ∧ s' r = s r := by
            have hqx : q ≠ x := fun h => hxq h.symm
            have hrx : r ≠ x := fun h => hxr h.symm
            unfold spmdStep at hs'
            split at hs'
            · cases hs'
            · cases hs'
            · split_ifs at hs'
              · obtain rfl := Option.some.inj hs'
                exact ⟨Function.update_of_ne hqx _ _, Function.update_of_ne hrx _ _⟩
              · obtain rfl := Option.some.inj hs'
                exact ⟨Function.update_of_ne hqx _ _, Function.update_of_ne hrx _ _⟩
          rw [hsame.1, hsame.2]
          exact ⟨⟨hq1, hq2⟩, hr1, hr2⟩
      cases hs : spmdStep x s with
      | none => exact ih s ⟨hq1, hq2⟩ ⟨hr1, hr2⟩
      | some s' => exact ih s' (hstep s' hs).1 (hstep s' hs).2
  intro sched
  exact key sched (spmdInit p) ⟨rfl, rfl⟩ ⟨hr, rfl⟩

end JVMC
