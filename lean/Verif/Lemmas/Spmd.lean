import Mathlib.Tactic.Ring
import Mathlib.Tactic.Linarith
import Mathlib.Algebra.Order.BigOperators.Group.Finset
import Verif.Spec.Spmd

/-!
# Lemmas for C102: ranks in lockstep, and what follows for all schedules
-/

namespace JVMC

open Spec

variable {n : ℕ} {α β : Type}

theorem lockstep_bind {p : Fin n → Prog α} {v : Fin n → α} (h : Lockstep p v)
    {f : Fin n → α → Prog β} {w : Fin n → β} (hf : Lockstep (fun r => f r (v r)) w) :
    Lockstep (fun r => (p r).bind (f r)) w := by
  induction h with
  | done v => exact hf
  | coll c hroot send k v _ ih =>
    exact Lockstep.coll c hroot send (fun r x => (k r x).bind (f r)) w (ih hf)

/-- The stages of a lockstep execution. -/
structure Stages (p : Fin n → Prog α) (v : Fin n → α) where
  K : ℕ
  P : ℕ → Fin n → Prog α
  C : ℕ → Coll
  S : ℕ → Fin n → List Wired
  cont : ℕ → Fin n → List (List Wired) → Prog α
  start : P 0 = p
  stage : ∀ i < K, ∀ r, P i r = .coll (C i) (S i r) (cont i r)
  next : ∀ i < K, ∀ r, P (i + 1) r = cont i r ((C i).combine (S i))
  stop : ∀ r, P K r = .ret (v r)
  root : ∀ i < K, ∀ rt, C i = .bcast rt → rt < n

theorem stages_of_lockstep {p : Fin n → Prog α} {v : Fin n → α} (h : Lockstep p v) :
    Nonempty (Stages p v) := by
  induction h with
  | done v =>
    exact ⟨⟨0, fun _ r => .ret (v r), fun _ => .allgather, fun _ _ => [], fun _ r _ => .ret (v r), rfl,
      by simp, by simp, by simp, by simp⟩⟩
  | coll c hroot send k v _ ih =>
    obtain ⟨T⟩ := ih
    refine ⟨⟨T.K + 1, fun i => Nat.casesOn i (fun r => .coll c (send r) (k r)) T.P,
      fun i => Nat.casesOn i c T.C, fun i => Nat.casesOn i send T.S, fun i => Nat.casesOn i k T.cont,
      rfl, ?_, ?_, T.stop, ?_⟩⟩
    · rintro (_ | i) hi r
      · rfl
      · exact T.stage i (by omega) r
    · rintro (_ | i) hi r
      · exact congrFun T.start r
      · exact T.next i (by omega) r
    · rintro (_ | i) hi rt h
      · exact hroot rt h
      · exact T.root i (by omega) rt h

/-- Where the ranks are: rank `r` has completed `m r` collective operations. -/
structure AtStages {p : Fin n → Prog α} {v : Fin n → α} (T : Stages p v) (s : SpmdSt n α)
    (m : Fin n → ℕ) : Prop where
  le : ∀ r, m r ≤ T.K
  prog : ∀ r, (s r).prog = T.P (m r) r
  wait : ∀ r, (s r).waiting = true → m r < T.K
  len : ∀ r, (s r).hist.length = m r + (if (s r).waiting then 1 else 0)
  hist : ∀ r i, i < (s r).hist.length → (s r).hist[i]? = some (T.C i, T.S i r)

/-- How far a run has got. -/
def progress (s : SpmdSt n α) (m : Fin n → ℕ) : ℕ := ∑ r, (2 * m r + if (s r).waiting then 1 else 0)

theorem progress_le {p : Fin n → Prog α} {v : Fin n → α} (T : Stages p v) {s : SpmdSt n α}
    {m : Fin n → ℕ} (h : AtStages T s m) : progress s m ≤ n * (2 * T.K) := by
  unfold progress
  calc ∑ r, (2 * m r + if (s r).waiting then 1 else 0) ≤ ∑ _r : Fin n, 2 * T.K := by
        apply Finset.sum_le_sum
        intro r _
        have h1 := h.le r
        split_ifs with hw
        · have := h.wait r hw
          omega
        · omega
    _ = n * (2 * T.K) := by simp

theorem contributions_eq {p : Fin n → Prog α} {v : Fin n → α} (T : Stages p v) {s : SpmdSt n α}
    {m : Fin n → ℕ} (h : AtStages T s m) (i : ℕ) (hi : i < T.K) (hr : Coll.ready s i (T.C i)) :
    (T.C i).combine (contributions s i) = (T.C i).combine (T.S i) := by
  have key : ∀ r : Fin n, ((s r).hist[i]?).map Prod.fst = some (T.C i) →
      contributions s i r = T.S i r := by
    intro r hr
    have : i < (s r).hist.length := by
      by_contra hc
      rw [List.getElem?_eq_none (by omega)] at hr
      simp at hr
    unfold contributions
    rw [h.hist r i this]
    rfl
  have hroot := T.root i hi
  revert hr key hroot
  generalize T.C i = c
  intro hr key hroot
  cases c with
  | allreduce len =>
    have : contributions s i = T.S i := funext fun r => key r (hr r)
    rw [this]
  | allgather =>
    have : contributions s i = T.S i := funext fun r => key r (hr r)
    rw [this]
  | bcast root =>
    obtain ⟨r, rfl, h2⟩ := hr
    unfold Coll.combine
    simp only [dif_pos r.isLt]
    rw [show (⟨r.val, r.isLt⟩ : Fin n) = r from rfl, key r h2]

theorem step_stages {p : Fin n → Prog α} {v : Fin n → α} (T : Stages p v) {s s' : SpmdSt n α}
    {m : Fin n → ℕ} (h : AtStages T s m) (r : Fin n) (hs : spmdStep r s = some s') :
    ∃ m', AtStages T s' m' ∧ progress s m < progress s' m' := by
  have hp := h.prog r
  have hmK : m r < T.K := by
    rcases lt_or_eq_of_le (h.le r) with h1 | h1
    · exact h1
    · exfalso
      rw [h1, T.stop r] at hp
      unfold spmdStep at hs
      rw [hp] at hs
      simp at hs
  rw [T.stage _ hmK r] at hp
  unfold spmdStep at hs
  rw [hp] at hs
  dsimp only at hs
  by_cases hw : (s r).waiting = true
  · rw [if_pos hw] at hs
    have hlen : (s r).hist.length - 1 = m r := by
      have := h.len r
      rw [if_pos hw] at this
      omega
    rw [hlen] at hs
    split_ifs at hs with hready
    obtain rfl := Option.some.inj hs
    refine ⟨Function.update m r (m r + 1), ⟨?_, ?_, ?_, ?_, ?_⟩, ?_⟩
    · intro q
      by_cases hq : q = r
      · subst hq; simp; omega
      · simp [hq, h.le q]
    · intro q
      by_cases hq : q = r
      · subst hq
        simp only [Function.update_self]
        rw [T.next _ hmK q, contributions_eq T h _ hmK hready]
      · simp [hq, h.prog q]
    · intro q
      by_cases hq : q = r
      · subst hq; simp
      · simpa [hq] using h.wait q
    · intro q
      by_cases hq : q = r
      · subst hq
        have := h.len q
        rw [if_pos hw] at this
        simpa using this
      · simpa [hq] using h.len q
    · intro q i
      by_cases hq : q = r
      · subst hq
        simpa using h.hist q i
      · simpa [hq] using h.hist q i
    · unfold progress
      apply Finset.sum_lt_sum
      · intro q _
        by_cases hq : q = r
        · subst hq
          simp only [Function.update_self, hw]
          simp
        · simp [hq]
      · refine ⟨r, Finset.mem_univ _, ?_⟩
        simp only [Function.update_self, hw]
        simp
        omega
  · rw [if_neg hw] at hs
    obtain rfl := Option.some.inj hs
    have hwf : (s r).waiting = false := by simpa using hw
    have hlen : (s r).hist.length = m r := by
      have := h.len r
      rw [if_neg hw] at this
      exact this
    refine ⟨m, ⟨h.le, ?_, ?_, ?_, ?_⟩, ?_⟩
    · intro q
      by_cases hq : q = r
      · subst hq
        simp only [Function.update_self]
        rw [T.stage _ hmK q]
      · simp [hq, h.prog q]
    · intro q
      by_cases hq : q = r
      · subst hq; intro _; exact hmK
      · simpa [hq] using h.wait q
    · intro q
      by_cases hq : q = r
      · subst hq; simp [hlen]
      · simpa [hq] using h.len q
    · intro q i
      by_cases hq : q = r
      · subst hq
        simp only [Function.update_self, List.length_append, List.length_singleton]
        intro hi
        rcases lt_or_eq_of_le (Nat.lt_succ_iff.mp hi) with h1 | h1
        · rw [List.getElem?_append_left h1]
          exact h.hist q i h1
        · subst h1
          rw [List.getElem?_append_right (le_refl _), hlen]
          simp
      · simpa [hq] using h.hist q i
    · unfold progress
      apply Finset.sum_lt_sum
      · intro q _
        by_cases hq : q = r
        · subst hq
          simp [hwf]
        · simp [hq]
      · refine ⟨r, Finset.mem_univ _, ?_⟩
        simp [hwf]

theorem init_stages {p : Fin n → Prog α} {v : Fin n → α} (T : Stages p v) :
    AtStages T (spmdInit p) fun _ => 0 := by
  refine ⟨by simp, ?_, ?_, ?_, ?_⟩
  · intro r; simp [spmdInit, T.start]
  · intro r h; simp [spmdInit] at h
  · intro r; simp [spmdInit]
  · intro r i h; simp [spmdInit] at h

theorem run_stages {p : Fin n → Prog α} {v : Fin n → α} (T : Stages p v) (sched : List (Fin n)) :
    ∀ (s : SpmdSt n α) (m : Fin n → ℕ), AtStages T s m →
      ∃ m', AtStages T (spmdRun s sched) m' ∧ progress s m ≤ progress (spmdRun s sched) m' := by
  induction sched with
  | nil => intro s m h; exact ⟨m, h, le_refl _⟩
  | cons r rs ih =>
    intro s m h
    unfold spmdRun
    cases hs : spmdStep r s with
    | none => exact ih s m h
    | some s' =>
      obtain ⟨m', h', hlt⟩ := step_stages T h r hs
      obtain ⟨m'', h'', hle⟩ := ih s' m' h'
      exact ⟨m'', h'', le_trans hlt.le hle⟩

/-- A rank that has not ended is entitled to move, or another one is. -/
theorem someone_moves {p : Fin n → Prog α} {v : Fin n → α} (T : Stages p v) {s : SpmdSt n α}
    {m : Fin n → ℕ} (h : AtStages T s m) (hex : ∃ r, (s r).prog.outcome = none) :
    ∃ r, (spmdStep r s).isSome := by
  obtain ⟨r₀, hr₀⟩ := hex
  -- a rank that is furthest behind
  obtain ⟨r, -, hmin⟩ := Finset.exists_min_image Finset.univ m ⟨r₀, Finset.mem_univ _⟩
  have hmK : m r < T.K := by
    have h0 : m r₀ < T.K := by
      rcases lt_or_eq_of_le (h.le r₀) with h1 | h1
      · exact h1
      · rw [h.prog r₀, h1, T.stop] at hr₀
        simp [Prog.outcome] at hr₀
    exact lt_of_le_of_lt (hmin r₀ (Finset.mem_univ _)) h0
  by_cases hall : ∀ q, m r < (s q).hist.length
  · -- everybody has contributed
    have hw : (s r).waiting = true := by
      have h1 := h.len r
      have h2 := hall r
      by_contra hc
      rw [if_neg hc] at h1
      omega
    refine ⟨r, ?_⟩
    unfold spmdStep
    rw [h.prog r, T.stage _ hmK r]
    dsimp only
    have hlen : (s r).hist.length - 1 = m r := by
      have := h.len r
      rw [if_pos hw] at this
      omega
    rw [if_pos hw, hlen, if_pos]
    · simp
    · have hc : ∀ q, ((s q).hist[m r]?).map Prod.fst = some (T.C (m r)) := by
        intro q
        rw [h.hist q _ (hall q)]
        rfl
      have hroot := T.root _ hmK
      revert hc hroot
      generalize T.C (m r) = c
      intro hc hroot
      cases c with
      | allreduce len => exact hc
      | allgather => exact hc
      | bcast root => exact ⟨⟨root, hroot root rfl⟩, rfl, hc _⟩
  · push Not at hall
    obtain ⟨q, hq⟩ := hall
    have h1 := h.len q
    have h2 := hmin q (Finset.mem_univ _)
    have hw : (s q).waiting = false := by
      by_contra hc
      rw [if_pos (by simpa using hc)] at h1
      omega
    have hmq : m q = m r := by
      rw [if_neg (by simp [hw])] at h1
      omega
    refine ⟨q, ?_⟩
    unfold spmdStep
    rw [h.prog q, hmq, T.stage _ hmK q]
    simp [hw]

theorem ready_mono {s s' : SpmdSt n α} (hh : ∀ (r : Fin n) (i : ℕ) (x : Coll × List Wired), (s r).hist[i]? = some x → (s' r).hist[i]? = some x)
    (i : ℕ) (c : Coll) (h : Coll.ready s i c) : Coll.ready s' i c := by
  have key : ∀ r : Fin n, ((s r).hist[i]?).map Prod.fst = some c →
      ((s' r).hist[i]?).map Prod.fst = some c := by
    intro r hr
    obtain ⟨x, hx, rfl⟩ := Option.map_eq_some_iff.mp hr
    rw [hh r i x hx]
    rfl
  cases c with
  | allreduce len => exact fun r => key r (h r)
  | allgather => exact fun r => key r (h r)
  | bcast root =>
    obtain ⟨r, h1, h2⟩ := h
    exact ⟨r, h1, key r h2⟩

/-- A rank that can move can still move after the move of another rank. -/
theorem step_persists {s s' : SpmdSt n α} (r q : Fin n) (hq : q ≠ r) (hr : (spmdStep r s).isSome)
    (hs : spmdStep q s = some s') : (spmdStep r s').isSome := by
  have hsame : s' r = s r ∧ ∀ (x : Fin n) (i : ℕ) (y : Coll × List Wired), (s x).hist[i]? = some y → (s' x).hist[i]? = some y := by
    unfold spmdStep at hs
    split at hs
    · cases hs
    · cases hs
    · split_ifs at hs
      · obtain rfl := Option.some.inj hs
        refine ⟨by simp [hq.symm], ?_⟩
        intro x i y hx
        by_cases hxq : x = q
        · subst hxq; simpa using hx
        · simpa [hxq] using hx
      · obtain rfl := Option.some.inj hs
        refine ⟨by simp [hq.symm], ?_⟩
        intro x i y hx
        by_cases hxq : x = q
        · subst hxq
          simp only [Function.update_self]
          rw [List.getElem?_append_left]
          · exact hx
          · exact (List.getElem?_eq_some_iff.mp hx).1
        · simpa [hxq] using hx
  unfold spmdStep at hr ⊢
  rw [hsame.1]
  split at hr
  · simp at hr
  · simp at hr
  · split_ifs with h1 h2
    · simp
    · rw [if_pos h1] at hr
      split_ifs at hr with h3
      · exact absurd (ready_mono hsame.2 _ _ h3) h2
      · simp at hr
    · simp

/-- A round in which everybody has a turn makes progress. -/
theorem round_progress {p : Fin n → Prog α} {v : Fin n → α} (T : Stages p v) (r : Fin n) :
    ∀ (round : List (Fin n)) (s : SpmdSt n α) (m : Fin n → ℕ), r ∈ round → AtStages T s m →
      (spmdStep r s).isSome →
      ∃ m', AtStages T (spmdRun s round) m' ∧ progress s m < progress (spmdRun s round) m' := by
  intro round
  induction round with
  | nil => intro s m hr; simp at hr
  | cons q rs ih =>
    intro s m hr h hmove
    unfold spmdRun
    by_cases hq : q = r
    · subst hq
      obtain ⟨s', hs⟩ := Option.isSome_iff_exists.mp hmove
      rw [hs]
      obtain ⟨m', h', hlt⟩ := step_stages T h q hs
      obtain ⟨m'', h'', hle⟩ := run_stages T rs s' m' h'
      exact ⟨m'', h'', lt_of_lt_of_le hlt hle⟩
    · have hr' : r ∈ rs := by
        rcases List.mem_cons.mp hr with h1 | h1
        · exact absurd h1.symm hq
        · exact h1
      cases hs : spmdStep q s with
      | none => exact ih s m hr' h hmove
      | some s' =>
        obtain ⟨m', h', hlt⟩ := step_stages T h q hs
        obtain ⟨m'', h'', hlt'⟩ := ih s' m' hr' h' (step_persists r q hq hmove hs)
        exact ⟨m'', h'', lt_trans hlt hlt'⟩

theorem spmdRun_append (s : SpmdSt n α) (a b : List (Fin n)) :
    spmdRun s (a ++ b) = spmdRun (spmdRun s a) b := by
  induction a generalizing s with
  | nil => rfl
  | cons r rs ih => exact ih _

/-- Lockstep executions are all there is: the timing of the ranks does not matter. -/
theorem lockstep_always {p : Fin n → Prog α} {v : Fin n → α} (h : Lockstep p v) :
    AlwaysReturns p v := by
  obtain ⟨T⟩ := stages_of_lockstep h
  have hend : ∀ (s : SpmdSt n α) (m : Fin n → ℕ), AtStages T s m → ∀ r o,
      (s r).prog.outcome = some o → o = .ok (v r) := by
    intro s m hm r o ho
    rcases lt_or_eq_of_le (hm.le r) with h1 | h1
    · rw [hm.prog r, T.stage _ h1 r] at ho
      simp [Prog.outcome] at ho
    · rw [hm.prog r, h1, T.stop r] at ho
      simp only [Prog.outcome, Option.some.injEq] at ho
      exact ho.symm
  refine ⟨?_, ?_, n * (2 * T.K), ?_⟩
  · intro sched r o ho
    obtain ⟨m, hm, -⟩ := run_stages T sched _ _ (init_stages T)
    exact hend _ m hm r o ho
  · intro sched hex
    obtain ⟨m, hm, -⟩ := run_stages T sched _ _ (init_stages T)
    exact someone_moves T hm hex
  · intro rounds hB hrounds r
    -- after `j` rounds everybody is done, or `j` steps have been made
    have key : ∀ (rounds : List (List (Fin n))), (∀ round ∈ rounds, ∀ r, r ∈ round) →
        ∀ (s : SpmdSt n α) (m : Fin n → ℕ), AtStages T s m →
        ∃ m', AtStages T (spmdRun s rounds.flatten) m' ∧
          ((∀ r, (spmdRun s rounds.flatten r).prog.outcome ≠ none) ∨
            progress s m + rounds.length ≤ progress (spmdRun s rounds.flatten) m') := by
      intro rounds
      induction rounds with
      | nil => intro _ s m hm; exact ⟨m, hm, Or.inr (le_refl _)⟩
      | cons round rest ih =>
        intro hr s m hm
        rw [List.flatten_cons, spmdRun_append]
        by_cases hfin : ∀ r, (spmdRun s round r).prog.outcome ≠ none
        · obtain ⟨m₁, hm₁, -⟩ := run_stages T round s m hm
          have hstay : spmdRun (spmdRun s round) rest.flatten = spmdRun s round := by
            generalize spmdRun s round = s₁ at hfin
            generalize rest.flatten = sched
            induction sched with
            | nil => rfl
            | cons q qs ih' =>
              unfold spmdRun
              have : spmdStep q s₁ = none := by
                unfold spmdStep
                have := hfin q
                cases hp : (s₁ q).prog with
                | ret a => rfl
                | raise e => rfl
                | coll c send k =>
                  rw [hp] at this
                  exact absurd rfl this
              rw [this]
              exact ih'
          exact ⟨m₁, by rw [hstay]; exact hm₁, Or.inl (by rw [hstay]; exact hfin)⟩
        · have hnot : ∃ r, (s r).prog.outcome = none := by
            by_contra hc
            push Not at hc
            apply hfin
            have hstay : spmdRun s round = s := by
              generalize round = sched
              induction sched with
              | nil => rfl
              | cons q qs ih' =>
                unfold spmdRun
                have : spmdStep q s = none := by
                  unfold spmdStep
                  have := hc q
                  cases hp : (s q).prog with
                  | ret a => rfl
                  | raise e => rfl
                  | coll c send k =>
                    rw [hp] at this
                    exact absurd rfl this
                rw [this]
                exact ih'
            rw [hstay]
            exact hc
          obtain ⟨r, hmove⟩ := someone_moves T hm hnot
          obtain ⟨m₁, hm₁, hlt⟩ := round_progress T r round s m (hr round (by simp) r) hm hmove
          obtain ⟨m₂, hm₂, h2⟩ := ih (fun x hx => hr x (by simp [hx])) _ m₁ hm₁
          refine ⟨m₂, hm₂, ?_⟩
          rcases h2 with h2 | h2
          · exact Or.inl h2
          · right
            simp only [List.length_cons]
            omega
    obtain ⟨m, hm, h2⟩ := key rounds hrounds _ _ (init_stages T)
    have hdone : (spmdRun (spmdInit p) rounds.flatten r).prog.outcome ≠ none := by
      rcases h2 with h2 | h2
      · exact h2 r
      · -- the bound is reached, so nobody can move any more
        intro hnone
        obtain ⟨q, hq⟩ := someone_moves T hm ⟨r, hnone⟩
        obtain ⟨s', hs'⟩ := Option.isSome_iff_exists.mp hq
        obtain ⟨m', hm', hlt⟩ := step_stages T hm q hs'
        have := progress_le T hm'
        omega
    obtain ⟨o, ho⟩ := Option.ne_none_iff_exists'.mp hdone
    rw [ho, hend _ m hm r o ho]

end JVMC
