import Verif.Model.Nodes
import Verif.Props.Variational

/-! # Helper lemmas: wave functions with zeros -/

namespace JVMC

open Spec Matrix

/-! ## Batches -/

theorem dynUpdate_get {A : Type} (dst src : List A) (beg i : ℕ) (h : beg + src.length ≤ dst.length) :
    (dynUpdate dst src beg)[i]? = if beg ≤ i ∧ i < beg + src.length then src[i - beg]? else dst[i]? := by
  unfold dynUpdate
  have hl : (dst.take beg).length = beg := by simp; omega
  split
  · rename_i hi
    rw [List.getElem?_append_left (by simp; omega), List.getElem?_append_right (by omega), hl]
  · rename_i hi
    rcases Nat.lt_or_ge i beg with h1 | h1
    · rw [List.append_assoc, List.getElem?_append_left (by omega), List.getElem?_take_of_lt h1]
    · rw [List.getElem?_append_right (by simp; omega), List.getElem?_drop]
      congr 1
      simp
      omega

theorem dynUpdate_length {A : Type} (dst src : List A) (beg : ℕ) (h : beg + src.length ≤ dst.length) :
    (dynUpdate dst src beg).length = dst.length := by
  unfold dynUpdate
  simp
  omega

/-- The first `m` entries have the property `R`. -/
def FirstOf {V : Type} (R : ℕ → V → Prop) (m : ℕ) (o : List V) : Prop := ∀ i < m, ∃ v, o[i]? = some v ∧ R i v

theorem firstOf_update {V : Type} (R : ℕ → V → Prop) (n beg len : ℕ) (o out : List V) (ho : o.length = n)
    (hout : out.length = len) (hle : beg + len ≤ n) (h1 : FirstOf R beg o)
    (h2 : ∀ j < len, ∃ v, out[j]? = some v ∧ R (beg + j) v) :
    (dynUpdate o out beg).length = n ∧ FirstOf R (beg + len) (dynUpdate o out beg) := by
  refine ⟨by rw [dynUpdate_length _ _ _ (by omega), ho], fun i hi => ?_⟩
  rw [dynUpdate_get _ _ _ _ (by omega), hout]
  rcases Nat.lt_or_ge i beg with h | h
  · rw [if_neg (by omega)]
    exact h1 i h
  · rw [if_pos ⟨h, hi⟩]
    obtain ⟨v, e, r⟩ := h2 (i - beg) (by omega)
    exact ⟨v, e, by rwa [Nat.add_sub_cancel' h] at r⟩

/-- What is known about the value of a sample, whatever other samples are in the batch. -/
def NodeValue {S : Type} (kernel : S → List (S × ℂ)) (logPsi : S → LogVal) (s : S) (l : LogVal) (v : Flt ℂ) : Prop :=
  (∀ y, l = some y → v = some ((((kernel s).filter fun e => isNonzero e.2).map fun e =>
    e.2 * ((logPsi e.1).amp / Complex.exp y)).sum)) ∧
  (l = none → (∃ e ∈ kernel s, isNonzero e.2) → v = none)

theorem ratioN_some (y : ℂ) (z : LogVal) : ratioN (some y) z = some (z.amp / Complex.exp y) := by
  cases z with
  | none => simp [ratioN, LogVal.amp]
  | some z => simp [ratioN, LogVal.amp, Complex.exp_sub]

theorem mapM_some_eq {A B : Type} (f : A → Option B) (g : A → B) (l : List A) (h : ∀ a ∈ l, f a = some (g a)) :
    l.mapM f = some (l.map g) := by
  induction l with
  | nil => rfl
  | cons a l ih =>
    rw [List.mapM_cons, h a (by simp), ih fun b hb => h b (by simp [hb])]
    rfl

theorem mapM_none_of {A B : Type} (f : A → Option B) (l : List A) (h : ∃ a ∈ l, f a = none) : l.mapM f = none := by
  induction l with
  | nil => simp at h
  | cons a l ih =>
    rw [List.mapM_cons]
    obtain ⟨b, hb, e⟩ := h
    rcases List.mem_cons.1 hb with rfl | hb
    · rw [e]; rfl
    · rw [ih ⟨b, hb, e⟩]
      cases f a <;> rfl

theorem oLocRowN_some {S : Type} (row : List (S × ℂ)) (y : ℂ) (logPsi : S → LogVal) :
    oLocRowN row (some y) logPsi = some ((row.map fun e => e.2 * ((logPsi e.1).amp / Complex.exp y)).sum) := by
  unfold oLocRowN
  rw [mapM_some_eq _ (fun e => e.2 * ((logPsi e.1).amp / Complex.exp y))]
  · rfl
  · intro e _
    rw [ratioN_some]
    rfl

theorem oLocRowN_none {S : Type} (row : List (S × ℂ)) (logPsi : S → LogVal) (h : row ≠ []) :
    oLocRowN row none logPsi = none := by
  unfold oLocRowN
  obtain ⟨e, l, rfl⟩ := List.exists_cons_of_ne_nil h
  rw [mapM_none_of _ _ ⟨e, by simp, rfl⟩]
  rfl

theorem oLocOnN_get {S : Type} (kernel : S → List (S × ℂ)) (logPsi : S → LogVal) (numOps : ℕ)
    (hops : ∀ s, (kernel s).length = numOps) (samples : List S) (ls : List LogVal)
    (hl : ls.length = samples.length) :
    (oLocOnN kernel logPsi samples ls).length = samples.length ∧
    ∀ (k : ℕ) s l, samples[k]? = some s → ls[k]? = some l →
      ∃ v, (oLocOnN kernel logPsi samples ls)[k]? = some v ∧ NodeValue kernel logPsi s l v := by
  obtain ⟨hlen, hrow⟩ := getSPrimes_rows kernel samples numOps fun s _ => hops s
  have hL : (oLocOnN kernel logPsi samples ls).length = samples.length := by
    unfold oLocOnN
    simp [hlen, hl]
  refine ⟨hL, fun k s l hs hk => ?_⟩
  obtain ⟨k1, rfl⟩ := List.getElem?_eq_some_iff.1 hs
  obtain ⟨k2, rfl⟩ := List.getElem?_eq_some_iff.1 hk
  obtain ⟨pad, hp, he⟩ := hrow k k1 (by omega)
  refine ⟨_, List.getElem?_eq_getElem (by omega), ?_⟩
  unfold oLocOnN
  rw [List.getElem_zipWith, he]
  generalize ls[k] = l
  constructor
  · rintro y rfl
    rw [oLocRowN_some, List.map_append, List.sum_append]
    congr 1
    rw [List.sum_eq_zero (l := pad.map _), add_zero]
    intro x hx
    obtain ⟨e, h, rfl⟩ := List.mem_map.1 hx
    rw [(hp e h).1, zero_mul]
  · rintro rfl ⟨e, h1, h2⟩
    apply oLocRowN_none
    intro h
    have := (List.append_eq_nil_iff.1 h).1
    rw [List.filter_eq_nil_iff] at this
    exact this e h1 h2

theorem oLocLoopN_get {S : Type} (kernel : S → List (S × ℂ)) (logPsi : S → LogVal) (numOps : ℕ)
    (hops : ∀ s, (kernel s).length = numOps) (samples : List S) (ls : List LogVal)
    (hl : ls.length = samples.length) (R : ℕ → Flt ℂ → Prop)
    (hR : ∀ (k : ℕ) s l v, samples[k]? = some s → ls[k]? = some l → NodeValue kernel logPsi s l v → R k v)
    (bs nb : ℕ) (hle : nb * bs ≤ samples.length) (hnb : 0 < nb) :
    ∃ o, oLocLoopN kernel logPsi samples ls bs nb = some o ∧ o.length = samples.length ∧ FirstOf R (nb * bs) o := by
  have main : ∀ k, k * bs ≤ samples.length →
      ∃ o, ((oLocLoopN kernel logPsi samples ls bs k).getD (List.replicate samples.length (some 0))) = o
        ∧ o.length = samples.length ∧ FirstOf R (k * bs) o ∧
        (0 < k → oLocLoopN kernel logPsi samples ls bs k = some o) := by
    intro k
    induction k with
    | zero => intro _; exact ⟨_, rfl, by simp [oLocLoopN], by intro i hi; omega, by omega⟩
    | succ k ih =>
      intro hk
      have hk' : k * bs + bs ≤ samples.length := by rw [Nat.succ_mul] at hk; exact hk
      obtain ⟨o, h1, h2, h3, _⟩ := ih (by omega)
      have e : oLocLoopN kernel logPsi samples ls bs (k + 1)
          = some (dynUpdate o (oLocOnN kernel logPsi (dynSlice samples (k * bs) bs) (dynSlice ls (k * bs) bs))
            (k * bs)) := by
        unfold oLocLoopN at h1 ⊢
        rw [List.range_succ, List.foldl_append]
        simp only [List.foldl_cons, List.foldl_nil]
        rw [h1]
      have l1 := dynSlice_length samples (k * bs) bs hk'
      have l2 := dynSlice_length ls (k * bs) bs (by omega)
      obtain ⟨g1, g2⟩ := oLocOnN_get kernel logPsi numOps hops (dynSlice samples (k * bs) bs)
        (dynSlice ls (k * bs) bs) (by omega)
      obtain ⟨p1, p2⟩ := firstOf_update R samples.length (k * bs) bs o _ h2 (g1.trans l1) hk' h3 (by
        intro j hj
        have a1 : (dynSlice samples (k * bs) bs)[j]? = samples[k * bs + j]? := by
          unfold dynSlice
          rw [List.getElem?_take_of_lt hj, List.getElem?_drop]
        have a2 : (dynSlice ls (k * bs) bs)[j]? = ls[k * bs + j]? := by
          unfold dynSlice
          rw [List.getElem?_take_of_lt hj, List.getElem?_drop]
        have b1 : samples[k * bs + j]? = some samples[k * bs + j] := List.getElem?_eq_getElem (by omega)
        have b2 : ls[k * bs + j]? = some ls[k * bs + j] := List.getElem?_eq_getElem (by omega)
        obtain ⟨v, e1, e2⟩ := g2 j _ _ (a1.trans b1) (a2.trans b2)
        exact ⟨v, e1, hR _ _ _ _ b1 b2 e2⟩)
      refine ⟨_, rfl, ?_, ?_, ?_⟩
      · rw [e]; exact p1
      · rw [e, Nat.succ_mul]; exact p2
      · intro _; rw [e]; rfl
  obtain ⟨o, h1, h2, h3, h4⟩ := main nb hle
  exact ⟨o, h4 hnb, h2, h3⟩

/-- `get_O_loc` for every batch size. -/
theorem getOLocN_get {S : Type} (kernel : S → List (S × ℂ)) (logPsi : S → LogVal) (numOps : ℕ)
    (hops : ∀ s, (kernel s).length = numOps) (zeroCfg : S) (b : ℤ) (samples : List S) (hn : samples ≠ [])
    (ls : List LogVal) (hl : ls.length = samples.length) :
    ∃ o, getOLocN kernel logPsi zeroCfg b samples ls = some o ∧ o.length = samples.length ∧
      ∀ (k : ℕ) s l, samples[k]? = some s → ls[k]? = some l → ∃ v, o[k]? = some v ∧ NodeValue kernel logPsi s l v := by
  unfold getOLocN
  split
  · rename_i hb
    have hn' : 0 < samples.length := List.length_pos_iff.2 hn
    obtain ⟨p1, p2, p3, p4, p5⟩ := oLocPlan_props samples.length b.toNat (by omega) hn'
    unfold getOLocBatchedN
    dsimp only
    rw [p4, p5]
    generalize hbs : (oLocPlan samples.length b.toNat).1 = bs at *
    have hdm := Nat.div_add_mod samples.length bs
    have hmul : samples.length / bs * bs + samples.length % bs = samples.length := by
      rw [Nat.mul_comm]; exact hdm
    have hnb : 0 < samples.length / bs := Nat.div_pos p3 p1
    set R : ℕ → Flt ℂ → Prop := fun k v => ∀ s l, samples[k]? = some s → ls[k]? = some l →
      NodeValue kernel logPsi s l v with hRdef
    have hR : ∀ (k : ℕ) s l v, samples[k]? = some s → ls[k]? = some l → NodeValue kernel logPsi s l v → R k v := by
      intro k s l v h1 h2 h3 s' l' h1' h2'
      obtain rfl := Option.some.inj (h1.symm.trans h1')
      obtain rfl := Option.some.inj (h2.symm.trans h2')
      exact h3
    have fin : ∀ o : List (Flt ℂ), o.length = samples.length → FirstOf R samples.length o →
        ∀ (k : ℕ) s l, samples[k]? = some s → ls[k]? = some l → ∃ v, o[k]? = some v ∧ NodeValue kernel logPsi s l v := by
      intro o _ h k s l h1 h2
      obtain ⟨v, e1, e2⟩ := h k (List.getElem?_eq_some_iff.1 h1).1
      exact ⟨v, e1, e2 s l h1 h2⟩
    obtain ⟨o, h1, h2, h3⟩ := oLocLoopN_get kernel logPsi numOps hops samples ls hl R hR bs
      (samples.length / bs) (by omega) hnb
    rw [h1]
    split
    · rename_i hr
      have hmod := Nat.mod_lt samples.length p1
      generalize hbeg : samples.length / bs * bs = beg at *
      generalize hrem : samples.length % bs = rem at *
      have l1 := dynSlice_length samples beg rem (by omega)
      have l2 := dynSlice_length ls beg rem (by omega)
      have x1 : (expandBatch zeroCfg (dynSlice samples beg rem) bs).length = bs := by
        unfold expandBatch; simp [l1]; omega
      have x2 : (expandBatch (some 0 : LogVal) (dynSlice ls beg rem) bs).length = bs := by
        unfold expandBatch; simp [l2]; omega
      obtain ⟨g1, g2⟩ := oLocOnN_get kernel logPsi numOps hops (expandBatch zeroCfg (dynSlice samples beg rem) bs)
        (expandBatch (some 0 : LogVal) (dynSlice ls beg rem) bs) (by omega)
      obtain ⟨q1, q2⟩ := firstOf_update R samples.length beg rem o
        (dynSlice (oLocOnN kernel logPsi (expandBatch zeroCfg (dynSlice samples beg rem) bs)
          (expandBatch (some 0 : LogVal) (dynSlice ls beg rem) bs)) 0 rem) h2
        (dynSlice_length _ _ _ (by omega)) (by omega) h3 (by
          intro j hj
          have a1 : (expandBatch zeroCfg (dynSlice samples beg rem) bs)[j]? = samples[beg + j]? := by
            unfold expandBatch
            rw [List.getElem?_append_left (by omega)]
            unfold dynSlice
            rw [List.getElem?_take_of_lt hj, List.getElem?_drop]
          have a2 : (expandBatch (some 0 : LogVal) (dynSlice ls beg rem) bs)[j]? = ls[beg + j]? := by
            unfold expandBatch
            rw [List.getElem?_append_left (by omega)]
            unfold dynSlice
            rw [List.getElem?_take_of_lt hj, List.getElem?_drop]
          have b1 : samples[beg + j]? = some samples[beg + j] := List.getElem?_eq_getElem (by omega)
          have b2 : ls[beg + j]? = some ls[beg + j] := List.getElem?_eq_getElem (by omega)
          obtain ⟨v, e1, e2⟩ := g2 j _ _ (a1.trans b1) (a2.trans b2)
          refine ⟨v, ?_, hR _ _ _ _ b1 b2 e2⟩
          rw [← e1]
          unfold dynSlice
          rw [List.getElem?_take_of_lt hj, List.drop_zero])
      rw [hmul] at q2
      exact ⟨_, rfl, q1, fin _ q1 q2⟩
    · rename_i hr
      have h0 : samples.length % bs = 0 := by omega
      rw [h0, Nat.add_zero] at hmul
      rw [hmul] at h3
      exact ⟨o, rfl, h2, fin o h2 h3⟩
  · obtain ⟨g1, g2⟩ := oLocOnN_get kernel logPsi numOps hops samples ls hl
    exact ⟨_, rfl, g1, g2⟩

end JVMC
