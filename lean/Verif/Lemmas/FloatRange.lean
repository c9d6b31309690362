import Verif.Model.FloatRange
import Verif.Lemmas.Mpi
import Verif.Lemmas.Operator

/-! # Helper lemmas: the limited range of floating point numbers -/

namespace JVMC

open Spec

variable (R : FloatRange)

theorem FloatRange.big_pos : 0 < R.big := lt_trans one_pos R.big_gt

/-- `log x ≤ x / 2`. -/
theorem log_le_half (x : ℝ) (hx : 0 < x) : Real.log x ≤ x / 2 := by
  have h := Real.log_le_sub_one_of_pos (half_pos hx)
  rw [Real.log_div hx.ne' two_ne_zero] at h
  have := Real.log_le_sub_one_of_pos (two_pos (α := ℝ))
  linarith

theorem clip_fin {x : ℝ} (h : |x| ≤ R.big) : R.clip (.fin x) = .fin x := by
  obtain ⟨h1, h2⟩ := abs_le.1 h
  simp [FloatRange.clip, not_lt.2 h1, not_lt.2 h2]

theorem clip_over {x : ℝ} (h : R.big < x) : R.clip (.fin x) = .inf := by
  simp [FloatRange.clip, h]

theorem clip_under {x : ℝ} (h : x < -R.big) : R.clip (.fin x) = .ninf := by
  have := R.big_pos
  simp [FloatRange.clip, h, not_lt.2 (by linarith : x ≤ R.big)]

theorem float_clip_clip (a : Dbl) : R.clip (R.clip a) = R.clip a := by
  cases a with
  | fin x =>
    rcases lt_or_ge R.big x with h | h
    · rw [clip_over R h]; rfl
    · rcases lt_or_ge x (-R.big) with h' | h'
      · rw [clip_under R h']; rfl
      · rw [clip_fin R (abs_le.2 ⟨h', h⟩), clip_fin R (abs_le.2 ⟨h', h⟩)]
  | _ => rfl

theorem round_small {x : ℝ} (h : |x| < R.tiny) : R.round (.fin x) = .fin 0 := by
  simp [FloatRange.round, h]

theorem round_fin {x : ℝ} (h : R.tiny ≤ |x|) : R.round (.fin x) = R.clip (.fin x) := by
  simp [FloatRange.round, not_lt.2 h]

theorem round_zero : R.round (.fin 0) = .fin 0 := round_small R (by simpa using R.tiny_pos)

/-! ## Sums -/

theorem foldl_nonneg (l : List ℝ) (hl : ∀ x ∈ l, 0 ≤ x) (a : ℝ) (ha : 0 ≤ a) :
    (l.map fun x => R.clip (.fin x)).foldl (fun a b => R.clip (a.add b)) (R.clip (.fin a)) = R.clip (.fin (a + l.sum)) := by
  have hb := R.big_pos
  induction l generalizing a with
  | nil => simp
  | cons x l ih =>
    have hx := hl x (by simp)
    rw [List.map_cons, List.foldl_cons, List.sum_cons, ← add_assoc, ← ih (fun y hy => hl y (by simp [hy])) _ (by linarith)]
    congr 1
    rcases lt_or_ge R.big a with h | h
    · rw [clip_over R h, clip_over R (by linarith : R.big < a + x)]
      rcases lt_or_ge R.big x with h' | h'
      · rw [clip_over R h']; rfl
      · rw [clip_fin R (abs_le.2 ⟨by linarith, h'⟩)]; rfl
    · rw [clip_fin R (abs_le.2 ⟨by linarith, h⟩)]
      rcases lt_or_ge R.big x with h' | h'
      · rw [clip_over R h', clip_over R (by linarith : R.big < a + x)]; rfl
      · rw [clip_fin R (abs_le.2 ⟨by linarith, h'⟩)]; rfl

/-- Sums of numbers that are not negative overflow exactly if the exact sum is too large, in whatever order. -/
theorem sum_nonneg_clip (l : List ℝ) (hl : ∀ x ∈ l, 0 ≤ x) :
    R.sum (l.map fun x => R.clip (.fin x)) = R.clip (.fin l.sum) := by
  have h := foldl_nonneg R l hl 0 le_rfl
  rw [clip_fin R (by simpa using R.big_pos.le), zero_add] at h
  exact h

theorem foldl_nanF (l : List Dbl) : l.foldl (fun a b => R.clip (a.add b)) .nan = .nan := by
  induction l with
  | nil => rfl
  | cons a l ih => exact ih

theorem sumF_nan (l : List Dbl) (h : Dbl.nan ∈ l) : R.sum l = .nan := by
  unfold FloatRange.sum
  generalize Dbl.fin 0 = a
  induction l generalizing a with
  | nil => simp at h
  | cons b l ih =>
    rw [List.foldl_cons]
    rcases List.mem_cons.1 h with rfl | h
    · have : R.clip (a.add .nan) = .nan := by cases a <;> rfl
      rw [this, foldl_nanF]
    · exact ih h _

/-- The sum over all ranks and devices. -/
noncomputable def worldSumF (world : List (List (List Dbl))) : Dbl :=
  R.sum (world.map fun data => R.sum (data.map R.sum))

theorem globalSumF_eq (world : List (List (List Dbl))) (h : ∀ r ∈ world, r ≠ []) :
    globalSumF R world = .ok (world.map fun _ => worldSumF R world) := by
  unfold globalSumF
  rw [mapM_ok _ (fun data => R.sum (data.map R.sum)) world]
  · change Except.ok _ = _
    rw [List.map_map]
    rfl
  · intro d hd
    obtain ⟨x, l, rfl⟩ := List.exists_cons_of_ne_nil (h d hd)
    rfl

theorem worldSumF_nonneg {A : Type} (f : A → Dbl) (g : A → ℝ) (hg : ∀ a, 0 ≤ g a) (world : List (List (List A)))
    (hf : ∀ a ∈ allSamples world, f a = R.clip (.fin (g a))) :
    worldSumF R (world.map fun rk => rk.map fun dev => dev.map f) = R.clip (.fin ((allSamples world).map g).sum) := by
  have h1 : ∀ rk ∈ world, ∀ dev ∈ rk, R.sum (dev.map f) = R.clip (.fin (dev.map g).sum) := by
    intro rk hrk dev hdev
    rw [← sum_nonneg_clip R _ (by intro x hx; obtain ⟨a, _, rfl⟩ := List.mem_map.1 hx; exact hg a), List.map_map]
    congr 1
    apply List.map_congr_left
    intro a ha
    exact hf a (List.mem_flatten.2 ⟨dev, List.mem_flatten.2 ⟨rk, hrk, hdev⟩, ha⟩)
  have hs : ∀ dev : List A, 0 ≤ (dev.map g).sum := fun dev => List.sum_nonneg (by
    intro x hx; obtain ⟨a, _, rfl⟩ := List.mem_map.1 hx; exact hg a)
  have h2 : ∀ rk ∈ world, R.sum ((rk.map fun dev => dev.map f).map R.sum)
      = R.clip (.fin (rk.map fun dev => (dev.map g).sum).sum) := by
    intro rk hrk
    rw [← sum_nonneg_clip R _ (by intro x hx; obtain ⟨a, _, rfl⟩ := List.mem_map.1 hx; exact hs a), List.map_map,
      List.map_map]
    congr 1
    apply List.map_congr_left
    intro dev hdev
    exact h1 rk hrk dev hdev
  have hs2 : ∀ rk : List (List A), 0 ≤ (rk.map fun dev => (dev.map g).sum).sum := fun rk => List.sum_nonneg (by
    intro x hx; obtain ⟨a, _, rfl⟩ := List.mem_map.1 hx; exact hs a)
  have h3 : ((allSamples world).map g).sum = (world.map fun rk => (rk.map fun dev => (dev.map g).sum).sum).sum := by
    unfold allSamples
    clear hf h1 h2
    induction world with
    | nil => rfl
    | cons rk world ih =>
      rw [List.flatten_cons, List.flatten_append, List.map_append, List.sum_append, ih, List.map_cons, List.sum_cons]
      congr 1
      clear ih
      induction rk with
      | nil => rfl
      | cons dev rk ih => rw [List.flatten_cons, List.map_append, List.sum_append, ih, List.map_cons, List.sum_cons]
  unfold worldSumF
  rw [h3, ← sum_nonneg_clip R _ (by intro x hx; obtain ⟨a, _, rfl⟩ := List.mem_map.1 hx; exact hs2 a), List.map_map,
    List.map_map]
  congr 1
  apply List.map_congr_left
  intro rk hrk
  exact h2 rk hrk

theorem worldSumF_nan (world : List (List (List Dbl))) (h : Dbl.nan ∈ allSamples world) :
    worldSumF R world = .nan := by
  obtain ⟨dev, hd, hx⟩ := List.mem_flatten.1 h
  obtain ⟨rk, hrk, hd⟩ := List.mem_flatten.1 hd
  apply sumF_nan
  refine List.mem_map.2 ⟨rk, hrk, sumF_nan R _ (List.mem_map.2 ⟨dev, hd, sumF_nan R _ hx⟩)⟩

/-! ## Exponentials -/

/-- The number `exp x`, if it is not too small. -/
noncomputable def flushExp (x : ℝ) : ℝ := open Classical in if Real.exp x < R.tiny then 0 else Real.exp x

theorem flushExp_nonneg (x : ℝ) : 0 ≤ flushExp R x := by
  unfold flushExp
  split
  · exact le_rfl
  · exact (Real.exp_pos x).le

theorem flushExp_le (x : ℝ) : flushExp R x ≤ Real.exp x := by
  unfold flushExp
  split
  · exact (Real.exp_pos x).le
  · exact le_rfl

theorem le_flushExp (x : ℝ) : Real.exp x - R.tiny ≤ flushExp R x := by
  have := R.tiny_pos
  unfold flushExp
  split <;> linarith

theorem flushExp_eq {x : ℝ} (h : R.tiny ≤ Real.exp x) : flushExp R x = Real.exp x := by
  unfold flushExp
  rw [if_neg (not_lt.2 h)]

/-- Exponentials, also of numbers out of range. -/
theorem round_exp_clip (x : ℝ) : R.round (R.clip (.fin x)).exp = R.clip (.fin (flushExp R x)) := by
  have hb := R.big_pos
  rcases lt_or_ge R.big x with h | h
  · have h2 : R.big < Real.exp x := lt_trans h (by have := Real.add_one_le_exp x; linarith)
    rw [clip_over R h, flushExp_eq R (by linarith [R.tiny_lt, R.big_gt]), clip_over R h2]
    rfl
  · rcases lt_or_ge x (-R.big) with h' | h'
    · have : Real.exp x < R.tiny := lt_trans (Real.exp_lt_exp.2 h') R.exp_neg_big
      rw [clip_under R h']
      unfold flushExp
      rw [if_pos this, clip_fin R (by simpa using hb.le)]
      exact round_zero R
    · rw [clip_fin R (abs_le.2 ⟨h', h⟩)]
      change R.round (.fin (Real.exp x)) = _
      unfold flushExp
      split
      · rename_i ht
        rw [round_small R (by rwa [abs_of_pos (Real.exp_pos x)]), clip_fin R (by simpa using hb.le)]
      · rename_i ht
        rw [round_fin R (by rw [abs_of_pos (Real.exp_pos x)]; exact not_lt.1 ht)]

theorem flushExp_mono {x y : ℝ} (h : x ≤ y) : flushExp R x ≤ flushExp R y := by
  unfold flushExp
  have := Real.exp_le_exp.2 h
  have := (Real.exp_pos y).le
  split <;> split <;> linarith

/-- The probability before normalisation: the exponential in range, for factors of at most one. -/
theorem exactUnnormalisedF_fin (f : ℝ) (hf : 0 < f) (hf1 : f ≤ 1) (ln a : ℝ) :
    exactUnnormalisedF R f (.fin ln) (true, .fin a) = R.clip (.fin (flushExp R ((a - ln) / f))) := by
  have hb := R.big_pos
  unfold exactUnnormalisedF
  rw [if_pos rfl, ← round_exp_clip]
  change R.round (R.clip ((R.clip (.fin (a + -ln))).div (.fin f))).exp = _
  rw [← sub_eq_add_neg]
  rcases lt_or_ge R.big (a - ln) with h | h
  · have : R.big < (a - ln) / f := lt_of_lt_of_le h (le_div_self (by linarith) hf hf1)
    rw [clip_over R h, clip_over R this]
    simp only [Dbl.div, if_neg (not_lt.2 hf.le)]
    rfl
  · rcases lt_or_ge (a - ln) (-R.big) with h' | h'
    · have : (a - ln) / f < -R.big := by
        have : R.big < -(a - ln) / f := lt_of_lt_of_le (by linarith) (le_div_self (by linarith) hf hf1)
        rw [neg_div] at this
        linarith
      rw [clip_under R h', clip_under R this]
      simp only [Dbl.div, if_neg (not_lt.2 hf.le)]
      rfl
    · rw [clip_fin R (abs_le.2 ⟨h', h⟩)]
      simp only [Dbl.div, Dbl.quotient, if_neg hf.ne']

theorem exactSampleF_eq (f : ℝ) (ln : Dbl) (world : List (List (List (Bool × Dbl)))) (h : ∀ r ∈ world, r ≠ [])
    (hne : world ≠ []) (nrm : Dbl) (hn : worldSumF R (world.map fun rk => rk.map fun dev => dev.map
      (exactUnnormalisedF R f ln)) = nrm) :
    exactSampleF R f ln world = .ok (R.clip (ln.add (R.clip ((Dbl.fin f).mul nrm.log))),
      world.map fun rk => rk.map fun dev => dev.map fun e => R.round ((exactUnnormalisedF R f ln e).div nrm)) := by
  unfold exactSampleF
  dsimp only
  rw [globalSumF_eq R _ (by
    intro r hr
    obtain ⟨r', hr', rfl⟩ := List.mem_map.1 hr
    simpa using h r' hr'), hn]
  obtain ⟨rk, l, rfl⟩ := List.exists_cons_of_ne_nil hne
  change Except.ok _ = _
  simp only [List.map_cons, List.map_map, Function.comp_def]

/-! ## Padding of matrix elements -/

/-- The padding of a row is the last configuration of the row with matrix element zero. -/
theorem compressRow_last {S : Type} (row : List (S × ℂ)) (most : ℕ) (hpos : 0 < row.length)
    (hm : (row.filter fun e => isNonzero e.2).length < most) (hml : most ≤ row.length) :
    ((row[row.length - 1]).1, (0 : ℂ)) ∈
      (let z := findNonzero (row.map Prod.snd)
       (gatherIdx (row.map Prod.fst) (z.1.take most)).zip
        (setZeroToZero (row.map Prod.snd) (z.1.take most) z.2)) := by
  dsimp only
  rw [findNonzero_eq]
  dsimp only
  generalize hF : row.filter (fun e => isNonzero e.2) = F at *
  have hn : (nzPos 0 (row.map Prod.snd)).length = F.length := by rw [← hF, nzPos_length]
  rw [hn]
  have htake : (nzPos 0 (row.map Prod.snd) ++ List.replicate ((row.map Prod.snd).length - F.length)
      ((row.map Prod.snd).length - 1)).take most
      = nzPos 0 (row.map Prod.snd)
        ++ List.replicate (most - F.length) ((row.map Prod.snd).length - 1) := by
    rw [List.take_append, hn, List.take_of_length_le (by omega), List.take_replicate]
    congr 2
    simp only [List.length_map]
    omega
  rw [htake]
  unfold setZeroToZero
  rw [gatherIdx_append, gatherIdx_append, gatherIdx_nzPos, gatherIdx_nzPos, hF]
  have hlt : row.length - 1 < row.length := by omega
  rw [gatherIdx_replicate _ _ _ (by simpa using hlt), gatherIdx_replicate _ _ _ (by simpa using hlt)]
  rw [setZeroScan_eq, Nat.sub_zero, List.take_append_of_le_length (by simp),
    List.take_of_length_le (by simp)]
  have hlen : (F.map Prod.snd ++ List.replicate (most - F.length)
      ((row.map Prod.snd)[(row.map Prod.snd).length - 1]'(by simpa using hlt))).length
      - F.length = most - F.length := by simp
  rw [hlen, List.zip_append (by simp), List.mem_append, List.zip_replicate']
  right
  rw [List.mem_replicate]
  refine ⟨by omega, ?_⟩
  simp

/-- A row of a batch with a sample that has more elements. -/
theorem getSPrimes_pad {S : Type} (kernel : S → List (S × ℂ)) (samples : List S) (numOps : ℕ)
    (hops : ∀ s ∈ samples, (kernel s).length = numOps) (k : ℕ) (hk : k < samples.length) (last : S × ℂ)
    (hlast : (kernel samples[k]).getLast? = some last)
    (hmate : ∃ b ∈ samples, ((kernel samples[k]).filter fun e => isNonzero e.2).length
      < ((kernel b).filter fun e => isNonzero e.2).length) :
    ∃ hk' : k < (getSPrimes kernel samples).length, (last.1, (0 : ℂ)) ∈ (getSPrimes kernel samples)[k] := by
  have hlen : (getSPrimes kernel samples).length = samples.length := by simp [getSPrimes]
  refine ⟨by omega, ?_⟩
  have hmem := List.getElem_mem hk
  have e : (getSPrimes kernel samples)[k]'(by omega)
      = (let row := kernel samples[k]
         let most := (((samples.map kernel).map fun r => findNonzero (r.map Prod.snd)).map
            Prod.snd).foldl max 0
         let z := findNonzero (row.map Prod.snd)
         (gatherIdx (row.map Prod.fst) (z.1.take most)).zip
          (setZeroToZero (row.map Prod.snd) (z.1.take most) z.2)) := by
    simp [getSPrimes]
  have hcount : ∀ s, (findNonzero ((kernel s).map Prod.snd)).2
      = ((kernel s).filter fun e => isNonzero e.2).length := by
    intro s
    rw [findNonzero_eq, nzPos_length]
  have hge := (foldl_max_ge ((((samples.map kernel).map fun r =>
      findNonzero (r.map Prod.snd)).map Prod.snd)) 0).2
  have hle : ∀ (l : List ℕ) (a B : ℕ), a ≤ B → (∀ x ∈ l, x ≤ B) → l.foldl max a ≤ B := by
    intro l
    induction l with
    | nil => intro a B h _; exact h
    | cons x l ih =>
      intro a B h hl
      exact ih _ _ (max_le h (hl x List.mem_cons_self))
        fun y hy => hl y (List.mem_cons_of_mem _ hy)
  have hpos : 0 < (kernel samples[k]).length := by
    rw [List.length_pos_iff]
    intro h
    rw [h] at hlast
    simp at hlast
  have hl : (kernel samples[k])[(kernel samples[k]).length - 1] = last := by
    rw [List.getLast?_eq_getElem?, List.getElem?_eq_getElem (by omega)] at hlast
    exact Option.some.inj hlast
  rw [e, ← hl]
  refine compressRow_last _ _ hpos ?_ ?_
  · obtain ⟨b, hb, hlt⟩ := hmate
    refine lt_of_lt_of_le hlt ?_
    rw [← hcount]
    apply hge
    simp only [List.map_map, List.mem_map]
    exact ⟨_, hb, rfl⟩
  · rw [hops _ hmem]
    apply hle _ _ _ (Nat.zero_le _)
    intro x hx
    simp only [List.map_map, List.mem_map, Function.comp_apply] at hx
    obtain ⟨s, hs, rfl⟩ := hx
    rw [hcount, ← hops s hs]
    exact List.length_filter_le _ _

end JVMC
