import Verif.Props.Vqs

/-! # Property C63: which parameter vectors are accepted -/

namespace JVMC

theorem unflattenReal_iff (sizes : List ℕ) (start : ℕ) (v : List ℝ) (hs : start ≤ v.length) :
    (∃ l, unflattenReal sizes start v = .ok l) ↔ start + sizes.sum ≤ v.length := by
  constructor
  · rintro ⟨l, hl⟩
    by_contra hc
    rw [unflattenReal_short sizes start v (by omega) hs] at hl
    cases hl
  · intro h
    induction sizes generalizing start with
    | nil => exact ⟨_, rfl⟩
    | cons n ns ih =>
      rw [List.sum_cons] at h
      obtain ⟨l, hl⟩ := ih (start + n) (by omega) (by omega)
      have hn : (pySlice v start (start + n)).length = n := by
        unfold pySlice; rw [List.length_take, List.length_drop]; omega
      exact ⟨_, by simp only [unflattenReal]; rw [reshapeTo, if_pos hn, hl]; rfl⟩

theorem pySlice_length {A : Type} (v : List A) (a b : ℕ) : (pySlice v a b).length = min (b - a) (v.length - a) := by
  unfold pySlice; rw [List.length_take, List.length_drop]

/-- One leaf of a complex network: both slices are complete, or the second holds a single number. -/
theorem leaf_iff (n start : ℕ) (hn : 0 < n) (v : List ℝ) :
    (∃ z, addImag (pySlice v start (start + n)) (pySlice v (start + n) (start + 2 * n)) = .ok z ∧ z.length = n) ↔
      start + 2 * n ≤ v.length ∨ v.length = start + n + 1 := by
  have h1 : (pySlice v start (start + n)).length = min n (v.length - start) := by
    rw [pySlice_length]; congr 1; omega
  have h2 : (pySlice v (start + n) (start + 2 * n)).length = min n (v.length - (start + n)) := by
    rw [pySlice_length]; congr 1; omega
  generalize pySlice v start (start + n) = x at *
  generalize pySlice v (start + n) (start + 2 * n) = y at *
  unfold addImag
  constructor
  · rintro ⟨z, hz, hl⟩
    split_ifs at hz with c1 c2 c3
    · obtain rfl := Except.ok.inj hz
      rw [List.length_zipWith] at hl
      omega
    · obtain rfl := Except.ok.inj hz
      rw [List.length_map] at hl
      omega
    · obtain rfl := Except.ok.inj hz
      rw [List.length_map] at hl
      omega
  · intro h
    by_cases c1 : x.length = y.length
    · rw [if_pos c1]
      refine ⟨_, rfl, ?_⟩
      rw [List.length_zipWith]
      omega
    · have c3 : y.length = 1 := by omega
      have c2 : x.length ≠ 1 := by omega
      rw [if_neg c1, if_neg c2, if_pos c3]
      refine ⟨_, rfl, ?_⟩
      rw [List.length_map]
      omega

theorem unflattenCpx_iff (sizes : List ℕ) (hpos : ∀ n ∈ sizes, 0 < n) (start : ℕ) (v : List ℝ) :
    (∃ l, unflattenCpx sizes start v = .ok l) ↔
      sizes = [] ∨ start + 2 * sizes.sum ≤ v.length ∨ ∃ n, sizes.getLast? = some n ∧
        v.length + n = start + 2 * sizes.sum + 1 := by
  induction sizes generalizing start with
  | nil => exact ⟨fun _ => .inl rfl, fun _ => ⟨_, rfl⟩⟩
  | cons n ns ih =>
    have hn := hpos n List.mem_cons_self
    have ih := ih (fun m hm => hpos m (List.mem_cons_of_mem _ hm)) (start + 2 * n)
    have hl := leaf_iff n start hn v
    have key : (∃ l, unflattenCpx (n :: ns) start v = .ok l) ↔
        (∃ z, addImag (pySlice v start (start + n)) (pySlice v (start + n) (start + 2 * n)) = .ok z ∧ z.length = n) ∧
        ∃ l, unflattenCpx ns (start + 2 * n) v = .ok l := by
      simp only [unflattenCpx]
      cases addImag (pySlice v start (start + n)) (pySlice v (start + n) (start + 2 * n)) with
      | error e =>
        constructor
        · rintro ⟨l, hl⟩; cases hl
        · rintro ⟨⟨z, hz, _⟩, _⟩; cases hz
      | ok z =>
        change (∃ l, Except.bind (reshapeTo n z) _ = _) ↔ _
        unfold reshapeTo
        by_cases hz : z.length = n
        · rw [if_pos hz]
          change (∃ l, Except.bind (unflattenCpx ns (start + 2 * n) v) _ = _) ↔ _
          cases unflattenCpx ns (start + 2 * n) v with
          | error e =>
            constructor
            · rintro ⟨l, hl⟩; cases hl
            · rintro ⟨_, l, hl⟩; cases hl
          | ok l => exact ⟨fun _ => ⟨⟨z, rfl, hz⟩, l, rfl⟩, fun _ => ⟨_, rfl⟩⟩
        · rw [if_neg hz]
          constructor
          · rintro ⟨l, hl⟩; cases hl
          · rintro ⟨⟨z', hz', h⟩, _⟩
            cases hz'
            exact absurd h hz
    rw [key, hl, ih]
    cases ns with
    | nil =>
      simp only [List.sum_cons, List.sum_nil, List.getLast?_singleton, Option.some.injEq, true_or, and_true,
        List.cons_ne_nil, false_or, exists_eq_left']
      constructor
      · rintro (h | h)
        · left; omega
        · right; omega
      · rintro (h | h)
        · left; omega
        · right; omega
    | cons m ms =>
      have hsum : m + ms.sum = (m :: ms).sum := by rw [List.sum_cons]
      have hlast : ∀ k, (m :: ms).getLast? = some k → k ≤ (m :: ms).sum ∧ 0 < k := by
        intro k hk
        have hmem := List.mem_of_getLast? hk
        exact ⟨List.single_le_sum (by simp) k hmem, hpos k (List.mem_cons_of_mem _ hmem)⟩
      rw [List.getLast?_cons_cons]
      simp only [List.cons_ne_nil, false_or]
      rw [List.sum_cons (a := n)]
      constructor
      · rintro ⟨_, h | ⟨k, hk, h⟩⟩
        · left; omega
        · right; exact ⟨k, hk, by omega⟩
      · rintro (h | ⟨k, hk, h⟩)
        · exact ⟨.inl (by omega), .inl (by omega)⟩
        · obtain ⟨h1, h2⟩ := hlast k hk
          exact ⟨.inl (by omega), .inr ⟨k, hk, by omega⟩⟩

/-- **C63**, which vectors are accepted, exactly: after every history that initialised the network,
`set_parameters` accepts a vector for a real network if and only if it has at least as many entries as there are
parameters; for a complex network, if and only if it has at least two entries per parameter, or lacks all but one of the
imaginary parts of the last array. Whatever is not accepted raises an exception and changes nothing
(`c63_failure_is_atomic`). -/
theorem c63_accepted_iff (p₀ : Params) (hne : p₀.sizes ≠ []) (hpos : ∀ n ∈ p₀.sizes, 0 < n) (ops : List NqsOp)
    (hops : ∀ op ∈ ops, op.Fits p₀) (hinit : nqsRun p₀ ops ≠ none) (v : List ℝ) :
    ((setParameters (.vec v)).call (nqsRun p₀ ops)).1 = .ok () ↔
      if p₀.isReal then p₀.sizes.sum ≤ v.length
      else 2 * p₀.sizes.sum ≤ v.length ∨ v.length + p₀.sizes.getLast hne = 2 * p₀.sizes.sum + 1 := by
  cases hst : nqsRun p₀ ops with
  | none => exact absurd hst hinit
  | some st =>
    obtain ⟨hw1, hw2, -, -⟩ := wf_run p₀ ops hops st hst
    rw [call_setVec, hw1, hw2]
    have key : ((match paramUnflatten p₀.isReal p₀.sizes v with
        | .error e => (.error e, some st)
        | .ok p => (.ok (), some { realParams := p₀.isReal, sizes := p₀.sizes, params := p }) : Except PyErr Unit × NqsState)).1 = .ok () ↔
        ∃ p, paramUnflatten p₀.isReal p₀.sizes v = .ok p := by
      cases paramUnflatten p₀.isReal p₀.sizes v with
      | error e =>
        constructor
        · intro h; cases h
        · rintro ⟨p, hp⟩; cases hp
      | ok p => exact ⟨fun _ => ⟨p, rfl⟩, fun _ => rfl⟩
    refine Iff.trans key ?_
    unfold paramUnflatten
    cases hr : p₀.isReal with
    | true =>
      simp only [if_true]
      have h := unflattenReal_iff p₀.sizes 0 v (by omega)
      rw [zero_add] at h
      rw [← h]
      constructor
      · rintro ⟨p, hp⟩
        cases hu : unflattenReal p₀.sizes 0 v with
        | error e => rw [hu] at hp; cases hp
        | ok l => exact ⟨l, rfl⟩
      · rintro ⟨l, hl⟩
        exact ⟨.real l, by rw [hl]; rfl⟩
    | false =>
      simp only [Bool.false_eq_true, if_false]
      have h := unflattenCpx_iff p₀.sizes hpos 0 v
      rw [zero_add, List.getLast?_eq_some_getLast hne] at h
      simp only [Option.some.injEq, exists_eq_left', hne, false_or] at h
      rw [← h]
      constructor
      · rintro ⟨p, hp⟩
        cases hu : unflattenCpx p₀.sizes 0 v with
        | error e => rw [hu] at hp; cases hp
        | ok l => exact ⟨l, rfl⟩
      · rintro ⟨l, hl⟩
        exact ⟨.cpx l, by rw [hl]; rfl⟩

/-- Case: a complex network with arrays of two and three entries. Vectors of length 8 and of length 10 or more are
accepted, 9 is not. -/
example : ((setParameters (.vec [0, 0, 0, 0, 0, 0, 0, 7])).call
      (nqsRun (.cpx [[1, 2], [3, 4, 5]]) [.eval])).1 = .ok () ∧
    ((setParameters (.vec [0, 0, 0, 0, 0, 0, 0, 7, 7])).call
      (nqsRun (.cpx [[1, 2], [3, 4, 5]]) [.eval])).1 ≠ .ok () := by
  have h := c63_accepted_iff (.cpx [[1, 2], [3, 4, 5]]) (by simp [Params.sizes]) (by simp [Params.sizes]) [.eval]
    (by simp [NqsOp.Fits]) (by intro h; cases h)
  constructor
  · rw [h]; simp [Params.isReal, Params.sizes]
  · rw [Ne, h]; simp [Params.isReal, Params.sizes]

end JVMC
