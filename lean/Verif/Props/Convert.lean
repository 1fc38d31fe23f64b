import Verif.Spec.Nested
import Verif.Props.Objects

/-!
# C182: inputs are converted without loss or rejected
-/

namespace RMT
namespace Props
open EigValsM Objects Spec

section
variable {α : Type}

mutual
theorem discover_spec : ∀ (d : PyData α) (s : List Nat) (l : List (Except PyErr α)), discover d = some (s, l) → Rectangular d s ∧ l = leaves d
  | .num x, s, l, h => by
    simp only [discover, Option.some.injEq, Prod.mk.injEq] at h
    obtain ⟨rfl, rfl⟩ := h
    exact ⟨.num x, by simp [leaves]⟩
  | .other e, s, l, h => by
    simp only [discover, Option.some.injEq, Prod.mk.injEq] at h
    obtain ⟨rfl, rfl⟩ := h
    exact ⟨.other e, by simp [leaves]⟩
  | .seq [], s, l, h => by
    simp only [discover, Option.some.injEq, Prod.mk.injEq] at h
    obtain ⟨rfl, rfl⟩ := h
    exact ⟨.empty, by simp [leaves, leavesAll]⟩
  | .seq (x :: xs), s, l, h => by
    simp only [discover] at h
    cases hx : discover x with
    | none => rw [hx] at h; cases h
    | some p =>
      obtain ⟨s0, l0⟩ := p
      rw [hx] at h
      simp only at h
      cases hr : discoverRest s0 xs with
      | none => rw [hr] at h; cases h
      | some r =>
        rw [hr] at h
        simp only [Option.some.injEq, Prod.mk.injEq] at h
        obtain ⟨rfl, rfl⟩ := h
        obtain ⟨a1, a2⟩ := discover_spec x s0 l0 hx
        obtain ⟨b1, b2⟩ := discoverRest_spec s0 xs r hr
        refine ⟨Rectangular.items (x :: xs) s0 (by simp) fun y hy => ?_, by simp [leaves, leavesAll, a2, b2]⟩
        rcases List.mem_cons.mp hy with rfl | hy
        · exact a1
        · exact b1 y hy
theorem discoverRest_spec : ∀ (s : List Nat) (xs : List (PyData α)) (l : List (Except PyErr α)), discoverRest s xs = some l →
    (∀ x ∈ xs, Rectangular x s) ∧ l = leavesAll xs
  | s, [], l, h => by
    simp only [discoverRest, Option.some.injEq] at h
    subst h
    exact ⟨by simp, by simp [leavesAll]⟩
  | s, x :: xs, l, h => by
    simp only [discoverRest] at h
    cases hx : discover x with
    | none => rw [hx] at h; cases h
    | some p =>
      obtain ⟨s0, l0⟩ := p
      rw [hx] at h
      simp only at h
      split_ifs at h with hs
      subst hs
      cases hr : discoverRest s0 xs with
      | none => rw [hr] at h; cases h
      | some r =>
        rw [hr] at h
        simp only [Option.some.injEq] at h
        obtain ⟨a1, a2⟩ := discover_spec x s0 l0 hx
        obtain ⟨b1, b2⟩ := discoverRest_spec s0 xs r hr
        refine ⟨fun y hy => ?_, by rw [← h, leavesAll, a2, b2]⟩
        rcases List.mem_cons.mp hy with rfl | hy
        · exact a1
        · exact b1 y hy
end

theorem discover_of_rectangular (d : PyData α) (s : List Nat) (h : Rectangular d s) : discover d = some (s, leaves d) := by
  induction h with
  | num x => simp [discover, leaves]
  | other e => simp [discover, leaves]
  | empty => simp [discover, leaves, leavesAll]
  | items l s hne h ih =>
    have hrest : ∀ xs : List (PyData α), (∀ x ∈ xs, discover x = some (s, leaves x)) → discoverRest s xs = some (leavesAll xs) := by
      intro xs
      induction xs with
      | nil => intro _; simp [discoverRest, leavesAll]
      | cons x xs ih2 =>
        intro hx
        have h1 := hx x (by simp)
        have h2 := ih2 fun y hy => hx y (by simp [hy])
        simp [discoverRest, h1, h2, leavesAll]
    cases l with
    | nil => exact absurd rfl hne
    | cons x xs =>
      have h1 := ih x (by simp)
      have h2 := hrest xs fun y hy => ih y (by simp [hy])
      simp [discover, h1, h2, leaves, leavesAll]

theorem rectangular_unique (d : PyData α) (s s' : List Nat) (h : Rectangular d s) (h' : Rectangular d s') : s = s' := by
  have a := discover_of_rectangular d s h
  rw [discover_of_rectangular d s' h'] at a
  simp only [Option.some.injEq, Prod.mk.injEq] at a
  exact a.1.symm

theorem convertLeaves_ok (l : List (Except PyErr α)) (v : List α) : convertLeaves l = .ok v ↔ l = v.map Except.ok := by
  induction l generalizing v with
  | nil => simp only [convertLeaves, Except.ok.injEq]; cases v <;> simp
  | cons x xs ih =>
    cases x with
    | error e => simp only [convertLeaves, bind, Except.bind]; cases v <;> simp
    | ok y =>
      simp only [convertLeaves, bind, Except.bind]
      cases h : convertLeaves xs with
      | error e =>
        simp only [reduceCtorEq, false_iff]
        cases v with
        | nil => simp
        | cons w ws =>
          simp only [List.map_cons, List.cons.injEq, not_and]
          intro _ hc
          rw [(ih ws).mpr hc] at h
          cases h
      | ok vs =>
        have hv := (ih vs).mp h
        simp only [Except.ok.injEq, hv]
        cases v with
        | nil => simp
        | cons w ws =>
          simp only [List.map_cons, List.cons.injEq, Except.ok.injEq]
          refine and_congr_right fun _ => ⟨fun h => by rw [h], fun h => ?_⟩
          exact List.map_injective_iff.mpr (fun a b h => by cases h; rfl) h

/-- The conversion succeeds exactly on rectangular nested sequences (at most 32 deep) of numbers, and gives their shape and their numbers in order. -/
theorem npArray_ok (d : PyData α) (a : NDArr α) : npArray d = .ok a ↔ Rectangular d a.shape ∧ a.shape.length ≤ 32 ∧ leaves d = a.data.map Except.ok := by
  unfold npArray
  constructor
  · intro h
    cases hd : discover d with
    | none => rw [hd] at h; cases h
    | some p =>
      obtain ⟨s, l⟩ := p
      rw [hd] at h
      simp only at h
      split_ifs at h with hs
      cases hc : convertLeaves l with
      | error e => rw [hc] at h; cases h
      | ok v =>
        rw [hc] at h
        simp only [bind, Except.bind, Except.ok.injEq] at h
        subst h
        obtain ⟨h1, h2⟩ := discover_spec d s l hd
        exact ⟨h1, not_lt.mp hs, by rw [← h2]; exact (convertLeaves_ok l v).mp hc⟩
  · rintro ⟨h1, h2, h3⟩
    rw [discover_of_rectangular d _ h1]
    simp only [if_neg (not_lt.mpr h2), (convertLeaves_ok _ a.data).mpr h3, bind, Except.bind]

theorem leaves_length (d : PyData α) (s : List Nat) (h : Rectangular d s) : (leaves d).length = s.prod := by
  induction h with
  | num x => simp [leaves]
  | other e => simp [leaves]
  | empty => simp [leaves, leavesAll]
  | items l s hne h ih =>
    have : ∀ xs : List (PyData α), (∀ x ∈ xs, (leaves x).length = s.prod) → (leavesAll xs).length = xs.length * s.prod := by
      intro xs
      induction xs with
      | nil => intro _; simp [leavesAll]
      | cons x xs ih2 =>
        intro hx
        have h1 := hx x (by simp)
        have h2 := ih2 fun y hy => hx y (by simp [hy])
        simp only [leavesAll, List.length_append, h1, h2, List.length_cons]
        ring
    simp only [leaves, List.prod_cons]
    exact this l ih

/-- **C182 (curves).** For every nested Python sequence: `make_1d_array` (through which every curve of a comparison goes) returns an array exactly when the sequence is rectangular, has only numbers as leaves, is at most 32 levels deep and its number of leaves
is its length; the array then consists of the leaves, in order. Everything else is a `ValueError`, except a bare number, which is a `TypeError`. -/
theorem C182_curves (d : PyData α) :
    (∀ v, make1dOf d = .ok v ↔ ∃ m s, Rectangular d (m :: s) ∧ (m :: s).length ≤ 32 ∧ m * s.prod = m ∧ leaves d = v.map Except.ok) ∧
    (∀ e, make1dOf d = .error e → e = .valueError ∨ (e = .typeError ∧ ∃ x, d = .num x)) := by
  constructor
  · intro v
    unfold make1dOf
    constructor
    · intro h
      cases hn : npArray d with
      | error e => rw [hn] at h; cases h
      | ok a =>
        rw [hn] at h
        obtain ⟨h1, h2, h3⟩ := (npArray_ok d a).mp hn
        obtain ⟨shape, data⟩ := a
        simp only at h1 h2 h3 h
        unfold make1dArray at h
        cases shape with
        | nil => cases h
        | cons m s =>
          simp only at h
          split_ifs at h with hl
          simp only [Except.ok.injEq] at h
          subst h
          refine ⟨m, s, h1, h2, ?_, h3⟩
          have := leaves_length d _ h1
          rw [h3, List.length_map, List.prod_cons] at this
          push Not at hl
          omega
    · rintro ⟨m, s, h1, h2, h3, h4⟩
      have hn : npArray d = .ok ⟨m :: s, v⟩ := (npArray_ok d ⟨m :: s, v⟩).mpr ⟨h1, h2, h4⟩
      rw [hn]
      have := leaves_length d _ h1
      rw [h4, List.length_map, List.prod_cons] at this
      simp only [make1dArray, this, h3, ne_eq, not_true_eq_false, if_false]
  · intro e h
    unfold make1dOf at h
    cases hn : npArray d with
    | error e' =>
      rw [hn] at h
      cases h
      exact Or.inl rfl
    | ok a =>
      rw [hn] at h
      obtain ⟨h1, h2, h3⟩ := (npArray_ok d a).mp hn
      obtain ⟨shape, data⟩ := a
      simp only at h1 h2 h3 h
      unfold make1dArray at h
      cases shape with
      | nil =>
        simp only [Except.error.injEq] at h
        right
        refine ⟨h.symm, ?_⟩
        cases h1 with
        | num x => exact ⟨x, rfl⟩
        | other e' =>
          simp only [leaves] at h3
          cases data <;> simp at h3
      | cons m s =>
        simp only at h
        split_ifs at h with hl
        simp only [Except.error.injEq] at h
        exact Or.inl h.symm

variable [LinearOrder α]

/-- **C182 (smoothers).** `Smoother(values)` accepts exactly the nested sequences which `make_1d_array` accepts, raises the same exceptions, and keeps the same numbers in ascending order. -/
theorem C182_smoother (d : PyData α) :
    (∀ v, make1dOf d = .ok v → ∃ k, smootherOf d = .ok k ∧ k.Perm v ∧ Ascending k) ∧
    (∀ e, make1dOf d = .error e → smootherOf d = .error e) := by
  unfold make1dOf smootherOf
  cases hn : npArray d with
  | error e => exact ⟨fun v h => (by cases h), fun e h => h⟩
  | ok a =>
    obtain ⟨shape, data⟩ := a
    cases shape with
    | nil => exact ⟨fun v h => (by cases h), fun e h => by simpa [make1dArray, initSmoother] using h⟩
    | cons m s =>
      simp only [make1dArray, initSmoother]
      by_cases hl : data.length = m
      · refine ⟨fun v h => ?_, fun e h => ?_⟩
        · rw [if_neg (by simpa using hl)] at h
          cases h
          exact ⟨_, by rw [if_neg (by simpa using hl.symm)], npSort_perm _, npSort_ascending _⟩
        · rw [if_neg (by simpa using hl)] at h
          cases h
      · refine ⟨fun v h => ?_, fun e h => ?_⟩
        · rw [if_pos hl] at h; cases h
        · rw [if_pos hl] at h
          rw [if_pos (fun hc => hl hc.symm)]
          exact h

/-- **C182 (eigenvalues).** For every nested sequence passed to the constructor of an eigenvalue object: a flat sequence of numbers is accepted and the object holds exactly those numbers, ascending; a ragged sequence, or one nested three
deep or more, is a `ValueError` whatever it contains (unless an element cannot be converted, whose exception is raised); a bare number is a `TypeError`; and two sequences of the same shape with the same numbers in the same order cannot be told apart. -/
theorem C182_eigenvalues (isSymm : NDArr α → Bool) (eigvalsh eigvals : NDArr α → Py (List α)) :
    (∀ l : List α, ∃ o, eigValsOf isSymm eigvalsh eigvals (.seq (l.map PyData.num)) = .ok o ∧ o.vals.Perm l ∧ Ascending o.vals) ∧
    (∀ d, (∀ s, ¬ Rectangular d s) → eigValsOf isSymm eigvalsh eigvals d = .error .valueError) ∧
    (∀ (d : PyData α) (s : List Nat) (v : List α), Rectangular d s → 3 ≤ s.length → leaves d = v.map Except.ok → eigValsOf isSymm eigvalsh eigvals d = .error .valueError) ∧
    (∀ (d : PyData α) (s : List Nat) (pre : List α) (e : PyErr) (post : List (Except PyErr α)), Rectangular d s → s.length ≤ 32 → leaves d = pre.map Except.ok ++ Except.error e :: post → eigValsOf isSymm eigvalsh eigvals d = .error e) ∧
    (∀ x, eigValsOf isSymm eigvalsh eigvals (.num x) = .error .typeError) ∧
    (∀ d d' s, Rectangular d s → Rectangular d' s → leaves d = leaves d' → eigValsOf isSymm eigvalsh eigvals d = eigValsOf isSymm eigvalsh eigvals d') := by
  refine ⟨fun l => ?_, fun d hd => ?_, fun d s v hs h3 hv => ?_, fun d s pre e post hs hl h => ?_, fun x => ?_, fun d d' s h h' he => ?_⟩
  · have hleaves : ∀ l : List α, leavesAll (l.map PyData.num) = l.map Except.ok := by
      intro l
      induction l with
      | nil => simp [leavesAll]
      | cons x xs ih => simp [leavesAll, leaves, ih]
    have hrect : Rectangular (.seq (l.map PyData.num)) [l.length] := by
      cases l with
      | nil => exact .empty
      | cons x xs =>
        have := Rectangular.items ((x :: xs).map PyData.num) [] (by simp) (by
          intro y hy
          obtain ⟨z, -, rfl⟩ := List.mem_map.mp hy
          exact .num z)
        rwa [List.length_map] at this
    have hn := (npArray_ok (.seq (l.map PyData.num)) ⟨[l.length], l⟩).mpr ⟨hrect, by simp, by rw [leaves]; exact hleaves l⟩
    refine ⟨⟨npSort l, npSort (npSort l), none⟩, ?_, ?_, npSort_ascending _⟩
    · simp [eigValsOf, hn, initEigVals, make1dArray, bind, Except.bind]
    · exact (npSort_perm _).trans (npSort_perm _)
  · unfold eigValsOf
    have : npArray d = .error .valueError := by
      unfold npArray
      cases hd' : discover d with
      | none => rfl
      | some p => exact absurd (discover_spec d p.1 p.2 hd').1 (hd p.1)
    rw [this]
  · unfold eigValsOf
    by_cases h32 : s.length ≤ 32
    · rw [(npArray_ok d ⟨s, v⟩).mpr ⟨hs, h32, hv⟩]
      simp only [initEigVals]
      rw [if_pos (by omega)]
    · have : npArray d = .error .valueError := by
        simp only [npArray, discover_of_rectangular d s hs, if_pos (not_le.mp h32)]
      rw [this]
  · have hc : convertLeaves (pre.map Except.ok ++ Except.error e :: post) = .error e := by
      induction pre generalizing d with
      | nil => simp [convertLeaves, bind, Except.bind]
      | cons x xs ih =>
        have : convertLeaves (xs.map Except.ok ++ Except.error e :: post) = .error e := by
          clear ih h
          induction xs with
          | nil => simp [convertLeaves, bind, Except.bind]
          | cons y ys ih => simp only [List.map_cons, List.cons_append, convertLeaves, bind, Except.bind, ih]
        simp only [List.map_cons, List.cons_append, convertLeaves, bind, Except.bind, this]
    have : npArray d = .error e := by
      simp only [npArray, discover_of_rectangular d s hs, if_neg (not_lt.mpr hl), h, hc, bind, Except.bind]
    simp only [eigValsOf, this]
  · simp [eigValsOf, npArray, discover, convertLeaves, initEigVals, make1dArray, bind, Except.bind]
  · simp only [eigValsOf, npArray, discover_of_rectangular d s h, discover_of_rectangular d' s h', he]

end

-- C182: a column of numbers is accepted as a curve, a 2 x 2 table and a ragged list are not, and neither is a list with a word in it
example : make1dOf (.seq [.seq [.num (1 : ℚ)], .seq [.num 3], .seq [.num 2]]) = .ok [1, 3, 2] ∧
    make1dOf (.seq [.seq [.num (1 : ℚ), .num 2], .seq [.num 3, .num 4]]) = .error .valueError ∧
    make1dOf (.seq [.seq [.num (1 : ℚ), .num 2], .seq [.num 3]]) = .error .valueError ∧
    make1dOf (.seq [.num (1 : ℚ), .other .typeError]) = .error .valueError := by
  refine ⟨?_, ?_, ?_, ?_⟩ <;>
    simp [make1dOf, npArray, discover, discoverRest, convertLeaves, make1dArray, bind, Except.bind]

example : Rectangular (.seq [.seq [.num (1 : ℚ)], .seq [.num 3]]) [2, 1] :=
  .items [.seq [.num 1], .seq [.num 3]] [1] (by simp) (by
    intro x hx
    rcases List.mem_cons.mp hx with rfl | hx
    · exact .items [.num 1] [] (by simp) (by simpa using .num 1)
    · rw [List.mem_singleton.mp hx]; exact .items [.num 3] [] (by simp) (by simpa using .num 3))

-- and a sequence which is not rectangular
example : ∀ s, ¬ Rectangular (.seq [.num (1 : ℚ), .seq []]) s := by
  intro s h
  have := discover_of_rectangular _ _ h
  simp [discover, discoverRest] at this

end Props
end RMT
