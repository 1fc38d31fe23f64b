import Verif.Lemmas.Memory
import Verif.Lemmas.Sort
import Verif.Props.Step

/-!
# Properties C37, C38: storage and the cache of the step function, over all histories

A history is an arbitrary list of operations of a client: creating arrays, constructing objects, trimming, unfolding, reading attributes,
writing into arrays.
-/

set_option linter.unusedSectionVars false

namespace RMT
namespace Props
open Memory Step EigValsM

variable {α : Type} [LinearOrder α]

theorem read_step (s : St α) (hi : Inv s) (op : Op α) (r : Ref) (hr : (s.addr r).isSome)
    (hw : ∀ i v, op ≠ .write r i v) : (s.step op).read r = s.read r ∧ ((s.step op).addr r).isSome := by
  have halloc : ∀ l l', (s.alloc l l').read r = s.read r ∧ ((s.alloc l l').addr r).isSome := by
    intro l l'
    refine ⟨read_alloc s hi l l' r hr, ?_⟩
    rw [addr_alloc]
    split_ifs
    · rfl
    · rfl
    · exact hr
  obtain ⟨a, ha⟩ := Option.isSome_iff_exists.mp hr
  cases op with
  | newArray l =>
    have hv := hi.valid r a ha
    have : (s.step (.newArray l)).addr r = s.addr r := by
      cases r with
      | mine k =>
        simp only [St.addr] at ha
        have hk : k < s.caller.length := (List.getElem?_eq_some_iff.mp ha).1
        simp only [St.addr, St.step]
        rw [List.getElem?_append_left hk]
      | values o => rfl
      | originals o => rfl
    refine ⟨?_, by rw [this]; exact hr⟩
    simp only [St.read, this, ha]
    simp only [St.step]
    rw [List.getElem?_append_left hv]
  | construct r' =>
    simp only [St.step]
    split
    · exact ⟨rfl, hr⟩
    · exact halloc _ _
  | constructUnfolded r1 r2 =>
    simp only [St.step]
    split
    · exact halloc _ _
    · exact ⟨rfl, hr⟩
  | trimManually o x y =>
    simp only [St.step]
    split
    · exact ⟨rfl, hr⟩
    · exact halloc _ _
  | unfold o u =>
    simp only [St.step]
    split
    · exact ⟨rfl, hr⟩
    · exact halloc _ _
  | readSteps o =>
    simp only [St.step]
    split
    · exact ⟨rfl, hr⟩
    · rename_i ob hob
      split
      · exact ⟨rfl, hr⟩
      · split
        · exact ⟨rfl, hr⟩
        · split
          · exact ⟨rfl, hr⟩
          · rename_i hst l hl st hss
            have ho : o < s.objs.length := (List.getElem?_eq_some_iff.mp hob).1
            have haddr : ({ s with ints := s.ints ++ [st]
                                   objs := s.objs.set o { ob with steps := some s.ints.length } } : St α).addr r = s.addr r := by
              cases r with
              | mine k => rfl
              | values o' =>
                simp only [St.addr]
                by_cases he : o = o'
                · subst he; rw [List.getElem?_set_self ho, hob]; rfl
                · rw [List.getElem?_set_ne he]
              | originals o' =>
                simp only [St.addr]
                by_cases he : o = o'
                · subst he; rw [List.getElem?_set_self ho, hob]; rfl
                · rw [List.getElem?_set_ne he]
            refine ⟨?_, by rw [haddr]; exact hr⟩
            simp only [St.read, haddr]
  | write r' i v =>
    have hne : r' ≠ r := by
      rintro rfl
      exact hw i v rfl
    simp only [St.step]
    split
    · exact ⟨rfl, hr⟩
    · rename_i a' ha'
      split
      · exact ⟨rfl, hr⟩
      · refine ⟨?_, hr⟩
        have hs : ∀ fl, (({ s with floats := fl } : St α).addr r) = some a := fun _ => ha
        simp only [St.read, hs]
        refine List.getElem?_set_ne ?_
        intro he
        subst he
        exact hne (hi.inj _ _ _ ha' ha)
  | writeSteps o i v =>
    simp only [St.step]
    split
    · exact ⟨rfl, hr⟩
    · split
      · exact ⟨rfl, hr⟩
      · exact ⟨rfl, hr⟩

/-- **C37 (write).** After any history, a write through a reference - an array of the caller, or the array returned by `values` or `original_values` of an
object - changes the contents of no other reference that existed: not of another object, not of a
caller's array, not of the other attribute of the same object. -/
theorem C37_write (ops : List (Op α)) (r r' : Ref) (i : Nat) (v : α) (hne : r' ≠ r)
    (hr : ((run ops).addr r').isSome) :
    (run (ops ++ [.write r i v])).read r' = (run ops).read r' := by
  rw [run_append]
  exact (read_step _ (inv_run ops) _ r' hr (fun i v h => hne (by cases h; rfl))).1

/-- **C37 (operations).** No construction, trim, unfolding, attribute read or write through another reference ever changes the contents of a
reference: over any continuation of a history, the array stays as it is until it is written through that
reference itself. -/
theorem C37_history (ops post : List (Op α)) (r : Ref) (hr : ((run ops).addr r).isSome)
    (hw : ∀ op ∈ post, ∀ i v, op ≠ .write r i v) :
    (run (ops ++ post)).read r = (run ops).read r := by
  have key : ∀ (post : List (Op α)) (s : St α), Inv s → (s.addr r).isSome →
      (∀ op ∈ post, ∀ i v, op ≠ .write r i v) → (post.foldl St.step s).read r = s.read r := by
    intro post
    induction post with
    | nil => intro s _ _ _; rfl
    | cons op post ih =>
      intro s hi hr hw
      obtain ⟨h1, h2⟩ := read_step s hi op r hr (hw op (by simp))
      rw [List.foldl_cons, ih _ (inv_step s hi op) h2 (fun op' h' => hw op' (by simp [h'])), h1]
  have := key post (run ops) (inv_run ops) hr hw
  rw [← this]
  simp [run]

/-- **C37 (construction).** `Eigenvalues(arr)` and `Trimmed(arr)` always create an object whose values and original values are the sorted contents of `arr` at that
time. -/
theorem C37_construct (ops : List (Op α)) (r : Ref) (l : List α) (h : (run ops).read r = some l) :
    let o := (run ops).objs.length
    (run (ops ++ [.construct r])).read (.values o) = some (npSort l) ∧
    (run (ops ++ [.construct r])).read (.originals o) = some (npSort l) := by
  simp only [run_append, St.step, h]
  have e1 := addr_alloc (run ops) (npSort l) (npSort l) (.values (run ops).objs.length)
  have e2 := addr_alloc (run ops) (npSort l) (npSort l) (.originals (run ops).objs.length)
  simp at e1 e2
  constructor
  · simp only [St.read, e1]
    simp [St.alloc]
  · simp only [St.read, e2]
    simp [St.alloc]

/-- **C37 (trimming).** `trim_manually` creates an object with the slice of the current values. -/
theorem C37_trim (ops : List (Op α)) (o : Nat) (a b : Int) (l : List α)
    (h : (run ops).read (.values o) = some l) :
    (run (ops ++ [.trimManually o a b])).read (.values (run ops).objs.length) = some (npSort (pySlice l a b)) := by
  simp only [run_append, St.step, h]
  have e1 := addr_alloc (run ops) (npSort (pySlice l a b)) (npSort (pySlice l a b)) (.values (run ops).objs.length)
  simp at e1
  simp only [St.read, e1]
  simp [St.alloc]

/-- **C37 (unfolding).** `Unfolded(originals, unfolded)` creates an object whose original values are the sorted contents of the first array and whose values are the contents of the second (in the given order); `obj.unfold(...)` one whose original values are the
current values of `obj`, sorted, and whose values are the smoothed ones. -/
theorem C37_unfold (ops : List (Op α)) :
    (∀ (r1 r2 : Ref) (l1 l2 : List α), (run ops).read r1 = some l1 → (run ops).read r2 = some l2 →
      (run (ops ++ [.constructUnfolded r1 r2])).read (.values (run ops).objs.length) = some l2 ∧
      ∃ l, (run (ops ++ [.constructUnfolded r1 r2])).read (.originals (run ops).objs.length) = some l ∧ l.Perm l1 ∧ Spec.Ascending l) ∧
    (∀ (o : Nat) (u l : List α), (run ops).read (.values o) = some l →
      (run (ops ++ [.unfold o u])).read (.values (run ops).objs.length) = some u ∧
      ∃ l', (run (ops ++ [.unfold o u])).read (.originals (run ops).objs.length) = some l' ∧ l'.Perm l ∧ Spec.Ascending l') := by
  constructor
  · intro r1 r2 l1 l2 h1 h2
    simp only [run_append, St.step, h1, h2]
    have e1 := addr_alloc (run ops) (npSort l1) l2 (.values (run ops).objs.length)
    have e2 := addr_alloc (run ops) (npSort l1) l2 (.originals (run ops).objs.length)
    simp at e1 e2
    simp only [St.read, e1, e2]
    exact ⟨by simp [St.alloc], npSort l1, by simp [St.alloc], npSort_perm _, npSort_ascending _⟩
  · intro o u l h1
    simp only [run_append, St.step, h1]
    have e1 := addr_alloc (run ops) (npSort l) u (.values (run ops).objs.length)
    have e2 := addr_alloc (run ops) (npSort l) u (.originals (run ops).objs.length)
    simp at e1 e2
    simp only [St.read, e1, e2]
    exact ⟨by simp [St.alloc], npSort l, by simp [St.alloc], npSort_perm _, npSort_ascending _⟩

/-- **C37 (effect of a write).** `arr[i] = v` through a reference changes entry `i` of the array it denotes to `v` and no other entry. -/
theorem C37_write_effect (ops : List (Op α)) (r : Ref) (i : Nat) (v : α) (l : List α) (h : (run ops).read r = some l) (hi : i < l.length) :
    ∃ l', (run (ops ++ [.write r i v])).read r = some l' ∧ l'.length = l.length ∧ l'[i]? = some v ∧ ∀ j ≠ i, l'[j]? = l[j]? := by
  rcases ha : (run ops).addr r with _ | a
  · simp [St.read, ha] at h
  have hf : (run ops).floats[a]? = some l := by simpa [St.read, ha] using h
  have hlt : a < (run ops).floats.length := by
    by_contra hc
    rw [List.getElem?_eq_none (by omega)] at hf
    cases hf
  refine ⟨l.set i v, ?_, by simp, by simp [hi], fun j hj => by rw [List.getElem?_set_ne (Ne.symm hj)]⟩
  rw [run_append]
  simp only [St.step, ha, hf]
  have haddr : St.addr { run ops with floats := (run ops).floats.set a (l.set i v) } r = (run ops).addr r := by
    cases r <;> rfl
  simp only [St.read, haddr, ha]
  simp [hlt]

/-- **C37 (steps).** A write through an array other than the object's values never changes what its `steps` returns; neither does a
write into the steps array of another object. -/
theorem C37_steps (ops : List (Op α)) (o : Nat) (ho : o < (run ops).objs.length) :
    (∀ r i v, r ≠ .values o → (run (ops ++ [.write r i v])).stepsOf o = (run ops).stepsOf o) ∧
    (∀ o' i v, o' ≠ o → (run (ops ++ [.writeSteps o' i v])).stepsOf o = (run ops).stepsOf o) := by
  have hi := inv_run ops
  obtain ⟨ob, hob⟩ : ∃ ob, (run ops).objs[o]? = some ob := ⟨_, List.getElem?_eq_getElem ho⟩
  constructor
  · intro r i v hne
    rw [run_append]
    simp only [St.step]
    split
    · rfl
    · rename_i a ha
      split
      · rfl
      · have hav : a ≠ ob.vals := by
          intro he
          have : (run ops).addr (.values o) = some a := by simp [St.addr, hob, he]
          exact hne (hi.inj _ _ _ ha this)
        simp only [St.stepsOf, hob]
        split
        · rfl
        · rw [List.getElem?_set_ne hav]
  · intro o' i v hne
    rw [run_append]
    simp only [St.step]
    split
    · rfl
    · rename_i a ha
      split
      · rfl
      · simp only [St.stepsOf, hob]
        split
        · rename_i a' ha'
          have : a ≠ a' := by
            intro he
            subst he
            have h2 : (run ops).stepsAddr o = some a := by simp [St.stepsAddr, hob, ha']
            exact hne (hi.injS _ _ _ ha h2)
          rw [List.getElem?_set_ne this]
        · rfl

/-! ## C38 -/

/-- The object exists and its `steps` is the step function of its current values. -/
def StepsCurrent (s : St α) (o : Nat) : Prop :=
  ∃ l, s.read (.values o) = some l ∧ s.stepsOf o = some (stepFunctionFast l l)

/-- Operations that can make the cached steps of object `o` stale: writing into its values or into its steps array. -/
def Touches (o : Nat) (op : Op α) : Prop :=
  (∃ i v, op = .write (.values o) i v) ∨ (∃ i v, op = .writeSteps o i v)

theorem objs_alloc_lt (s : St α) (l l' : List α) (o : Nat) (ho : o < s.objs.length) :
    (s.alloc l l').objs[o]? = s.objs[o]? := by
  simp only [St.alloc]
  rw [List.getElem?_append_left ho]

theorem stepsOf_alloc (s : St α) (hi : Inv s) (l l' : List α) (o : Nat) (ho : o < s.objs.length) :
    (s.alloc l l').stepsOf o = s.stepsOf o := by
  obtain ⟨ob, hob⟩ : ∃ ob, s.objs[o]? = some ob := ⟨_, List.getElem?_eq_getElem ho⟩
  have hv : ob.vals < s.floats.length := hi.valid (.values o) _ (by simp [St.addr, hob])
  simp only [St.stepsOf, objs_alloc_lt s l l' o ho, hob]
  split
  · rfl
  · simp only [St.alloc]
    rw [List.getElem?_append_left hv]

theorem stepsCurrent_step (s : St α) (hi : Inv s) (o : Nat) (h : StepsCurrent s o) (op : Op α)
    (hop : ¬ Touches o op) : StepsCurrent (s.step op) o := by
  obtain ⟨l, hl, hst⟩ := h
  have hsome : (s.addr (.values o)).isSome := by
    rcases hc : s.addr (.values o) with _ | a
    · simp [St.read, hc] at hl
    · rfl
  have ho : o < s.objs.length := by
    by_contra hc
    simp [St.addr, List.getElem?_eq_none (Nat.le_of_not_lt hc)] at hsome
  have hread := (read_step s hi op (.values o) hsome (fun i v he => hop (Or.inl ⟨i, v, he⟩))).1
  refine ⟨l, by rw [hread, hl], ?_⟩
  rw [← hst]
  obtain ⟨ob, hob⟩ : ∃ ob, s.objs[o]? = some ob := ⟨_, List.getElem?_eq_getElem ho⟩
  have hv : ob.vals < s.floats.length := hi.valid (.values o) _ (by simp [St.addr, hob])
  cases op with
  | newArray x =>
    simp only [St.step, St.stepsOf, hob]
    split
    · rfl
    · rw [List.getElem?_append_left hv]
  | construct r =>
    simp only [St.step]
    split
    · rfl
    · exact stepsOf_alloc s hi _ _ o ho
  | constructUnfolded r1 r2 =>
    simp only [St.step]
    split
    · exact stepsOf_alloc s hi _ _ o ho
    · rfl
  | trimManually o' a b =>
    simp only [St.step]
    split
    · rfl
    · exact stepsOf_alloc s hi _ _ o ho
  | unfold o' u =>
    simp only [St.step]
    split
    · rfl
    · exact stepsOf_alloc s hi _ _ o ho
  | readSteps o' =>
    simp only [St.step]
    split
    · rfl
    · rename_i ob' hob'
      split
      · rfl
      · rename_i hnone
        split
        · rfl
        · rename_i l' hl'
          split
          · rfl
          · rename_i st hss
            have ho' : o' < s.objs.length := (List.getElem?_eq_some_iff.mp hob').1
            by_cases he : o' = o
            · subst he
              rw [hob] at hob'
              cases hob'
              simp only [St.stepsOf, List.getElem?_set_self ho, hob, hnone, hl']
              simp [hss]
            · simp only [St.stepsOf, List.getElem?_set_ne he, hob]
              split
              · rename_i a ha
                have : a < s.ints.length := hi.validS o a (by simp [St.stepsAddr, hob, ha])
                rw [List.getElem?_append_left this]
              · rfl
  | write r i v =>
    have hne : r ≠ .values o := fun he => hop (Or.inl ⟨i, v, by rw [he]⟩)
    simp only [St.step]
    split
    · rfl
    · rename_i a ha
      split
      · rfl
      · have hav : a ≠ ob.vals := by
          intro he
          have : s.addr (.values o) = some a := by simp [St.addr, hob, he]
          exact hne (hi.inj _ _ _ ha this)
        simp only [St.stepsOf, hob]
        split
        · rfl
        · rw [List.getElem?_set_ne hav]
  | writeSteps o' i v =>
    have hne : o' ≠ o := fun he => hop (Or.inr ⟨i, v, by rw [he]⟩)
    simp only [St.step]
    split
    · rfl
    · rename_i a ha
      split
      · rfl
      · simp only [St.stepsOf, hob]
        split
        · rename_i a' ha'
          have : a ≠ a' := by
            intro he
            subst he
            have h2 : s.stepsAddr o = some a := by simp [St.stepsAddr, hob, ha']
            exact hne (hi.injS _ _ _ ha h2)
          rw [List.getElem?_set_ne this]
        · rfl

/-- As long as `steps` has not been computed it is current. -/
theorem stepsCurrent_of_uncached (s : St α) (hi : Inv s) (o : Nat) (ob : PyObj) (hob : s.objs[o]? = some ob)
    (hn : ob.steps = none) : StepsCurrent s o := by
  have hv : ob.vals < s.floats.length := hi.valid (.values o) _ (by simp [St.addr, hob])
  refine ⟨s.floats[ob.vals], ?_, ?_⟩
  · simp [St.read, St.addr, hob, List.getElem?_eq_getElem hv]
  · simp [St.stepsOf, hob, hn, List.getElem?_eq_getElem hv]

theorem uncached_step (s : St α) (o : Nat) (ob : PyObj) (hob : s.objs[o]? = some ob) (_hn : ob.steps = none)
    (op : Op α) (hop : op ≠ .readSteps o) : (s.step op).objs[o]? = some ob := by
  have ho : o < s.objs.length := (List.getElem?_eq_some_iff.mp hob).1
  have halloc : ∀ l l', (s.alloc l l').objs[o]? = some ob := fun l l' => by
    rw [objs_alloc_lt s l l' o ho, hob]
  cases op with
  | newArray l => exact hob
  | construct r =>
    simp only [St.step]; split
    · exact hob
    · exact halloc _ _
  | constructUnfolded r1 r2 =>
    simp only [St.step]; split
    · exact halloc _ _
    · exact hob
  | trimManually o a b =>
    simp only [St.step]; split
    · exact hob
    · exact halloc _ _
  | unfold o u =>
    simp only [St.step]; split
    · exact hob
    · exact halloc _ _
  | readSteps o' =>
    have hne : o' ≠ o := fun he => hop (by rw [he])
    simp only [St.step]
    split
    · exact hob
    · split
      · exact hob
      · split
        · exact hob
        · split
          · exact hob
          · simp only [List.getElem?_set_ne hne, hob]
  | write r i v =>
    simp only [St.step]; split
    · exact hob
    · split <;> exact hob
  | writeSteps o i v =>
    simp only [St.step]; split
    · exact hob
    · split <;> exact hob

/-- **C38 (partial).** Consider any history in which object `o` exists with `steps` not yet computed, then any operations not reading `steps` of `o` (including
in-place writes), then any operations not writing into the values or steps of `o`: afterwards `obj.steps` is the step function of the current values. So the attribute
is right unless the values are written after `steps` was first read; that case is refuted in
`C38_refuted`. -/
theorem C38_steps_partial (ops before after : List (Op α)) (o : Nat) (ob : PyObj)
    (hob : (run ops).objs[o]? = some ob) (hn : ob.steps = none)
    (hb : ∀ op ∈ before, op ≠ .readSteps o) (ha : ∀ op ∈ after, ¬ Touches o op) :
    StepsCurrent (run (ops ++ before ++ after)) o := by
  have h1 : ∀ (l : List (Op α)) (s : St α), s.objs[o]? = some ob → (∀ op ∈ l, op ≠ .readSteps o) →
      (l.foldl St.step s).objs[o]? = some ob := by
    intro l
    induction l with
    | nil => intro s hs _; exact hs
    | cons op l ih =>
      intro s hs hl
      exact ih _ (uncached_step s o ob hs hn op (hl op (by simp))) (fun op' h' => hl op' (by simp [h']))
  have h2 : ∀ (l : List (Op α)) (s : St α), Inv s → StepsCurrent s o → (∀ op ∈ l, ¬ Touches o op) →
      StepsCurrent (l.foldl St.step s) o := by
    intro l
    induction l with
    | nil => intro s _ hs _; exact hs
    | cons op l ih =>
      intro s hi hs hl
      exact ih _ (inv_step s hi op) (stepsCurrent_step s hi o hs op (hl op (by simp))) (fun op' h' => hl op' (by simp [h']))
  have hrun : run (ops ++ before ++ after) = after.foldl St.step (before.foldl St.step (run ops)) := by
    simp [run]
  rw [hrun]
  have hi : Inv (before.foldl St.step (run ops)) := inv_foldl _ _ (inv_run ops)
  exact h2 after _ hi (stepsCurrent_of_uncached _ hi o ob (h1 before _ hob hb) hn) ha

/-- A freshly constructed object has no cached steps. -/
theorem C38_fresh (ops : List (Op α)) (r : Ref) (l : List α) (h : (run ops).read r = some l) :
    ∃ ob, (run (ops ++ [.construct r])).objs[(run ops).objs.length]? = some ob ∧ ob.steps = none := by
  simp [run_append, St.step, h, St.alloc]

/-- **C38 (refuted).** A history after which `steps` is not the step function of the current values: construct from `[1, 2, 3]`, read `steps`, write
`values[2] = 2`. -/
theorem C38_refuted : ∃ (ops : List (Op ℚ)) (l : List ℚ) (cur stale : List Nat),
    (run ops).read (.values 0) = some l ∧ stepFunctionFast l l = .ok cur ∧
    (run ops).stepsOf 0 = some (.ok stale) ∧ cur ≠ stale := by
  have hs : npSort [1, 2, (3 : ℚ)] = [1, 2, 3] := npSort_of_ascending _ (by decide)
  have e : run [Op.newArray [1, 2, (3 : ℚ)], .construct (.mine 0), .readSteps 0, .write (.values 0) 2 2] =
      ⟨[[1, 2, 3], [1, 2, 3], [1, 2, 2]], [[1, 2, 3]], [⟨1, 2, some 0⟩], [0]⟩ := by
    have e2 : stepFunctionFast [1, 2, (3 : ℚ)] [1, 2, 3] = .ok [1, 2, 3] := by decide +kernel
    simp [run, St.step, St.empty, St.read, St.addr, St.alloc, hs, e2]
  refine ⟨[Op.newArray [1, 2, (3 : ℚ)], .construct (.mine 0), .readSteps 0, .write (.values 0) 2 2],
    [1, 2, 2], [1, 3, 3], [1, 2, 3], ?_, ?_, ?_, by decide⟩
  · rw [e]; rfl
  · decide +kernel
  · rw [e]; rfl

-- C37: a history with two objects, and a write that changes only one of them
example : ((run [Op.newArray [2, (1 : ℚ)], .construct (.mine 0), .construct (.values 0)]).addr (.values 1)).isSome := by
  simp [run, St.step, St.empty, St.read, St.addr, St.alloc]
example : (Ref.values 1) ≠ .values 0 := by decide
example : ∃ ob, (run [Op.newArray [2, (1 : ℚ)], .construct (.mine 0)]).objs[0]? = some ob ∧ ob.steps = none := by
  simp [run, St.step, St.empty, St.read, St.addr, St.alloc]

end Props
end RMT
