import Verif.Model.Memory

/-! # Invariants of the memory model -/

namespace RMT
namespace Memory
open Step EigValsM

variable {α : Type}

/-- The address of the cached steps of object `o`. -/
def St.stepsAddr (s : St α) (o : Nat) : Option Nat := s.objs[o]?.bind (·.steps)

/-- Addresses are valid and different references denote different arrays. -/
structure Inv (s : St α) : Prop where
  valid : ∀ r a, s.addr r = some a → a < s.floats.length
  inj : ∀ r r' a, s.addr r = some a → s.addr r' = some a → r = r'
  validS : ∀ o a, s.stepsAddr o = some a → a < s.ints.length
  injS : ∀ o o' a, s.stepsAddr o = some a → s.stepsAddr o' = some a → o = o'

theorem inv_empty : Inv (St.empty : St α) := by
  constructor
  · rintro (_ | _ | _) a h <;> simp [St.addr, St.empty] at h
  · rintro (_ | _ | _) r' a h <;> simp [St.addr, St.empty] at h
  · intro o a h; simp [St.stepsAddr, St.empty] at h
  · intro o o' a h; simp [St.stepsAddr, St.empty] at h

theorem getElem?_concat {β : Type} (l : List β) (x : β) (k : Nat) :
    (l ++ [x])[k]? = if k = l.length then some x else l[k]? := by
  split_ifs with h
  · subst h; simp
  · rcases Nat.lt_or_gt_of_ne h with h | h
    · rw [List.getElem?_append_left h]
    · rw [List.getElem?_append_right (by omega), List.getElem?_eq_none (l := l) (by omega),
        List.getElem?_eq_none (by simp; omega)]

theorem addr_alloc (s : St α) (orig vals : List α) (r : Ref) :
    (s.alloc orig vals).addr r = if r = .originals s.objs.length then some s.floats.length
      else if r = .values s.objs.length then some (s.floats.length + 1) else s.addr r := by
  cases r with
  | mine k => simp [St.addr, St.alloc]
  | values o =>
    simp only [St.addr, St.alloc, getElem?_concat, reduceCtorEq, if_false, Ref.values.injEq]
    split_ifs <;> rfl
  | originals o =>
    simp only [St.addr, St.alloc, getElem?_concat, reduceCtorEq, if_false, Ref.originals.injEq]
    split_ifs <;> rfl

theorem stepsAddr_alloc (s : St α) (orig vals : List α) (o : Nat) :
    (s.alloc orig vals).stepsAddr o = s.stepsAddr o := by
  simp only [St.stepsAddr, St.alloc, getElem?_concat]
  split_ifs with h
  · subst h; simp
  · rfl

theorem inv_alloc (s : St α) (h : Inv s) (orig vals : List α) : Inv (s.alloc orig vals) := by
  have hlen : (s.alloc orig vals).floats.length = s.floats.length + 2 := by simp [St.alloc]
  constructor
  · intro r a ha
    rw [addr_alloc] at ha
    rw [hlen]
    split_ifs at ha
    · cases ha; omega
    · cases ha; omega
    · have := h.valid r a ha; omega
  · intro r r' a ha ha'
    rw [addr_alloc] at ha ha'
    split_ifs at ha ha' with h1 h2 h3 h4 h5 h6 h7
    · rw [h1, h2]
    · cases ha; simp at ha'
    · cases ha; have := h.valid _ _ ha'; omega
    · cases ha; simp at ha'
    · rw [h4, h6]
    · cases ha; have := h.valid _ _ ha'; omega
    · cases ha'; have := h.valid _ _ ha; omega
    · cases ha'; have := h.valid _ _ ha; omega
    · exact h.inj _ _ _ ha ha'
  · intro o a ha
    rw [stepsAddr_alloc] at ha
    exact h.validS o a ha
  · intro o o' a ha ha'
    rw [stepsAddr_alloc] at ha ha'
    exact h.injS o o' a ha ha'

/-- Allocation changes no existing array. -/
theorem read_alloc (s : St α) (h : Inv s) (orig vals : List α) (r : Ref) (hr : (s.addr r).isSome) :
    (s.alloc orig vals).read r = s.read r := by
  obtain ⟨a, ha⟩ := Option.isSome_iff_exists.mp hr
  have hv := h.valid r a ha
  have hne1 : r ≠ .originals s.objs.length := by
    rintro rfl
    simp [St.addr] at ha
  have hne2 : r ≠ .values s.objs.length := by
    rintro rfl
    simp [St.addr] at ha
  simp only [St.read, addr_alloc, if_neg hne1, if_neg hne2, ha]
  simp only [St.alloc]
  rw [List.getElem?_append_left hv]

variable [LinearOrder α]

theorem inv_step (s : St α) (h : Inv s) (op : Op α) : Inv (s.step op) := by
  cases op with
  | newArray l =>
    have haddr : ∀ r, (s.step (.newArray l)).addr r =
        if r = .mine s.caller.length then some s.floats.length else s.addr r := by
      intro r
      cases r with
      | mine k =>
        simp only [St.addr, St.step, getElem?_concat, Ref.mine.injEq]
      | values o => simp [St.addr, St.step]
      | originals o => simp [St.addr, St.step]
    have hlen : (s.step (.newArray l)).floats.length = s.floats.length + 1 := by simp [St.step]
    constructor
    · intro r a ha
      rw [haddr] at ha
      rw [hlen]
      split_ifs at ha
      · cases ha; omega
      · have := h.valid r a ha; omega
    · intro r r' a ha ha'
      rw [haddr] at ha ha'
      split_ifs at ha ha' with h1 h2 h3
      · rw [h1, h2]
      · cases ha; have := h.valid _ _ ha'; omega
      · cases ha'; have := h.valid _ _ ha; omega
      · exact h.inj _ _ _ ha ha'
    · exact h.validS
    · exact h.injS
  | construct r =>
    simp only [St.step]
    split
    · exact h
    · exact inv_alloc s h _ _
  | constructUnfolded r1 r2 =>
    simp only [St.step]
    split
    · exact inv_alloc s h _ _
    · exact h
  | trimManually o a b =>
    simp only [St.step]
    split
    · exact h
    · exact inv_alloc s h _ _
  | unfold o u =>
    simp only [St.step]
    split
    · exact h
    · exact inv_alloc s h _ _
  | readSteps o =>
    simp only [St.step]
    split
    · exact h
    · rename_i ob hob
      split
      · exact h
      · split
        · exact h
        · split
          · exact h
          · rename_i hst l hl st hss
            have ho : o < s.objs.length := (List.getElem?_eq_some_iff.mp hob).1
            have haddr : ∀ r, ({ s with ints := s.ints ++ [st]
                                        objs := s.objs.set o { ob with steps := some s.ints.length } } : St α).addr r = s.addr r := by
              intro r
              cases r with
              | mine k => rfl
              | values o' =>
                simp only [St.addr]
                by_cases he : o = o'
                · subst he; rw [List.getElem?_set_self ho, hob]; rfl
                · rw [List.getElem?_set_ne he]
              | originals o' =>
                simp only [St.addr]
                by_cases he : o = o'
                · subst he; rw [List.getElem?_set_self ho, hob]; rfl
                · rw [List.getElem?_set_ne he]
            have hsteps : ∀ o', ({ s with ints := s.ints ++ [st]
                                          objs := s.objs.set o { ob with steps := some s.ints.length } } : St α).stepsAddr o' =
                if o' = o then some s.ints.length else s.stepsAddr o' := by
              intro o'
              simp only [St.stepsAddr]
              split_ifs with he
              · subst he; rw [List.getElem?_set_self ho]; rfl
              · rw [List.getElem?_set_ne (fun hc => he hc.symm)]
            constructor
            · intro r a ha
              rw [haddr] at ha
              exact h.valid r a ha
            · intro r r' a ha ha'
              rw [haddr] at ha ha'
              exact h.inj r r' a ha ha'
            · intro o' a ha
              rw [hsteps] at ha
              simp only [List.length_append, List.length_singleton]
              split_ifs at ha
              · cases ha; omega
              · have := h.validS o' a ha; omega
            · intro o1 o2 a ha ha'
              rw [hsteps] at ha ha'
              split_ifs at ha ha' with e1 e2 e3
              · rw [e1, e2]
              · cases ha; have := h.validS _ _ ha'; omega
              · cases ha'; have := h.validS _ _ ha; omega
              · exact h.injS _ _ _ ha ha'
  | write r i v =>
    simp only [St.step]
    split
    · exact h
    · split
      · exact h
      · exact ⟨fun r a ha => by rw [List.length_set]; exact h.valid r a ha, h.inj, h.validS, h.injS⟩
  | writeSteps o i v =>
    simp only [St.step]
    split
    · exact h
    · split
      · exact h
      · exact ⟨h.valid, h.inj, fun o a ha => by rw [List.length_set]; exact h.validS o a ha, h.injS⟩

theorem inv_foldl (ops : List (Op α)) (s : St α) (h : Inv s) : Inv (ops.foldl St.step s) := by
  induction ops generalizing s with
  | nil => exact h
  | cons op ops ih => exact ih _ (inv_step s h op)

theorem inv_run (ops : List (Op α)) : Inv (run ops) := inv_foldl ops _ inv_empty

theorem run_append (ops : List (Op α)) (op : Op α) : run (ops ++ [op]) = (run ops).step op := by
  simp [run]

end Memory
end RMT
