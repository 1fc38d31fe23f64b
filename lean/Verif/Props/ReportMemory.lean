import Verif.Model.ReportMemory
import Verif.Props.Memory
import Verif.Props.Trim
import Verif.Lemmas.Rigidity

/-! # Property C125: a trim report keeps what it computed, over all histories -/

namespace RMT
namespace Props
open Memory Step EigValsM Trim ReportMemory

variable {α : Type} [LinearOrder α]

/-- An array which no reference of the caller denotes. -/
def Hidden (s : St α) (a : Nat) : Prop := a < s.floats.length ∧ ∀ r, s.addr r ≠ some a

omit [LinearOrder α] in
theorem hidden_alloc (s : St α) (a : Nat) (h : Hidden s a) (l l' : List α) :
    Hidden (s.alloc l l') a ∧ (s.alloc l l').floats[a]? = s.floats[a]? := by
  refine ⟨⟨by simp only [St.alloc, List.length_append]; have := h.1; omega, fun r hr => ?_⟩, ?_⟩
  · rw [addr_alloc] at hr
    have := h.1
    split_ifs at hr
    · simp only [Option.some.injEq] at hr; omega
    · simp only [Option.some.injEq] at hr; omega
    · exact h.2 r hr
  · simp only [St.alloc]
    rw [List.getElem?_append_left h.1]

/-- No operation of the caller changes a hidden array, and it stays hidden. -/
theorem hidden_step (s : St α) (a : Nat) (h : Hidden s a) (op : Op α) :
    Hidden (s.step op) a ∧ (s.step op).floats[a]? = s.floats[a]? := by
  cases op with
  | newArray l =>
    refine ⟨⟨by simp only [St.step, List.length_append]; have := h.1; omega, fun r hr => ?_⟩, ?_⟩
    · cases r with
      | mine k =>
        simp only [St.addr, St.step, getElem?_concat] at hr
        have := h.1
        split_ifs at hr
        · simp only [Option.some.injEq] at hr; omega
        · exact h.2 (.mine k) hr
      | values o => exact h.2 (.values o) hr
      | originals o => exact h.2 (.originals o) hr
    · simp only [St.step]
      rw [List.getElem?_append_left h.1]
  | construct r =>
    simp only [St.step]
    split
    · exact ⟨h, rfl⟩
    · exact hidden_alloc s a h _ _
  | constructUnfolded r1 r2 =>
    simp only [St.step]
    split
    · exact hidden_alloc s a h _ _
    · exact ⟨h, rfl⟩
  | trimManually o x y =>
    simp only [St.step]
    split
    · exact ⟨h, rfl⟩
    · exact hidden_alloc s a h _ _
  | unfold o u =>
    simp only [St.step]
    split
    · exact ⟨h, rfl⟩
    · exact hidden_alloc s a h _ _
  | readSteps o =>
    simp only [St.step]
    split
    · exact ⟨h, rfl⟩
    · rename_i ob hob
      split
      · exact ⟨h, rfl⟩
      · split
        · exact ⟨h, rfl⟩
        · split
          · exact ⟨h, rfl⟩
          · rename_i hst l hl st hss
            have ho : o < s.objs.length := (List.getElem?_eq_some_iff.mp hob).1
            refine ⟨⟨h.1, fun r hr => ?_⟩, rfl⟩
            cases r with
            | mine k => exact h.2 (.mine k) hr
            | values o' =>
              simp only [St.addr] at hr
              by_cases he : o = o'
              · subst he
                rw [List.getElem?_set_self ho] at hr
                exact h.2 (.values o) (by simpa [St.addr, hob] using hr)
              · rw [List.getElem?_set_ne he] at hr
                exact h.2 (.values o') hr
            | originals o' =>
              simp only [St.addr] at hr
              by_cases he : o = o'
              · subst he
                rw [List.getElem?_set_self ho] at hr
                exact h.2 (.originals o) (by simpa [St.addr, hob] using hr)
              · rw [List.getElem?_set_ne he] at hr
                exact h.2 (.originals o') hr
  | write r i v =>
    simp only [St.step]
    split
    · exact ⟨h, rfl⟩
    · rename_i a' ha'
      split
      · exact ⟨h, rfl⟩
      · have hne : a' ≠ a := fun he => h.2 r (he ▸ ha')
        refine ⟨⟨by simpa using h.1, fun r' hr' => h.2 r' hr'⟩, ?_⟩
        exact List.getElem?_set_ne hne
  | writeSteps o i v =>
    simp only [St.step]
    split
    · exact ⟨h, rfl⟩
    · split
      · exact ⟨h, rfl⟩
      · exact ⟨⟨h.1, fun r' hr' => h.2 r' hr'⟩, rfl⟩

omit [LinearOrder α] in
theorem addr_addReport (s : RSt α) (l : List α) (its : List (Iter α)) (r : Ref) :
    (s.addReport l its).mem.addr r = if r = .mine s.mem.caller.length then some s.mem.floats.length else s.mem.addr r := by
  cases r with
  | mine k => simp only [St.addr, RSt.addReport, getElem?_concat, Ref.mine.injEq]
  | values o => simp [St.addr, RSt.addReport]
  | originals o => simp [St.addr, RSt.addReport]

omit [LinearOrder α] in
theorem inv_addReport (s : RSt α) (h : Inv s.mem) (l : List α) (its : List (Iter α)) : Inv (s.addReport l its).mem := by
  have hlen : (s.addReport l its).mem.floats.length = s.mem.floats.length + 1 + its.length := by
    simp [RSt.addReport]; omega
  constructor
  · intro r a ha
    rw [addr_addReport] at ha
    rw [hlen]
    split_ifs at ha
    · cases ha; omega
    · have := h.valid r a ha; omega
  · intro r r' a ha ha'
    rw [addr_addReport] at ha ha'
    split_ifs at ha ha' with h1 h2 h3
    · rw [h1, h2]
    · cases ha; have := h.valid _ _ ha'; omega
    · cases ha'; have := h.valid _ _ ha; omega
    · exact h.inj _ _ _ ha ha'
  · exact h.validS
  · exact h.injS

variable (hbos : List α → List Bool)

theorem inv_stepR (s : RSt α) (h : Inv s.mem) (op : ROp α) : Inv (s.step hbos op).mem := by
  cases op with
  | base op => exact inv_step s.mem h op
  | makeReport r mt mi =>
    simp only [RSt.step]
    split
    · exact h
    · split
      · exact h
      · exact inv_addReport s h _ _
  | useIteration k i =>
    simp only [RSt.step]
    split
    · exact h
    · split_ifs
      · exact h
      · split
        · exact h
        · split
          · exact h
          · exact inv_alloc s.mem h _ _

theorem runR_append (ops : List (ROp α)) (op : ROp α) : runR hbos (ops ++ [op]) = (runR hbos ops).step hbos op := by
  simp [runR]

theorem inv_foldR (ops : List (ROp α)) (s : RSt α) (h : Inv s.mem) : Inv (ops.foldl (RSt.step hbos) s).mem := by
  induction ops generalizing s with
  | nil => exact h
  | cons op ops ih => exact ih _ (inv_stepR hbos s h op)

theorem inv_runR (ops : List (ROp α)) : Inv (runR hbos ops).mem := inv_foldR hbos ops _ inv_empty

theorem read_stepR (s : RSt α) (hi : Inv s.mem) (op : ROp α) (r : Ref) (hr : (s.mem.addr r).isSome)
    (hw : ∀ i v, op ≠ .base (.write r i v)) :
    (s.step hbos op).mem.read r = s.mem.read r ∧ ((s.step hbos op).mem.addr r).isSome := by
  obtain ⟨a, ha⟩ := Option.isSome_iff_exists.mp hr
  cases op with
  | base op => exact read_step s.mem hi op r hr (fun i v h => hw i v (by rw [h]))
  | makeReport r' mt mi =>
    simp only [RSt.step]
    split
    · exact ⟨rfl, hr⟩
    · split
      · exact ⟨rfl, hr⟩
      · rename_i l hl _ its hits
        have hne : r ≠ .mine s.mem.caller.length := by
          rintro rfl
          simp [St.addr] at ha
        have e := addr_addReport s (npSort l) its r
        rw [if_neg hne] at e
        refine ⟨?_, by rw [e]; exact hr⟩
        simp only [St.read]
        rw [e, ha]
        simp only [RSt.addReport, List.append_assoc]
        rw [List.getElem?_append_left (hi.valid r a ha)]
  | useIteration k i =>
    simp only [RSt.step]
    split
    · exact ⟨rfl, hr⟩
    · split_ifs
      · exact ⟨rfl, hr⟩
      · split
        · exact ⟨rfl, hr⟩
        · split
          · exact ⟨rfl, hr⟩
          · refine ⟨read_alloc s.mem hi _ _ r hr, ?_⟩
            simp only [addr_alloc]
            split_ifs
            · rfl
            · rfl
            · exact hr

/-- The arrays of the iterations of a report are hidden. -/
theorem hidden_stepR (s : RSt α) (a : Nat) (h : Hidden s.mem a) (op : ROp α) :
    Hidden (s.step hbos op).mem a ∧ (s.step hbos op).mem.floats[a]? = s.mem.floats[a]? := by
  cases op with
  | base op => exact hidden_step s.mem a h op
  | makeReport r mt mi =>
    simp only [RSt.step]
    split
    · exact ⟨h, rfl⟩
    · split
      · exact ⟨h, rfl⟩
      · refine ⟨⟨?_, fun r' hr' => ?_⟩, ?_⟩
        · simp only [RSt.addReport, List.length_append]; have := h.1; omega
        · rw [addr_addReport] at hr'
          have := h.1
          split_ifs at hr'
          · simp only [Option.some.injEq] at hr'; omega
          · exact h.2 r' hr'
        · simp only [RSt.addReport, List.append_assoc]
          rw [List.getElem?_append_left h.1]
  | useIteration k i =>
    simp only [RSt.step]
    split
    · exact ⟨h, rfl⟩
    · split_ifs
      · exact ⟨h, rfl⟩
      · split
        · exact ⟨h, rfl⟩
        · split
          · exact ⟨h, rfl⟩
          · exact hidden_alloc s.mem a h _ _

theorem hidden_foldR (ops : List (ROp α)) (s : RSt α) (a : Nat) (h : Hidden s.mem a) :
    Hidden (ops.foldl (RSt.step hbos) s).mem a ∧ (ops.foldl (RSt.step hbos) s).mem.floats[a]? = s.mem.floats[a]? := by
  induction ops generalizing s with
  | nil => exact ⟨h, rfl⟩
  | cons op ops ih =>
    obtain ⟨h1, h2⟩ := hidden_stepR hbos s a h op
    obtain ⟨h3, h4⟩ := ih _ h1
    exact ⟨h3, h4.trans h2⟩

/-- Reports are never replaced. -/
theorem reports_stepR (s : RSt α) (op : ROp α) (k : Nat) (rep : Rep) (h : s.reports[k]? = some rep) :
    (s.step hbos op).reports[k]? = some rep := by
  cases op with
  | base op => exact h
  | makeReport r mt mi =>
    simp only [RSt.step]
    split
    · exact h
    · split
      · exact h
      · simp only [RSt.addReport]
        rw [List.getElem?_append_left (List.getElem?_eq_some_iff.mp h).1, h]
  | useIteration k' i =>
    simp only [RSt.step]
    split
    · exact h
    · split_ifs
      · exact h
      · split
        · exact h
        · split <;> exact h

theorem reports_foldR (ops : List (ROp α)) (s : RSt α) (k : Nat) (rep : Rep) (h : s.reports[k]? = some rep) :
    (ops.foldl (RSt.step hbos) s).reports[k]? = some rep := by
  induction ops generalizing s with
  | nil => exact h
  | cons op ops ih => exact ih _ (reports_stepR hbos s op k rep h)

/-- **C125 (iterations).** Let a report be constructed, at any point of any history, from an array with contents `l`, and let `its` be the trim iterations of `l`. After any further operations - in particular after any writes
into the array `l` came from, into `report.untrimmed`, into the values of objects which `use_trim_iteration` returned, into anything else - `report.use_trim_iteration(i)` still behaves as on the day of construction: it creates a
`Trimmed` object with the values of the `i`-th of the iterations `its`, or creates nothing if that raises. -/
theorem C125_iterations (ops post : List (ROp α)) (r : Ref) (maxTrim : ℚ) (maxIters : Nat) (l : List α) (its : List (Iter α))
    (hl : (runR hbos ops).mem.read r = some l) (hits : trimIters hbos l maxTrim maxIters = .ok its) (i : Int) :
    let k := (runR hbos ops).reports.length
    let s := runR hbos (ops ++ [.makeReport r maxTrim maxIters] ++ post)
    let s' := runR hbos (ops ++ [.makeReport r maxTrim maxIters] ++ post ++ [.useIteration k i])
    match useTrimIteration its i with
    | .ok v => s'.mem.objs.length = s.mem.objs.length + 1 ∧
        s'.mem.read (.values s.mem.objs.length) = some v ∧ s'.mem.read (.originals s.mem.objs.length) = some v
    | .error _ => s' = s := by
  intro k s s'
  set s0 := runR hbos ops with hs0
  have h1 : runR hbos (ops ++ [.makeReport r maxTrim maxIters]) = s0.addReport (npSort l) its := by
    rw [runR_append, ← hs0]
    simp only [RSt.step, hl, hits]
  have hs : s = post.foldl (RSt.step hbos) (s0.addReport (npSort l) its) := by
    simp only [s, ← h1, runR, List.foldl_append]
  have hs' : s' = s.step hbos (.useIteration k i) := by simp only [s', s, runR_append]
  have hrep : s.reports[k]? = some ⟨s0.mem.floats.length, (List.range its.length).map fun (j : Nat) => s0.mem.floats.length + 1 + j⟩ := by
    rw [hs]
    refine reports_foldR hbos post _ k _ ?_
    simp [RSt.addReport, k, ← hs0]
  have hfl : ∀ j (hj : j < its.length), s.mem.floats[s0.mem.floats.length + 1 + j]? = some (its[j].eigs) := by
    intro j hj
    have hh : Hidden (s0.addReport (npSort l) its).mem (s0.mem.floats.length + 1 + j) := by
      refine ⟨?_, fun r' hr' => ?_⟩
      · simp only [RSt.addReport, List.length_append, List.length_singleton, List.length_map]; omega
      · rw [addr_addReport] at hr'
        split_ifs at hr'
        · simp only [Option.some.injEq] at hr'; omega
        · have := (inv_runR hbos ops).valid r' _ hr'
          rw [← hs0] at this
          omega
    rw [hs, (hidden_foldR hbos post _ _ hh).2]
    simp only [RSt.addReport]
    rw [List.getElem?_append_right (by simp only [List.length_append, List.length_singleton]; omega)]
    simp only [List.length_append, List.length_singleton]
    rw [show s0.mem.floats.length + 1 + j - (s0.mem.floats.length + 1) = j by omega, List.getElem?_map, List.getElem?_eq_getElem hj]
    rfl
  rw [hs']
  simp only [useTrimIteration, RSt.step, hrep, List.length_map, List.length_range]
  by_cases hi : i > (its.length : Int) - 1
  · simp only [if_pos hi]
  · simp only [if_neg hi]
    have hg : pyGet ((List.range its.length).map fun (j : Nat) => s0.mem.floats.length + 1 + j) i =
        (match pyIdx its.length i with
          | none => .error .indexError
          | some j => if j < its.length then .ok (s0.mem.floats.length + 1 + j) else .error .indexError) := by
      simp only [pyGet, List.length_map, List.length_range]
      cases pyIdx its.length i with
      | none => rfl
      | some j =>
        by_cases hj : j < its.length
        · simp [hj]
        · simp [hj]
    have hg' : pyGet its i = (match pyIdx its.length i with
          | none => .error .indexError
          | some j => if h : j < its.length then .ok its[j] else .error .indexError) := by
      simp only [pyGet]
      cases pyIdx its.length i with
      | none => rfl
      | some j =>
        by_cases hj : j < its.length
        · simp [hj]
        · simp [hj]
    rw [hg, hg']
    cases hj : pyIdx its.length i with
    | none => simp only [bind, Except.bind]
    | some j =>
      by_cases hlt : j < its.length
      · simp only [if_pos hlt, dif_pos hlt, bind, Except.bind, hfl j hlt, initEigVals1d_ok, pure, Except.pure]
        have e1 := addr_alloc s.mem (npSort its[j].eigs) (npSort its[j].eigs) (.values s.mem.objs.length)
        have e2 := addr_alloc s.mem (npSort its[j].eigs) (npSort its[j].eigs) (.originals s.mem.objs.length)
        simp only [reduceCtorEq, if_false, if_true] at e1 e2
        refine ⟨by simp [St.alloc], ?_, ?_⟩
        · simp only [St.read, e1]; simp [St.alloc]
        · simp only [St.read, e2]; simp [St.alloc]
      · simp only [if_neg hlt, dif_neg hlt, bind, Except.bind]

theorem read_foldR (post : List (ROp α)) (s : RSt α) (hi : Inv s.mem) (r : Ref) (hr : (s.mem.addr r).isSome)
    (hw : ∀ op ∈ post, ∀ i v, op ≠ .base (.write r i v)) :
    (post.foldl (RSt.step hbos) s).mem.read r = s.mem.read r := by
  induction post generalizing s with
  | nil => rfl
  | cons op post ih =>
    obtain ⟨h1, h2⟩ := read_stepR hbos s hi op r hr (hw op (by simp))
    rw [List.foldl_cons, ih _ (inv_stepR hbos s hi op) h2 (fun op' h' => hw op' (by simp [h'])), h1]

/-- **C125 (isolation).** In every history, with reports, an array the caller can name - its own arrays, the arrays behind `values` and `original_values`, and `report.untrimmed` - keeps its contents until it is
written through that same reference: neither making a report of it nor writing into another array, such as `report.untrimmed`, changes it. -/
theorem C125_isolation (ops post : List (ROp α)) (r : Ref) (hr : ((runR hbos ops).mem.addr r).isSome)
    (hw : ∀ op ∈ post, ∀ i v, op ≠ .base (.write r i v)) :
    (runR hbos (ops ++ post)).mem.read r = (runR hbos ops).mem.read r := by
  have := read_foldR hbos post (runR hbos ops) (inv_runR hbos ops) r hr hw
  rw [← this]
  simp [runR]

/-- **C125 (untrimmed).** `report.untrimmed` is a fresh array holding the sorted contents the array had when the report was constructed, until the caller writes into `report.untrimmed` itself; what is written there is seen
there. -/
theorem C125_untrimmed (ops post : List (ROp α)) (r : Ref) (maxTrim : ℚ) (maxIters : Nat) (l : List α) (its : List (Iter α))
    (hl : (runR hbos ops).mem.read r = some l) (hits : trimIters hbos l maxTrim maxIters = .ok its) :
    let u := Ref.mine (runR hbos ops).mem.caller.length
    ((∀ op ∈ post, ∀ i v, op ≠ .base (.write u i v)) →
      ∃ l', (runR hbos (ops ++ [.makeReport r maxTrim maxIters] ++ post)).mem.read u = some l' ∧ l'.Perm l ∧ Spec.Ascending l') ∧
    ∀ i v, ∃ l', (runR hbos (ops ++ [.makeReport r maxTrim maxIters, .base (.write u i v)])).mem.read u = some (l'.set i v) ∧
      l'.Perm l ∧ Spec.Ascending l' := by
  intro u
  set s0 := runR hbos ops with hs0
  have h1 : runR hbos (ops ++ [.makeReport r maxTrim maxIters]) = s0.addReport (npSort l) its := by
    rw [runR_append, ← hs0]
    simp only [RSt.step, hl, hits]
  have ha : (s0.addReport (npSort l) its).mem.addr u = some s0.mem.floats.length := by
    rw [addr_addReport, if_pos rfl]
  have hf : (s0.addReport (npSort l) its).mem.floats[s0.mem.floats.length]? = some (npSort l) := by
    simp [RSt.addReport]
  constructor
  · intro hw
    have h2 := C125_isolation hbos (ops ++ [.makeReport r maxTrim maxIters]) post u (by rw [h1, ha]; rfl) hw
    refine ⟨npSort l, ?_, npSort_perm _, npSort_ascending _⟩
    rw [h2, h1]
    simp only [St.read, ha, hf]
  · intro i v
    refine ⟨npSort l, ?_, npSort_perm _, npSort_ascending _⟩
    have h3 : runR hbos (ops ++ [.makeReport r maxTrim maxIters, .base (.write u i v)]) =
        (s0.addReport (npSort l) its).step hbos (.base (.write u i v)) := by
      rw [← h1]; simp [runR]
    rw [h3]
    simp only [RSt.step, St.step, ha, hf]
    have hlt : s0.mem.floats.length < (s0.addReport (npSort l) its).mem.floats.length := by
      simp only [RSt.addReport, List.length_append, List.length_singleton]; omega
    have hr : ∀ fl, ({ (s0.addReport (npSort l) its).mem with floats := fl } : St α).addr u = some s0.mem.floats.length := fun _ => ha
    simp only [St.read, hr]
    rw [List.getElem?_set_self hlt]

/-- A detector which flags the last value if there are more than two. -/
def flagLast (l : List ℚ) : List Bool := l.mapIdx fun i _ => decide (i + 1 = l.length ∧ 2 < l.length)

-- C125: a report with two iterations, and a history which writes into its source and into `untrimmed` before the second iteration is used
example : (runR flagLast [.base (.newArray [(1 : ℚ), 2, 9])]).mem.read (.mine 0) = some [1, 2, 9] ∧
    ∃ its, trimIters flagLast [(1 : ℚ), 2, 9] 1 3 = .ok its ∧ useTrimIteration its (-1) = .ok [1, 2] ∧
      ∃ e, useTrimIteration its 2 = .error e := by
  refine ⟨by simp [runR, RSt.step, St.step, St.read, St.addr, St.empty], ?_⟩
  have hs : npSort [(1 : ℚ), 2, 9] = [1, 2, 9] := npSort_of_ascending _ (by decide)
  have h0 : outlierLabels (flagLast [(1 : ℚ), 2, 9]) = .ok [false, false, true] := by
    have e : flagLast [(1 : ℚ), 2, 9] = [false, false, true] := by decide
    have h : Utils.findLast [false, false, true] false = 1 := by decide +kernel
    have c : clearRange [false, false, true] 0 1 = [false, false, true] := by
      rw [clearRange, if_pos (by decide), clearRange, if_neg (by decide)]
      decide
    rw [e]
    simp [outlierLabels, clearAfterPrefix, clearBeforeSuffix, clearIfInterior, pyGet, pyIdx, bind, Except.bind, pure, Except.pure, h, c]
  have h1 : outlierLabels (flagLast [(1 : ℚ), 2]) = .ok [false, false] := by
    have e : flagLast [(1 : ℚ), 2] = [false, false] := by decide
    rw [e]
    simp [outlierLabels, clearAfterPrefix, clearBeforeSuffix, clearIfInterior, pyGet, pyIdx, bind, Except.bind, pure, Except.pure]
  have hits : trimIters flagLast [(1 : ℚ), 2, 9] 1 3 = .ok [⟨0, [1, 2, 9], [1, 2, 9], [false, false, true]⟩, ⟨1, [1, 2, 9], [1, 2], [false, false]⟩] := by
    simp [trimIters, hs, mkIter, h0, h1, trimLoop, Iter.nextIter, Iter.inliers, Iter.proportionRemoved, Iter.isAllInliers,
      bind, Except.bind, pure, Except.pure]
    norm_num
  have hs2 : npSort [(1 : ℚ), 2] = [1, 2] := npSort_of_ascending _ (by decide)
  refine ⟨_, hits, ?_, .valueError, ?_⟩
  · simp [useTrimIteration, pyGet, pyIdx, initEigVals1d_ok, hs2, bind, Except.bind, pure, Except.pure]
  · simp [useTrimIteration]

end Props
end RMT
