import Verif.Model.Files

/-!
# C74: saving a plot
-/

namespace RMT
namespace Props
open Files

/-- `q` is a proper ancestor directory of `p` (components are listed last first). -/
def Ancestor (q p : Path) : Prop := ∃ (n : String) (ns : List String), p = (n :: ns) ++ q

theorem ancestor_cons {q : Path} {n : String} {p : Path} : Ancestor q (n :: p) ↔ q = p ∨ Ancestor q p := by
  constructor
  · rintro ⟨m, ms, h⟩
    simp only [List.cons_append, List.cons.injEq] at h
    obtain ⟨_, h⟩ := h
    cases ms with
    | nil => exact Or.inl h.symm
    | cons k ks => exact Or.inr ⟨k, ks, h⟩
  · rintro (rfl | ⟨m, ms, h⟩)
    · exact ⟨n, [], rfl⟩
    · exact ⟨n, m :: ms, by rw [h]; rfl⟩

theorem not_ancestor_nil {q : Path} : ¬ Ancestor q [] := by
  rintro ⟨n, ns, h⟩; simp at h

theorem mem_parents {q p : Path} : q ∈ parents p ↔ Ancestor q p := by
  induction p with
  | nil => simp [parents, not_ancestor_nil]
  | cons n p ih => simp [parents, ancestor_cons, ih]

/-- What an operation on the chain of ancestors of `p` (and `p` itself if `self`) may have done: kept all entries, added only directories which are
`p` or ancestors of `p`, and kept the file system well formed. -/
structure Safe (fs fs' : FS) (allowed : Path → Prop) : Prop where
  kept : ∀ q, fs q ≠ none → fs' q = fs q
  added : ∀ q, fs' q ≠ fs q → allowed q ∧ fs' q = some .dir
  wf : WF fs → WF fs'

theorem Safe.refl (fs : FS) (a : Path → Prop) : Safe fs fs a := ⟨fun _ _ => rfl, fun _ h => absurd rfl h, id⟩

theorem Safe.trans {fs fs' fs'' : FS} {a : Path → Prop} (h : Safe fs fs' a) (h' : Safe fs' fs'' a) : Safe fs fs'' a := by
  refine ⟨fun q hq => ?_, fun q hq => ?_, fun w => h'.wf (h.wf w)⟩
  · have e := h.kept q hq
    rw [← e]; apply h'.kept; rw [e]; exact hq
  · by_cases hc : fs'' q = fs' q
    · rw [hc] at hq ⊢; exact h.added q hq
    · exact h'.added q hc

theorem Safe.mono {fs fs' : FS} {a b : Path → Prop} (h : Safe fs fs' a) (hab : ∀ q, a q → b q) : Safe fs fs' b :=
  ⟨h.kept, fun q hq => ⟨hab q (h.added q hq).1, (h.added q hq).2⟩, h.wf⟩

theorem safe_mkdir (deny : Path → Bool) (fs : FS) (p : Path) : Safe fs (mkdir deny fs p).1 (fun q => q = p) := by
  cases p with
  | nil => exact Safe.refl _ _
  | cons n parent =>
    simp only [mkdir]
    split
    · exact Safe.refl _ _
    · rename_i hn
      have hn' : fs (n :: parent) = none := by simpa using hn
      split
      · exact Safe.refl _ _
      · exact Safe.refl _ _
      · rename_i hd
        split
        · exact Safe.refl _ _
        · refine ⟨fun q hq => ?_, fun q hq => ?_, fun w => ⟨?_, fun m q hq => ?_⟩⟩
          · have : q ≠ n :: parent := fun e => hq (e ▸ hn')
            simp [add, this]
          · by_cases e : q = n :: parent
            · exact ⟨e, by simp [add, e]⟩
            · simp [add, e] at hq
          · simp [add, w.1]
          · have hnp : q ≠ n :: parent := by
              rintro rfl
              by_cases e : m :: n :: parent = n :: parent
              · have := congrArg List.length e; simp at this
              · simp only [add, if_neg e] at hq
                have := w.2 m _ hq
                rw [hn'] at this; cases this
            simp only [add, if_neg hnp]
            by_cases e : m :: q = n :: parent
            · cases e; exact hd
            · simp only [add, if_neg e] at hq
              exact w.2 m q hq

theorem safe_makedirs (deny : Path → Bool) (fs : FS) (p : Path) :
    Safe fs (makedirs deny fs p).1 (fun q => q = p ∨ Ancestor q p) := by
  induction p with
  | nil => exact Safe.refl _ _
  | cons n parent ih =>
    have up : ∀ q, (q = parent ∨ Ancestor q parent) → (q = n :: parent ∨ Ancestor q (n :: parent)) := fun q hq =>
      Or.inr (ancestor_cons.mpr hq)
    have mk : ∀ fs', Safe fs' (mkdir deny fs' (n :: parent)).1 (fun q => q = n :: parent ∨ Ancestor q (n :: parent)) := fun fs' =>
      (safe_mkdir deny fs' _).mono fun q hq => Or.inl hq
    simp only [makedirs]
    split
    · split
      · rename_i fs' h
        rw [h] at ih
        exact (ih.mono up).trans (mk _)
      · rename_i fs' e _ h
        rw [h] at ih
        exact ih.mono up
      · rename_i fs' h
        rw [h] at ih
        exact (ih.mono up).trans (mk _)
    · exact mk _

theorem mkdir_ok {deny : Path → Bool} {fs : FS} {p : Path} (h : (mkdir deny fs p).2 = .ok ()) : (mkdir deny fs p).1 p = some .dir := by
  cases p with
  | nil => simp [mkdir] at h
  | cons n parent =>
    simp only [mkdir] at h ⊢
    split at h
    · cases h
    · rename_i hn
      rw [if_neg hn]
      split at h
      · cases h
      · cases h
      · split at h
        · cases h
        · rename_i hd hdeny
          simp [hdeny, add]

theorem makedirs_ok {deny : Path → Bool} {fs : FS} {p : Path} (h : (makedirs deny fs p).2 = .ok ()) : (makedirs deny fs p).1 p = some .dir := by
  cases p with
  | nil => simp [makedirs] at h
  | cons n parent =>
    simp only [makedirs] at h ⊢
    by_cases hn : fs parent = none
    · rw [if_pos hn] at h ⊢
      generalize makedirs deny fs parent = m at h ⊢
      obtain ⟨fs', r⟩ := m
      cases r with
      | ok u => exact mkdir_ok h
      | error e => cases e <;> first | exact mkdir_ok h | cases h
    · rw [if_neg hn] at h ⊢; exact mkdir_ok h

/-- In a well-formed file system all proper ancestors of an existing entry are directories. -/
theorem ancestors_dir {fs : FS} (w : WF fs) {p q : Path} (hp : fs p ≠ none) (h : Ancestor q p) : fs q = some .dir := by
  induction p with
  | nil => exact absurd h not_ancestor_nil
  | cons n p ih =>
    have := w.2 n p hp
    rcases ancestor_cons.mp h with rfl | h
    · exact this
    · exact ih (by rw [this]; simp) h

/-- `makedirs` succeeds when the target is missing, no ancestor is a file and nothing is refused. -/
theorem makedirs_succeeds (deny : Path → Bool) (fs : FS) (w : WF fs) (p : Path) (hp : fs p = none)
    (hf : ∀ q, Ancestor q p → fs q ≠ some .file) (hd : ∀ q, (q = p ∨ Ancestor q p) → deny q = false) :
    (makedirs deny fs p).2 = .ok () := by
  induction p with
  | nil => rw [w.1] at hp; cases hp
  | cons n parent ih =>
    have mk : ∀ fs' : FS, fs' (n :: parent) = none → fs' parent = some .dir → (mkdir deny fs' (n :: parent)).2 = .ok () := by
      intro fs' h1 h2
      simp [mkdir, h1, h2, hd _ (Or.inl rfl)]
    simp only [makedirs]
    by_cases hn : fs parent = none
    · rw [if_pos hn]
      have h1 := ih hn (fun q hq => hf q (ancestor_cons.mpr (Or.inr hq))) (fun q hq => hd q (Or.inr (ancestor_cons.mpr hq)))
      have h2 := makedirs_ok h1
      have h3 := safe_makedirs deny fs parent
      rcases hm : makedirs deny fs parent with ⟨fs', r⟩
      rw [hm] at h1 h2 h3
      simp only at h1 h2 h3
      subst h1
      simp only
      apply mk _ _ h2
      by_contra hc
      have hne : fs' (n :: parent) ≠ fs (n :: parent) := by rw [hp]; exact hc
      rcases (h3.added _ hne).1 with e | e
      · have := congrArg List.length e; simp at this
      · obtain ⟨m, ms, e⟩ := e
        have := congrArg List.length e; simp at this
        omega
    · rw [if_neg hn]
      apply mk _ hp
      rcases h : fs parent with _ | e
      · exact absurd h hn
      · cases e with
        | dir => rfl
        | file => exact absurd h (hf parent (ancestor_cons.mpr (Or.inl rfl)))

theorem safe_makeDirectory (deny : Path → Bool) (fs : FS) (p : Path) :
    Safe fs (makeDirectory deny id fs p).1 (fun q => q = p ∨ Ancestor q p) := by
  simp only [makeDirectory, id]
  split
  · exact safe_makedirs deny fs p
  · exact Safe.refl _ _

theorem safe_makeAll (deny : Path → Bool) (allowed : Path → Prop) (ps : List Path) (fs : FS)
    (h : ∀ p ∈ ps, allowed p ∧ ∀ q, Ancestor q p → allowed q) : Safe fs (makeAll deny id fs ps).1 allowed := by
  induction ps generalizing fs with
  | nil => exact Safe.refl _ _
  | cons p ps ih =>
    simp only [makeAll]
    have h1 : Safe fs (makeDirectory deny id fs p).1 allowed := (safe_makeDirectory deny fs p).mono (by
      rintro q (rfl | hq)
      · exact (h q List.mem_cons_self).1
      · exact (h p List.mem_cons_self).2 q hq)
    rcases hm : makeDirectory deny id fs p with ⟨fs', r⟩
    rw [hm] at h1
    cases r with
    | error e => exact h1
    | ok u => exact h1.trans (ih fs' fun q hq => h q (List.mem_cons_of_mem _ hq))

theorem makeDirectory_ok {deny : Path → Bool} {fs : FS} {p : Path} (h : (makeDirectory deny id fs p).2 = .ok ()) :
    (makeDirectory deny id fs p).1 p ≠ none := by
  simp only [makeDirectory, id] at h ⊢
  split
  · rename_i hn; rw [if_pos hn] at h; rw [makedirs_ok h]; simp
  · rename_i hn; exact hn

theorem makeAll_ok {deny : Path → Bool} (ps : List Path) (fs : FS) (h : (makeAll deny id fs ps).2 = .ok ()) :
    ∀ p ∈ ps, (makeAll deny id fs ps).1 p ≠ none := by
  induction ps generalizing fs with
  | nil => simp
  | cons p ps ih =>
    simp only [makeAll] at h ⊢
    have h1 := @makeDirectory_ok deny fs p
    rcases hm : makeDirectory deny id fs p with ⟨fs', r⟩
    rw [hm] at h h1
    cases r with
    | error e => cases h
    | ok u =>
      simp only at h h1 ⊢
      intro q hq
      rcases List.mem_cons.mp hq with rfl | hq
      · have s := safe_makeAll deny (fun _ => True) ps fs' (fun _ _ => ⟨trivial, fun _ _ => trivial⟩)
        rw [s.kept q (h1 trivial)]
        exact h1 trivial
      · exact ih fs' h q hq

theorem makeAll_succeeds (deny : Path → Bool) (ps : List Path) (fs : FS) (w : WF fs)
    (hf : ∀ p ∈ ps, ∀ q, Ancestor q p → fs q ≠ some .file) (hd : ∀ p ∈ ps, ∀ q, (q = p ∨ Ancestor q p) → deny q = false) :
    (makeAll deny id fs ps).2 = .ok () := by
  induction ps generalizing fs with
  | nil => rfl
  | cons p ps ih =>
    simp only [makeAll]
    have hok : (makeDirectory deny id fs p).2 = .ok () := by
      simp only [makeDirectory, id]
      split
      · rename_i hn
        exact makedirs_succeeds deny fs w p hn (hf p List.mem_cons_self) (hd p List.mem_cons_self)
      · rfl
    have s := safe_makeDirectory deny fs p
    rcases hm : makeDirectory deny id fs p with ⟨fs', r⟩
    rw [hm] at hok s
    simp only at hok s
    subst hok
    simp only
    apply ih fs' (s.wf w) _ (fun q hq => hd q (List.mem_cons_of_mem _ hq))
    intro a ha q hq hfile
    by_cases e : fs' q = fs q
    · rw [e] at hfile; exact hf a (List.mem_cons_of_mem _ ha) q hq hfile
    · rw [(s.added q e).2] at hfile; cases hfile

theorem parents_takeWhile_allowed (home p : Path) :
    ∀ q ∈ ((parents p).takeWhile (fun q => q ≠ home)).reverse, Ancestor q p ∧ ∀ r, Ancestor r q → Ancestor r p := by
  intro q hq
  have hq' := mem_parents.mp ((List.takeWhile_prefix _).subset (List.mem_reverse.mp hq))
  refine ⟨hq', ?_⟩
  rintro r ⟨n, ns, rfl⟩
  obtain ⟨m, ms, rfl⟩ := hq'
  exact ⟨m, ms ++ n :: ns, by simp⟩

/-- **C74 (whatever happens).** For every state, path and home, and whether or not the operating system refuses something: existing entries are kept,
only ancestors of the output file are created, as directories, and the file system stays well formed. -/
theorem C74_safe (deny : Path → Bool) (home : Path) (fs : FS) (p : Path) :
    (∀ q, fs q ≠ none → (makeParentDirectories deny id home fs p).1 q = fs q) ∧
    (∀ q, (makeParentDirectories deny id home fs p).1 q ≠ fs q →
      Ancestor q p ∧ (makeParentDirectories deny id home fs p).1 q = some .dir) ∧
    (WF fs → WF (makeParentDirectories deny id home fs p).1) := by
  have s := safe_makeAll deny (fun q => Ancestor q p) _ fs (parents_takeWhile_allowed home p)
  exact ⟨s.kept, s.added, s.wf⟩

/-- **C74 (the directories exist).** If no ancestor is a file, nothing is refused, and the file is not directly in a home directory that does not exist,
`make_parent_directories` succeeds and every ancestor is a directory afterwards. -/
theorem C74_parents (deny : Path → Bool) (home : Path) (fs : FS) (w : WF fs) (n : String) (dir : Path)
    (hf : ∀ q, Ancestor q (n :: dir) → fs q ≠ some .file) (hd : ∀ q, Ancestor q (n :: dir) → deny q = false)
    (hhome : dir = home → fs home ≠ none) :
    (makeParentDirectories deny id home fs (n :: dir)).2 = .ok () ∧
    ∀ q, Ancestor q (n :: dir) → (makeParentDirectories deny id home fs (n :: dir)).1 q = some .dir := by
  have al := parents_takeWhile_allowed home (n :: dir)
  have hok : (makeParentDirectories deny id home fs (n :: dir)).2 = .ok () := by
    apply makeAll_succeeds deny _ fs w
    · intro a ha q hq
      exact hf q ((al a ha).2 q hq)
    · rintro a ha q (rfl | hq)
      · exact hd q (al q ha).1
      · exact hd q ((al a ha).2 q hq)
  refine ⟨hok, ?_⟩
  obtain ⟨hk, hadd, hw⟩ := C74_safe deny home fs (n :: dir)
  have hex : (makeParentDirectories deny id home fs (n :: dir)).1 dir ≠ none := by
    by_cases e : dir = home
    · subst e
      rw [hk _ (hhome rfl)]; exact hhome rfl
    · apply makeAll_ok _ fs hok
      simp [parents, e]
  have hdir : (makeParentDirectories deny id home fs (n :: dir)).1 dir = some .dir := by
    by_cases e : (makeParentDirectories deny id home fs (n :: dir)).1 dir = fs dir
    · rw [e] at hex ⊢
      rcases h : fs dir with _ | en
      · exact absurd h hex
      · cases en with
        | dir => rfl
        | file => exact absurd h (hf dir (ancestor_cons.mpr (Or.inl rfl)))
    · exact (hadd _ e).2
  intro q hq
  rcases ancestor_cons.mp hq with rfl | hq
  · exact hdir
  · exact ancestors_dir (hw w) (by rw [hdir]; simp) hq

/-- **C74 (a file in the way).** If a directory above the parent is a file, an exception is raised. -/
theorem C74_file_in_the_way (deny : Path → Bool) (home : Path) (fs : FS) (w : WF fs) (n : String) (dir q : Path)
    (hq : Ancestor q dir) (hf : fs q = some .file) (hhome : dir ≠ home) :
    (makeParentDirectories deny id home fs (n :: dir)).2 ≠ .ok () := by
  intro hok
  obtain ⟨hk, _, hw⟩ := C74_safe deny home fs (n :: dir)
  have hex : (makeParentDirectories deny id home fs (n :: dir)).1 dir ≠ none := by
    apply makeAll_ok _ fs hok
    simp [parents, hhome]
  have := ancestors_dir (hw w) hex hq
  rw [hk q (by rw [hf]; simp), hf] at this
  cases this

/-- **C74 (missing home) is false.** A file directly in a home directory which does not exist: nothing is created, and saving raises
`FileNotFoundError`. -/
theorem C74_home_refuted (deny : Path → Bool) (home : Path) (fs : FS) (n : String) (h : fs home = none) :
    makeParentDirectories deny id home fs (n :: home) = (fs, .ok ()) ∧
    (handlePlotMode deny id home fs (.member .save) (some (n :: home))).result = .error .fileNotFoundError := by
  have h1 : makeParentDirectories deny id home fs (n :: home) = (fs, .ok ()) := by
    simp [makeParentDirectories, parents, makeAll]
  refine ⟨h1, ?_⟩
  simp [handlePlotMode, h1, savefig, h]

/-- **C74 (race).** If another program creates the directory between the test and the creation, `make_directory` raises `FileExistsError`. -/
theorem C74_race (deny : Path → Bool) (fs : FS) (n : String) (dir : Path) (h : fs (n :: dir) = none) (hd : fs dir = some .dir) :
    (makeDirectory deny (fun fs => add fs (n :: dir) .dir) fs (n :: dir)).2 = .error .fileExistsError := by
  have hne : dir ≠ n :: dir := fun e => by have := congrArg List.length e; simp at this
  simp [makeDirectory, h, makedirs, add, hne, hd, mkdir]

/-- **C74 (modes).** Only `Save` touches the file system; `Save` without a file name and anything that is not a `PlotMode` raise `ValueError`; the other modes
succeed with their documented effect. -/
theorem C74_modes (deny : Path → Bool) (interfere : FS → FS) (home : Path) (fs : FS) (out : Option Path) :
    (∀ m, m ≠ .member .save → (handlePlotMode deny interfere home fs m out).fs = fs) ∧
    (handlePlotMode deny interfere home fs (.member .save) none).result = .error .valueError ∧
    (handlePlotMode deny interfere home fs (.member .save) none).fs = fs ∧
    (handlePlotMode deny interfere home fs .other out).result = .error .valueError ∧
    (∀ m, m ≠ PlotMode.save → (handlePlotMode deny interfere home fs (.member m) out).result = .ok ()) ∧
    (handlePlotMode deny interfere home fs (.member .block) out).events = [.show] ∧
    (handlePlotMode deny interfere home fs (.member .noBlock) out).events = [.showNoBlock] ∧
    (handlePlotMode deny interfere home fs (.member .ret) out).events = [] ∧
    (handlePlotMode deny interfere home fs (.member .test) out).events = [.clear, .close] := by
  refine ⟨?_, rfl, rfl, rfl, ?_, rfl, rfl, rfl, rfl⟩
  · intro m hm
    cases m with
    | other => rfl
    | member m => cases m <;> first | rfl | exact absurd rfl hm
  · intro m hm
    cases m <;> first | rfl | exact absurd rfl hm

/-- **C74 (saving).** Under the conditions of `C74_parents`, and if the target is not a directory and may be written, `Save` succeeds: afterwards
the output file exists, all its ancestors are directories, every other entry is as before, and the figure is closed. -/
theorem C74_save_partial (deny : Path → Bool) (home : Path) (fs : FS) (w : WF fs) (n : String) (dir : Path)
    (hf : ∀ q, Ancestor q (n :: dir) → fs q ≠ some .file) (hd : ∀ q, (q = n :: dir ∨ Ancestor q (n :: dir)) → deny q = false)
    (hhome : dir = home → fs home ≠ none) (ht : fs (n :: dir) ≠ some .dir) :
    let r := handlePlotMode deny id home fs (.member .save) (some (n :: dir))
    r.result = .ok () ∧ r.events = [.close] ∧ r.fs (n :: dir) = some .file ∧ (∀ q, Ancestor q (n :: dir) → r.fs q = some .dir) ∧
    ∀ q, q ≠ n :: dir → ¬ Ancestor q (n :: dir) → r.fs q = fs q := by
  obtain ⟨h1, h2⟩ := C74_parents deny home fs w n dir hf (fun q hq => hd q (Or.inr hq)) hhome
  obtain ⟨hk, hadd, hw⟩ := C74_safe deny home fs (n :: dir)
  rcases hm : makeParentDirectories deny id home fs (n :: dir) with ⟨fs', r⟩
  rw [hm] at h1 h2 hk hadd
  simp only at h1 h2 hk hadd
  subst h1
  have hself : ¬ Ancestor (n :: dir) (n :: dir) := by
    rintro ⟨m, ms, e⟩
    have := congrArg List.length e; simp at this; omega
  have ht' : fs' (n :: dir) ≠ some .dir := by
    by_cases e : fs' (n :: dir) = fs (n :: dir)
    · rw [e]; exact ht
    · exact absurd (hadd _ e).1 hself
  have hdir : fs' dir = some .dir := h2 dir (ancestor_cons.mpr (Or.inl rfl))
  have hres : handlePlotMode deny id home fs (.member .save) (some (n :: dir)) = ⟨[.close], add fs' (n :: dir) .file, .ok ()⟩ := by
    simp [handlePlotMode, hm, savefig, hdir, ht', hd _ (Or.inl rfl)]
  intro r
  have hr : r = ⟨[.close], add fs' (n :: dir) .file, .ok ()⟩ := hres
  rw [hr]
  refine ⟨rfl, rfl, by simp [add], ?_, ?_⟩
  · intro q hq
    have : q ≠ n :: dir := fun e => hself (e ▸ hq)
    simp only [add, if_neg this]
    exact h2 q hq
  · intro q hq hna
    simp only [add, if_neg hq]
    by_contra hc
    exact hna (hadd q hc).1

/-- C74, a concrete file system with only the root: saving `/a/b/plot.png` with home `/h`. -/
def emptyFS : FS := fun p => if p = [] then some .dir else none

theorem emptyFS_wf : WF emptyFS := ⟨rfl, fun n p h => by simp [emptyFS] at h⟩

example : (handlePlotMode (fun _ => false) id ["h"] emptyFS (.member .save) (some ["plot.png", "b", "a"])).result = .ok () :=
  (C74_save_partial _ _ _ emptyFS_wf "plot.png" ["b", "a"] (fun q _ => by simp only [emptyFS]; split <;> simp) (fun _ _ => rfl)
    (by simp) (by simp [emptyFS])).1

example : let r := handlePlotMode (fun _ => false) id ["h"] emptyFS (.member .save) (some ["plot.png", "b", "a"])
    (r.fs ["a"], r.fs ["b", "a"], r.fs ["plot.png", "b", "a"], r.fs ["h"], r.fs ["b"]) =
      (some .dir, some .dir, some .file, none, none) := by decide +kernel

end Props
end RMT
