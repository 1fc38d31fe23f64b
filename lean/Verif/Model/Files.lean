import Verif.Py
import Verif.Imports

/-!
# Model of the file-system effects: `utils.make_directory`, `utils.make_parent_directories`, `plot._handle_plot_mode`

A path is the list of its components, *last component first*; `[]` is the root. Paths are absolute (`path.absolute()`), without symbolic
links or `..`. A file system maps paths to directories and files. `deny` says for which paths the operating system refuses to create an entry
(permissions, quota).
-/

namespace RMT
namespace Files

/-- A path, last component first. -/
abbrev Path := List String

/-- An entry of the file system. -/
inductive Entry where
  | dir | file
  deriving DecidableEq, Repr

/-- A state of the file system. -/
abbrev FS := Path → Option Entry

/-- Well-formed: the root is a directory, and every entry lies in a directory. -/
def WF (fs : FS) : Prop := fs [] = some .dir ∧ ∀ (n : String) (p : Path), fs (n :: p) ≠ none → fs p = some .dir

/-- Adding an entry. -/
def add (fs : FS) (p : Path) (e : Entry) : FS := fun q => if q = p then some e else fs q

/-- A state after an operation, and its outcome. -/
abbrev Out := FS × Py Unit

/-- `os.mkdir`. -/
def mkdir (deny : Path → Bool) (fs : FS) (p : Path) : Out :=
  match p with
  | [] => (fs, .error .fileExistsError)
  | n :: parent =>
    if fs (n :: parent) ≠ none then (fs, .error .fileExistsError)
    else match fs parent with
      | none => (fs, .error .fileNotFoundError)
      | some .file => (fs, .error .notADirectoryError)
      | some .dir => if deny (n :: parent) then (fs, .error .exception) else (add fs (n :: parent) .dir, .ok ())

/-- `os.makedirs(path)` (CPython's `os.py`): the parents first, a `FileExistsError` for a parent being ignored. -/
def makedirs (deny : Path → Bool) (fs : FS) : Path → Out
  | [] => (fs, .error .fileExistsError)
  | n :: parent =>
    if fs parent = none then
      match makedirs deny fs parent with
      | (fs', .error .fileExistsError) => mkdir deny fs' (n :: parent)
      | (fs', .error e) => (fs', .error e)
      | (fs', .ok ()) => mkdir deny fs' (n :: parent)
    else mkdir deny fs (n :: parent)

/-- utils.py lines 57-71, `make_directory`; `interfere` is what other programs do between the test and the creation. -/
def makeDirectory (deny : Path → Bool) (interfere : FS → FS) (fs : FS) (p : Path) : Out :=
  if fs p = none then makedirs deny (interfere fs) p else (fs, .ok ())

/-- `path.parents`: the parent first. -/
def parents : Path → List Path
  | [] => []
  | _ :: p => p :: parents p

/-- utils.py lines 84-85: the loop, stopping at an exception. -/
def makeAll (deny : Path → Bool) (interfere : FS → FS) (fs : FS) : List Path → Out
  | [] => (fs, .ok ())
  | p :: ps =>
    match makeDirectory deny interfere fs p with
    | (fs', .ok ()) => makeAll deny interfere fs' ps
    | r => r

/-- utils.py lines 74-85, `make_parent_directories`: the parents below `Path.home()`, outermost first. -/
def makeParentDirectories (deny : Path → Bool) (interfere : FS → FS) (home : Path) (fs : FS) (path : Path) : Out :=
  makeAll deny interfere fs ((parents path).takeWhile (fun q => q ≠ home)).reverse

/-- plot.py lines 36-41, `PlotMode`. -/
inductive PlotMode where
  | block | noBlock | save | ret | test
  deriving DecidableEq, Repr

/-- What a caller may pass as `mode`: a member, or anything else (a string, `None`). -/
inductive ModeArg where
  | member (m : PlotMode)
  | other
  deriving DecidableEq, Repr

/-- The visible effects on the plotting library. -/
inductive Event where
  | show | showNoBlock | clear | close
  deriving DecidableEq, Repr

/-- The result of a plotting call: events, file system, and the outcome (`fig, axes` is `()`). -/
structure PlotOut where
  events : List Event
  fs : FS
  result : Py Unit

/-- `fig.savefig(outfile)`: writes a file. -/
def savefig (deny : Path → Bool) (fs : FS) (p : Path) : Out :=
  match p with
  | [] => (fs, .error .exception)
  | n :: parent => match fs parent with
    | none => (fs, .error .fileNotFoundError)
    | some .file => (fs, .error .notADirectoryError)
    | some .dir =>
      if fs (n :: parent) = some .dir then (fs, .error .exception)
      else if deny (n :: parent) then (fs, .error .exception) else (add fs (n :: parent) .file, .ok ())

/-- plot.py lines 1237-1266, `_handle_plot_mode`. -/
def handlePlotMode (deny : Path → Bool) (interfere : FS → FS) (home : Path) (fs : FS) (mode : ModeArg)
    (outfile : Option Path) : PlotOut :=
  match mode with
  | .member .block => ⟨[.show], fs, .ok ()⟩
  | .member .noBlock => ⟨[.showNoBlock], fs, .ok ()⟩
  | .member .test => ⟨[.clear, .close], fs, .ok ()⟩
  | .member .save =>
    match outfile with
    | none => ⟨[], fs, .error .valueError⟩                                              -- line 1257
    | some p =>
      match makeParentDirectories deny interfere home fs p with
      | (fs', .error e) => ⟨[], fs', .error e⟩
      | (fs', .ok ()) =>
        match savefig deny fs' p with
        | (fs'', .error e) => ⟨[], fs'', .error e⟩
        | (fs'', .ok ()) => ⟨[.close], fs'', .ok ()⟩                                    -- line 1261
  | .member .ret => ⟨[], fs, .ok ()⟩
  | .other => ⟨[], fs, .error .valueError⟩                                              -- line 1265

end Files
end RMT
