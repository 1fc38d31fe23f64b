import Verif.Model.Memory
import Verif.Model.Trim

/-!
# Trim reports in memory

Extends the histories of `Model/Memory.lean` by `TrimReport` objects: the report keeps arrays of its own; `report.untrimmed` hands one of them to the caller, and
`report.use_trim_iteration(i)` constructs `Trimmed` objects from the others. The data frames `summary` and `unfoldings` are not part of this model.
-/

namespace RMT
namespace ReportMemory
open Memory EigValsM Trim

/-- The float arrays of a `TrimReport` (trim.py lines 228-230 and 567-568): the address of `_untrimmed` and those of the `eigs` arrays of the trim iterations, in order. The
`origs` array shared by all iterations is the `eigs` array of the first one (line 568). -/
structure Rep where
  untrimmed : Nat
  iters : List Nat

/-- The memory together with the reports, in order of creation. -/
structure RSt (α : Type) where
  mem : St α
  reports : List Rep

/-- Operations: those of `Model/Memory.lean`, the construction of a report from an array, and `report.use_trim_iteration(i)`. Reading `report.untrimmed` is not an operation: the array it returns is
one of the arrays the caller can name from the construction on. -/
inductive ROp (α : Type) where
  | base (op : Op α)
  | makeReport (r : Ref) (maxTrim : ℚ) (maxIters : Nat)
  | useIteration (k : Nat) (i : Int)

variable {α : Type} [LinearOrder α]

/-- trim.py lines 228-230, 567-578, 740-743: a new report; `np.sort` (228) allocates `_untrimmed`, `np.copy` (567) the array of the first iteration, and boolean indexing (735) one array for every
further iteration. The array `_untrimmed` becomes reachable for the caller (lines 263-266). -/
def RSt.addReport (s : RSt α) (sorted : List α) (its : List (Iter α)) : RSt α :=
  { mem := { s.mem with floats := s.mem.floats ++ [sorted] ++ its.map (·.eigs)
                        caller := s.mem.caller ++ [s.mem.floats.length] }
    reports := s.reports ++ [⟨s.mem.floats.length, (List.range its.length).map fun (j : Nat) => s.mem.floats.length + 1 + j⟩] }

/-- One operation; operations that raise change nothing. trim.py lines 170-252 (`makeReport`), 317-336 (`useIteration`, with `Trimmed.__init__`, lines 51-61 and `_eigvals.py` lines 17-35). -/
def RSt.step (hbos : List α → List Bool) (s : RSt α) : ROp α → RSt α
  | .base op => { s with mem := s.mem.step op }
  | .makeReport r maxTrim maxIters =>
    match s.mem.read r with
    | none => s
    | some l => match trimIters hbos l maxTrim maxIters with
      | .error _ => s
      | .ok its => s.addReport (npSort l) its
  | .useIteration k i =>
    match s.reports[k]? with
    | none => s
    | some rep =>
      if i > (rep.iters.length : Int) - 1 then s
      else match pyGet rep.iters i with
        | .error _ => s
        | .ok a => match s.mem.floats[a]? with
          | none => s
          | some l => { s with mem := s.mem.alloc (npSort l) (npSort l) }

/-- A history of operations. -/
def runR (hbos : List α → List Bool) (ops : List (ROp α)) : RSt α := ops.foldl (RSt.step hbos) ⟨St.empty, []⟩

end ReportMemory
end RMT
