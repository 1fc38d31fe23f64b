import Verif.Model.EigVals
import Verif.Spec.Counting
import Mathlib.Data.List.Sort

/-! # Lemmas on `np.sort` -/

namespace RMT
namespace EigValsM
open Spec

variable {α : Type} [LinearOrder α]

theorem npSort_perm (l : List α) : (npSort l).Perm l := List.mergeSort_perm l _

theorem npSort_ascending (l : List α) : Ascending (npSort l) := by
  have := List.pairwise_mergeSort (le := fun a b : α => decide (a ≤ b))
    (fun a b c h1 h2 => by simp only [decide_eq_true_eq] at *; exact le_trans h1 h2)
    (fun a b => by simp only [Bool.or_eq_true, decide_eq_true_eq]; exact le_total a b) l
  exact this.imp (fun h => by simpa using h)

theorem ascending_perm_unique {l l' : List α} (h : l.Perm l') (hl : Ascending l) (hl' : Ascending l') :
    l = l' := List.Perm.eq_of_pairwise (fun _ _ _ _ h1 h2 => le_antisymm h1 h2) hl hl' h

theorem npSort_of_ascending (l : List α) (h : Ascending l) : npSort l = l :=
  ascending_perm_unique (npSort_perm l) (npSort_ascending l) h

theorem npSort_eq_of_perm {l l' : List α} (h : l.Perm l') : npSort l = npSort l' :=
  ascending_perm_unique ((npSort_perm l).trans (h.trans (npSort_perm l').symm))
    (npSort_ascending l) (npSort_ascending l')

theorem npSort_unique {l l' : List α} (h : l'.Perm l) (ha : Ascending l') : npSort l = l' :=
  ascending_perm_unique ((npSort_perm l).trans h.symm) (npSort_ascending l) ha

theorem initEigVals1d_ok (l : List α) :
    initEigVals1d l = .ok ⟨npSort l, npSort l, none⟩ := by
  simp [initEigVals1d, initEigVals, arr1d, make1dArray, bind, Except.bind,
    npSort_of_ascending _ (npSort_ascending l)]

end EigValsM
end RMT
