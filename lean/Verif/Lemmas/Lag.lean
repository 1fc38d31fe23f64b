import Mathlib.Data.List.GetD
import Verif.Model.EnsembleCompare
import Verif.Spec.Difference

/-! # Spacings two places apart -/

namespace RMT

theorem lag2_eq {K : Type} [Sub K] [Zero K] (l : List K) : EnsembleCmp.lag2 l = Spec.lagTwo l := by
  apply List.ext_getElem
  · simp [EnsembleCmp.lag2, Spec.lagTwo]
  · intro i h1 h2
    simp only [EnsembleCmp.lag2, List.length_zipWith, List.length_drop, List.length_take] at h1
    simp only [EnsembleCmp.lag2, Spec.lagTwo, List.getElem_zipWith, List.getElem_drop, List.getElem_take, List.getElem_map, List.getElem_range]
    rw [List.getD_eq_getElem _ _ (by omega), List.getD_eq_getElem _ _ (by omega)]
    congr 1
    congr 1
    omega

end RMT
