import Verif.Model.PaperFits
import Verif.Model.PaperFiles

/-!
# The precision of the fits   (paper/fig8/fig8cd.ipynb, paper/fig9/fig9cd.ipynb)
-/

namespace Stoq

namespace Paper

/-- `rav_fidelities[k]` and `xeb_fidelities[k]` (fig9cd.ipynb, cells 10 and 12), `rav_alphas[k]` and `xeb_alphas[k]` (fig8cd.ipynb,
cells 5 and 7): a fit for each run that is used, of its rates at the layer counts of the records.  There are as many rates as
layer counts. -/
def RunFits (f : ℝ → ℝ → ℝ) (totalLayerCounts : List ℕ) (rates : List (List ℝ)) (alphas : List ℝ) : Prop :=
  List.Forall₂ (fun successRates alpha =>
    IsFit f (Set.Ici 0) ((totalLayerCounts.map fun x : ℕ => (x : ℝ)).zip successRates) alpha) rates alphas

/-- `1.0 - np.mean(rav_fidelities[k])` (fig9cd.ipynb, cells 16 to 18). -/
noncomputable def lossEstimate (fidelities : List ℝ) : ℝ := 1 - mean fidelities

/-- `np.std(rav_fidelities[k]) / (1.0 - np.mean(rav_fidelities[k]))` (fig9cd.ipynb, cells 16 to 18). -/
noncomputable def relativeLoss (fidelities : List ℝ) : ℝ := std fidelities / (1 - mean fidelities)

/-- The ratio of cell 18 of fig9cd.ipynb. -/
noncomputable def lossRatio (xebFidelities ravFidelities : List ℝ) : ℝ := relativeLoss xebFidelities / relativeLoss ravFidelities

/-- `rav_error_rates[k]` and `xeb_error_rates[k]` (fig8cd.ipynb, cells 5 and 7). -/
noncomputable def errorRates (alphas : List ℝ) : List ℝ := alphas.map errorGaussian

/-- `np.std(rav_error_rates[k])/np.mean(rav_error_rates[k])` (fig8cd.ipynb, cells 11 to 13). -/
noncomputable def relativeError (rates : List ℝ) : ℝ := std rates / mean rates

/-- The ratio of cell 13 of fig8cd.ipynb. -/
noncomputable def errorRatio (xebErrorRates ravErrorRates : List ℝ) : ℝ := relativeError xebErrorRates / relativeError ravErrorRates

end Paper

end Stoq
