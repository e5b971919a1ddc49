import Verif.Model.FrontierTable
import Verif.Model.Wrapper

/-! # The frontier object returned by the wrapper, with the asset labels of its distribution -/

namespace PyV.Api

/-- The labels attached to a frontier (portfolioapi.py:1326-1331, the same in 1418-1423, 1558-1563, 1980-1985): those of the distribution the
wrapper was built from. -/
def labelled (d : Dist) (F : AnyFrontier d.N) : Ens.Held String String ℝ := ⟨d.N, F.M, d.names, F.f⟩

end PyV.Api
