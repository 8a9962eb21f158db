import Verif.Props.Combinatorics
import Verif.Props.Exact
import Verif.Props.Projection
import Verif.Props.Spectral
import Verif.Props.Utils
import Verif.Lemmas.KerAlg
import Verif.Model.FiniteDPP
import Verif.Props.FiniteDPP
import Verif.Props.FiniteHist
import Verif.Props.MCMC2
import Verif.Props.Zonotope
import Verif.Props.UST
import Verif.Props.Bless
import Verif.Props.Intermediate
import Verif.Props.AlphaTies
import Verif.Props.KAlphaTies
import Verif.Props.Jacobi
import Verif.Props.JacobiNorms
import Verif.Props.PolyPotential
import Verif.Props.Mala
import Verif.Props.DevSampler
import Verif.Props.RandomMatrices
import Verif.Props.BetaEnsembles
import Verif.Props.BetaEnsembles2
import Verif.Props.BetaEnsembles3
import Verif.Props.HermiteLaw
import Verif.Props.LaguerreLaw
import Verif.Props.JacobiLaw
import Verif.Props.BandedClass
import Verif.Props.HermiteFull
import Verif.Props.LaguerreFull
import Verif.Props.WilsonLaw
import Verif.Props.ABLaw
import Verif.Props.FullVsBanded
import Verif.Props.JacobiOPE
import Verif.Props.CircularLaw
import Verif.Props.CircularFull
import Verif.Props.JacobiFull
import Verif.Props.GinibreLaw
import Verif.Props.OneDependent
import Verif.Props.Plancherel
import Verif.Props.Bessel
import Verif.Props.Densities
import Verif.Props.Equilibrium
import Verif.Props.Diagram
import Verif.Props.TracyWidom
import Verif.Props.Rescale
import Verif.Props.GibbsLaw
import Verif.Props.ErrState
import Verif.Props.ExampleKernels
import Verif.Props.Bracket
import Verif.Props.Desired
import Verif.Props.Desired2
import Verif.Props.PotentialInit
import Verif.Props.McmcSession
import Verif.Props.McmcConverge
import Verif.Props.AedDies
import Verif.Props.CallsHist
import Verif.Props.ChainMean
import Verif.Props.ZonoLaw
import Verif.Props.ZonoConv
import Verif.Props.ZonoLoop
