import Verif.Spec.Describes
import Verif.Spec.Det
import Mathlib.LinearAlgebra.Matrix.Charpoly.Basic
import Mathlib.Data.Multiset.Fold
import Mathlib.Algebra.Polynomial.Roots

/-!
Vocabulary to state properties of `FiniteDPP` objects over histories of calls.
-/

namespace Verif.Spec
open Verif Verif.Model

variable {N : ℕ} {Info : Type}

/-- `x` is one of the outcomes of the random program `d`. -/
def Outcomes {α : Type*} (d : Dist ℝ α) (x : α) : Prop := ∃ w, (x, w) ∈ d

/-- `o` is an object built by `FiniteDPP(kernel_type, projection, **p)` and then used by any sequence
of method calls (whether they returned or raised). -/
def Reachable (env : Env N Info) (kernelType : String) (proj : Bool) (p : Params N) (o : Obj N Info) :
    Prop :=
  ∃ o0, Obj.init kernelType (.bool proj) p = .ok o0 ∧
    ∃ cs rs, Outcomes (runHist env cs o0) (o, rs)

/-- The call never raises, returns distinct items, and the set of items returned has law `P`. -/
structure Samples (c : Call N Info) (P : Finset (Fin N) → ℝ) : Prop where
  law : ∀ S, c.prob (fun r => ∃ l, r.2 = .ok l ∧ l.toFinset = S) = P S
  out : ∀ r, c.Possible r → ∃ l, r.2 = .ok l ∧ l.Nodup

/-- The call always raises `e`. -/
def AlwaysRaises (c : Call N Info) (e : PyErr) : Prop := ∃ o', c = Dist.ret (o', .raise e)

/-- Numerical rank of a positive semi-definite matrix: number of eigenvalues (roots of the
characteristic polynomial, with multiplicity) above `N * eps` times the largest one. -/
noncomputable def numRank (eps : ℝ) (L : Mat N) : ℕ :=
  (L.charpoly.roots.filter fun x => L.charpoly.roots.fold max 0 * N * eps < x).card

/-- `L_gram_factor` is used through the dual kernel, which is singular: fewer rows than items, and
linearly dependent rows. -/
def SingularDual (p : Params N) : Prop :=
  ∃ Phi, p.LGramFactor.join = some Phi ∧ Phi.d < N ∧ ¬ LinearIndependent ℝ Phi.a

end Verif.Spec
