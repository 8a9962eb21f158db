import Verif.Model.McmcCall
import Verif.Spec.Chain
import Verif.Spec.History

/-!
Vocabulary for `sample_mcmc` called on `FiniteDPP` objects.
-/

namespace Verif.Spec
open Verif Verif.Model

variable {N : ℕ} {Info : Type}

/-- `o` is an object built by `FiniteDPP(kernel_type, projection, **p)` and then used by any sequence of method calls,
whatever the arguments of its `sample_mcmc` calls. -/
def ReachableCalls (env : Env N Info) (kernelType : String) (proj : Bool) (p : Params N) (o : Obj N Info) : Prop :=
  ∃ o0, Obj.init kernelType (.bool proj) p = .ok o0 ∧ ∃ cs rs, Outcomes (runCalls env cs o0) (o, rs)

/-- the call returns a list of the items of `T` -/
def GivesSet (T : Finset (Fin N)) (r : Obj N Info × Outcome (List (Fin N))) : Prop :=
  ∃ l, r.2 = .ok l ∧ l.toFinset = T

/-- the call succeeds and then the last entry of `list_of_samples` is a chain with a list of the items of `T` at
position `j` -/
def Records (j : ℕ) (T : Finset (Fin N)) (r : Obj N Info × Outcome (List (Fin N))) : Prop :=
  (∃ l, r.2 = .ok l) ∧ ∃ c, r.1.samples.getLast? = some (.chain c) ∧ Visits j T c

end Verif.Spec
