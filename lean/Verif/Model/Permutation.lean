import Verif.Prob

/-!
Model of `dppy/exotic_dpps_core.py : uniform_permutation` and of the descent-type processes of
`dppy/exotic_dpps.py`.
-/

namespace Verif.Model
open Verif

/-- `sigma[j], sigma[i] = sigma[i], sigma[j]`
(`/repo/dppy/exotic_dpps_core.py` line 158).  Indices are always in range in the code; out of range
indices (which the code never uses) leave the list unchanged. -/
def swapAt (s : List ℕ) (i j : ℕ) : List ℕ :=
  match s[i]?, s[j]? with
  | some a, some b => (s.set i b).set j a
  | _, _ => s

/-- The loop `for i in range(N - 1, 0, -1)` of `uniform_permutation`
(`/repo/dppy/exotic_dpps_core.py` lines 154-158), called with `i = N - 1`:
`j = rng.randint(0, i + 1)`, `continue` when `j == i`, else swap. -/
def fyLoop (R : Type*) [Field R] : ℕ → List ℕ → Dist R (List ℕ)
  | 0, s => Dist.ret s
  | i + 1, s =>
    (Dist.randint (i + 2)).bind fun j =>
      if j = i + 1 then fyLoop R i s else fyLoop R i (swapAt s j (i + 1))

/-- `uniform_permutation(N)` (`/repo/dppy/exotic_dpps_core.py` lines 142-164):
`sigma = np.arange(N)` then the loop. -/
def uniformPermutation (R : Type*) [Field R] (N : ℕ) : Dist R (List ℕ) :=
  fyLoop R (N - 1) (List.range N)

end Verif.Model
