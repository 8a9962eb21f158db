import Verif.Model.Permutation
import Verif.Model.RSK

/-!
Model of the exotic one-dimensional processes of `dppy/exotic_dpps.py`:
`CarriesProcess`, `DescentProcess`, `VirtualDescentProcess`, `PoissonizedPlancherel`.
-/

namespace Verif.Model
open Verif

/-- `1 + np.where(B[:-1] > B[1:])[0]` (`/repo/dppy/exotic_dpps.py` lines 169 and 212). -/
def descents (B : List ℕ) : List ℕ :=
  ((List.range (B.length - 1)).filter fun i => decide (B.getD i 0 > B.getD (i + 1) 0)).map (1 + ·)

/-- `np.cumsum(A)` with running value `s` (`/repo/dppy/exotic_dpps.py` line 167). -/
def cumsum : ℕ → List ℕ → List ℕ
  | _, [] => []
  | s, a :: A => (s + a) :: cumsum (s + a) A

/-- `CarriesProcess.sample` once the digits `A` are drawn (`/repo/dppy/exotic_dpps.py` lines
167-171): `B = np.mod(np.cumsum(A), base)`, `carries = 1 + np.where(B[:-1] > B[1:])[0]`. -/
def carriesOf (base : ℕ) (A : List ℕ) : List ℕ :=
  descents ((cumsum 0 A).map (· % base))

/-- `n` independent draws of `d` (`rng.randint(0, base, size)`, `rng.binomial(.., size)`).
(`/repo/dppy/exotic_dpps.py` lines 166, 270) -/
def iid {R : Type*} [Semiring R] {α : Type*} (d : Dist R α) : ℕ → Dist R (List α)
  | 0 => Dist.ret []
  | n + 1 => d.bind fun a => (iid d n).bind fun l => Dist.ret (a :: l)

/-- `CarriesProcess(base).sample(size)` (`/repo/dppy/exotic_dpps.py` lines 154-171), the value
appended to `list_of_samples`. -/
def carriesSample (R : Type*) [Field R] (base size : ℕ) : Dist R (List ℕ) :=
  (iid (Dist.randint base) size).map (carriesOf base)

/-- `CarriesProcess._bernoulli_param` (`/repo/dppy/exotic_dpps.py` lines 150-152). -/
def carriesBernoulliParam (R : Type*) [Field R] (base : ℕ) : R := 1 / 2 * (1 - 1 / (base : R))

/-- `DescentProcess.sample` (`/repo/dppy/exotic_dpps.py` lines 197-214). -/
def descentSample (R : Type*) [Field R] (size : ℕ) : Dist R (List ℕ) :=
  (uniformPermutation R size).map descents

/-- `DescentProcess._bernoulli_param` (`/repo/dppy/exotic_dpps.py` lines 193-195). -/
def descentBernoulliParam (R : Type*) [Field R] : R := 1 / 2

/-- `VirtualDescentProcess.__init__` check `if not (0 <= x_0 <= 1): raise ValueError`
(`/repo/dppy/exotic_dpps.py` lines 227-232). `none` is the `ValueError`. -/
def virtualInit {R : Type*} [Field R] [LinearOrder R] (x0 : R) : Option R :=
  if 0 ≤ x0 ∧ x0 ≤ 1 then some x0 else none

/-- `rng.binomial(n=2, p=x_0) != 1` (`/repo/dppy/exotic_dpps.py` line 270): `binomial(2, p)` is the
number of successes of two independent trials of probability `p`. -/
def virtualCoin {R : Type*} [Field R] [LinearOrder R] (x0 : R) : Dist R Bool :=
  (Dist.bern x0).bind fun a => (Dist.bern x0).bind fun b =>
    Dist.ret (decide ((a.toNat + b.toNat) ≠ 1))

/-- The list comprehension of `VirtualDescentProcess.sample`
(`/repo/dppy/exotic_dpps.py` lines 268, 272-273): `X = sigma[:-1] > sigma[1:]`, and keep `i` when
`(~Y[i] and Y[i + 1]) or (~Y[i] and ~Y[i + 1] and X[i])`. -/
def virtualOf (size : ℕ) (sigma : List ℕ) (Y : List Bool) : List ℕ :=
  (List.range size).filter fun i =>
    (!Y.getD i false && Y.getD (i + 1) false) ||
      (!Y.getD i false && !Y.getD (i + 1) false && decide (sigma.getD i 0 > sigma.getD (i + 1) 0))

/-- `VirtualDescentProcess(x_0).sample(size)` (`/repo/dppy/exotic_dpps.py` lines 245-276). -/
def virtualSample {R : Type*} [Field R] [LinearOrder R] (x0 : R) (size : ℕ) : Dist R (List ℕ) :=
  (uniformPermutation R (size + 1)).bind fun sigma =>
    (iid (virtualCoin x0) (size + 1)).bind fun Y => Dist.ret (virtualOf size sigma Y)

/-- `VirtualDescentProcess._bernoulli_param` (`/repo/dppy/exotic_dpps.py` lines 241-243). -/
def virtualBernoulliParam {R : Type*} [Field R] (x0 : R) : R := 1 / 2 * (1 - x0 ^ 2)

/-- `PoissonizedPlancherel.sample` once the permutation is drawn
(`/repo/dppy/exotic_dpps.py` lines 325-333):
`young_diag = map(len, P)`; `sampl = young_diag - np.arange(0.5, young_diag.size)`.
`np.arange(0.5, n)` is `[0.5, 1.5, …, n - 0.5]` (`n` values).  `none` is an exception of `RSK`. -/
def plancherelOf (sigma : List ℕ) : Option (List ℕ × List ℚ) :=
  match rsk sigma with
  | none => none
  | some (P, _) =>
    let young := P.map List.length
    some (young, young.mapIdx fun (i l : ℕ) => (l : ℚ) - ((i : ℚ) + 1 / 2))

end Verif.Model
