import Verif.Outcome
import Verif.Model.Utils
import Verif.Model.Permutation

/-!
Model of `/repo/dppy/mcmc_sampling.py` lines 21-412: initialisation and the add-exchange-delete, add-delete
and exchange chains.

* Items are `Fin N`; a state is the Python list of its items, in order, with the cached determinant.
* `nb_iter` is a natural number.  `time.time()` is a sequence of arbitrary readings, `clock 0` is
  `t_start` and `clock it` the reading at the end of iteration `it`.
* `rng.rand() < p` is `Dist.bern p`; draws are ideal.
-/

namespace Verif.Model
open Verif

variable {N : ℕ}

/-- The value of `det_ST(kernel, S)` (`/repo/dppy/utils.py` lines 76-105, see `detST`). -/
noncomputable def detL (K : Matrix (Fin N) (Fin N) ℝ) (S : List (Fin N)) : ℝ :=
  Matrix.det (Matrix.of fun (a b : Fin S.length) => K (S.get a) (S.get b))

/-- Parameters `nb_iter`, `T_max` and the readings of the clock.
(`/repo/dppy/mcmc_sampling.py` lines 134-135, 243-244, 326-327) -/
structure McmcOpts where
  nbIter : ℕ
  tMax : Option ℝ
  clock : ℕ → ℝ

open Classical in
/-- The test at the end of iteration `it`: `if T_max: if time.time() - t_start < T_max: break`
(`/repo/dppy/mcmc_sampling.py` lines 236-238, 319-321, 408-410). -/
noncomputable def stopAt (o : McmcOpts) (it : ℕ) : Bool :=
  match o.tMax with
  | none => false
  | some T => decide (T ≠ 0 ∧ o.clock it - o.clock 0 < T)

/-- `for it in range(1, nb_iter)`: `n` iterations are left, the next one has number `it`; `step` is the
body; the states reached are collected. (`/repo/dppy/mcmc_sampling.py` lines 183-240, 292-323, 380-415) -/
noncomputable def mcmcLoop {σ : Type*} (step : σ → Dist ℝ (Outcome σ)) (stop : ℕ → Bool) :
    ℕ → ℕ → σ → Dist ℝ (Outcome (List σ))
  | _, 0, _ => Dist.ret (.ok [])
  | it, n + 1, s => (step s).andThen fun s' =>
      if stop it then Dist.ret (.ok [s'])
      else (mcmcLoop step stop (it + 1) n s').andThen fun l => Dist.ret (.ok (s' :: l))

/-- `rng.choice(l)` of numpy: `ValueError` on an empty array.
(`/repo/dppy/mcmc_sampling.py` lines 189, 191, 301, 390, 392) -/
noncomputable def choiceO {α : Type*} (l : List α) : Dist ℝ (Outcome α) :=
  if l.isEmpty then Dist.ret .valueError else (Dist.choice l).map Outcome.ok

/-- `np.delete(ground_set, S0)` (`/repo/dppy/mcmc_sampling.py` lines 191, 392) -/
def outside (S : List (Fin N)) : List (Fin N) := (List.finRange N).filter fun i => i ∉ S

open Classical in
/-- `rng.rand() < a / b * c` for the determinants `a = det_S1`, `b = det_S0` and a positive factor `c`.
When `b = 0` numpy gives `inf`, `-inf` or `nan`: the test is true exactly when `a > 0`.
(`/repo/dppy/mcmc_sampling.py` lines 201, 214, 226, 309, 398) -/
noncomputable def acceptMove (a b c : ℝ) : Dist ℝ Bool :=
  if b = 0 then Dist.ret (decide (0 < a)) else Dist.bern (a / b * c)

/-- A state of the chains: `S0, det_S0`. (`/repo/dppy/mcmc_sampling.py` lines 178, 288, 374) -/
structure St (N : ℕ) where
  S : List (Fin N)
  det : ℝ

/-- `S0, det_S0 = s_init, det_ST(kernel, s_init)` (`/repo/dppy/mcmc_sampling.py` lines 178, 288, 374) -/
noncomputable def stInit (K : Matrix (Fin N) (Fin N) ℝ) (S : List (Fin N)) : St N := ⟨S, detL K S⟩

/-- keep `S1` or stay in `S0` (`/repo/dppy/mcmc_sampling.py` lines 202, 310, 399) -/
noncomputable def moveTo (K : Matrix (Fin N) (Fin N) ℝ) (s : St N) (S1 : List (Fin N)) (c : ℝ) :
    Dist ℝ (Outcome (St N)) :=
  (acceptMove (detL K S1) s.det c).map fun b => .ok (if b then stInit K S1 else s)

/-- The four branches of one iteration of the add-exchange-delete sampler.
(`/repo/dppy/mcmc_sampling.py` lines 185-227) -/
inductive Move where
  | add | exchange | delete | stay
deriving DecidableEq

/-- clamp into `[0, 1]`
(`/repo/dppy/mcmc_sampling.py` lines 193-226, the probabilities of the comparisons with `rng.rand()`) -/
noncomputable def clamp (x : ℝ) : ℝ := min 1 (max 0 x)

/-- `U = rng.rand()` and the tests of `/repo/dppy/mcmc_sampling.py` lines 193, 197, 209, 222: the lengths
of the intervals of `[0, 1)` in which `U` has to fall (the thresholds are increasing for a ratio in
`[0, 1]`). -/
noncomputable def aedMove (r : ℝ) : Dist ℝ Move :=
  [(.add, clamp (1 / 2 * (1 - r) ^ 2)),
   (.exchange, clamp (1 / 2 * (1 - r)) - clamp (1 / 2 * (1 - r) ^ 2)),
   (.delete, clamp (1 / 2 * (r ^ 2 + (1 - r))) - clamp (1 / 2 * (1 - r))),
   (.stay, 1 - clamp (1 / 2 * (r ^ 2 + (1 - r))))]

/-- State of `add_exchange_delete_sampler`: also `size_S0`. (`/repo/dppy/mcmc_sampling.py` lines 178-179) -/
structure AedSt (N : ℕ) where
  S : List (Fin N)
  det : ℝ
  size : ℕ

/-- keep `S1` (with its size) or stay (`/repo/dppy/mcmc_sampling.py` lines 201-227) -/
noncomputable def aedMoveTo (K : Matrix (Fin N) (Fin N) ℝ) (s : AedSt N) (S1 : List (Fin N)) (size1 : ℕ)
    (c : ℝ) : Dist ℝ (Outcome (AedSt N)) :=
  (acceptMove (detL K S1) s.det c).map fun b => .ok (if b then ⟨S1, detL K S1, size1⟩ else s)

/-- The branches of one iteration of `add_exchange_delete_sampler`
(`/repo/dppy/mcmc_sampling.py` lines 193-234); `del S1[s_ind]` raises `IndexError` out of range. -/
noncomputable def aedBranch (K : Matrix (Fin N) (Fin N) ℝ) (s : AedSt N) (sInd : ℕ) (t : Fin N) :
    Move → Dist ℝ (Outcome (AedSt N))
  | .add => aedMoveTo K s (s.S ++ [t]) (s.size + 1) ((s.size + 1) / (N - s.size))
  | .exchange =>
    if sInd < s.S.length then aedMoveTo K s (s.S.eraseIdx sInd ++ [t]) s.size 1
    else Dist.ret .indexError
  | .delete =>
    if sInd < s.S.length then
      aedMoveTo K s (s.S.eraseIdx sInd) (s.size - 1) (s.size / (N - (s.size - 1)))
    else Dist.ret .indexError
  | .stay => Dist.ret (.ok s)

/-- One iteration of `add_exchange_delete_sampler` (`/repo/dppy/mcmc_sampling.py` lines 185-234). -/
noncomputable def aedStep (K : Matrix (Fin N) (Fin N) ℝ) (s : AedSt N) : Dist ℝ (Outcome (AedSt N)) :=
  (choiceO (List.range (if s.size = 0 then N else s.size))).andThen fun sInd =>
  (choiceO (outside s.S)).andThen fun t =>
  (aedMove (s.size / N)).bind fun m => aedBranch K s sInd t m

/-- `add_exchange_delete_sampler(kernel, s_init, nb_iter, T_max)`
(`/repo/dppy/mcmc_sampling.py` lines 134-240). -/
noncomputable def aedSampler (K : Matrix (Fin N) (Fin N) ℝ) (o : McmcOpts) (S0 : List (Fin N)) :
    Dist ℝ (Outcome (List (List (Fin N)))) :=
  (mcmcLoop (aedStep K) (stopAt o) 1 (o.nbIter - 1) ⟨S0, detL K S0, S0.length⟩).map fun r =>
    r.map fun l => S0 :: l.map AedSt.S

/-- `S1 = S0 + s` or `S1 = S0 - s` (`/repo/dppy/mcmc_sampling.py` lines 300-305). -/
def toggle (S : List (Fin N)) (s : Fin N) : List (Fin N) := if s ∈ S then S.erase s else S ++ [s]

/-- One iteration of `add_delete_sampler` (`/repo/dppy/mcmc_sampling.py` lines 295-317). -/
noncomputable def adStep (K : Matrix (Fin N) (Fin N) ℝ) (s : St N) : Dist ℝ (Outcome (St N)) :=
  (Dist.bern (1 / 2)).bind fun b =>
    if b then (choiceO (List.finRange N)).andThen fun i => moveTo K s (toggle s.S i) 1
    else Dist.ret (.ok s)

/-- `add_delete_sampler(kernel, s_init, nb_iter, T_max)` (`/repo/dppy/mcmc_sampling.py` lines 243-323). -/
noncomputable def adSampler (K : Matrix (Fin N) (Fin N) ℝ) (o : McmcOpts) (S0 : List (Fin N)) :
    Dist ℝ (Outcome (List (List (Fin N)))) :=
  (mcmcLoop (adStep K) (stopAt o) 1 (o.nbIter - 1) (stInit K S0)).map fun r =>
    r.map fun l => S0 :: l.map St.S

/-- One iteration of `basis_exchange_sampler` (`/repo/dppy/mcmc_sampling.py` lines 382-406); `size` is
`len(s_init)`; `S1[s_ind] = t`. -/
noncomputable def exStep (K : Matrix (Fin N) (Fin N) ℝ) (size : ℕ) (s : St N) : Dist ℝ (Outcome (St N)) :=
  (Dist.bern (1 / 2)).bind fun b =>
    if b then
      (choiceO (List.range size)).andThen fun sInd =>
      (choiceO (outside s.S)).andThen fun t =>
      if sInd < s.S.length then moveTo K s (s.S.set sInd t) 1 else Dist.ret .indexError
    else Dist.ret (.ok s)

/-- A row of `np.zeros((nb_iter, size), dtype=int)`: as many zeros as `S` has items.
(`/repo/dppy/mcmc_sampling.py` line 376) -/
def zeroRow (S : List (Fin N)) : List (Fin N) := S.map fun i => ⟨0, i.pos⟩

/-- `basis_exchange_sampler(kernel, s_init, nb_iter, T_max)` (`/repo/dppy/mcmc_sampling.py` lines
326-412): the chain is an array of `nb_iter` rows initially zero; `chain[0] = S0` raises `IndexError`
when there is no row; rows not reached because of `break` stay zero. -/
noncomputable def exSampler (K : Matrix (Fin N) (Fin N) ℝ) (o : McmcOpts) (S0 : List (Fin N)) :
    Dist ℝ (Outcome (List (List (Fin N)))) :=
  if o.nbIter = 0 then Dist.ret .indexError
  else (mcmcLoop (exStep K S0.length) (stopAt o) 1 (o.nbIter - 1) (stInit K S0)).map fun r =>
    r.map fun l => S0 :: l.map St.S ++ List.replicate (o.nbIter - 1 - l.length) (zeroRow S0)

/-! ### initialisation -/

/-- `rng.choice(n, size=k, replace=False)`: numpy takes the first `k` entries of a uniform permutation and
raises `ValueError` when `k > n`. (`/repo/dppy/mcmc_sampling.py` lines 87, 120) -/
noncomputable def choiceNoReplace (n k : ℕ) : Dist ℝ (Outcome (List ℕ)) :=
  if n < k then Dist.ret .valueError
  else (uniformPermutation ℝ n).map fun l => .ok (l.take k)

/-- integers below `N` as items, keeping the order (`/repo/dppy/mcmc_sampling.py` lines 87-88, 120) -/
def toItems (N : ℕ) (l : List ℕ) : List (Fin N) :=
  l.filterMap fun i => if h : i < N then some ⟨i, h⟩ else none

/-- Draw of `initialize_AED_sampler` (`/repo/dppy/mcmc_sampling.py` lines 87-88):
`T = rng.choice(2 * N, size=N, replace=False)`, `S0 = np.intersect1d(T, ground_set)` (sorted). -/
noncomputable def aedDraw (N : ℕ) : Dist ℝ (Outcome (List (Fin N))) :=
  (choiceNoReplace (2 * N) N).andThen fun T =>
    Dist.ret (.ok ((List.finRange N).filter fun i => i.val ∈ T))

/-- Draw of `initialize_AD_and_E_sampler` (`/repo/dppy/mcmc_sampling.py` lines 120-122):
`rng.choice(N, size=size if size else rng.randint(1, N + 1), replace=False)`; `randint(1, 1)` raises
`ValueError` when `N = 0`. -/
noncomputable def adDraw (N : ℕ) (size : Option ℕ) : Dist ℝ (Outcome (List (Fin N))) :=
  match size with
  | some (k + 1) => (choiceNoReplace N (k + 1)).andThen fun l => Dist.ret (.ok (toItems N l))
  | _ => (choiceO (List.range N)).andThen fun j =>
      (choiceNoReplace N (j + 1)).andThen fun l => Dist.ret (.ok (toItems N l))

open Classical in
/-- The loop `for _ in range(nb_trials): if det_S0 > tol: break; else: draw` with its `else` clause
(`/repo/dppy/mcmc_sampling.py` lines 83-94, 116-129); `n` iterations are left.  When the range is
exhausted without `break` the error is raised, whatever the last drawn set is. -/
noncomputable def initLoop (K : Matrix (Fin N) (Fin N) ℝ) (tol : ℝ) (draw : Dist ℝ (Outcome (List (Fin N)))) :
    ℕ → St N → Dist ℝ (Outcome (List (Fin N)))
  | 0, _ => Dist.ret .valueError
  | n + 1, s =>
    if tol < s.det then Dist.ret (.ok s.S)
    else draw.andThen fun S => initLoop K tol draw n (stInit K S)

/-- `initialize_AED_sampler(kernel)` (`/repo/dppy/mcmc_sampling.py` lines 66-96): `S0, det_S0 = [], 0.0`,
100 trials, `tol = 1e-9`. -/
noncomputable def initAED (K : Matrix (Fin N) (Fin N) ℝ) : Dist ℝ (Outcome (List (Fin N))) :=
  initLoop K (1 / 10 ^ 9) (aedDraw N) 100 ⟨[], 0⟩

/-- `initialize_AD_and_E_sampler(kernel, size)` (`/repo/dppy/mcmc_sampling.py` lines 99-131). -/
noncomputable def initADE (K : Matrix (Fin N) (Fin N) ℝ) (size : Option ℕ) :
    Dist ℝ (Outcome (List (Fin N))) :=
  initLoop K (1 / 10 ^ 9) (adDraw N size) 100 ⟨[], 0⟩

/-- `s_init` given by the user, or the initialisation. (`/repo/dppy/mcmc_sampling.py` lines 24-63) -/
noncomputable def withInit (sInit : Option (List (Fin N))) (d : Dist ℝ (Outcome (List (Fin N)))) :
    Dist ℝ (Outcome (List (Fin N))) :=
  match sInit with
  | some S => Dist.ret (.ok S)
  | none => d

/-- `dpp_sampler_mcmc(kernel, mode, s_init, nb_iter, T_max, size)`
(`/repo/dppy/mcmc_sampling.py` lines 24-63).  An unknown mode reaches `return sampl` with `sampl`
unbound (`UnboundLocalError`). -/
noncomputable def mcmcSampler (K : Matrix (Fin N) (Fin N) ℝ) (mode : String) (o : McmcOpts)
    (sInit : Option (List (Fin N))) (size : Option ℕ) : Dist ℝ (Outcome (List (List (Fin N)))) :=
  if mode = "AED" then (withInit sInit (initAED K)).andThen fun S => aedSampler K o S
  else if mode = "AD" then (withInit sInit (initADE K none)).andThen fun S => adSampler K o S
  else if mode = "E" then (withInit sInit (initADE K size)).andThen fun S => exSampler K o S
  else Dist.ret (.raise .unboundLocalError)

end Verif.Model
