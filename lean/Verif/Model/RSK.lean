import Mathlib.Order.Defs.LinearOrder
import Mathlib.Data.List.Basic

/-!
Model of `dppy/exotic_dpps_core.py : RSK`.
-/

namespace Verif.Model

variable {α : Type*} [LinearOrder α]

/-- The loop of Python's standard library `bisect.bisect_right(a, x)` with bounds `lo`, `hi`
(imported at `/repo/dppy/exotic_dpps_core.py` line 32, used at line 199):
`while lo < hi: mid = (lo + hi) // 2; if x < a[mid]: hi = mid else: lo = mid + 1`. -/
def bisectRightLoop (a : List α) (x : α) (lo hi : ℕ) : ℕ :=
  if lo < hi then
    match a[(lo + hi) / 2]? with
    | some v =>
      if x < v then bisectRightLoop a x lo ((lo + hi) / 2)
      else bisectRightLoop a x ((lo + hi) / 2 + 1) hi
    | none => lo
  else lo
termination_by hi - lo

/-- `bisect_right(a, x)`. (`/repo/dppy/exotic_dpps_core.py` line 199) -/
def bisectRight (a : List α) (x : α) : ℕ := bisectRightLoop a x 0 a.length

/-- Body of the outer loop of `RSK` (`/repo/dppy/exotic_dpps_core.py` lines 190-206): iterate along
`zip(P, Q)`; `none` models an uncaught `IndexError` (`row_P[-1]` of an empty row, or
`row_P[ind_insert]` out of range).  The Python lists are mutated in place; the model returns the new
values. -/
def rskInsert (it : ℕ) :
    List (List α) → List (List ℕ) → α → Option (List (List α) × List (List ℕ))
  | rowP :: P, rowQ :: Q, x =>
    match rowP.getLast? with
    | none => none                                          -- row_P[-1] : IndexError
    | some last =>
      if last ≤ x then some ((rowP ++ [x]) :: P, (rowQ ++ [it]) :: Q)      -- lines 191-194
      else
        match rowP[bisectRight rowP x]? with
        | none => none                                      -- IndexError
        | some y =>                                         -- lines 196-200
          match rskInsert it P Q y with
          | none => none
          | some (P', Q') => some (rowP.set (bisectRight rowP x) x :: P', rowQ :: Q')
  | P, Q, x => some (P ++ [[x]], Q ++ [[it]])               -- for ... else, lines 203-205

/-- The outer loop `for it, x in enumerate(sequence, start=1)`
(`/repo/dppy/exotic_dpps_core.py` lines 185-206). -/
def rskLoop : ℕ → List (List α) → List (List ℕ) → List α →
    Option (List (List α) × List (List ℕ))
  | _, P, Q, [] => some (P, Q)
  | it, P, Q, x :: xs =>
    match rskInsert it P Q x with
    | none => none
    | some (P', Q') => rskLoop (it + 1) P' Q' xs

/-- `RSK(sequence)` (`/repo/dppy/exotic_dpps_core.py` lines 167-208). -/
def rsk (seq : List α) : Option (List (List α) × List (List ℕ)) := rskLoop 1 [] [] seq

end Verif.Model
