import Verif.Outcome
import Verif.Model.Plancherel
import Mathlib.Data.Finset.Sort
import Mathlib.Analysis.SpecialFunctions.Sqrt
import Mathlib.Analysis.SpecialFunctions.Trigonometric.Inverse

/-!
Model of `xy_young_ru` and `limit_shape` (`dppy/exotic_dpps_core.py`) and of what `PoissonizedPlancherel.plot_diagram`
(`dppy/exotic_dpps.py`) draws.  Floats are real numbers (rationals in the recorded sample).
-/

namespace Verif.Model
open Verif

/-- `intertwine(arr_1, arr_2)`, the two arrays having the same size (always the case in the code)
(`/repo/dppy/exotic_dpps_core.py` lines 225-228). -/
def intertwine {α : Type*} (a b : List α) : List α := (List.zipWith (fun x y => [x, y]) a b).flatten

/-- `np.repeat(a, repeats=2)` (`/repo/dppy/exotic_dpps_core.py` lines 232 and 238). -/
def repeatTwice {α : Type*} (a : List α) : List α := (a.map fun x => [x, x]).flatten

/-- `np.repeat(a, repeats=g)` for arrays `a`, `g` of the same size (`/repo/dppy/exotic_dpps_core.py` line 239). -/
def npRepeat {α : Type*} (a : List α) (g : List ℕ) : List α := (List.zipWith (fun x k => List.replicate k x) a g).flatten

/-- `uniq` of `uniq, ind = np.unique(l, return_index=True)` (`/repo/dppy/exotic_dpps_core.py` line 235): the sorted distinct values. -/
def npUnique (l : List ℕ) : List ℕ := l.toFinset.sort (· ≤ ·)

/-- `ind` of `uniq, ind = np.unique(l, return_index=True)`: the indices of the first occurrences.
(`/repo/dppy/exotic_dpps_core.py` line 235) -/
def npUniqueInd (l : List ℕ) : List ℕ := (npUnique l).map fun v => l.idxOf v

/-- `np.ediff1d(u, to_begin=b)` (`/repo/dppy/exotic_dpps_core.py` line 236); `u` is increasing, so the differences are natural
numbers. -/
def ediff1d (b : ℕ) (u : List ℕ) : List ℕ := b :: List.zipWith (fun x y => y - x) u u.tail

/-- `gaps` (`/repo/dppy/exotic_dpps_core.py` lines 235-236), `last = young_diag[-1]`. -/
def youngGaps (young : List ℕ) (last : ℕ) : List ℕ := ediff1d last (npUnique young.reverse)

/-- `y_vert` before it is intertwined with zeros (`/repo/dppy/exotic_dpps_core.py` line 239). -/
def youngCols (young : List ℕ) (last : ℕ) : List ℕ :=
  npRepeat ((npUniqueInd young.reverse).map fun i => young.length - i) (youngGaps young last)

/-- `np.hstack([x_hor, x_vert])` (`/repo/dppy/exotic_dpps_core.py` lines 231, 238 and 243). -/
def youngX (young : List ℕ) (last : ℕ) : List ℕ :=
  intertwine (young.map fun _ => 0) young ++ repeatTwice (List.range' 1 (youngGaps young last).sum)

/-- `np.hstack([y_hor, y_vert])` (`/repo/dppy/exotic_dpps_core.py` lines 232, 239-240 and 243). -/
def youngY (young : List ℕ) (last : ℕ) : List ℕ :=
  repeatTwice (List.range' 1 young.length)
    ++ intertwine ((youngCols young last).map fun _ => 0) (youngCols young last)

/-- A row `(x, y)` times the transpose of `rot_45_and_scale` (`/repo/dppy/exotic_dpps_core.py` lines 245-248). -/
def rot45 (p : ℕ × ℕ) : ℝ × ℝ := (1 * (p.1 : ℝ) + -1 * (p.2 : ℝ), 1 * (p.1 : ℝ) + 1 * (p.2 : ℝ))

/-- `xy_young_ru(young_diag)` (`/repo/dppy/exotic_dpps_core.py` lines 211-248), for an array of naturals; `young_diag[-1]` (line
236) raises an `IndexError` on an empty array. -/
noncomputable def xyYoungRu (young : List ℕ) : Outcome (List (ℝ × ℝ)) :=
  match young.getLast? with
  | none => .raise .indexError
  | some last => .ok ((List.zip (youngX young last) (youngY young last)).map rot45)

/-- `xy_young.reshape((-1, 2, 2))` (`/repo/dppy/exotic_dpps.py` line 423): consecutive points are the ends of the segments.  (An
odd number of points would raise an exception; there is always an even number.) -/
def pairUp {α : Type*} : List α → List (α × α)
  | a :: b :: l => (a, b) :: pairUp l
  | _ => []

open Classical in
/-- `limit_shape(x)` at one entry of an array of floats (`/repo/dppy/exotic_dpps_core.py` lines 251-285).  Arrays of integers are
not modelled: `w_x[..] *= 2.0 / np.pi` raises a casting error on them. -/
noncomputable def limitShape (x : ℝ) : ℝ :=
  if |x| ≥ 2 then |x| else (x * Real.arcsin (1 / 2 * x) + √(4 - x ^ 2)) * (2 / Real.pi)

/-- What `plot_diagram` puts on the figure. (`/repo/dppy/exotic_dpps.py` lines 386-444) -/
structure Drawing where
  /-- abscissas of the scattered sample -/
  sample : List ℝ
  /-- vertices of the wedge -/
  wedge : List (ℝ × ℝ)
  /-- the line segments of the diagram -/
  segments : List ((ℝ × ℝ) × (ℝ × ℝ))
  /-- the points of the limit shape -/
  curve : List (ℝ × ℝ)

/-- `x / np.sqrt(self.theta)` when `normalization`, else `x`. (`/repo/dppy/exotic_dpps.py` lines 406-430) -/
noncomputable def normalise (theta : ℝ) (normalization : Bool) (x : ℝ) : ℝ := if normalization then x / √theta else x

/-- `np.linspace(-x_max, x_max, 100)` (`/repo/dppy/exotic_dpps.py` line 428). -/
noncomputable def linspace100 (w : ℝ) : List ℝ := (List.range 100).map fun k : ℕ => -w + (k : ℝ) * ((w - -w) / 99)

/-- The body of `plot_diagram` for `y_diag` (nonempty, `first = y_diag[0]`) and `sampl` (`/repo/dppy/exotic_dpps.py` lines 406-430). -/
noncomputable def drawDiagram (theta : ℝ) (normalization : Bool) (young : List ℕ) (first : ℕ) (sampl : List ℚ) : Outcome Drawing :=
  match xyYoungRu young with
  | .raise e => .raise e
  | .ok xy => .ok
    { sample := sampl.map fun s : ℚ => normalise theta normalization (s : ℝ)
      wedge := [(-normalise theta normalization (11 / 10 * (max young.length first : ℕ)),
          normalise theta normalization (11 / 10 * (max young.length first : ℕ))), (0, 0),
        (normalise theta normalization (11 / 10 * (max young.length first : ℕ)),
          normalise theta normalization (11 / 10 * (max young.length first : ℕ)))]
      segments := pairUp (xy.map fun p => (normalise theta normalization p.1, normalise theta normalization p.2))
      curve := if normalization then
          (linspace100 (normalise theta normalization (11 / 10 * (max young.length first : ℕ)))).map fun x => (x, limitShape x)
        else [] }

/-- `PoissonizedPlancherel.plot_diagram(normalization)` (`/repo/dppy/exotic_dpps.py` lines 386-444): the last recorded diagram and
sample (`IndexError` when there is none), `y_diag[0]` raises an `IndexError` when the diagram is empty.  The calls to matplotlib
are replaced by the data handed to it. -/
noncomputable def plotDiagram (theta : ℝ) (normalization : Bool) (hist : List (List ℕ × List ℚ)) : Outcome Drawing :=
  match hist.getLast? with
  | none => .raise .indexError
  | some (young, sampl) =>
    match young.head? with
    | none => .raise .indexError
    | some first => drawDiagram theta normalization young first sampl

end Verif.Model
