import Mathlib.Algebra.BigOperators.Group.List.Basic
import Mathlib.Algebra.BigOperators.Ring.List
import Mathlib.Algebra.Order.Field.Basic
import Mathlib.Algebra.Order.BigOperators.Group.List
import Mathlib.Tactic.Ring
import Mathlib.Tactic.Linarith
import Mathlib.Tactic.FieldSimp
import Mathlib.Tactic.LinearCombination
import Mathlib.Tactic.NormNum
import Mathlib.Tactic.Positivity

/-!
# Finite random programs

A random program that draws finitely many discrete random numbers is modelled by the finite list of
its outcomes with their weights.  `R` is the type of weights (`ℚ` or `ℝ`).  This is the model of
`numpy.random.RandomState` used for every sampler of `/repo/dppy` that only makes discrete choices:

* `rng.rand() < p`        is `Dist.bern p`        (p is clamped into `[0,1]`, as comparing a uniform
  number of `[0,1)` with `p` does),
* `rng.randint(0, n)`     is `Dist.randint n`,
* `rng.choice(l)`         is `Dist.choice l`      (uniform on the list),
* `rng.choice(l, p=w)`    is `Dist.choiceP l w`.

Simplification: draws are ideal (exactly uniform and independent) real numbers.
-/

namespace Verif

/-- A finite weighted list of outcomes. -/
abbrev Dist (R : Type*) (α : Type*) := List (α × R)

namespace Dist
variable {R : Type*} {α β γ : Type*}

/-- the deterministic program -/
def ret [One R] (a : α) : Dist R α := [(a, 1)]

/-- run `d`, then `k` on its outcome -/
def bind [Mul R] (d : Dist R α) (k : α → Dist R β) : Dist R β :=
  d.flatMap fun aw => (k aw.1).map fun bw => (bw.1, aw.2 * bw.2)

/-- post-compose an outcome -/
def map (f : α → β) (d : Dist R α) : Dist R β := List.map (fun aw => (f aw.1, aw.2)) d

/-- `rng.rand() < p` for a uniform number of `[0,1)`. -/
def bern [Field R] [LinearOrder R] (p : R) : Dist R Bool :=
  [(true, min 1 (max 0 p)), (false, 1 - min 1 (max 0 p))]

/-- `rng.choice(l)`: uniform on the list `l`. -/
def choice [Field R] (l : List α) : Dist R α := l.map fun a => (a, 1 / (l.length : R))

/-- `rng.randint(0, n)`: uniform on `0..n-1`. -/
def randint [Field R] (n : ℕ) : Dist R ℕ := choice (List.range n)

/-- `rng.choice(l, p=[w(a) for a in l])`. -/
def choiceP (l : List α) (w : α → R) : Dist R α := l.map fun a => (a, w a)

/-- expectation of `f` -/
def E [Semiring R] (d : Dist R α) (f : α → R) : R := (List.map (fun aw => aw.2 * f aw.1) d).sum

open Classical in
/-- probability of the event `p` -/
noncomputable def prob [Semiring R] (d : Dist R α) (p : α → Prop) : R :=
  d.E fun a => if p a then 1 else 0

/-- total mass -/
def mass [Semiring R] (d : Dist R α) : R := d.E fun _ => 1

/-- the outcomes that have non-zero weight -/
def Possible [Zero R] (d : Dist R α) (a : α) : Prop := ∃ w, (a, w) ∈ d ∧ w ≠ 0

section lemmas
variable [Semiring R]

@[simp] theorem E_nil (f : α → R) : E ([] : Dist R α) f = 0 := rfl

@[simp] theorem E_cons (a : α) (w : R) (d : Dist R α) (f : α → R) :
    E ((a, w) :: d) f = w * f a + E d f := by simp [E]

@[simp] theorem E_append (d e : Dist R α) (f : α → R) : E (d ++ e) f = E d f + E e f := by
  simp [E]

@[simp] theorem E_ret (a : α) (f : α → R) : E (ret a : Dist R α) f = f a := by simp [ret]

theorem E_map (g : α → β) (d : Dist R α) (f : β → R) : E (d.map g) f = E d (fun a => f (g a)) := by
  simp [E, map, Function.comp_def]

theorem E_scale (w : R) (d : Dist R α) (f : α → R) :
    E (List.map (fun bw => (bw.1, w * bw.2)) d) f = w * E d f := by
  simp [E, Function.comp_def, mul_assoc, List.sum_map_mul_left]

theorem E_bind (d : Dist R α) (k : α → Dist R β) (f : β → R) :
    E (d.bind k) f = E d (fun a => E (k a) f) := by
  induction d with
  | nil => simp [bind]
  | cons aw d ih =>
    obtain ⟨a, w⟩ := aw
    have : bind ((a, w) :: d) k
        = List.map (fun bw => (bw.1, w * bw.2)) (k a) ++ bind d k := by
      simp [bind]
    rw [this, E_append, E_scale, ih, E_cons]

theorem E_congr {d : Dist R α} {f g : α → R} (h : ∀ a w, (a, w) ∈ d → f a = g a) :
    E d f = E d g := by
  induction d with
  | nil => rfl
  | cons aw d ih =>
    obtain ⟨a, w⟩ := aw
    rw [E_cons, E_cons, h a w (by simp), ih (fun a w hm => h a w (by simp [hm]))]

@[simp] theorem E_zero (d : Dist R α) : E d (fun _ => (0 : R)) = 0 := by
  simp [E]

theorem E_eq_zero {d : Dist R α} {f : α → R} (h : ∀ a w, (a, w) ∈ d → f a = 0) : E d f = 0 := by
  rw [E_congr h, E_zero]

theorem E_add (d : Dist R α) (f g : α → R) : E d (fun a => f a + g a) = E d f + E d g := by
  induction d with
  | nil => simp
  | cons aw d ih => obtain ⟨a, w⟩ := aw; simp only [E_cons, ih, mul_add]; exact add_add_add_comm _ _ _ _

theorem E_mul_right (d : Dist R α) (f : α → R) (c : R) : E d (fun a => f a * c) = E d f * c := by
  induction d with
  | nil => simp
  | cons aw d ih => obtain ⟨a, w⟩ := aw; simp only [E_cons, ih, add_mul, mul_assoc]

theorem prob_eq (d : Dist R α) (p : α → Prop) [DecidablePred p] :
    d.prob p = d.E fun a => if p a then 1 else 0 := by
  unfold prob; congr 1; funext a; congr

theorem E_choiceP (l : List α) (w : α → R) (f : α → R) :
    E (choiceP l w) f = (l.map fun a => w a * f a).sum := by
  simp [E, choiceP, Function.comp_def]

end lemmas

theorem E_const_mul [CommSemiring R] (d : Dist R α) (f : α → R) (c : R) :
    E d (fun a => c * f a) = c * E d f := by
  simp only [mul_comm c, E_mul_right]

theorem E_choice [Field R] (l : List α) (f : α → R) :
    E (choice l) f = (1 / (l.length : R)) * (l.map f).sum := by
  simp [E, choice, Function.comp_def, List.sum_map_mul_left]

theorem E_randint [Field R] (n : ℕ) (f : ℕ → R) :
    E (randint n) f = (1 / (n : R)) * ((List.range n).map f).sum := by
  simp [randint, E_choice]

theorem E_bern [Field R] [LinearOrder R] (p : R) (f : Bool → R) :
    E (bern p) f = min 1 (max 0 p) * f true + (1 - min 1 (max 0 p)) * f false := by
  simp [bern]

theorem E_bern_of_mem [Field R] [LinearOrder R] {p : R} (h0 : 0 ≤ p) (h1 : p ≤ 1)
    (f : Bool → R) : E (bern p) f = p * f true + (1 - p) * f false := by
  rw [E_bern, max_eq_right h0, min_eq_right h1]

end Dist
end Verif
