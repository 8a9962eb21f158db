import Verif.Lemmas.Circ3
import Mathlib.Analysis.SpecialFunctions.ExpDeriv
import Mathlib.Analysis.Calculus.Deriv.Star
import Mathlib.Analysis.Complex.RealDeriv
import Mathlib.Analysis.InnerProductSpace.Calculus

/-!
# The two charts of the space of measures on the circle
-/

namespace Verif.Lemmas
open Finset Polynomial
open scoped ComplexConjugate

/-- moments in terms of the coefficients -/
noncomputable def szMom (al : ℕ → ℂ) (m : ℝ) : ℕ → ℂ
  | 0 => (m : ℂ)
  | k + 1 => conj (al k) * ((m * szR al k : ℝ) : ℂ) - ∑ i : Fin k, (szP al k).coeff i * szMom al m (i + 1)
decreasing_by omega

theorem szMom_succ (al : ℕ → ℂ) (m : ℝ) (k : ℕ) : szMom al m (k + 1)
    = conj (al k) * ((m * szR al k : ℝ) : ℂ) - ∑ i : Fin k, (szP al k).coeff i * szMom al m (i + 1) := by rw [szMom]

variable {N : ℕ} {z : Fin N → ℂ} {w : Fin N → ℝ} {al al' : ℕ → ℂ} {m m' : ℝ}

theorem szP_coeff_self (al : ℕ → ℂ) (k : ℕ) : (szP al k).coeff k = 1 := by
  have := szP_monic al k
  rw [Monic, leadingCoeff, szP_deg] at this
  exact this

theorem sum_zP (z : Fin N → ℂ) (w : Fin N → ℝ) (al : ℕ → ℂ) (k : ℕ) : ∑ j, (w j : ℂ) * (z j * (szP al k).eval (z j))
    = (∑ i : Fin k, (szP al k).coeff i * ∑ j, (w j : ℂ) * z j ^ ((i : ℕ) + 1)) + ∑ j, (w j : ℂ) * z j ^ (k + 1) := by
  have e : ∑ j, (w j : ℂ) * (z j * (szP al k).eval (z j))
      = ∑ i ∈ range (k + 1), (szP al k).coeff i * ∑ j, (w j : ℂ) * z j ^ (i + 1) := by
    simp only [mul_sum]
    rw [sum_comm]
    refine sum_congr rfl fun j _ => ?_
    rw [eval_eq_sum_range' (n := k + 1) (by rw [szP_deg]; omega), mul_sum, mul_sum]
    exact sum_congr rfl fun i _ => by ring
  rw [e, sum_range_succ, szP_coeff_self, one_mul, ← Fin.sum_univ_eq_sum_range
    (fun i => (szP al k).coeff i * ∑ j, (w j : ℂ) * z j ^ (i + 1))]

theorem szM_iff {K : ℕ} : SzM z w al K ↔ ∀ k ≤ K, ∑ j, (w j : ℂ) * z j ^ k = szMom al (∑ j, w j) k := by
  constructor
  · intro h k
    induction k using Nat.strong_induction_on with
    | _ k ih =>
      intro hk
      rcases k with _ | k
      · rw [szMom]; simp
      · have h1 := h k (by omega)
        rw [sum_zP, sum_congr rfl fun (i : Fin k) _ => by rw [ih (i + 1) (by omega) (by omega)]] at h1
        rw [szMom, ← h1]; ring
  · intro h k hk
    rw [sum_zP, h (k + 1) (by omega), sum_congr rfl fun (i : Fin k) _ => by rw [h (i + 1) (by omega)], szMom]
    ring

theorem szMom_congr {k : ℕ} (h : ∀ i < k, al i = al' i) : szMom al m k = szMom al' m k := by
  induction k using Nat.strong_induction_on with
  | _ k ih =>
    rcases k with _ | k
    · rw [szMom, szMom]
    · rw [szMom, szMom, h k (by omega)]
      have e : szP al k = szP al' k := congrArg Prod.fst (szP_congr fun i hi => h i (by omega))
      have e2 : szR al k = szR al' k := prod_congr rfl fun i hi => by rw [h i (by have := mem_range.1 hi; omega)]
      rw [e, e2]
      congr 1
      exact sum_congr rfl fun i _ => by rw [ih (i + 1) (by omega) fun l hl => h l (by omega)]

theorem szMom_inj {n : ℕ} (hm : 0 < m) (hR : ∀ k < n, 0 < szR al k) (h : ∀ k ≤ n, szMom al m k = szMom al' m' k) :
    m = m' ∧ ∀ k < n, al k = al' k := by
  have h0 : m = m' := by
    have := h 0 (by omega)
    rw [szMom, szMom] at this
    exact_mod_cast this
  subst h0
  refine ⟨rfl, fun k => ?_⟩
  induction k using Nat.strong_induction_on with
  | _ k ih =>
    intro hk
    have h1 := h (k + 1) hk
    rw [szMom, szMom] at h1
    have hlt : ∀ i < k, al i = al' i := fun i hi => ih i hi (by omega)
    have e : szP al k = szP al' k := congrArg Prod.fst (szP_congr hlt)
    have e2 : szR al k = szR al' k := prod_congr rfl fun i hi => by rw [hlt i (mem_range.1 hi)]
    rw [← e, ← e2, sum_congr rfl fun (i : Fin k) _ => by rw [h (i + 1) (by omega)]] at h1
    have h2 : conj (al k) * ((m * szR al k : ℝ) : ℂ) = conj (al' k) * ((m * szR al k : ℝ) : ℂ) := sub_left_inj.1 h1
    have h3 := mul_right_cancel₀ (Complex.ofReal_ne_zero.2 (mul_pos hm (hR k hk)).ne') h2
    exact (starRingEnd ℂ).injective h3

/-! ## Coordinates -/

variable {n : ℕ}

/-- total mass -/
def massC (y : Cd (n + 1)) : ℝ := y (.inr 0)

/-- the coefficients in terms of the coordinates: `inl k`, `inr (k + 1)` are the real and imaginary parts of `al k` for `k < n`, and
`inl n` is the angle of `(-1)^n conj (al n)` -/
noncomputable def alC (y : Cd (n + 1)) (k : ℕ) : ℂ :=
  if k < n then (pad (fun i => y (.inl i)) k : ℂ) + (pad (fun i => y (.inr i)) (k + 1) : ℂ) * Complex.I
  else conj ((-1) ^ n * Complex.exp ((y (.inl (Fin.last n)) : ℂ) * Complex.I))

/-- moments and angle in terms of the coefficients -/
noncomputable def momH (y : Cd (n + 1)) : Cd (n + 1)
  | .inl k => if (k : ℕ) < n then (szMom (alC y) (massC y) (k + 1)).re else y (.inl k)
  | .inr k => if (k : ℕ) = 0 then massC y else (szMom (alC y) (massC y) k).im

/-- the atoms -/
noncomputable def zC (x : Cd N) (j : Fin N) : ℂ := Complex.exp ((x (.inl j) : ℂ) * Complex.I)

/-- moments of the measure with atoms `zC x` -/
noncomputable def cmom (x : Cd N) (k : ℕ) : ℂ := ∑ j, (x (.inr j) : ℂ) * zC x j ^ k

/-- moments and sum of the angles -/
noncomputable def momE (x : Cd (n + 1)) : Cd (n + 1)
  | .inl k => if (k : ℕ) < n then (cmom x (k + 1)).re else ∑ j, x (.inl j)
  | .inr k => if (k : ℕ) = 0 then ∑ j, x (.inr j) else (cmom x k).im

theorem zC_norm (x : Cd N) (j : Fin N) : ‖zC x j‖ = 1 := Complex.norm_exp_ofReal_mul_I _

theorem alC_lt (y : Cd (n + 1)) {k : ℕ} (hk : k < n) : alC y k
    = ((y (.inl ⟨k, by omega⟩) : ℝ) : ℂ) + ((y (.inr ⟨k + 1, by omega⟩) : ℝ) : ℂ) * Complex.I := by
  rw [alC, if_pos hk, pad_lt (by omega), pad_lt (by omega)]

theorem alC_last (y : Cd (n + 1)) : alC y n = conj ((-1) ^ n * Complex.exp ((y (.inl (Fin.last n)) : ℂ) * Complex.I)) := by
  rw [alC, if_neg (lt_irrefl n)]

theorem alC_last_norm (y : Cd (n + 1)) : ‖alC y n‖ = 1 := by
  rw [alC_last, RCLike.norm_conj, norm_mul, Complex.norm_exp_ofReal_mul_I]; simp

theorem momE_eq_momH {x y : Cd (n + 1)} : momE x = momH y ↔
    (∑ j, x (.inl j) = y (.inl (Fin.last n))) ∧ ∀ k ≤ n, cmom x k = szMom (alC y) (massC y) k := by
  constructor
  · intro h
    refine ⟨?_, fun k hk => ?_⟩
    · have := congrFun h (.inl (Fin.last n))
      simpa [momE, momH] using this
    · rcases k with _ | k
      · have := congrFun h (.inr 0)
        simp only [momE, momH, Fin.val_zero, if_true] at this
        rw [szMom, cmom]
        simp only [pow_zero, mul_one]
        rw [← this]; push_cast; rfl
      · refine Complex.ext ?_ ?_
        · have := congrFun h (.inl ⟨k, by omega⟩)
          simpa only [momE, momH, if_pos (show k < n by omega)] using this
        · have := congrFun h (.inr ⟨k + 1, by omega⟩)
          simpa only [momE, momH, if_neg (Nat.succ_ne_zero k)] using this
  · rintro ⟨h1, h2⟩
    funext r
    rcases r with k | k
    · simp only [momE, momH]
      split_ifs with hk
      · rw [h2 (k + 1) (by omega)]
      · have : k = Fin.last n := Fin.ext (by have := k.2; simp; omega)
        rw [this, h1]
    · simp only [momE, momH]
      split_ifs with hk
      · have := h2 0 (by omega)
        rw [szMom, cmom] at this
        simp only [pow_zero, mul_one] at this
        exact_mod_cast this
      · rw [h2 k (by omega)]

/-! ## Derivatives -/

/-- derivative of the moments -/
noncomputable def dcm (x : Cd N) (k : ℕ) : Fin N ⊕ Fin N → ℂ :=
  Sum.elim (fun j => Complex.I * k * x (.inr j) * zC x j ^ k) (fun j => zC x j ^ k)

theorem cmom_deriv (x : Cd N) (k : ℕ) (c : Fin N ⊕ Fin N) :
    HasDerivAt (fun t : ℝ => cmom (x + t • Pi.single c 1) k) (dcm x k c) 0 := by
  classical
  have e : ∀ t : ℝ, cmom (x + t • Pi.single c 1) k
      = ∑ j, ((x (.inr j) + (if (Sum.inr j : Fin N ⊕ Fin N) = c then t else 0) : ℝ) : ℂ)
        * Complex.exp ((k : ℂ) * (((x (.inl j) + (if (Sum.inl j : Fin N ⊕ Fin N) = c then t else 0) : ℝ) : ℂ) * Complex.I)) := by
    intro t
    rw [cmom]
    refine sum_congr rfl fun j _ => ?_
    rw [zC, ← Complex.exp_nat_mul]
    rw [add_smul_single, add_smul_single]
  have e' : (fun t : ℝ => cmom (x + t • Pi.single c 1) k) = _ := funext e
  rw [e']
  have hlin : ∀ (a : ℝ) (p : Prop) [Decidable p], HasDerivAt (fun t : ℝ => ((a + (if p then t else 0) : ℝ) : ℂ))
      (if p then 1 else 0) 0 := by
    intro a p _
    by_cases hp : p
    · simp only [hp, if_true]
      have := ((hasDerivAt_id (0 : ℝ)).const_add a).ofReal_comp
      simpa using this
    · simp only [hp, if_false]
      exact hasDerivAt_const _ _
  have hsum : HasDerivAt (fun t : ℝ => ∑ j, ((x (.inr j) + (if (Sum.inr j : Fin N ⊕ Fin N) = c then t else 0) : ℝ) : ℂ)
        * Complex.exp ((k : ℂ) * (((x (.inl j) + (if (Sum.inl j : Fin N ⊕ Fin N) = c then t else 0) : ℝ) : ℂ) * Complex.I)))
      (∑ j, ((if (Sum.inr j : Fin N ⊕ Fin N) = c then 1 else 0) * zC x j ^ k
        + x (.inr j) * (zC x j ^ k * ((k : ℂ) * ((if (Sum.inl j : Fin N ⊕ Fin N) = c then 1 else 0) * Complex.I))))) 0 := by
    refine HasDerivAt.fun_sum fun j _ => ?_
    have h1 := hlin (x (.inr j)) ((Sum.inr j : Fin N ⊕ Fin N) = c)
    have h2 := ((hlin (x (.inl j)) ((Sum.inl j : Fin N ⊕ Fin N) = c)).mul_const Complex.I).const_mul (k : ℂ)
    have h3 := h1.mul h2.cexp
    refine h3.congr_deriv ?_
    have e0 : ∀ (p : Prop) [Decidable p] (a : ℝ), a + (if p then (0 : ℝ) else 0) = a := fun p _ a => by rw [ite_self, add_zero]
    rw [zC, ← Complex.exp_nat_mul, e0, e0]
  convert hsum using 1
  rcases c with i | i
  · simp only [dcm, Sum.elim_inl, Sum.inl.injEq, reduceCtorEq, if_false, zero_mul, zero_add, ite_mul, one_mul, mul_ite, mul_zero,
      sum_ite_eq', mem_univ, if_true]
    ring
  · simp only [dcm, Sum.elim_inr, Sum.inr.injEq, reduceCtorEq, if_false, zero_mul, mul_zero, add_zero, ite_mul, one_mul,
      sum_ite_eq', mem_univ, if_true]

theorem diff_cmom (k : ℕ) : Differentiable ℝ fun x : Cd N => cmom x k := by
  unfold cmom zC
  refine Differentiable.fun_sum fun j _ => ?_
  have h1 : ∀ c : Fin N ⊕ Fin N, Differentiable ℝ fun x : Cd N => ((x c : ℝ) : ℂ) := fun c =>
    Complex.ofRealCLM.differentiable.comp (differentiable_apply c)
  exact (h1 _).mul (((h1 _).mul_const _).cexp.pow k)

theorem diff_momE : Differentiable ℝ (momE (n := n)) := by
  rw [differentiable_pi]
  rintro (k | k)
  · simp only [momE]
    split_ifs
    · exact Complex.reCLM.differentiable.comp (diff_cmom _)
    · fun_prop
  · simp only [momE]
    split_ifs
    · fun_prop
    · exact Complex.imCLM.differentiable.comp (diff_cmom _)

theorem diff_alC (k : ℕ) : Differentiable ℝ fun y : Cd (n + 1) => alC y k := by
  have h1 : ∀ c : Fin (n + 1) ⊕ Fin (n + 1), Differentiable ℝ fun x : Cd (n + 1) => ((x c : ℝ) : ℂ) := fun c =>
    Complex.ofRealCLM.differentiable.comp (differentiable_apply c)
  by_cases hk : k < n
  · have : (fun y : Cd (n + 1) => alC y k) = _ := funext fun y => alC_lt y hk
    rw [this]
    exact (h1 _).add ((h1 _).mul_const _)
  · simp only [alC, if_neg hk]
    exact Complex.conjCLE.differentiable.comp (((h1 _).mul_const _).cexp.const_mul _)

theorem diff_szR (k : ℕ) : Differentiable ℝ fun y : Cd (n + 1) => szR (alC y) k := by
  induction k with
  | zero => simp only [szR_zero]; exact differentiable_const _
  | succ k ih =>
    simp only [szR_succ]
    exact ih.mul ((differentiable_const _).sub (Differentiable.norm_sq ℂ (diff_alC k)))

theorem diff_szego (k : ℕ) : ∀ i, Differentiable ℝ (fun y : Cd (n + 1) => (szP (alC y) k).coeff i)
    ∧ Differentiable ℝ (fun y : Cd (n + 1) => (szQ (alC y) k).coeff i) := by
  induction k with
  | zero => intro i; simp [szP_zero, szQ_zero]
  | succ k ih =>
    intro i
    have hx : Differentiable ℝ (fun y : Cd (n + 1) => (X * szP (alC y) k).coeff i) := by
      rcases i with _ | i
      · simp
      · simp only [coeff_X_mul]; exact (ih i).1
    constructor
    · simp only [szP_succ, coeff_sub, coeff_C_mul]
      exact hx.sub ((Complex.conjCLE.differentiable.comp (diff_alC k)).mul (ih i).2)
    · simp only [szQ_succ, coeff_sub, coeff_C_mul]
      exact (ih i).2.sub ((diff_alC k).mul hx)

theorem diff_szMom (k : ℕ) : Differentiable ℝ fun y : Cd (n + 1) => szMom (alC y) (massC y) k := by
  have hm : Differentiable ℝ fun y : Cd (n + 1) => massC y := by unfold massC; fun_prop
  induction k using Nat.strong_induction_on with
  | _ k ih =>
    rcases k with _ | k
    · simp only [szMom]
      exact Complex.ofRealCLM.differentiable.comp hm
    · have e : (fun y : Cd (n + 1) => szMom (alC y) (massC y) (k + 1)) = _ := funext fun y => szMom_succ _ _ _
      rw [e]
      refine ((Complex.conjCLE.differentiable.comp (diff_alC k)).mul
        (Complex.ofRealCLM.differentiable.comp (hm.mul (diff_szR k)))).sub (Differentiable.fun_sum fun i _ => ?_)
      exact ((diff_szego k i).1).mul (ih (i + 1) (by omega))

theorem diff_momH : Differentiable ℝ (momH (n := n)) := by
  rw [differentiable_pi]
  rintro (k | k)
  · simp only [momH]
    split_ifs
    · exact Complex.reCLM.differentiable.comp (diff_szMom _)
    · fun_prop
  · simp only [momH]
    split_ifs
    · unfold massC; fun_prop
    · exact Complex.imCLM.differentiable.comp (diff_szMom _)

end Verif.Lemmas
