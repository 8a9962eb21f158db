import Verif.Lemmas.USTTerm
import Verif.Lemmas.MCMCRev
import Mathlib.LinearAlgebra.Matrix.NonsingularInverse
import Mathlib.LinearAlgebra.Matrix.ToLinearEquiv
import Mathlib.Algebra.BigOperators.Field

/-! Reduced Laplacians and their Green functions. -/

set_option linter.unusedSectionVars false

namespace Verif.Model
open Verif Verif.Spec Finset Matrix
variable {n : ℕ} {es : List (Fin n × Fin n)} {adj : Fin n → List (Fin n)}

/-- rows of the Laplacian in `S`, rows of the identity outside -/
def lapS (adj : Fin n → List (Fin n)) (S : Finset (Fin n)) : Matrix (Fin n) (Fin n) ℝ := Matrix.of fun i j =>
  if i ∈ S then (if i = j then ((adj i).length : ℝ) else 0) - (if j ∈ adj i then 1 else 0) else if i = j then 1 else 0

/-- its determinant -/
noncomputable def lapDet (adj : Fin n → List (Fin n)) (S : Finset (Fin n)) : ℝ := (lapS adj S).det

theorem adj_sum (hnd : ∀ v, (adj v).Nodup) (v : Fin n) (f : Fin n → ℝ) :
    ∑ j, (if j ∈ adj v then 1 else 0) * f j = ((adj v).map f).sum := by
  rw [← List.sum_toFinset f (hnd v)]
  simp only [ite_mul, one_mul, zero_mul]
  rw [← sum_filter]
  refine sum_congr ?_ fun _ _ => rfl
  ext j; simp

theorem lapS_mulVec (hnd : ∀ v, (adj v).Nodup) (S : Finset (Fin n)) (f : Fin n → ℝ) (i : Fin n) :
    (lapS adj S *ᵥ f) i = if i ∈ S then (adj i).length * f i - ((adj i).map f).sum else f i := by
  rw [Matrix.mulVec, dotProduct]
  by_cases h : i ∈ S
  · rw [if_pos h, ← adj_sum hnd]
    simp only [lapS, Matrix.of_apply, if_pos h, sub_mul, sum_sub_distrib, ite_mul, zero_mul, one_mul]
    simp
  · rw [if_neg h]
    simp only [lapS, Matrix.of_apply, if_neg h, ite_mul, zero_mul, one_mul]
    simp

/-- maximum principle -/
theorem harm_le_zero (hadj : NbrsOf es adj) (hnd : ∀ v, (adj v).Nodup) (hG : (graphOf es).Connected) {S : Finset (Fin n)} (hS : S ≠ univ) {f : Fin n → ℝ}
    (h0 : ∀ v ∉ S, f v = 0) (h1 : ∀ v ∈ S, (adj v).length * f v = ((adj v).map f).sum) (v : Fin n) : f v ≤ 0 := by
  have : Nonempty (Fin n) := ⟨v⟩
  obtain ⟨m, hm⟩ := Finite.exists_max f
  obtain ⟨b, hb⟩ : ∃ b, b ∉ S := by
    by_contra h
    push Not at h
    exact hS (eq_univ_iff_forall.2 h)
  by_contra hv
  push Not at hv
  have hpos : 0 < f m := hv.trans_le (hm v)
  have key : ∀ a, f a = f m → ∀ c, (graphOf es).Adj a c → f c = f m := by
    intro a ha c hc
    have haS : a ∈ S := by
      by_contra h
      rw [h0 a h] at ha
      linarith
    have hmem : c ∈ adj a := (hadj _ _).2 (graphOf_adj.1 hc).2
    have e : ∑ x ∈ (adj a).toFinset, (f m - f x) = 0 := by
      rw [sum_sub_distrib, List.sum_toFinset f (hnd a), ← h1 a haS, ha, sum_const, List.toFinset_card_of_nodup (hnd a), nsmul_eq_mul]
      ring
    have hz := (sum_eq_zero_iff_of_nonneg (fun x _ => by linarith [hm x])).1 e c (List.mem_toFinset.2 hmem)
    linarith
  have hall : ∀ c, (graphOf es).Reachable m c → f c = f m := by
    intro c hc
    obtain ⟨p⟩ := hc
    induction p with
    | nil => rfl
    | cons h p ih => 
      rename_i u w z
      have e := key u rfl w h
      have := ih (fun x => by rw [e]; exact hm x) (by rw [e]; exact hpos) (by rw [e]; exact key)
      rw [this, e]
  have := hall b (hG.preconnected m b)
  rw [h0 b hb] at this
  linarith

theorem lapDet_ne_zero (hadj : NbrsOf es adj) (hnd : ∀ v, (adj v).Nodup) (hG : (graphOf es).Connected) {S : Finset (Fin n)}
    (hS : S ≠ univ) : lapDet adj S ≠ 0 := by
  intro h
  obtain ⟨f, hf, hz⟩ := Matrix.exists_mulVec_eq_zero_iff.2 h
  have h0 : ∀ v ∉ S, f v = 0 := fun v hv => by
    have := congrFun hz v
    rwa [lapS_mulVec hnd, if_neg hv] at this
  have h1 : ∀ v ∈ S, (adj v).length * f v = ((adj v).map f).sum := fun v hv => by
    have := congrFun hz v
    rw [lapS_mulVec hnd, if_pos hv, Pi.zero_apply] at this
    linarith
  refine hf (funext fun v => le_antisymm (harm_le_zero hadj hnd hG hS h0 h1 v) ?_)
  have := harm_le_zero hadj hnd hG hS (f := fun v => - f v) (fun v hv => by simp [h0 v hv])
    (fun v hv => by
      have e : ((adj v).map fun x => - f x).sum = - ((adj v).map f).sum := by
        induction adj v with
        | nil => simp
        | cons a l ih => simp [ih]; ring
      rw [e, ← h1 v hv]; ring) v
  simpa using this

theorem lapS_erase (S : Finset (Fin n)) (a : Fin n) : lapS adj (S.erase a) = (lapS adj S).updateRow a (Pi.single a 1) := by
  ext i j
  by_cases h : i = a
  · subst h
    simp [lapS, Matrix.updateRow_apply, Pi.single_apply, eq_comm]
  · simp [lapS, Matrix.updateRow_apply, h]

/-- probability to reach `a` from `y` before leaving `S`, over the determinant -/
noncomputable def green (adj : Fin n → List (Fin n)) (S : Finset (Fin n)) (a y : Fin n) : ℝ :=
  (lapS adj S)⁻¹ y a / lapDet adj (S.erase a)

section
variable (hadj : NbrsOf es adj) (hnd : ∀ v, (adj v).Nodup) (hG : (graphOf es).Connected) {S : Finset (Fin n)} (hS : S ≠ univ)
include hadj hnd hG hS

theorem erase_ne_univ (a : Fin n) : S.erase a ≠ univ := by
  intro h
  have := mem_univ a
  rw [← h] at this
  simp at this

theorem inv_row (a x : Fin n) : (if x ∈ S then (adj x).length * (lapS adj S)⁻¹ x a - ((adj x).map fun y => (lapS adj S)⁻¹ y a).sum
    else (lapS adj S)⁻¹ x a) = if x = a then 1 else 0 := by
  have h : lapS adj S * (lapS adj S)⁻¹ = 1 := Matrix.mul_nonsing_inv _ (isUnit_iff_ne_zero.2 (lapDet_ne_zero hadj hnd hG hS))
  have := congrFun (congrFun h x) a
  rw [Matrix.one_apply, Matrix.mul_apply_eq_vecMul] at this
  have e : (lapS adj S *ᵥ fun y => (lapS adj S)⁻¹ y a) x = if x = a then 1 else 0 := by
    rw [← Matrix.one_apply, ← h]; rfl
  rw [lapS_mulVec hnd] at e
  exact e

theorem green_self (a : Fin n) : green adj S a a = 1 / lapDet adj S := by
  have hD := lapDet_ne_zero hadj hnd hG hS
  have hD' := lapDet_ne_zero hadj hnd hG (erase_ne_univ hadj hnd hG hS a)
  rw [green, Matrix.inv_def, Matrix.smul_apply, Matrix.adjugate_apply, ← lapS_erase, smul_eq_mul, Ring.inverse_eq_inv']
  change (lapDet adj S)⁻¹ * lapDet adj (S.erase a) / lapDet adj (S.erase a) = _
  field_simp

theorem green_out {a y : Fin n} (ha : a ∈ S) (hy : y ∉ S) : green adj S a y = 0 := by
  have := inv_row hadj hnd hG hS a y
  rw [if_neg hy, if_neg (fun h : y = a => hy (h ▸ ha))] at this
  rw [green, this, zero_div]

theorem green_sum {a x : Fin n} (hx : x ∈ S) : ((adj x).map (green adj S a)).sum
    = (adj x).length * green adj S a x - if x = a then 1 / lapDet adj (S.erase a) else 0 := by
  have := inv_row hadj hnd hG hS a x
  rw [if_pos hx] at this
  have e : ((adj x).map (green adj S a)).sum = ((adj x).map fun y => (lapS adj S)⁻¹ y a).sum / lapDet adj (S.erase a) := by
    induction adj x with
    | nil => simp
    | cons b l ih => simp [ih, green, add_div]
  rw [e, green, show ((adj x).map fun y => (lapS adj S)⁻¹ y a).sum = (adj x).length * (lapS adj S)⁻¹ x a - (if x = a then 1 else 0) by linarith]
  split_ifs <;> ring
end

/-! ### weighted sums along a path -/

/-- sum over the prefixes of the path `p` (after `pre`) of the weight of the prefix times the Green function of what is left -/
noncomputable def pathSum (adj : Fin n → List (Fin n)) (c : List (Fin n) → ℝ) : Finset (Fin n) → List (Fin n) → List (Fin n) → Fin n → ℝ
  | _, _, [], _ => 0
  | S, pre, a :: p, y => c (pre ++ [a]) * green adj S a y + pathSum adj c (S.erase a) (pre ++ [a]) p y

theorem erase_sdiff (S : Finset (Fin n)) (a : Fin n) (p : List (Fin n)) : S.erase a \ p.toFinset = S \ (a :: p).toFinset := by
  ext v; simp [and_assoc, not_or]; tauto

theorem pathSum_append (c : List (Fin n) → ℝ) (y : Fin n) : ∀ (p p' : List (Fin n)) (S : Finset (Fin n)) (pre : List (Fin n)),
    pathSum adj c S pre (p ++ p') y = pathSum adj c S pre p y + pathSum adj c (S \ p.toFinset) (pre ++ p) p' y
  | [], p', S, pre => by simp [pathSum]
  | a :: p, p', S, pre => by
    rw [List.cons_append, pathSum, pathSum, pathSum_append c y p p', erase_sdiff, add_assoc, List.append_assoc, List.singleton_append]

section
variable (hadj : NbrsOf es adj) (hnd : ∀ v, (adj v).Nodup) (hG : (graphOf es).Connected)
include hadj hnd hG

theorem pathSum_out (c : List (Fin n) → ℝ) {y : Fin n} : ∀ (p : List (Fin n)) (S : Finset (Fin n)) (pre : List (Fin n)), S ≠ univ →
    p.Nodup → (∀ v ∈ p, v ∈ S) → y ∉ S → pathSum adj c S pre p y = 0
  | [], S, pre, _, _, _, _ => rfl
  | a :: p, S, pre, hS, hp, hm, hy => by
    rw [List.nodup_cons] at hp
    rw [pathSum, green_out hadj hnd hG hS (hm a (by simp)) hy, mul_zero, zero_add]
    exact pathSum_out c p _ _ (erase_ne_univ hadj hnd hG hS a) hp.2
      (fun v hv => mem_erase.2 ⟨fun e => hp.1 (e ▸ hv), hm v (by simp [hv])⟩) (fun h => hy (mem_of_mem_erase h))

theorem sum_add_mul (l : List (Fin n)) (c : ℝ) (f g : Fin n → ℝ) : (l.map fun y => c * f y + g y).sum = c * (l.map f).sum + (l.map g).sum := by
  induction l with
  | nil => simp
  | cons a l ih => simp only [List.map_cons, List.sum_cons, ih]; ring

/-- harmonic at the nodes that are not on the path -/
theorem pathSum_harm (c : List (Fin n) → ℝ) {x : Fin n} : ∀ (p : List (Fin n)) (S : Finset (Fin n)) (pre : List (Fin n)), S ≠ univ →
    x ∈ S → x ∉ p → ((adj x).map (pathSum adj c S pre p)).sum = (adj x).length * pathSum adj c S pre p x
  | [], S, pre, _, _, _ => by 
    have : pathSum adj c S pre [] = fun _ => 0 := rfl
    simp [this]
  | a :: p, S, pre, hS, hx, hp => by
    rw [List.mem_cons, not_or] at hp
    have e : pathSum adj c S pre (a :: p) = fun y => c (pre ++ [a]) * green adj S a y + pathSum adj c (S.erase a) (pre ++ [a]) p y := rfl
    rw [e, sum_add_mul hadj hnd hG, green_sum hadj hnd hG hS hx, if_neg hp.1,
      pathSum_harm c p _ _ (erase_ne_univ hadj hnd hG hS a) (mem_erase.2 ⟨hp.1, hx⟩) hp.2]
    ring

/-- at the last node of the path -/
theorem pathSum_last (c : List (Fin n) → ℝ) {x : Fin n} (p : List (Fin n)) {S : Finset (Fin n)} (hS : S ≠ univ)
    (hx : x ∈ S) (hp : x ∉ p) : ((adj x).map (pathSum adj c S [] (p ++ [x]))).sum
      = (adj x).length * pathSum adj c S [] (p ++ [x]) x - c (p ++ [x]) / lapDet adj (S \ (p ++ [x]).toFinset) := by
  have hS' : S \ p.toFinset ≠ univ := fun h => hS (eq_univ_of_forall fun v => (mem_sdiff.1 (h ▸ mem_univ v)).1)
  have e : pathSum adj c S [] (p ++ [x]) = fun y => c (p ++ [x]) * green adj (S \ p.toFinset) x y + pathSum adj c S [] p y := by
    funext y
    rw [pathSum_append]
    simp only [pathSum, List.nil_append, add_zero]
    ring
  have h2 : (S \ p.toFinset).erase x = S \ (p ++ [x]).toFinset := by
    ext v; simp; tauto
  rw [e, sum_add_mul hadj hnd hG, green_sum hadj hnd hG hS' (by simp [hx, hp]), if_pos rfl, pathSum_harm hadj hnd hG c p _ _ hS hx hp, h2]
  ring

/-- going back to a node of the path -/
theorem pathSum_take (c : List (Fin n) → ℝ) {y : Fin n} {p : List (Fin n)} {S : Finset (Fin n)} (hS : S ≠ univ) (hp : p.Nodup)
    (hm : ∀ v ∈ p, v ∈ S) (hy : y ∈ p) : pathSum adj c S [] (p.take (p.idxOf y + 1)) y = pathSum adj c S [] p y := by
  obtain ⟨l1, l2, h1, h2, -⟩ := take_idxOf_succ hy
  have hS' : S \ (l1 ++ [y]).toFinset ≠ univ := fun h => hS (eq_univ_of_forall fun v => (mem_sdiff.1 (h ▸ mem_univ v)).1)
  have h3 : p = (l1 ++ [y]) ++ l2 := by rw [h1]; simp
  rw [h2]
  rw [h3] at hp hm ⊢
  rw [pathSum_append c y (l1 ++ [y]) l2, pathSum_out hadj hnd hG c l2 _ _ hS' (List.nodup_append'.1 hp).2.1 ?_ (by simp), add_zero]
  intro v hv
  refine mem_sdiff.2 ⟨hm v (by simp [hv]), fun h => ?_⟩
  exact (List.nodup_append'.1 hp).2.2 (List.mem_toFinset.1 h) hv

/-- going to a new node -/
theorem pathSum_new (c : List (Fin n) → ℝ) {y : Fin n} {p : List (Fin n)} {S : Finset (Fin n)} (hS : S ≠ univ) :
    pathSum adj c S [] (p ++ [y]) y = pathSum adj c S [] p y + c (p ++ [y]) / lapDet adj (S \ p.toFinset) := by
  have hS' : S \ p.toFinset ≠ univ := fun h => hS (eq_univ_of_forall fun v => (mem_sdiff.1 (h ▸ mem_univ v)).1)
  rw [pathSum_append]
  simp only [pathSum, List.nil_append, add_zero, green_self hadj hnd hG hS']
  ring
end

end Verif.Model
