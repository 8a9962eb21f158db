import Verif.Lemmas.OneDep2
import Mathlib.RingTheory.PowerSeries.WellKnown
import Mathlib.NumberTheory.Bernoulli

/-!
# The carries, descent and virtual descent processes factor over the runs
-/

namespace Verif.Lemmas
open Finset Verif Verif.Model Verif.Spec

variable {R : Type*}

/-! ### kernels -/

theorem series_of_inverse [Field R] {k : ℤ → R} {F : PowerSeries R} {d : ℕ → R} (hd : PowerSeries.X * PowerSeries.mk d = -F)
    (h : HasInverseSeries k F) : PowerSeries.mk (fun n : ℕ => k ((n : ℤ) - 1)) * PowerSeries.mk d = -1 := by
  have h2 : PowerSeries.X * (PowerSeries.mk (fun n : ℕ => k ((n : ℤ) - 1)) * PowerSeries.mk d) = PowerSeries.X * (-1 : PowerSeries R) := by
    rw [mul_left_comm, hd, mul_neg, h.2]
    ring
  exact mul_left_cancel₀ PowerSeries.X_ne_zero h2

theorem kernel_neg_one [Field R] {k : ℤ → R} {d : ℕ → R} (h0 : d 0 = 1) (h : PowerSeries.mk (fun n : ℕ => k ((n : ℤ) - 1)) * PowerSeries.mk d = -1) :
    k (-1) = -1 := by
  have := congrArg (PowerSeries.coeff 0) h
  rw [PowerSeries.coeff_mul] at this
  simpa [h0] using this

theorem exists_kernel [Field R] {F : PowerSeries R} {d : ℕ → R} (h0 : d 0 = 1) (hd : PowerSeries.X * PowerSeries.mk d = -F) :
    ∃ k : ℤ → R, HasInverseSeries k F := by
  refine ⟨fun m => if m < -1 then 0 else -PowerSeries.coeff (m + 1).toNat (PowerSeries.mk d)⁻¹, fun m hm => if_pos hm, ?_⟩
  have h1 : (PowerSeries.mk fun n : ℕ => if (n : ℤ) - 1 < -1 then (0 : R) else -PowerSeries.coeff ((n : ℤ) - 1 + 1).toNat (PowerSeries.mk d)⁻¹)
      = -(PowerSeries.mk d)⁻¹ := by
    ext n
    rw [PowerSeries.coeff_mk, if_neg (by omega), map_neg]
    simp
  have hF : F = -(PowerSeries.X * PowerSeries.mk d) := by rw [hd, neg_neg]
  have hinv : (PowerSeries.mk d)⁻¹ * PowerSeries.mk d = 1 := PowerSeries.inv_mul_cancel _ (by simp [h0])
  rw [h1, hF, neg_mul_neg, mul_left_comm, hinv, mul_one]

/-- the general criterion -/
theorem isDPP_of_factor [Field R] {P : Dist R (List ℕ)} {G : Finset ℕ} {F : PowerSeries R} {d : ℕ → R} (h0 : d 0 = 1)
    (hd : PowerSeries.X * PowerSeries.mk d = -F) (hmass : P.mass = 1) (hsupp : ∀ l w, (l, w) ∈ P → l.Nodup ∧ ∀ i ∈ l, i ∈ G)
    (hq : ∀ a l B, 1 ≤ l → Ico a (a + l) ⊆ G → B ⊆ G → (∀ x ∈ B, a + l < x) →
      P.prob (fun t => ∀ x ∈ Ico a (a + l) ∪ B, x ∈ t) = d l * P.prob (fun t => ∀ x ∈ B, x ∈ t))
    {k : ℤ → R} (hk : HasInverseSeries k F) : IsDPP P G (shiftKernel k) := by
  have hs := series_of_inverse hd hk
  refine ⟨hmass, hsupp, factor_det (kernel_neg_one h0 hs) hk.1 hs ?_ hq⟩
  rw [← hmass]
  simp [Dist.prob, Dist.mass]

/-! ### descents of a uniform permutation -/

theorem nodup_descents (B : List ℕ) : (descents B).Nodup := (descents_sorted B).imp fun h => h.ne

theorem mem_map_dist {α β : Type*} {f : α → β} {d : Dist R α} {b : β} {w : R} (h : (b, w) ∈ d.map f) : ∃ a, (a, w) ∈ d ∧ b = f a := by
  simp only [Dist.map, List.mem_map, Prod.mk.injEq, Prod.exists] at h
  obtain ⟨a, w', h1, h2, h3⟩ := h
  exact ⟨a, h3 ▸ h1, h2.symm⟩

theorem descent_support [Field R] (N : ℕ) (l : List ℕ) (w : R) (h : (l, w) ∈ descentSample R N) : l.Nodup ∧ ∀ i ∈ l, i ∈ Ico 1 N := by
  obtain ⟨t, ht, rfl⟩ := mem_map_dist h
  refine ⟨nodup_descents _, fun i hi => ?_⟩
  have h1 := mem_descents.1 hi
  have h2 : t.Perm (List.range N) := by
    apply fyLoop_perm (N - 1) (List.range N) _ t w ht
    simp only [List.length_range]; omega
  have h3 : t.length = N := by simpa using h2.length_eq
  rw [mem_Ico]
  omega

theorem descent_factor [Field R] [CharZero R] (N a l : ℕ) (B : Finset ℕ) (hl : 1 ≤ l) (hA : Ico a (a + l) ⊆ Ico 1 N) (hB : B ⊆ Ico 1 N)
    (hAB : ∀ x ∈ B, a + l < x) :
    (descentSample R N).prob (fun t => ∀ x ∈ Ico a (a + l) ∪ B, x ∈ t)
      = 1 / ((l + 1).factorial : R) * (descentSample R N).prob (fun t => ∀ x ∈ B, x ∈ t) := by
  classical
  have ha := mem_Ico.1 (hA (mem_Ico.2 ⟨le_refl a, by omega⟩))
  have hal := mem_Ico.1 (hA (mem_Ico.2 ⟨show a ≤ a + l - 1 by omega, by omega⟩))
  rw [Dist.prob_eq, Dist.prob_eq, descentSample, Dist.E_map, Dist.E_map]
  have hlen : ∀ t w, (t, w) ∈ uniformPermutation R N → t.length = N := fun t w ht => by
    have h2 : t.Perm (List.range N) := by
      apply fyLoop_perm (N - 1) (List.range N) _ t w ht
      simp only [List.length_range]; omega
    simpa using h2.length_eq
  have hb := E_perm_block (R := R) (N := N) (s := a - 1) (m := l + 1) (by omega)
    (fun t => if ∀ x ∈ B, x < t.length ∧ t.getD x 0 < t.getD (x - 1) 0 then 1 else 0) (fun t t' h1 h2 => by
      refine if_congr (forall₂_congr fun x hx => ?_) rfl rfl
      have := hAB x hx
      rw [h1, h2 x (.inr (by omega)), h2 (x - 1) (.inr (by omega))])
  have e1 : (uniformPermutation R N).E (fun t => if ∀ x ∈ B, x ∈ descents t then (1 : R) else 0)
      = (uniformPermutation R N).E (fun t => if ∀ x ∈ B, x < t.length ∧ t.getD x 0 < t.getD (x - 1) 0 then (1 : R) else 0) := by
    refine Dist.E_congr fun t w _ => if_congr (forall₂_congr fun x hx => ?_) rfl rfl
    have := mem_Ico.1 (hB hx)
    rw [mem_descents]
    exact and_iff_right this.1
  rw [e1, ← hb]
  refine Dist.E_congr fun t w ht => ?_
  have hlt := hlen t w ht
  rw [mul_ite, mul_one, mul_zero, ← ite_and]
  refine if_congr ?_ rfl rfl
  constructor
  · intro h
    refine ⟨fun j hj => ?_, fun x hx => (mem_descents.1 (h x (mem_union_right _ hx))).2⟩
    have := (mem_descents.1 (h (a + j) (mem_union_left _ (mem_Ico.2 ⟨by omega, by omega⟩)))).2.2
    rw [show a - 1 + j + 1 = a + j by omega, show a - 1 + j = a + j - 1 by omega]
    exact this
  · rintro ⟨h1, h2⟩ x hx
    rcases mem_union.1 hx with hx | hx
    · have hx' := mem_Ico.1 hx
      refine mem_descents.2 ⟨by omega, by omega, ?_⟩
      have := h1 (x - a) (by omega)
      rwa [show a - 1 + (x - a) + 1 = x by omega, show a - 1 + (x - a) = x - 1 by omega] at this
    · exact mem_descents.2 ⟨(mem_Ico.1 (hB hx)).1, h2 x hx⟩

/-! ### carries -/

open Classical in
theorem E_chain [Field R] [CharZero R] {b : ℕ} (hb : 0 < b) (m c : ℕ) (hc : c ≤ b) :
    (iid (Dist.randint (R := R) b) m).E (fun v => if (c :: v).IsChain (· > ·) then 1 else 0) = (c.choose m : R) / (b : R) ^ m := by
  have hb' : (b : R) ≠ 0 := by exact_mod_cast hb.ne'
  induction m generalizing c with
  | zero => simp [iid]
  | succ m ih =>
    rw [E_iid_succ, Dist.E_randint]
    have h1 : ∀ a ∈ List.range b, ((iid (Dist.randint (R := R) b) m).E fun v => if (c :: a :: v).IsChain (· > ·) then (1 : R) else 0)
        = if a < c then (a.choose m : R) / (b : R) ^ m else 0 := fun a ha => by
      by_cases h : a < c
      · rw [if_pos h, ← ih a (by omega)]
        refine Dist.E_congr fun v _ _ => if_congr ?_ rfl rfl
        rw [List.isChain_cons_cons]
        exact and_iff_right h
      · rw [if_neg h]
        refine Dist.E_eq_zero fun v _ _ => if_neg fun h2 => h ?_
        rw [List.isChain_cons_cons] at h2
        exact h2.1
    rw [List.map_congr_left h1]
    have h2 : ((List.range b).map fun a => if a < c then (a.choose m : R) / (b : R) ^ m else 0).sum = ∑ a ∈ range c, (a.choose m : R) / (b : R) ^ m := by
      have : ((List.range b).map fun a => if a < c then (a.choose m : R) / (b : R) ^ m else 0).sum
          = ∑ a ∈ range b, if a < c then (a.choose m : R) / (b : R) ^ m else 0 := rfl
      rw [this, ← sum_filter]
      refine sum_congr ?_ fun _ _ => rfl
      ext x
      simp only [mem_filter, mem_range]
      omega
    have h3 : ∀ c : ℕ, ∑ a ∈ range c, (a.choose m : R) = (c.choose (m + 1) : R) := fun c => by
      induction c with
      | zero => simp
      | succ c ihc => rw [sum_range_succ, ihc, Nat.choose_succ_succ]; push_cast; ring
    rw [h2, ← sum_div, h3, one_div, ← div_eq_inv_mul, div_div, pow_succ]

theorem randint_mass [Field R] [CharZero R] {b : ℕ} (hb : 0 < b) : (Dist.randint (R := R) b).E (fun _ => 1) = 1 := by
  have hb' : (b : R) ≠ 0 := by exact_mod_cast hb.ne'
  rw [Dist.E_randint]
  simp [hb']

theorem carries_support [Field R] (b N : ℕ) (l : List ℕ) (w : R) (h : (l, w) ∈ carriesSample R b N) : l.Nodup ∧ ∀ i ∈ l, i ∈ Ico 1 N := by
  obtain ⟨t, ht, rfl⟩ := mem_map_dist h
  refine ⟨nodup_descents _, fun i hi => ?_⟩
  have h1 := mem_descents.1 hi
  have h2 := iid_length _ _ _ ht
  have h3 : ∀ s (A : List ℕ), (cumsum s A).length = A.length := fun s A => by
    induction A generalizing s with
    | nil => rfl
    | cons a A ih => simp [cumsum, ih]
  rw [List.length_map, h3, h2] at h1
  rw [mem_Ico]
  omega

theorem prob_carries [Field R] (b N : ℕ) (p : List ℕ → Prop) :
    (carriesSample R b N).prob p = (iid (Dist.randint (R := R) b) N).prob fun t => p (descents t) := by
  classical
  unfold Dist.prob carriesSample
  rw [Dist.E_map]
  exact E_cumsum N 0 fun t => if p (descents t) then (1 : R) else 0

theorem chain_block {t : List ℕ} {N a l : ℕ} (hN : t.length = N) (ha : 1 ≤ a) (hal : a + l ≤ N) :
    (∀ x ∈ Ico a (a + l), t.getD x 0 < t.getD (x - 1) 0) ↔ ((t.drop (a - 1)).take (l + 1)).IsChain (· > ·) := by
  rw [List.isChain_iff_getElem]
  have hlen : ((t.drop (a - 1)).take (l + 1)).length = l + 1 := by
    rw [List.length_take, List.length_drop]
    omega
  have hget : ∀ i (h : i < ((t.drop (a - 1)).take (l + 1)).length), ((t.drop (a - 1)).take (l + 1))[i] = t.getD (a - 1 + i) 0 := fun i h => by
    rw [hlen] at h
    rw [List.getElem_take, List.getElem_drop, List.getD_eq_getElem _ _ (by omega)]
  constructor
  · intro h i hi
    rw [hget, hget]
    rw [hlen] at hi
    have := h (a + i) (mem_Ico.2 ⟨by omega, by omega⟩)
    rwa [show a - 1 + i = a + i - 1 by omega, show a - 1 + (i + 1) = a + i by omega]
  · intro h x hx
    have hx' := mem_Ico.1 hx
    have := h (x - a) (by rw [hlen]; omega)
    rw [hget, hget] at this
    rwa [show a - 1 + (x - a) = x - 1 by omega, show a - 1 + (x - a + 1) = x by omega] at this

theorem carries_factor [Field R] [CharZero R] {b : ℕ} (hb : 0 < b) (N a l : ℕ) (B : Finset ℕ) (hl : 1 ≤ l) (hA : Ico a (a + l) ⊆ Ico 1 N)
    (hB : B ⊆ Ico 1 N) (hAB : ∀ x ∈ B, a + l < x) :
    (carriesSample R b N).prob (fun t => ∀ x ∈ Ico a (a + l) ∪ B, x ∈ t)
      = (b.choose (l + 1) : R) / (b : R) ^ (l + 1) * (carriesSample R b N).prob (fun t => ∀ x ∈ B, x ∈ t) := by
  classical
  have ha := mem_Ico.1 (hA (mem_Ico.2 ⟨le_refl a, by omega⟩))
  have hal := mem_Ico.1 (hA (mem_Ico.2 ⟨show a ≤ a + l - 1 by omega, by omega⟩))
  rw [prob_carries, prob_carries, Dist.prob_eq, Dist.prob_eq]
  obtain ⟨r, hr⟩ : ∃ r, N = a - 1 + (l + 1) + r := ⟨N - (a + l), by omega⟩
  have hm := randint_mass (R := R) hb
  let H : List ℕ → R := fun z => if ∀ x ∈ B, z.getD (x - (a + l)) 0 < z.getD (x - 1 - (a + l)) 0 then 1 else 0
  have hdrop : ∀ (t : List ℕ) (i : ℕ), a + l ≤ i → (t.drop (a - 1 + (l + 1))).getD (i - (a + l)) 0 = t.getD i 0 := fun t i hi => by
    rw [List.getD_eq_getElem?_getD, List.getD_eq_getElem?_getD, List.getElem?_drop, show a - 1 + (l + 1) + (i - (a + l)) = i by omega]
  have hHB : ∀ t : List ℕ, t.length = N → H (t.drop (a - 1 + (l + 1))) = if ∀ x ∈ B, x ∈ descents t then (1 : R) else 0 := fun t ht => by
    refine if_congr (forall₂_congr fun x hx => ?_) rfl rfl
    have h1 := hAB x hx
    have h2 := mem_Ico.1 (hB hx)
    rw [hdrop t x (by omega), hdrop t (x - 1) (by omega), mem_descents, ht]
    exact ⟨fun h => ⟨h2.1, h2.2, h⟩, fun h => h.2.2⟩
  have e1 : (iid (Dist.randint (R := R) b) N).E (fun t => if ∀ x ∈ B, x ∈ descents t then (1 : R) else 0) = (iid (Dist.randint b) r).E H := by
    rw [← E_iid_tail hm (a - 1 + (l + 1)) r H, ← hr]
    exact Dist.E_congr fun t w ht => (hHB t (iid_length _ _ _ ht)).symm
  have e2 : (iid (Dist.randint (R := R) b) N).E (fun t => if ∀ x ∈ Ico a (a + l) ∪ B, x ∈ descents t then (1 : R) else 0)
      = (iid (Dist.randint b) (l + 1)).E (fun v => if v.IsChain (· > ·) then 1 else 0) * (iid (Dist.randint b) r).E H := by
    rw [← E_iid_block hm (a - 1) (l + 1) r, ← hr]
    refine Dist.E_congr fun t w ht => ?_
    have hlt := iid_length _ _ _ ht
    rw [hHB t hlt, mul_ite, mul_one, mul_zero, ← ite_and]
    refine if_congr ?_ rfl rfl
    rw [← chain_block hlt ha.1 (by omega)]
    constructor
    · intro h
      exact ⟨fun x hx => h x (mem_union_right _ hx), fun x hx => (mem_descents.1 (h x (mem_union_left _ hx))).2.2⟩
    · rintro ⟨h2, h1⟩ x hx
      rcases mem_union.1 hx with hx | hx
      · have := mem_Ico.1 (hA hx)
        exact mem_descents.2 ⟨this.1, by omega, h1 x hx⟩
      · exact h2 x hx
  rw [e1, e2, ← E_chain hb (l + 1) b le_rfl]
  congr 1
  refine Dist.E_congr fun v w hv => if_congr ?_ rfl rfl
  rw [List.isChain_cons]
  refine ⟨fun h => ⟨fun y hy => ?_, h⟩, fun h => h.2⟩
  obtain ⟨w', hw⟩ := iid_mem _ _ _ hv y (List.mem_of_mem_head? hy)
  simp only [Dist.randint, Dist.choice, List.mem_map, List.mem_range, Prod.mk.injEq] at hw
  obtain ⟨x, hx, rfl, -⟩ := hw
  exact hx

end Verif.Lemmas
