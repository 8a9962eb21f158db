import Verif.Model.Jacobi
import Verif.Spec.Jacobi
import Mathlib.Data.List.Nodup
import Mathlib.Data.List.GetD
import Mathlib.Data.List.Lex
import Mathlib.Data.List.Flatten
import Mathlib.Data.List.Perm.Lattice

/-!
Lemmas on the ordering of the multi-indices.
-/

namespace Verif.Lemmas
open Verif Verif.Spec Verif.Model

theorem mem_prodRep {r : List ℕ} {d : ℕ} {k : List ℕ} :
    k ∈ prodRep r d ↔ k.length = d ∧ ∀ a ∈ k, a ∈ r := by
  induction d generalizing k with
  | zero => cases k <;> simp [prodRep]
  | succ d ih =>
    cases k with
    | nil => simp [prodRep]
    | cons a k =>
      simp only [prodRep, List.mem_flatMap, List.mem_map, List.cons.injEq, List.length_cons, Nat.add_right_cancel_iff,
        List.mem_cons, forall_eq_or_imp]
      constructor
      · rintro ⟨b, hb, l, hl, rfl, rfl⟩
        exact ⟨(ih.1 hl).1, hb, (ih.1 hl).2⟩
      · rintro ⟨h1, h2, h3⟩
        exact ⟨a, h2, k, ih.2 ⟨h1, h3⟩, rfl, rfl⟩

theorem length_prodRep (r : List ℕ) (d : ℕ) : (prodRep r d).length = r.length ^ d := by
  induction d with
  | zero => simp [prodRep]
  | succ d ih => simp [prodRep, List.length_flatMap, ih, pow_succ, mul_comm]

theorem prodRep_sorted {r : List ℕ} (hr : r.Pairwise (· < ·)) (d : ℕ) : (prodRep r d).Pairwise (· < ·) := by
  induction d with
  | zero => simp [prodRep]
  | succ d ih =>
    rw [prodRep, List.pairwise_flatMap]
    refine ⟨fun a _ => ?_, ?_⟩
    · rw [List.pairwise_map]
      exact ih.imp fun h => List.cons_lt_cons_iff.2 (Or.inr ⟨rfl, h⟩)
    · refine hr.imp fun {a b} hab x hx y hy => ?_
      obtain ⟨x', _, rfl⟩ := List.mem_map.1 hx
      obtain ⟨y', _, rfl⟩ := List.mem_map.1 hy
      exact List.cons_lt_cons_iff.2 (Or.inl hab)

theorem le_maxDeg {k : List ℕ} {a : ℕ} (h : a ∈ k) : a ≤ maxDeg k := by
  induction k with
  | nil => simp at h
  | cons b k ih =>
    rcases List.mem_cons.1 h with rfl | h
    · exact le_max_left _ _
    · exact (ih h).trans (le_max_right _ _)

theorem maxDeg_le {k : List ℕ} {m : ℕ} (h : ∀ a ∈ k, a ≤ m) : maxDeg k ≤ m := by
  induction k with
  | nil => simp [maxDeg]
  | cons b k ih => exact max_le (h b (by simp)) (ih fun a ha => h a (by simp [ha]))

theorem maxDeg_mem {k : List ℕ} (h : k ≠ []) : maxDeg k ∈ k := by
  induction k with
  | nil => exact absurd rfl h
  | cons b k ih =>
    by_cases hk : k = []
    · subst hk; simp [maxDeg]
    · show max b (maxDeg k) ∈ b :: k
      rcases max_choice b (maxDeg k) with h | h <;> rw [h]
      · simp
      · exact List.mem_cons_of_mem _ (ih hk)

theorem mem_jLayer {m d : ℕ} (hd : 1 ≤ d) {k : List ℕ} : k ∈ jLayer m d ↔ k.length = d ∧ maxDeg k = m := by
  simp only [jLayer, List.mem_filter, mem_prodRep, decide_eq_true_eq, List.mem_range, Nat.lt_succ_iff]
  constructor
  · rintro ⟨⟨h1, h2⟩, h3⟩
    exact ⟨h1, le_antisymm (maxDeg_le h2) (le_maxDeg h3)⟩
  · rintro ⟨h1, rfl⟩
    refine ⟨⟨h1, fun a ha => le_maxDeg ha⟩, maxDeg_mem ?_⟩
    rintro rfl
    simp at h1
    omega

theorem jLayer_sorted (m d : ℕ) : (jLayer m d).Pairwise (· < ·) :=
  (prodRep_sorted List.pairwise_lt_range d).filter _

/-- all layers below `n` -/
def layersTo (n d : ℕ) : List (List ℕ) := (List.range n).flatMap fun m => jLayer m d

theorem mem_layersTo {n d : ℕ} (hd : 1 ≤ d) {k : List ℕ} :
    k ∈ layersTo n d ↔ k.length = d ∧ maxDeg k < n := by
  simp only [layersTo, List.mem_flatMap, List.mem_range, mem_jLayer hd]
  constructor
  · rintro ⟨m, hm, h, rfl⟩; exact ⟨h, hm⟩
  · rintro ⟨h, hm⟩; exact ⟨_, hm, h, rfl⟩

theorem layersTo_sorted {n d : ℕ} (hd : 1 ≤ d) : (layersTo n d).Pairwise Before := by
  rw [layersTo, List.pairwise_flatMap]
  refine ⟨fun m _ => ?_, ?_⟩
  · refine List.Pairwise.imp_of_mem (fun {a b} ha hb h => Or.inr ⟨?_, h⟩) (jLayer_sorted m d)
    rw [((mem_jLayer hd).1 ha).2, ((mem_jLayer hd).1 hb).2]
  · refine List.pairwise_lt_range.imp fun {a b} hab x hx y hy => Or.inl ?_
    rw [((mem_jLayer hd).1 hx).2, ((mem_jLayer hd).1 hy).2]
    exact hab

theorem Before.irrefl (k : List ℕ) : ¬ Before k k := by
  rintro (h | ⟨-, h⟩)
  · exact lt_irrefl _ h
  · exact List.lt_irrefl _ h

theorem Before.asymm {k l : List ℕ} (h : Before k l) : ¬ Before l k := by
  rintro (h' | ⟨h1, h'⟩) <;> rcases h with h | ⟨h2, h⟩
  · omega
  · omega
  · omega
  · exact List.lt_asymm h h'

theorem Before.total {k l : List ℕ} (h : k ≠ l) : Before k l ∨ Before l k := by
  rcases lt_trichotomy (maxDeg k) (maxDeg l) with h1 | h1 | h1
  · exact Or.inl (Or.inl h1)
  · rcases lt_trichotomy k l with h2 | h2 | h2
    · exact Or.inl (Or.inr ⟨h1, h2⟩)
    · exact absurd h2 h
    · exact Or.inr (Or.inr ⟨h1.symm, h2⟩)
  · exact Or.inr (Or.inl h1)

theorem nodup_of_before {L : List (List ℕ)} (h : L.Pairwise Before) : L.Nodup :=
  h.imp fun {a b} hab => by rintro rfl; exact Before.irrefl a hab

theorem length_layersTo {n d : ℕ} (hd : 1 ≤ d) : (layersTo n d).length = n ^ d := by
  have h : (layersTo n d).Perm (prodRep (List.range n) d) := by
    refine (List.perm_ext_iff_of_nodup (nodup_of_before (layersTo_sorted hd))
      ((prodRep_sorted List.pairwise_lt_range d).imp fun h => ne_of_lt h)).2 fun k => ?_
    rw [mem_layersTo hd, mem_prodRep]
    refine and_congr_right fun hk => ?_
    constructor
    · intro h a ha
      exact List.mem_range.2 ((le_maxDeg ha).trans_lt h)
    · intro h
      exact List.mem_range.1 (h _ (maxDeg_mem (by rintro rfl; simp at hk; omega)))
  rw [h.length_eq, length_prodRep, List.length_range]

theorem layersTo_add (n e d : ℕ) : ∃ rest, layersTo (n + e) d = layersTo n d ++ rest := by
  refine ⟨(List.map (n + ·) (List.range e)).flatMap fun m => jLayer m d, ?_⟩
  rw [layersTo, layersTo, List.range_add, List.flatMap_append]

theorem layersTo_prefix {n n' d : ℕ} (h : n ≤ n') : layersTo n d <+: layersTo n' d := by
  obtain ⟨rest, hr⟩ := layersTo_add n (n' - n) d
  rw [Nat.add_sub_cancel' h] at hr
  exact ⟨rest, hr.symm⟩

theorem orderingWith_eq (m : ℤ) (N d : ℕ) : orderingWith m N d = (layersTo (m + 1).toNat d).take N := rfl

/-- the hypothesis on the computed root: the layers up to `layerMax` hold at least `N` multi-indices -/
theorem orderingWith_length {m : ℤ} {N d : ℕ} (hd : 1 ≤ d) (h : N ≤ (m + 1).toNat ^ d) :
    (orderingWith m N d).length = N := by
  rw [orderingWith_eq, List.length_take, length_layersTo hd, min_eq_left h]

theorem orderingWith_sorted {m : ℤ} {N d : ℕ} (hd : 1 ≤ d) : (orderingWith m N d).Pairwise Before := by
  rw [orderingWith_eq]
  exact (layersTo_sorted hd).sublist (List.take_sublist _ _)

theorem orderingWith_mem {m : ℤ} {N d : ℕ} (hd : 1 ≤ d) {k : List ℕ} (h : k ∈ orderingWith m N d) :
    k.length = d := ((mem_layersTo hd).1 (List.mem_of_mem_take h)).1

/-- a sorted list: what comes before a member of a prefix belongs to the prefix -/
theorem mem_take_of_before {L : List (List ℕ)} (hL : L.Pairwise Before) {N : ℕ} {k l : List ℕ}
    (hk : k ∈ L.take N) (hl : l ∈ L) (h : Before l k) : l ∈ L.take N := by
  by_contra hn
  have hl' : l ∈ L.drop N := by
    rw [← List.take_append_drop N L, List.mem_append] at hl
    exact hl.resolve_left hn
  rw [← List.take_append_drop N L, List.pairwise_append] at hL
  exact Before.asymm h (hL.2.2 k hk l hl')

theorem orderingWith_downset {m : ℤ} {N d : ℕ} (hd : 1 ≤ d) {k l : List ℕ} (hk : k ∈ orderingWith m N d)
    (hl : l.length = d) (h : Before l k) : l ∈ orderingWith m N d := by
  rw [orderingWith_eq] at *
  refine mem_take_of_before (layersTo_sorted hd) hk ((mem_layersTo hd).2 ⟨hl, ?_⟩) h
  have hk' := ((mem_layersTo hd).1 (List.mem_of_mem_take hk)).2
  rcases h with h | ⟨h, -⟩ <;> omega

theorem orderingWith_prefix {m m' : ℤ} {N N' d : ℕ} (hd : 1 ≤ d) (hN : N ≤ N')
    (h : N ≤ (m + 1).toNat ^ d) (h' : N' ≤ (m' + 1).toNat ^ d) :
    orderingWith m N d <+: orderingWith m' N' d := by
  rw [orderingWith_eq, orderingWith_eq]
  have key : (layersTo (m + 1).toNat d).take N = (layersTo (m' + 1).toNat d).take N := by
    rcases le_total (m + 1).toNat (m' + 1).toNat with hle | hle
    · obtain ⟨rest, hr⟩ := layersTo_prefix (d := d) hle
      rw [← hr, List.take_append_of_le_length]
      rw [length_layersTo hd]; exact h
    · obtain ⟨rest, hr⟩ := layersTo_prefix (d := d) hle
      rw [← hr, List.take_append_of_le_length]
      rw [length_layersTo hd]; exact hN.trans h'
  rw [key]
  exact List.take_prefix_take_left hN

/-! ### The root -/

theorem toInt16_eq {z : ℤ} (h0 : 0 ≤ z) (h : z < 32768) : toInt16 z = z := by
  rw [toInt16, Int.bmod_def, Int.emod_eq_of_lt h0 (by omega)]
  simp only [Nat.cast_ofNat]
  omega

theorem layerMaxOf_cover {N d : ℕ} (hd : 1 ≤ d) (h : N < 32768 ^ d) :
    N ≤ (layerMaxOf N d + 1).toNat ^ d := by
  have hd0 : (d : ℝ) ≠ 0 := by positivity
  have hr0 : (0 : ℝ) ≤ (N : ℝ) ^ (1 / (d : ℝ)) := by positivity
  have hpow : ((N : ℝ) ^ (1 / (d : ℝ))) ^ d = N := by
    rw [← Real.rpow_natCast, ← Real.rpow_mul (by positivity), one_div, inv_mul_cancel₀ hd0, Real.rpow_one]
  have hlt : (N : ℝ) ^ (1 / (d : ℝ)) < 32768 := by
    by_contra hn
    push Not at hn
    have := pow_le_pow_left₀ (by norm_num) hn d
    rw [hpow] at this
    exact absurd h (not_lt.2 (by exact_mod_cast this))
  have hf0 : 0 ≤ ⌊(N : ℝ) ^ (1 / (d : ℝ))⌋ := Int.floor_nonneg.2 hr0
  have hf1 : ⌊(N : ℝ) ^ (1 / (d : ℝ))⌋ < 32768 := Int.floor_lt.2 (by exact_mod_cast hlt)
  rw [layerMaxOf, toInt16_eq hf0 hf1]
  have h1 : (N : ℝ) ^ (1 / (d : ℝ)) ≤ (((⌊(N : ℝ) ^ (1 / (d : ℝ))⌋ + 1).toNat : ℕ) : ℝ) := by
    have : (((⌊(N : ℝ) ^ (1 / (d : ℝ))⌋ + 1).toNat : ℕ) : ℝ) = ((⌊(N : ℝ) ^ (1 / (d : ℝ))⌋ + 1 : ℤ) : ℝ) := by
      have := Int.toNat_of_nonneg (show 0 ≤ ⌊(N : ℝ) ^ (1 / (d : ℝ))⌋ + 1 by omega)
      exact_mod_cast congrArg (Int.cast : ℤ → ℝ) this
    rw [this]
    push_cast
    exact (Int.lt_floor_add_one _).le
  have h2 := pow_le_pow_left₀ hr0 h1 d
  rw [hpow] at h2
  exact_mod_cast h2

/-! ### Degrees -/

theorem colMax_length {L : List (List ℕ)} {d : ℕ} (hL : ∀ k ∈ L, k.length = d) (hne : L ≠ []) :
    (colMax L).length = d := by
  induction L with
  | nil => exact absurd rfl hne
  | cons k L ih =>
    cases L with
    | nil => exact hL k (by simp)
    | cons k' L =>
      rw [colMax, List.length_zipWith, hL k (by simp), ih (fun l hl => hL l (by simp [hl])) (by simp)]
      simp

theorem getD_zipWith_max {k l : List ℕ} {j : ℕ} (hk : j < k.length) (hl : j < l.length) :
    (List.zipWith max k l).getD j 0 = max (k.getD j 0) (l.getD j 0) := by
  rw [List.getD_eq_getElem _ _ (by simp [hk, hl]), List.getElem_zipWith, List.getD_eq_getElem _ _ hk,
    List.getD_eq_getElem _ _ hl]

theorem le_colMax {L : List (List ℕ)} {d : ℕ} (hL : ∀ k ∈ L, k.length = d) {k : List ℕ} (hk : k ∈ L) {j : ℕ}
    (hj : j < d) : k.getD j 0 ≤ (colMax L).getD j 0 := by
  induction L with
  | nil => simp at hk
  | cons l L ih =>
    cases L with
    | nil => rw [List.mem_singleton.1 hk, colMax]
    | cons l' L =>
      have hL' : ∀ k ∈ l' :: L, k.length = d := fun m hm => hL m (by simp [hm])
      rw [colMax, getD_zipWith_max (by rw [hL l (by simp)]; exact hj) (by rw [colMax_length hL' (by simp)]; exact hj)]
      rcases List.mem_cons.1 hk with rfl | hk
      · exact le_max_left _ _
      · exact (ih hL' hk).trans (le_max_right _ _)

theorem colMax_attained {L : List (List ℕ)} {d : ℕ} (hL : ∀ k ∈ L, k.length = d) (hne : L ≠ []) {j : ℕ}
    (hj : j < d) : ∃ k ∈ L, k.getD j 0 = (colMax L).getD j 0 := by
  induction L with
  | nil => exact absurd rfl hne
  | cons l L ih =>
    cases L with
    | nil => exact ⟨l, by simp, by rw [colMax]⟩
    | cons l' L =>
      have hL' : ∀ k ∈ l' :: L, k.length = d := fun m hm => hL m (by simp [hm])
      rw [colMax, getD_zipWith_max (by rw [hL l (by simp)]; exact hj) (by rw [colMax_length hL' (by simp)]; exact hj)]
      obtain ⟨k, hk, he⟩ := ih hL' (by simp)
      rcases max_choice (l.getD j 0) ((colMax (l' :: L)).getD j 0) with h | h
      · exact ⟨l, by simp, h.symm⟩
      · exact ⟨k, by simp only [List.mem_cons] at hk ⊢; exact Or.inr hk, by rw [h, he]⟩

theorem getD_mem {k : List ℕ} {j : ℕ} (hj : j < k.length) : k.getD j 0 ∈ k := by
  rw [List.getD_eq_getElem _ _ hj]; exact List.getElem_mem hj

theorem computeDegrees_entry {B : List ℕ} {i j : ℕ} (hi : i ≤ (computeDegrees B).1) (hj : j < B.length) :
    entry2 (computeDegrees B).2 i j = if B.getD j 0 < i then 0 else i := by
  have hi' : i < ((List.range (B.foldr max 0 + 1)).map fun i => B.map fun b => if b < i then 0 else i).length := by
    simp only [List.length_map, List.length_range]; exact Nat.lt_succ_of_le hi
  rw [entry2, computeDegrees]
  simp only
  rw [List.getD_eq_getElem _ _ hi', List.getElem_map, List.getElem_range,
    List.getD_eq_getElem _ _ (by simpa using hj), List.getElem_map, List.getD_eq_getElem _ _ hj]

end Verif.Lemmas
