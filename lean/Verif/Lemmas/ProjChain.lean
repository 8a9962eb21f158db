import Verif.Model.ProjSampler
import Verif.Lemmas.Residual
import Verif.Lemmas.Nonneg
import Mathlib.Data.List.Permutation
import Mathlib.Data.Nat.Factorial.Basic
import Mathlib.Data.Nat.Choose.Basic
import Mathlib.Data.Fintype.Perm

/-!
The chain rule of a projection DPP as an abstract program on residual matrices, and its law.
-/

set_option linter.unusedSectionVars false

namespace Verif
namespace Dist
variable {R : Type*} [Field R] [LinearOrder R] [IsStrictOrderedRing R] {α β : Type*}

/-- weights accepted by numpy -/
def Valid (l : List α) (w : α → R) : Prop := l ≠ [] ∧ (∀ a ∈ l, 0 ≤ w a) ∧ (l.map w).sum = 1

theorem npChoice_of_valid {l : List α} {w : α → R} (h : Valid l w) :
    npChoice l w = l.map fun a => (Outcome.ok a, w a) := by
  unfold npChoice; exact if_pos h

theorem npChoice_nonneg (l : List α) (w : α → R) : Nonneg (npChoice l w) := by
  by_cases h : Valid l w
  · rw [npChoice_of_valid h]
    intro aw hm
    obtain ⟨a, ha, rfl⟩ := List.mem_map.1 hm
    exact h.2.1 a ha
  · have e : npChoice l w = ret Outcome.valueError := by
      unfold npChoice; exact if_neg h
    rw [e]
    exact Nonneg.ret _

theorem andThen_nonneg {d : Dist R (Outcome α)} {k : α → Dist R (Outcome β)} (hd : Nonneg d)
    (hk : ∀ a, Nonneg (k a)) : Nonneg (d.andThen k) := by
  apply Nonneg.bind hd
  intro o
  cases o with
  | ok a => exact hk a
  | raise e => exact Nonneg.ret _

theorem E_npChoice_andThen {l : List α} {w : α → R} (h : Valid l w)
    (k : α → Dist R (Outcome β)) (f : Outcome β → R) :
    ((npChoice l w).andThen k).E f = (l.map fun a => w a * (k a).E f).sum := by
  rw [andThen, E_bind, npChoice_of_valid h]
  simp [E, Function.comp_def]

theorem possible_npChoice_andThen {l : List α} {w : α → R} (h : Valid l w)
    {k : α → Dist R (Outcome β)} {o : Outcome β} :
    ((npChoice l w).andThen k).Possible o ↔ ∃ a ∈ l, w a ≠ 0 ∧ (k a).Possible o := by
  rw [andThen, Possible.bind_iff, npChoice_of_valid h]
  constructor
  · rintro ⟨o', ⟨v, hm, hv⟩, h2⟩
    obtain ⟨a, ha, he⟩ := List.mem_map.1 hm
    obtain ⟨rfl, rfl⟩ := Prod.mk.inj he
    exact ⟨a, ha, hv, h2⟩
  · rintro ⟨a, ha, hw, h2⟩
    exact ⟨Outcome.ok a, ⟨w a, List.mem_map.2 ⟨a, ha, rfl⟩, hw⟩, h2⟩

/-- equality in law -/
def LawEq (d e : Dist R α) : Prop := ∀ f : α → R, d.E f = e.E f

theorem LawEq.prob {d e : Dist R α} (h : LawEq d e) (p : α → Prop) : d.prob p = e.prob p := by
  classical
  rw [prob_eq, prob_eq]; exact h _

/-- programs with the same law and non-negative weights have the same possible outcomes -/
theorem LawEq.possible {d e : Dist R α} (h : LawEq d e) {a : α}
    (hd : Nonneg d) (ha : d.Possible a) : e.Possible a := by
  classical
  by_contra hc
  have : e.prob (· = a) = 0 := by
    rw [prob_eq]
    apply List.sum_eq_zero
    intro x hx
    obtain ⟨⟨b, v⟩, hm, rfl⟩ := List.mem_map.1 hx
    by_cases hb : b = a
    · subst hb
      have : v = 0 := by
        by_contra hv; exact hc ⟨v, hm, hv⟩
      simp [this]
    · simp [hb]
  rw [← h.prob] at this
  exact not_possible_of_prob_zero hd this ha rfl

end Dist

namespace Model
open Spec

variable {𝕜 : Type*} [RCLike 𝕜] {N : ℕ}

/-- The chain rule on residual matrices: item `i` is drawn with weight `R i i / (rank - it)` then the
residual is conditioned on it. -/
noncomputable def projChain (rank : ℤ) :
    ℕ → ℕ → (Fin N → Bool) → Matrix (Fin N) (Fin N) 𝕜 → Dist ℝ (Outcome (List (Fin N)))
  | 0, _, _, _ => Dist.ret (.ok [])
  | m + 1, it, avail, A =>
    (Dist.npChoice (availList avail) fun i => |RCLike.re (A i i)| / ((rank : ℝ) - it)).andThen
      fun j =>
        (projChain rank m (it + 1) (Function.update avail j false) (elim A j)).map
          (Outcome.map (j :: ·))

/-- states of the chain reached with positive probability: `A` is a projection supported by the
available items, with trace `rank - it` -/
structure ChainInv (rank : ℤ) (it : ℕ) (avail : Fin N → Bool) (A : Matrix (Fin N) (Fin N) 𝕜)
    (t : ℕ) : Prop where
  proj : IsProjection A
  supp : ∀ i, avail i = false → A i i = 0
  tr : A.trace = t
  rk : rank - it = t

theorem mem_availList {avail : Fin N → Bool} {i : Fin N} : i ∈ availList avail ↔ avail i = true := by
  simp [availList]

theorem nodup_availList (avail : Fin N → Bool) : (availList avail).Nodup :=
  (List.nodup_finRange N).filter _

theorem sum_availList (avail : Fin N → Bool) (g : Fin N → ℝ) (hg : ∀ i, avail i = false → g i = 0) :
    ((availList avail).map g).sum = ∑ i, g i := by
  rw [← List.sum_toFinset _ (nodup_availList avail)]
  apply Finset.sum_subset (Finset.subset_univ _)
  intro i _ hi
  apply hg
  by_contra h
  apply hi
  rw [List.mem_toFinset, mem_availList]
  simpa using h

theorem ChainInv.rk' {rank : ℤ} {it t : ℕ} {avail : Fin N → Bool} {A : Matrix (Fin N) (Fin N) 𝕜}
    (h : ChainInv rank it avail A t) : ((rank : ℝ) - it) = t := by
  have := h.rk
  have h2 : ((rank - it : ℤ) : ℝ) = ((t : ℤ) : ℝ) := by rw [this]
  push_cast at h2
  exact h2

theorem ChainInv.sum {rank : ℤ} {it t : ℕ} {avail : Fin N → Bool} {A : Matrix (Fin N) (Fin N) 𝕜}
    (h : ChainInv rank it avail A t) : ∑ i, RCLike.re (A i i) = (t : ℝ) := by
  have h1 : RCLike.re A.trace = (t : ℝ) := by rw [h.tr]; simp
  rw [← h1, Matrix.trace, map_sum]
  rfl

theorem ChainInv.weight {rank : ℤ} {it t : ℕ} {avail : Fin N → Bool}
    {A : Matrix (Fin N) (Fin N) 𝕜} (h : ChainInv rank it avail A t) (i : Fin N) :
    |RCLike.re (A i i)| / ((rank : ℝ) - it) = RCLike.re (A i i) / t := by
  rw [h.rk', abs_of_nonneg (h.proj.diag_nonneg i)]

theorem ChainInv.valid {rank : ℤ} {it t : ℕ} {avail : Fin N → Bool} {A : Matrix (Fin N) (Fin N) 𝕜}
    (h : ChainInv rank it avail A t) (ht : t ≠ 0) :
    Dist.Valid (availList avail) (fun i => |RCLike.re (A i i)| / ((rank : ℝ) - it)) := by
  have hsum : ((availList avail).map fun i => |RCLike.re (A i i)| / ((rank : ℝ) - it)).sum = 1 := by
    rw [sum_availList avail]
    · simp only [h.weight]
      rw [← Finset.sum_div, h.sum, div_self (Nat.cast_ne_zero.2 ht)]
    · intro i hi
      rw [h.weight, h.supp i hi]; simp
  refine ⟨?_, ?_, hsum⟩
  · intro hc
    rw [hc] at hsum; simp at hsum
  · intro i _
    refine le_of_le_of_eq ?_ (h.weight i).symm
    exact div_nonneg (h.proj.diag_nonneg i) (Nat.cast_nonneg _)

theorem ChainInv.step {rank : ℤ} {it t : ℕ} {avail : Fin N → Bool} {A : Matrix (Fin N) (Fin N) 𝕜}
    (h : ChainInv rank it avail A (t+1)) {j : Fin N} (hj : A j j ≠ 0) :
    ChainInv rank (it+1) (Function.update avail j false) (elim A j) t := by
  refine ⟨h.proj.elim j, ?_, ?_, ?_⟩
  · intro i hi
    by_cases hij : i = j
    · subst hij; exact elim_self hj
    · rw [Function.update_of_ne hij] at hi
      exact elim_diag_zero h.proj (h.supp i hi)
  · rw [trace_elim h.proj hj, h.tr]; push_cast; ring
  · have := h.rk; push_cast at this ⊢; omega

theorem projChain_nonneg (rank : ℤ) (m it : ℕ) (avail : Fin N → Bool)
    (A : Matrix (Fin N) (Fin N) 𝕜) : Dist.Nonneg (projChain rank m it avail A) := by
  induction m generalizing it avail A with
  | zero => rw [projChain]; exact Dist.Nonneg.ret _
  | succ m ih =>
    rw [projChain]
    exact Dist.andThen_nonneg (Dist.npChoice_nonneg _ _) (fun a => Dist.Nonneg.map (ih _ _ _))

/-- every possible outcome of the chain -/
theorem projChain_possible (rank : ℤ) (m it t : ℕ) (avail : Fin N → Bool)
    (A : Matrix (Fin N) (Fin N) 𝕜) (h : ChainInv rank it avail A t) (hm : m ≤ t)
    (o : Outcome (List (Fin N))) (ho : (projChain rank m it avail A).Possible o) :
    ∃ l, o = .ok l ∧ l.length = m ∧ l.Nodup ∧ ∀ i ∈ l, avail i = true := by
  induction m generalizing it avail A t o with
  | zero =>
    rw [projChain, Dist.Possible.ret_iff] at ho
    exact ⟨[], ho, rfl, List.nodup_nil, by simp⟩
  | succ m ih =>
    obtain ⟨t', rfl⟩ : ∃ t', t = t' + 1 := ⟨t - 1, by omega⟩
    rw [projChain, Dist.possible_npChoice_andThen (h.valid (by omega))] at ho
    obtain ⟨j, hj, hw, ho⟩ := ho
    rw [h.weight] at hw
    have hjj : A j j ≠ 0 := by
      intro hc; rw [hc] at hw; simp at hw
    rw [Dist.Possible.map_iff] at ho
    obtain ⟨o', ho', rfl⟩ := ho
    obtain ⟨l, rfl, h1, h2, h3⟩ := ih _ _ _ _ (h.step hjj) (by omega) _ ho'
    refine ⟨j :: l, rfl, by simp [h1], List.nodup_cons.2 ⟨?_, h2⟩, ?_⟩
    · intro hc
      have := h3 j hc
      simp at this
    · intro i hi
      rcases List.mem_cons.1 hi with rfl | hi
      · exact mem_availList.1 hj
      · have := h3 i hi
        by_cases hij : i = j
        · subst hij; exact mem_availList.1 hj
        · rwa [Function.update_of_ne hij] at this

/-- law of the ordered sample -/
theorem projChain_prob_list (rank : ℤ) (m it t : ℕ) (avail : Fin N → Bool)
    (A : Matrix (Fin N) (Fin N) 𝕜) (h : ChainInv rank it avail A t) (hm : m ≤ t)
    (l : List (Fin N)) (hl : l.length = m) (hn : l.Nodup) :
    (projChain rank m it avail A).prob (· = .ok l)
      = RCLike.re (minor A l.toFinset) * ((t - m).factorial / t.factorial : ℝ) := by
  classical
  induction m generalizing it avail A t l with
  | zero =>
    have : l = [] := List.length_eq_zero_iff.1 hl
    subst this
    rw [projChain, Dist.prob_eq]
    have e2 : (t.factorial : ℝ) ≠ 0 := Nat.cast_ne_zero.2 (Nat.factorial_ne_zero _)
    simp [e2]
  | succ m ih =>
    obtain ⟨t', rfl⟩ : ∃ t', t = t' + 1 := ⟨t - 1, by omega⟩
    obtain ⟨j, l', rfl⟩ : ∃ j l', l = j :: l' := by
      cases l with
      | nil => simp at hl
      | cons j l' => exact ⟨j, l', rfl⟩
    obtain ⟨hjl, hn'⟩ := List.nodup_cons.1 hn
    have hl' : l'.length = m := by simpa using hl
    rw [projChain, Dist.prob_eq, Dist.E_npChoice_andThen (h.valid (by omega))]
    simp only [h.weight, Dist.E_map]
    rw [sum_availList avail]
    · rw [Finset.sum_eq_single j]
      · have he : ∀ o : Outcome (List (Fin N)),
            (if Outcome.map (fun x => j :: x) o = .ok (j :: l') then (1:ℝ) else 0)
              = if o = .ok l' then 1 else 0 := by
          intro o
          cases o with
          | ok x => simp [Outcome.map]
          | raise e => simp [Outcome.map]
        simp only [he]
        have herase : (j :: l').toFinset.erase j = l'.toFinset := by
          rw [List.toFinset_cons, Finset.erase_insert (by simpa using hjl)]
        by_cases hjj : A j j = 0
        · rw [minor_row_zero (y := j) (by simp) (fun k _ => h.proj.row_zero hjj k), hjj]
          simp
        · rw [← Dist.prob_eq, ih _ _ _ _ (h.step hjj) (by omega) l' hl' hn',
            ← re_minor_elim h.proj (S := (j :: l').toFinset) (y := j) (by simp), herase,
            Nat.factorial_succ]
          have e1 : t' + 1 - (m + 1) = t' - m := by omega
          rw [e1]
          have e2 : (t'.factorial : ℝ) ≠ 0 := Nat.cast_ne_zero.2 (Nat.factorial_ne_zero _)
          have e3 : ((t' + 1 : ℕ) : ℝ) ≠ 0 := Nat.cast_ne_zero.2 (by omega)
          push_cast at e3 ⊢
          field_simp
      · intro i _ hij
        have he : ∀ o : Outcome (List (Fin N)),
            (if Outcome.map (fun x => i :: x) o = .ok (j :: l') then (1:ℝ) else 0) = 0 := by
          intro o
          cases o with
          | ok x => simp [Outcome.map, hij]
          | raise e => simp [Outcome.map]
        simp only [he, Dist.E_zero, mul_zero]
      · intro hc; exact absurd (Finset.mem_univ j) hc
    · intro i hi
      rw [h.supp i hi]; simp

/-- events of finitely many outcomes -/
theorem Dist.prob_mem_list {α : Type*} (d : Dist ℝ α) (P : List α) (hP : P.Nodup) :
    d.prob (fun a => a ∈ P) = (P.map fun a => d.prob (· = a)).sum := by
  classical
  simp only [Dist.prob_eq]
  induction P with
  | nil => simp
  | cons b P ih =>
    obtain ⟨h1, h2⟩ := List.nodup_cons.1 hP
    rw [List.map_cons, List.sum_cons, ← ih h2, ← Dist.E_add]
    congr 1
    funext a
    by_cases hab : a = b
    · subst hab; simp [h1]
    · simp [hab]

theorem Dist.E_congr_possible {α : Type*} {d : Dist ℝ α} {f g : α → ℝ}
    (h : ∀ a, d.Possible a → f a = g a) : d.E f = d.E g := by
  unfold Dist.E
  congr 1
  apply List.map_congr_left
  rintro ⟨a, w⟩ hm
  by_cases hw : w = 0
  · simp [hw]
  · simp only
    rw [h a ⟨w, hm, hw⟩]

/-- law of the sampled set -/
theorem projChain_prob_set (rank : ℤ) (m it t : ℕ) (avail : Fin N → Bool)
    (A : Matrix (Fin N) (Fin N) 𝕜) (h : ChainInv rank it avail A t) (hm : m ≤ t)
    (S : Finset (Fin N)) (hS : S.card = m) :
    (projChain rank m it avail A).prob (fun o => ∃ l, o = .ok l ∧ l.toFinset = S)
      = RCLike.re (minor A S) / (t.choose m : ℝ) := by
  classical
  have hiff : (projChain rank m it avail A).prob (fun o => ∃ l, o = .ok l ∧ l.toFinset = S)
      = (projChain rank m it avail A).prob
        (fun o => o ∈ (S.toList.permutations.map Outcome.ok)) := by
    rw [Dist.prob_eq, Dist.prob_eq]
    apply Dist.E_congr_possible
    intro o ho
    obtain ⟨l, rfl, h1, h2, -⟩ := projChain_possible rank m it t avail A h hm o ho
    congr 1
    simp only [Outcome.ok.injEq, List.mem_map, List.mem_permutations, exists_eq_right, eq_iff_iff]
    constructor
    · rintro ⟨l', rfl, hS'⟩
      rw [List.perm_ext_iff_of_nodup h2 (Finset.nodup_toList S)]
      intro a
      rw [Finset.mem_toList, ← hS', List.mem_toFinset]
    · intro hp
      refine ⟨l, rfl, ?_⟩
      rw [List.toFinset_eq_of_perm _ _ hp, Finset.toList_toFinset]
  rw [hiff, Dist.prob_mem_list]
  · rw [List.map_map]
    have hc : ∀ l ∈ S.toList.permutations,
        ((fun a => (projChain rank m it avail A).prob (· = a)) ∘ Outcome.ok) l
          = RCLike.re (minor A S) * ((t - m).factorial / t.factorial : ℝ) := by
      intro l hl
      have hp := List.mem_permutations.1 hl
      simp only [Function.comp_apply]
      rw [projChain_prob_list rank m it t avail A h hm l
        (by rw [hp.length_eq, Finset.length_toList, hS]) (hp.nodup_iff.2 (Finset.nodup_toList S)),
        List.toFinset_eq_of_perm _ _ hp, Finset.toList_toFinset]
    rw [List.map_congr_left hc, List.map_const', List.sum_replicate, List.length_permutations,
      Finset.length_toList, hS, nsmul_eq_mul]
    have e := Nat.choose_mul_factorial_mul_factorial hm
    have e' : (t.choose m : ℝ) * m.factorial * (t - m).factorial = t.factorial := by
      exact_mod_cast e
    have e2 : (t.factorial : ℝ) ≠ 0 := Nat.cast_ne_zero.2 (Nat.factorial_ne_zero _)
    have e3 : (t.choose m : ℝ) ≠ 0 := Nat.cast_ne_zero.2 (Nat.choose_pos hm).ne'
    field_simp
    rw [← e']; ring
  · apply List.Nodup.map
    · intro a b hab; simpa using hab
    · exact List.nodup_permutations _ (Finset.nodup_toList S)

end Model
end Verif
