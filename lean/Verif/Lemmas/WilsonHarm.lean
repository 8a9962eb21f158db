import Verif.Lemmas.Laplacian
import Verif.Lemmas.TreePar

/-! A harmonic function for Wilson's algorithm as coded. -/

set_option linter.unusedSectionVars false

namespace Verif.Model
open Verif Verif.Spec Finset
variable {n : ℕ} {es : List (Fin n × Fin n)} {adj : Fin n → List (Fin n)}

/-! ### descendants -/

/-- `b` is a child of `a` -/
def Child (r : Fin n) (par : Fin n → Fin n) (a b : Fin n) : Prop := b ≠ r ∧ par b = a

/-- `a` is `b` or an ancestor of `b` -/
def Anc (r : Fin n) (par : Fin n → Fin n) : Fin n → Fin n → Prop := Relation.ReflTransGen (Child r par)

section
variable {H : SimpleGraph (Fin n)} {r : Fin n} {par : Fin n → Fin n} {dep : Fin n → ℕ} (hp : ParOf H r par dep)
include hp

theorem Anc.dep_le {a b : Fin n} (h : Anc r par a b) : dep a ≤ dep b := by
  induction h with
  | refl => exact le_rfl
  | tail _ h ih =>
    have := hp.dep _ h.1
    rw [h.2] at this
    omega

theorem anc_root : ∀ q, Anc r par r q := by
  intro q
  induction hd : dep q using Nat.strong_induction_on generalizing q with
  | _ d ih =>
    by_cases hq : q = r
    · rw [hq]; exact Relation.ReflTransGen.refl
    · exact (ih (dep (par q)) (hd ▸ hp.dep q hq) (par q) rfl).tail ⟨hq, rfl⟩

theorem anc_unique {x y y' q : Fin n} (h : Child r par x y) (h' : Child r par x y') (hy : Anc r par y q) (hy' : Anc r par y' q) : y = y' := by
  have key : ∀ {a b}, Child r par x a → Child r par x b → Anc r par a b → a = b := by
    intro a b ha hb hab
    rcases Relation.ReflTransGen.cases_tail hab with h | ⟨z, h1, h2⟩
    · exact h.symm
    · have hz : z = x := by rw [← h2.2, hb.2]
      subst hz
      have h3 := Anc.dep_le hp h1
      have h4 := hp.dep a ha.1
      rw [ha.2] at h4
      omega
  have hU : Relator.RightUnique (Function.swap (Child r par)) := fun a b c hb hc => by rw [← hb.2, ← hc.2]
  rcases Relation.ReflTransGen.total_of_right_unique hU (Relation.reflTransGen_swap.2 hy) (Relation.reflTransGen_swap.2 hy') with h1 | h1
  · exact (key h' h (Relation.reflTransGen_swap.1 h1)).symm
  · exact key h h' (Relation.reflTransGen_swap.1 h1)

open Classical in
theorem anc_split (x q : Fin n) : (if Anc r par x q then (1 : ℝ) else 0)
    = (if q = x then 1 else 0) + ∑ y, if Child r par x y ∧ Anc r par y q then 1 else 0 := by
  by_cases hq : q = x
  · subst hq
    rw [if_pos (show Anc r par q q from Relation.ReflTransGen.refl), if_pos rfl, sum_eq_zero, add_zero]
    intro y _
    rw [if_neg]
    rintro ⟨h1, h2⟩
    have h3 := Anc.dep_le hp h2
    have h4 := hp.dep y h1.1
    rw [h1.2] at h4
    omega
  · rw [if_neg hq, zero_add]
    by_cases h : Anc r par x q
    · rw [if_pos h]
      rcases Relation.ReflTransGen.cases_head h with h | ⟨y, h1, h2⟩
      · exact absurd h.symm hq
      · rw [sum_eq_single y]
        · rw [if_pos ⟨h1, h2⟩]
        · intro z _ hz
          rw [if_neg]
          rintro ⟨h3, h4⟩
          exact hz (anc_unique hp h3 h1 h4 h2)
        · simp
    · rw [if_neg h, sum_eq_zero]
      intro y _
      rw [if_neg]
      rintro ⟨h1, h2⟩
      exact h (Relation.ReflTransGen.head h1 h2)
end

open Classical in
/-- number of neighbours of the root below `x` -/
noncomputable def cntDesc (adj : Fin n → List (Fin n)) (r : Fin n) (par : Fin n → Fin n) (x : Fin n) : ℝ :=
  ∑ q ∈ (adj r).toFinset, if Anc r par x q then 1 else 0

open Classical in
/-- weight of a path in the first branch -/
noncomputable def wgt1 (adj : Fin n → List (Fin n)) (r : Fin n) (par : Fin n → Fin n) (p : List (Fin n)) : ℝ :=
  if (r :: p).IsChain (Child r par) then cntDesc adj r par ((r :: p).getLast (by simp)) else 0

open Classical in
/-- weight of a path in the other branches -/
noncomputable def wgt2 (par : Fin n → Fin n) (p : List (Fin n)) : ℝ := if p.IsChain (fun u v => v = par u) then 1 else 0

section
variable {H : SimpleGraph (Fin n)} {r : Fin n} {par : Fin n → Fin n} {dep : Fin n → ℕ} (hp : ParOf H r par dep)
include hp

theorem cntDesc_root (hnd : ∀ v, (adj v).Nodup) : cntDesc adj r par r = (adj r).length := by
  rw [cntDesc, sum_congr rfl fun q _ => if_pos (anc_root hp q), sum_const, List.toFinset_card_of_nodup (hnd r)]
  simp

open Classical in
theorem cntDesc_split (x : Fin n) : cntDesc adj r par x
    = (if x ∈ adj r then 1 else 0) + ∑ y, if Child r par x y then cntDesc adj r par y else 0 := by
  rw [cntDesc, sum_congr rfl fun q _ => anc_split hp x q, sum_add_distrib, sum_ite_eq']
  congr 1
  · simp
  · rw [sum_comm]
    refine sum_congr rfl fun y _ => ?_
    by_cases h : Child r par x y
    · rw [if_pos h, cntDesc]
      exact sum_congr rfl fun q _ => by simp [h]
    · rw [if_neg h]
      exact sum_eq_zero fun q _ => by simp [h]

theorem isChain_snoc {α : Type*} {R : α → α → Prop} {l : List α} (hl : l ≠ []) {y : α} :
    (l ++ [y]).IsChain R ↔ l.IsChain R ∧ R (l.getLast hl) y := by
  rw [List.isChain_append]
  constructor
  · rintro ⟨h1, -, h2⟩
    exact ⟨h1, h2 _ (List.getLast?_eq_some_getLast hl) y (by simp)⟩
  · rintro ⟨h1, h2⟩
    refine ⟨h1, by simp, fun a ha b hb => ?_⟩
    rw [List.getLast?_eq_some_getLast hl] at ha
    simp at ha hb
    rw [← ha, ← hb]; exact h2

open Classical in
theorem wgt1_snoc (p : List (Fin n)) (y : Fin n) : wgt1 adj r par (p ++ [y])
    = if (r :: p).IsChain (Child r par) ∧ Child r par ((r :: p).getLast (by simp)) y then cntDesc adj r par y else 0 := by
  have hc := isChain_snoc hp (R := Child r par) (l := r :: p) (by simp) (y := y)
  rw [wgt1]
  rw [List.cons_append] at hc
  by_cases h : (r :: (p ++ [y])).IsChain (Child r par)
  · rw [if_pos h, if_pos (hc.1 h)]
    congr 1
    simp
  · rw [if_neg h, if_neg fun h' => h (hc.2 h')]

open Classical in
/-- balance of the weights of the first branch -/
theorem wgt1_balance (hadj : NbrsOf es adj) (hnd : ∀ v, (adj v).Nodup) (hH : H ≤ graphOf es) (p : List (Fin n)) {x : Fin n}
    (hx : (r :: p).getLast (by simp) = x) : ((adj x).map fun y => wgt1 adj r par (p ++ [y])
      + if y = r ∧ (r :: p).IsChain (Child r par) then 1 else 0).sum = wgt1 adj r par p := by
  rw [← List.sum_toFinset _ (hnd x), sum_add_distrib]
  have h1 : ∑ y ∈ (adj x).toFinset, wgt1 adj r par (p ++ [y]) = ∑ y, wgt1 adj r par (p ++ [y]) := by
    refine sum_subset (subset_univ _) fun y _ hy => ?_
    rw [wgt1_snoc hp, if_neg]
    rintro ⟨-, h⟩
    rw [hx] at h
    have := hH (hp.adj y h.1)
    rw [h.2] at this
    exact hy (List.mem_toFinset.2 ((hadj _ _).2 (graphOf_adj.1 this.symm).2))
  have h2 : x ∈ adj r ↔ r ∈ adj x := by rw [hadj r x, hadj x r, or_comm]
  rw [h1, sum_congr rfl fun y _ => wgt1_snoc hp p y, wgt1, hx]
  by_cases hc : (r :: p).IsChain (Child r par)
  · simp only [hc, true_and, and_true, if_true]
    rw [cntDesc_split hp, add_comm, sum_ite_eq']
    congr 1
    simp only [List.mem_toFinset, h2]
  · simp [hc]

/-- a path of the tree that goes down from the root -/
theorem chain_child : ∀ (l : List (Fin n)) (a : Fin n), (a :: l).IsChain H.Adj → (a :: l).Nodup → (a ≠ r → par a ∉ l) →
    (a :: l).IsChain (Child r par)
  | [], a, _, _, _ => by simp
  | b :: l, a, hc, hn, ha => by
    rw [List.isChain_cons_cons] at hc ⊢
    have hb : Child r par a b := by
      rcases hp.edge a b hc.1 with ⟨h1, h2⟩ | h
      · exact absurd (h2 ▸ List.mem_cons_self) (ha h1)
      · exact h
    refine ⟨hb, chain_child l b hc.2 (List.nodup_cons.1 hn).2 fun _ h => ?_⟩
    rw [hb.2] at h
    exact (List.nodup_cons.1 hn).1 (List.mem_cons_of_mem _ h)

/-- a path of the tree that reaches a set closed under parents -/
theorem chain_par {K : Finset (Fin n)} (hK : ∀ v ∈ K, v ≠ r → par v ∈ K) {k : Fin n} (hk : k ∈ K) : ∀ (l : List (Fin n)),
    (l ++ [k]).IsChain H.Adj → (l ++ [k]).Nodup → (∀ v ∈ l, v ∉ K) → (l ++ [k]).IsChain (fun u v => v = par u)
  | [], _, _, _ => by simp
  | [a], hc, hn, ha => by
    simp only [List.singleton_append, List.isChain_cons_cons, List.isChain_singleton, and_true] at hc ⊢
    rcases hp.edge a k hc with ⟨-, h2⟩ | ⟨h1, h2⟩
    · exact h2.symm
    · exact absurd (h2 ▸ hK k hk h1) (ha a (by simp))
  | a :: b :: l, hc, hn, ha => by
    rw [List.cons_append, List.cons_append, List.isChain_cons_cons] at hc ⊢
    have ih := chain_par hK hk (b :: l) hc.2 (List.nodup_cons.1 hn).2 fun v hv => ha v (by simp [hv])
    refine ⟨?_, ih⟩
    rcases hp.edge a b hc.1 with ⟨-, h2⟩ | ⟨h1, h2⟩
    · exact h2.symm
    · exfalso
      rw [List.cons_append] at ih
      have hmem : par b ∈ l ++ [k] := by
        cases l with
        | nil =>
          simp only [List.nil_append, List.isChain_cons_cons, List.isChain_singleton, and_true] at ih
          simp [ih]
        | cons c l =>
          rw [List.cons_append, List.isChain_cons_cons] at ih
          simp [← ih.1]
      rw [h2] at hmem
      exact (List.nodup_cons.1 hn).1 (List.mem_cons_of_mem _ hmem)

theorem chain_adj {l : List (Fin n)} (hc : l.IsChain (fun u v => v = par u)) (hr : ∀ v ∈ l.dropLast, v ≠ r) : l.IsChain H.Adj := by
  induction l with
  | nil => simp
  | cons a l ih =>
    cases l with
    | nil => simp
    | cons b l =>
      rw [List.isChain_cons_cons] at hc ⊢
      refine ⟨?_, ih hc.2 fun v hv => hr v ?_⟩
      · rw [hc.1]; exact hp.adj a (hr a (by simp))
      · rw [List.dropLast_cons_cons]; exact List.mem_cons_of_mem _ hv
end

end Verif.Model
