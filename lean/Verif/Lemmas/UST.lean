import Verif.Spec.Tree
import Verif.Lemmas.MCMC
import Mathlib.Data.List.Chain
import Mathlib.Data.Fintype.EquivFin

/-! Growing trees; invariants of the Aldous-Broder and Wilson walks. -/

set_option linter.unusedSectionVars false

namespace Verif.Spec
open Verif Verif.Model
variable {n : ℕ}

theorem graphOf_mono {t t' : List (Fin n × Fin n)} (h : ∀ e ∈ t, e ∈ t') : graphOf t ≤ graphOf t' := by
  intro a b hab
  rw [graphOf, SimpleGraph.fromRel_adj] at hab ⊢
  exact ⟨hab.1, hab.2.imp (h _) (h _)⟩

theorem graphOf_adj {t : List (Fin n × Fin n)} {a b : Fin n} :
    (graphOf t).Adj a b ↔ a ≠ b ∧ ((a, b) ∈ t ∨ (b, a) ∈ t) := by
  rw [graphOf, SimpleGraph.fromRel_adj]

theorem edgeSet_subset (t : List (Fin n × Fin n)) :
    (graphOf t).edgeSet ⊆ ((t.map fun e => s(e.1, e.2)).toFinset : Set (Sym2 (Fin n))) := by
  intro e he
  induction e using Sym2.ind with
  | _ a b =>
    rw [SimpleGraph.mem_edgeSet, graphOf_adj] at he
    simp only [List.coe_toFinset, List.mem_map, Set.mem_setOf_eq]
    rcases he.2 with h | h
    · exact ⟨_, h, rfl⟩
    · exact ⟨_, h, Sym2.eq_swap⟩

theorem card_edgeSet_le (t : List (Fin n × Fin n)) : Nat.card (graphOf t).edgeSet ≤ t.length := by
  have h := Nat.card_mono (Finset.finite_toSet _) (edgeSet_subset t)
  refine h.trans ?_
  rw [Nat.card_coe_set_eq, Set.ncard_coe_finset]
  exact (List.toFinset_card_le _).trans (by simp)

/-- Connected with one edge less than nodes: a tree. -/
theorem isTree_of_connected {t : List (Fin n × Fin n)} (h : (graphOf t).Connected) (hl : t.length + 1 = n) :
    (graphOf t).IsTree := by
  rw [SimpleGraph.isTree_iff_connected_and_card]
  refine ⟨h, le_antisymm ?_ h.card_vert_le_card_edgeSet_add_one⟩
  rw [Nat.card_eq_fintype_card (α := Fin n), Fintype.card_fin]
  have := card_edgeSet_le t
  omega

theorem reachable_of_chain {t : List (Fin n × Fin n)} {x : List (Fin n)}
    (h : x.IsChain fun a b => (graphOf t).Reachable a b) : ∀ a ∈ x, ∀ b ∈ x, (graphOf t).Reachable a b := by
  haveI : Trans (graphOf t).Reachable (graphOf t).Reachable (graphOf t).Reachable := ⟨fun h h' => h.trans h'⟩
  have hp := List.isChain_iff_pairwise.1 h
  intro a ha b hb
  haveI : Std.Symm (graphOf t).Reachable := ⟨fun _ _ h => h.symm⟩
  exact hp.forall_of_forall (fun _ _ => SimpleGraph.Reachable.refl _) ha hb

end Verif.Spec

namespace Verif.Model
open Verif Verif.Spec
variable {n : ℕ}

theorem pathEdges_cons_cons {α : Type*} (a b : α) (l : List α) :
    pathEdges (a :: b :: l) = (a, b) :: pathEdges (b :: l) := by simp [pathEdges]

theorem pathEdges_length {α : Type*} (x : List α) : (pathEdges x).length = x.length - 1 := by
  simp [pathEdges]

theorem mem_pathEdges_of_chain {α : Type*} {R : α → α → Prop} : ∀ {x : List α}, x.IsChain R →
    ∀ e ∈ pathEdges x, R e.1 e.2 := by
  intro x
  induction x with
  | nil => intro _ e he; simp [pathEdges] at he
  | cons a l ih =>
    cases l with
    | nil => intro _ e he; simp [pathEdges] at he
    | cons b l =>
      intro h e he
      rw [List.isChain_cons_cons] at h
      rw [pathEdges_cons_cons] at he
      rcases List.mem_cons.1 he with rfl | he
      · exact h.1
      · exact ih h.2 e he

theorem chain_pathEdges {α : Type*} : ∀ (x : List α), x.IsChain fun a b => (a, b) ∈ pathEdges x := by
  intro x
  induction x with
  | nil => simp
  | cons a l ih =>
    cases l with
    | nil => simp
    | cons b l =>
      rw [List.isChain_cons_cons]
      refine ⟨by simp [pathEdges_cons_cons], ih.imp ?_⟩
      intro c d h
      rw [pathEdges_cons_cons]; exact List.mem_cons_of_mem _ h

/-- edges of the path join its nodes -/
theorem reachable_path {t : List (Fin n × Fin n)} {x : List (Fin n)} (hsub : ∀ e ∈ pathEdges x, e ∈ t) :
    ∀ a ∈ x, ∀ b ∈ x, (graphOf t).Reachable a b := by
  apply reachable_of_chain
  refine (chain_pathEdges x).imp ?_
  intro a b h
  by_cases hab : a = b
  · rw [hab]
  · exact SimpleGraph.Adj.reachable (graphOf_adj.2 ⟨hab, Or.inl (hsub _ h)⟩)

/-- The part of the invariants common to the two walks: `T` are the nodes already in the tree with edges `t`. -/
structure Grown (es : List (Fin n × Fin n)) (root : Fin n) (T : Finset (Fin n)) (t : List (Fin n × Fin n)) :
    Prop where
  sub : ∀ e ∈ t, e ∈ es ∨ e.swap ∈ es
  len : t.length + 1 = T.card
  root_mem : root ∈ T
  reach : ∀ v ∈ T, (graphOf t).Reachable root v

theorem Grown.spanning {es : List (Fin n × Fin n)} {root : Fin n} {T : Finset (Fin n)}
    {t : List (Fin n × Fin n)} (h : Grown es root T t) (hT : T.card = n) : IsSpanningTree es t := by
  have hu : T = Finset.univ := by
    rw [← Finset.card_eq_iff_eq_univ]; simpa using hT
  refine ⟨h.sub, by rw [h.len, hT], isTree_of_connected ?_ (by rw [h.len, hT])⟩
  rw [SimpleGraph.connected_iff]
  refine ⟨fun a b => ?_, ⟨root⟩⟩
  exact (h.reach a (by rw [hu]; simp)).symm.trans (h.reach b (by rw [hu]; simp))

theorem Grown.init (es : List (Fin n × Fin n)) (root : Fin n) : Grown es root {root} [] :=
  ⟨by simp, by simp, by simp, by intro v hv; rw [Finset.mem_singleton.1 hv]⟩

/-- Adding a path that hangs from the tree. -/
theorem Grown.add {es : List (Fin n × Fin n)} {root : Fin n} {T : Finset (Fin n)} {t : List (Fin n × Fin n)}
    (h : Grown es root T t) {x q : List (Fin n)} {a : Fin n} (hx : x.Perm (a :: q)) (ha : a ∈ T)
    (hq : q.Nodup) (hqT : ∀ v ∈ q, v ∉ T) (hc : x.IsChain fun u v => (u, v) ∈ es ∨ (v, u) ∈ es) :
    Grown es root (T ∪ q.toFinset) (t ++ pathEdges x) := by
  have hx' : (pathEdges x).length = q.length := by rw [pathEdges_length, hx.length_eq]; simp
  have hmono : graphOf t ≤ graphOf (t ++ pathEdges x) := graphOf_mono fun e he => List.mem_append_left _ he
  refine ⟨?_, ?_, Finset.mem_union_left _ h.root_mem, ?_⟩
  · intro e he
    rcases List.mem_append.1 he with he | he
    · exact h.sub e he
    · exact mem_pathEdges_of_chain hc e he
  · rw [List.length_append, hx', Finset.card_union_of_disjoint, ← h.len, List.toFinset_card_of_nodup hq]
    · omega
    · rw [Finset.disjoint_left]; intro v hv hv'; exact hqT v (by simpa using hv') hv
  · intro v hv
    rcases Finset.mem_union.1 hv with hv | hv
    · exact (h.reach v hv).mono hmono
    · refine ((h.reach a ha).mono hmono).trans ?_
      refine reachable_path (x := x) (fun e he => List.mem_append_right _ he) a ?_ v ?_
      · exact hx.mem_iff.2 (by simp)
      · exact hx.mem_iff.2 (by simp at hv; simp [hv])

/-! ### Aldous-Broder -/

structure ABInv (es : List (Fin n × Fin n)) (root : Fin n) (s : ABSt n) : Prop where
  grown : Grown es root (Finset.univ.filter fun v => s.visited v = true) s.edges
  nb : s.nb = (Finset.univ.filter fun v => s.visited v = true).card
  here : s.visited s.n0 = true

theorem ABInv.init (es : List (Fin n × Fin n)) (root : Fin n) : ABInv es root (abInit root) := by
  have : (Finset.univ.filter fun v => (abInit root).visited v = true) = {root} := by
    ext v
    rw [Finset.mem_filter, Finset.mem_singleton]
    by_cases h : v = root <;> simp [abInit, h]
  exact ⟨by rw [this]; exact Grown.init es root, by rw [this]; simp [abInit], by simp [abInit]⟩

theorem ABInv.move {es : List (Fin n × Fin n)} {root : Fin n} {s : ABSt n} (h : ABInv es root s) {n1 : Fin n}
    (h1 : (s.n0, n1) ∈ es ∨ (n1, s.n0) ∈ es) : ABInv es root (abMove s n1) := by
  unfold abMove
  by_cases hv : s.visited n1 = true
  · rw [if_pos hv]; exact ⟨h.grown, h.nb, hv⟩
  · rw [if_neg hv]
    have hT : (Finset.univ.filter fun v => Function.update s.visited n1 true v = true)
        = (Finset.univ.filter fun v => s.visited v = true) ∪ [n1].toFinset := by
      ext v
      by_cases h : v = n1 <;> simp [h]
    have hx : n1 ∉ (Finset.univ.filter fun v => s.visited v = true) := by simp [hv]
    have := h.grown.add (x := [s.n0, n1]) (q := [n1]) (a := s.n0) (List.Perm.refl _) (by simp [h.here]) (by simp)
      (by simpa using hv) (by simpa using h1)
    refine ⟨?_, ?_, by simp⟩
    · simp only [hT]; simpa [pathEdges] using this
    · simp only [hT]
      rw [Finset.card_union_of_disjoint (by simpa using hx), h.nb]; simp

theorem abLoop_possible {es : List (Fin n × Fin n)} {adj : Fin n → List (Fin n)} (hadj : NbrsOf es adj)
    (hne : 2 ≤ n → ∀ v, adj v ≠ []) {root : Fin n} : ∀ fuel s, ABInv es root s → ∀ o,
    (abLoop adj fuel s).Possible o → o = .ok none ∨ ∃ s', o = .ok (some s') ∧ ABInv es root s' ∧ n ≤ s'.nb := by
  intro fuel
  induction fuel with
  | zero =>
    intro s hs o ho
    rw [abLoop] at ho
    split at ho
    · rw [Dist.Possible.ret_iff] at ho; exact Or.inl ho
    · rw [Dist.Possible.ret_iff] at ho; exact Or.inr ⟨s, ho, hs, by omega⟩
  | succ fuel ih =>
    intro s hs o ho
    rw [abLoop] at ho
    split at ho
    · rename_i hlt
      have hn : 2 ≤ n := by
        have := hs.grown.len; rw [← hs.nb] at this; omega
      rcases possible_andThen.1 ho with ⟨n1, h1, h2⟩ | ⟨e, h1, h2⟩
      · rw [possible_choiceO_ok] at h1
        exact ih _ (hs.move ((hadj _ _).1 h1)) o h2
      · exact absurd (possible_choiceO_raise.1 h1).1 (hne hn _)
    · rw [Dist.Possible.ret_iff] at ho; exact Or.inr ⟨s, ho, hs, by omega⟩

end Verif.Model
