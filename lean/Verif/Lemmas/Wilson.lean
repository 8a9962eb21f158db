import Verif.Lemmas.UST

/-! Invariant of Wilson's algorithm as coded. -/

set_option linter.unusedSectionVars false

namespace Verif.Model
open Verif Verif.Spec
variable {n : ℕ}

/-- nodes marked as in the tree -/
def treeSet (s : WSt n) : Finset (Fin n) := Finset.univ.filter fun v => s.state v = .tree

theorem mem_treeSet {s : WSt n} {v : Fin n} : v ∈ treeSet s ↔ s.state v = .tree := by simp [treeSet]

/-- The tree built so far. -/
structure WCore (es : List (Fin n × Fin n)) (root : Fin n) (s : WSt n) : Prop where
  grown : Grown es root (treeSet s) (s.branches.flatMap pathEdges)
  nb : s.nb = (treeSet s).card

/-- The walk in progress: it goes through `h :: q`; `h` is the root for the first branch, and the (unmarked)
start of the path for the others. -/
structure WPath (adj : Fin n → List (Fin n)) (root : Fin n) (s : WSt n) (h : Fin n) (q : List (Fin n)) : Prop where
  chain : (h :: q).IsChain fun u v => v ∈ adj u
  nodup : (h :: q).Nodup
  last : (h :: q).getLast (by simp) = s.n0
  marked : ∀ v, s.state v = .path ↔ v ∈ q
  shape : (s.nb = 1 ∧ s.path = q ∧ h = root) ∨ (1 < s.nb ∧ s.path = h :: q ∧ s.state h = .new)

theorem idxOf_append_self {α : Type*} [DecidableEq α] {l : List α} {a : α} (h : a ∉ l) :
    (l ++ [a]).idxOf a = l.length := by
  rw [List.idxOf_append_of_notMem h]; simp

theorem take_idxOf_succ {α : Type*} [DecidableEq α] : ∀ {l : List α} {a : α} (h : a ∈ l),
    ∃ l1 l2, l = l1 ++ a :: l2 ∧ l.take (l.idxOf a + 1) = l1 ++ [a] ∧ l.drop (l.idxOf a + 1) = l2 := by
  intro l
  induction l with
  | nil => intro a h; simp at h
  | cons b l ih =>
    intro a h
    by_cases hab : b = a
    · subst hab; exact ⟨[], l, by simp⟩
    · have : a ∈ l := by
        rcases List.mem_cons.1 h with h | h
        · exact absurd h.symm hab
        · exact h
      obtain ⟨l1, l2, h1, h2, h3⟩ := ih this
      refine ⟨b :: l1, l2, by simp [← h1], ?_, ?_⟩
      · rw [List.idxOf_cons_ne _ (by simpa using hab), List.take_succ_cons, h2]; simp
      · rw [List.idxOf_cons_ne _ (by simpa using hab), List.drop_succ_cons, h3]

section
variable {es : List (Fin n × Fin n)} {adj : Fin n → List (Fin n)} {root : Fin n} {s : WSt n}

/-- `h` is never marked as being in the path -/
theorem WPath.head_ne {h : Fin n} {q : List (Fin n)} (w : WPath adj root s h q) : s.state h ≠ .path := by
  rw [Ne, w.marked]; exact (List.nodup_cons.1 w.nodup).1

/-- the state after the loop is erased -/
def wErased (s : WSt n) (n1 : Fin n) : WSt n :=
  { s with
    path := s.path.take (s.path.idxOf n1 + 1)
    state := fun v => if v ∈ s.path.drop (s.path.idxOf n1 + 1) then .new else s.state v
    n0 := n1 }

theorem wErase_eq {s : WSt n} {n1 : Fin n} (h : n1 ∈ s.path) : wErase s n1 = .ok (wErased s n1) := by
  rw [wErase, if_pos h]; rfl

/-- Erasing: case of a marked node. -/
theorem WPath.erase {h : Fin n} {q : List (Fin n)} (w : WPath adj root s h q) {n1 : Fin n} (hn1 : n1 ∈ q) :
    ∃ s', wErase s n1 = .ok s' ∧ ∃ q', WPath adj root s' h q' ∧ treeSet s' = treeSet s ∧ s'.nb = s.nb ∧
      s'.branches = s.branches ∧ s'.n0 = n1 := by
  have hmem : n1 ∈ s.path := by
    rcases w.shape with ⟨-, h2, -⟩ | ⟨-, h2, -⟩ <;> simp [h2, hn1]
  have hne : h ≠ n1 := fun e => (List.nodup_cons.1 w.nodup).1 (e ▸ hn1)
  obtain ⟨l1, l2, h1, h2, h3⟩ := take_idxOf_succ hn1
  have hdrop : s.path.drop (s.path.idxOf n1 + 1) = l2 := by
    rcases w.shape with ⟨-, e, -⟩ | ⟨-, e, -⟩
    · rw [e, h3]
    · rw [e, List.idxOf_cons_ne _ (by simpa using hne), List.drop_succ_cons, h3]
  have hnd := w.nodup
  rw [h1] at hnd
  have hl2 : ∀ v ∈ l2, v ∉ h :: (l1 ++ [n1]) := by
    intro v hv hv'
    rw [show h :: (l1 ++ n1 :: l2) = (h :: (l1 ++ [n1])) ++ l2 by simp, List.nodup_append'] at hnd
    exact hnd.2.2 hv' hv
  refine ⟨wErased s n1, wErase_eq hmem, l1 ++ [n1], ⟨?_, ?_, ?_, ?_, ?_⟩, ?_, rfl, rfl, rfl⟩
  · have hc := w.chain
    rw [h1, show h :: (l1 ++ n1 :: l2) = (h :: (l1 ++ [n1])) ++ l2 by simp] at hc
    exact (List.isChain_append.1 hc).1
  · rw [show h :: (l1 ++ n1 :: l2) = (h :: (l1 ++ [n1])) ++ l2 by simp] at hnd
    exact (List.nodup_append'.1 hnd).1
  · simp [wErased]
  · intro v
    simp only [wErased, hdrop]
    by_cases hv : v ∈ l2
    · rw [if_pos hv]
      constructor
      · intro h; cases h
      · intro h; exact absurd (List.mem_cons_of_mem _ h) (hl2 v hv)
    · rw [if_neg hv, w.marked, h1]
      simp [hv]
  · rcases w.shape with ⟨a, e, b⟩ | ⟨a, e, b⟩
    · left; exact ⟨a, by simp only [wErased, e, h2], b⟩
    · right
      refine ⟨a, ?_, ?_⟩
      · simp only [wErased, e]
        rw [List.idxOf_cons_ne _ (by simpa using hne), List.take_succ_cons, h2]
      · simp only [wErased, hdrop]
        rw [if_neg, b]
        intro hv; exact hl2 _ hv (by simp)
  · ext v
    rw [mem_treeSet, mem_treeSet]
    simp only [wErased, hdrop]
    split
    · rename_i hv
      have : s.state v = .path := by rw [w.marked, h1]; simp [hv]
      rw [this]; simp
    · rfl

/-- A pass that does not hit the tree. -/
theorem WPath.pass {h : Fin n} {q : List (Fin n)} (w : WPath adj root s h q) (hroot : s.state root = .tree)
    {n1 : Fin n} (hn1 : n1 ∈ adj s.n0)
    (hnt : s.state n1 ≠ .tree) : ∃ s', wAfter (wVisit s n1) n1 = Dist.ret (.ok s') ∧
      (∃ h' q', WPath adj root s' h' q') ∧ treeSet s' = treeSet s ∧ s'.nb = s.nb ∧
      s'.branches = s.branches ∧ s'.n0 = n1 := by
  by_cases hp : s.state n1 = .path
  · have hv : wVisit s n1 = s := by rw [wVisit, if_neg (by rw [hp]; decide)]
    obtain ⟨s', e1, q', e2, e3⟩ := w.erase ((w.marked n1).1 hp)
    exact ⟨s', by rw [hv, wAfter, if_pos hp, e1], ⟨_, _, e2⟩, e3⟩
  have hnew : s.state n1 = .new := by
    cases hs : s.state n1 <;> simp_all
  have hq : n1 ∉ q := by rw [← w.marked]; exact hp
  -- state after the visit
  set s1 : WSt n := { s with path := s.path ++ [n1], state := Function.update s.state n1 .path, n0 := n1 } with hs1
  have hv : wVisit s n1 = s1 := by rw [wVisit, if_pos hnew]
  have hst : s1.state n1 = .path := by simp [hs1]
  have hT1 : treeSet s1 = treeSet s := by
    ext v
    rw [mem_treeSet, mem_treeSet]
    by_cases hvn : v = n1
    · subst hvn; simp [hs1, hnew]
    · simp [hs1, hvn]
  by_cases hh : n1 = h
  · -- back to the (unmarked) start
    subst hh
    rcases w.shape with ⟨a, e, b⟩ | ⟨a, e, b⟩
    · rw [b, hroot] at hnew; cases hnew
    · have hp1 : s1.path = n1 :: (q ++ [n1]) := by simp [hs1, e]
      have hidx : s1.path.idxOf n1 = 0 := by rw [hp1]; simp
      refine ⟨wErased s1 n1, by rw [hv, wAfter, if_pos hst, wErase_eq (by simp [hs1])],
        ⟨n1, [], ⟨by simp, by simp, by simp [wErased], ?_, ?_⟩⟩, ?_, rfl, rfl, rfl⟩
      · intro v
        simp only [wErased, hp1, List.idxOf_cons_self, zero_add, List.drop_succ_cons, List.drop_zero, List.not_mem_nil, iff_false]
        split
        · simp
        · rename_i hv'
          have hv1 : v ≠ n1 := fun e => hv' (by simp [e])
          have hv2 : v ∉ q := fun e => hv' (by simp [e])
          simp only [hs1, Function.update_of_ne hv1]
          rw [w.marked]; exact hv2
      · right
        refine ⟨a, by simp [wErased, hp1], ?_⟩
        simp [wErased, hp1]
      · ext v
        rw [mem_treeSet, mem_treeSet]
        simp only [wErased, hp1, List.idxOf_cons_self, zero_add, List.drop_succ_cons, List.drop_zero]
        split
        · rename_i hv'
          rcases List.mem_append.1 hv' with h1 | h1
          · rw [(w.marked v).2 h1]; simp
          · rw [List.mem_singleton.1 h1, hnew]
        · rename_i hv'
          have hv1 : v ≠ n1 := fun e => hv' (by simp [e])
          simp only [hs1, Function.update_of_ne hv1]
  · -- a new node
    have hpath : n1 ∉ s.path := by
      rcases w.shape with ⟨-, e, -⟩ | ⟨-, e, -⟩ <;> simp [e, hq, hh]
    have hidx : s1.path.idxOf n1 = s.path.length := by
      simp only [hs1]; exact idxOf_append_self hpath
    have w1 : WPath adj root s1 h (q ++ [n1]) := by
      refine ⟨?_, ?_, by simp [hs1], ?_, ?_⟩
      · rw [← List.cons_append, List.isChain_append]
        refine ⟨w.chain, by simp, ?_⟩
        intro x hx y hy
        rw [List.getLast?_eq_some_getLast (by simp)] at hx
        have hx' : s.n0 = x := by rw [← w.last]; simpa using hx
        have hy' : y = n1 := by simpa using hy.symm
        rw [hy', ← hx']; exact hn1
      · rw [← List.cons_append, List.nodup_append']
        refine ⟨w.nodup, by simp, ?_⟩
        intro x hx hx'
        rw [List.mem_singleton.1 hx'] at hx
        rcases List.mem_cons.1 hx with h1 | h1
        · exact hh h1
        · exact hq h1
      · intro v
        by_cases hvn : v = n1
        · subst hvn; simp [hs1]
        · simp only [hs1, Function.update_of_ne hvn, List.mem_append, List.mem_singleton, hvn, or_false]
          exact w.marked v
      · rcases w.shape with ⟨a, e, b⟩ | ⟨a, e, b⟩
        · left; exact ⟨a, by simp [hs1, e], b⟩
        · right; exact ⟨a, by simp [hs1, e], by simp [hs1, Function.update_of_ne (Ne.symm hh), b]⟩
    obtain ⟨s', e1, q', e2, e3, e4, e5, e6⟩ := w1.erase (n1 := n1) (by simp)
    exact ⟨s', by rw [hv, wAfter, if_pos hst, e1], ⟨_, _, e2⟩, e3.trans hT1, e4, e5, e6⟩

/-- A pass that hits the tree. -/
theorem WPath.hit (hadj : NbrsOf es adj) (hloop : ∀ v, v ∉ adj v) {h : Fin n} {q : List (Fin n)}
    (c : WCore es root s) (w : WPath adj root s h q) {n1 : Fin n} (hn1 : n1 ∈ adj s.n0)
    (ht : s.state n1 = .tree) :
    wAfter (wVisit s n1) n1 = wRestart (wAttach s n1) ∧ WCore es root (wAttach s n1) ∧ s.nb < (wAttach s n1).nb ∧
    ∀ v, (wAttach s n1).state v ≠ .path := by
  have hv : wVisit s n1 = s := by rw [wVisit, if_neg (by rw [ht]; decide)]
  have hq : ∀ v ∈ q, s.state v = .path := fun v hv => (w.marked v).2 hv
  have hpnt : ∀ v ∈ s.path, s.state v ≠ .tree := by
    intro v hv
    rcases w.shape with ⟨-, e, -⟩ | ⟨-, e, b⟩
    · rw [e] at hv; rw [hq v hv]; decide
    · rw [e] at hv
      rcases List.mem_cons.1 hv with rfl | hv
      · rw [b]; decide
      · rw [hq v hv]; decide
  have hpnd : s.path.Nodup := by
    rcases w.shape with ⟨-, e, -⟩ | ⟨-, e, -⟩
    · rw [e]; exact (List.nodup_cons.1 w.nodup).2
    · rw [e]; exact w.nodup
  have hT : treeSet (wAttach s n1) = treeSet s ∪ s.path.toFinset := by
    ext v
    rw [Finset.mem_union, mem_treeSet, mem_treeSet]
    simp only [wAttach, List.mem_toFinset]
    split <;> simp_all
  have hpne : s.path ≠ [] := by
    rcases w.shape with ⟨a, e, b⟩ | ⟨-, e, -⟩
    · intro h0
      rw [e] at h0
      have hl := w.last
      subst h0
      simp only [List.getLast_singleton] at hl
      have : n1 = root := by
        have hc := c.nb
        rw [a] at hc
        obtain ⟨x, hx⟩ := Finset.card_eq_one.1 hc.symm
        have h1 : n1 ∈ treeSet s := mem_treeSet.2 ht
        have h2 := c.grown.root_mem
        rw [hx, Finset.mem_singleton] at h1 h2
        rw [h1, h2]
      rw [this, ← b, ← hl] at hn1
      exact hloop _ hn1
    · rw [e]; simp
  have hbranch : ∃ x : List (Fin n), (if s.nb = 1 then n1 :: s.path else s.path ++ [n1]) = x ∧
      x.Perm (n1 :: s.path) ∧ x.IsChain fun u v => v ∈ adj u := by
    refine ⟨_, rfl, ?_, ?_⟩
    · split
      · exact List.Perm.refl _
      · exact List.perm_append_comm
    · rcases w.shape with ⟨a, e, b⟩ | ⟨a, e, -⟩
      · have : n1 = root := by
          have hc := c.nb
          rw [a] at hc
          obtain ⟨x, hx⟩ := Finset.card_eq_one.1 hc.symm
          have h1 : n1 ∈ treeSet s := mem_treeSet.2 ht
          have h2 := c.grown.root_mem
          rw [hx, Finset.mem_singleton] at h1 h2
          rw [h1, h2]
        rw [if_pos a, e, this, ← b]; exact w.chain
      · rw [if_neg (by omega), e, List.isChain_append]
        refine ⟨w.chain, by simp, ?_⟩
        intro x hx y hy
        rw [List.getLast?_eq_some_getLast (by simp)] at hx
        have hx' : s.n0 = x := by rw [← w.last]; simpa using hx
        have hy' : y = n1 := by simpa using hy.symm
        rw [hy', ← hx']; exact hn1
  obtain ⟨x, hx1, hx2, hx3⟩ := hbranch
  refine ⟨?_, ⟨?_, ?_⟩, ?_, ?_⟩
  · rw [hv, wAfter, if_neg (by rw [ht]; decide), if_pos ht]
  · rw [hT]
    have := c.grown.add hx2 (mem_treeSet.2 ht) hpnd (fun v hv => by rw [mem_treeSet]; exact hpnt v hv)
      (hx3.imp fun u v h => (hadj u v).1 h)
    have e : (wAttach s n1).branches.flatMap pathEdges = s.branches.flatMap pathEdges ++ pathEdges x := by
      simp only [wAttach, hx1, List.flatMap_append, List.flatMap_singleton]
    rw [e]; exact this
  · rw [hT, Finset.card_union_of_disjoint, ← c.nb, List.toFinset_card_of_nodup hpnd]
    · rfl
    · rw [Finset.disjoint_left]
      intro v hv hv'
      exact hpnt v (by simpa using hv') (mem_treeSet.1 hv)
  · change s.nb < s.nb + s.path.length
    have := List.length_pos_of_ne_nil hpne
    omega
  · intro v
    simp only [wAttach]
    split
    · decide
    · rename_i hv'
      rw [Ne, w.marked]
      intro hvq
      rcases w.shape with ⟨-, e, -⟩ | ⟨-, e, -⟩
      · exact hv' (by rw [e]; exact hvq)
      · exact hv' (by rw [e]; exact List.mem_cons_of_mem _ hvq)

/-- Invariant of the loop. -/
def WInv (es : List (Fin n × Fin n)) (adj : Fin n → List (Fin n)) (root : Fin n) (s : WSt n) : Prop :=
  WCore es root s ∧ (s.nb < n → ∃ h q, WPath adj root s h q)

theorem WInv.init (es : List (Fin n × Fin n)) (adj : Fin n → List (Fin n)) (root : Fin n) :
    WInv es adj root (wInit root) := by
  have hT : treeSet (wInit root) = {root} := by
    ext v
    rw [mem_treeSet, Finset.mem_singleton]
    by_cases h : v = root <;> simp [wInit, h]
  refine ⟨⟨?_, ?_⟩, fun _ => ⟨root, [], ⟨by simp, by simp, by simp [wInit], ?_, Or.inl ⟨rfl, rfl, rfl⟩⟩⟩⟩
  · rw [hT]; exact Grown.init es root
  · rw [hT]; rfl
  · intro v
    by_cases h : v = root <;> simp [wInit, h]

theorem card_treeSet_of_new {s : WSt n} (h : ∀ v, s.state v ≠ .path) (h0 : wNew s = []) :
    (treeSet s).card = n := by
  have : treeSet s = Finset.univ := by
    ext v
    rw [mem_treeSet]
    simp only [Finset.mem_univ, iff_true]
    have h1 : v ∉ wNew s := by rw [h0]; simp
    have h2 := h v
    simp only [wNew, List.mem_filter, List.mem_finRange, true_and, decide_eq_true_eq] at h1
    cases hs : s.state v <;> simp_all
  rw [this]; simp

/-- One pass keeps the invariant and, on a graph without isolated node, never raises. -/
theorem wStep_possible (hadj : NbrsOf es adj) (hloop : ∀ v, v ∉ adj v) (hne : adj s.n0 ≠ [])
    (hs : WInv es adj root s) (hlt : s.nb < n) {o : Outcome (WSt n)} (ho : (wStep adj s).Possible o) :
    ∃ s', o = .ok s' ∧ WInv es adj root s' := by
  obtain ⟨h, q, w⟩ := hs.2 hlt
  rcases possible_andThen.1 ho with ⟨n1, h1, h2⟩ | ⟨e, h1, h2⟩
  · rw [possible_choiceO_ok] at h1
    by_cases ht : s.state n1 = .tree
    · obtain ⟨e1, e2, -, e3⟩ := w.hit hadj hloop hs.1 h1 ht
      rw [e1, wRestart] at h2
      split at h2
      · rename_i h0
        rw [Dist.Possible.ret_iff] at h2
        refine ⟨_, h2, e2, fun hlt' => ?_⟩
        rw [e2.nb, card_treeSet_of_new e3 h0] at hlt'
        omega
      · rename_i h0
        rcases possible_andThen.1 h2 with ⟨v, h3, h4⟩ | ⟨e, h3, h4⟩
        · rw [possible_choiceO_ok] at h3
          rw [Dist.Possible.ret_iff] at h4
          refine ⟨_, h4, ⟨e2.grown, e2.nb⟩, fun _ => ⟨v, [], ?_⟩⟩
          have hnew : (wAttach s n1).state v = .new := by simpa [wNew] using h3
          refine ⟨by simp, by simp, by simp, ?_, Or.inr ⟨?_, rfl, hnew⟩⟩
          · intro u; simp only [List.not_mem_nil, iff_false]; exact e3 u
          · have h5 := (w.hit hadj hloop hs.1 h1 ht).2.2.1
            have h6 := hs.1.grown.len
            rw [← hs.1.nb] at h6
            change 1 < (wAttach s n1).nb
            omega
        · exact absurd (possible_choiceO_raise.1 h3).1 h0
    · obtain ⟨s', e1, ⟨h', q', e2⟩, e3, e4, e5, -⟩ := w.pass (mem_treeSet.1 hs.1.grown.root_mem) h1 ht
      rw [e1, Dist.Possible.ret_iff] at h2
      refine ⟨s', h2, ⟨?_, ?_⟩, fun _ => ⟨h', q', e2⟩⟩
      · rw [e3, e5]; exact hs.1.grown
      · rw [e3, e4]; exact hs.1.nb
  · exact absurd (possible_choiceO_raise.1 h1).1 hne

theorem wLoop_possible (hadj : NbrsOf es adj) (hloop : ∀ v, v ∉ adj v) (hne : 2 ≤ n → ∀ v, adj v ≠ []) :
    ∀ fuel (s : WSt n), WInv es adj root s → ∀ o, (wLoop adj fuel s).Possible o →
      o = .ok none ∨ ∃ s', o = .ok (some s') ∧ WCore es root s' ∧ n ≤ s'.nb := by
  intro fuel
  induction fuel with
  | zero =>
    intro s hs o ho
    rw [wLoop] at ho
    split at ho
    · rw [Dist.Possible.ret_iff] at ho; exact Or.inl ho
    · rw [Dist.Possible.ret_iff] at ho; exact Or.inr ⟨s, ho, hs.1, by omega⟩
  | succ fuel ih =>
    intro s hs o ho
    rw [wLoop] at ho
    split at ho
    · rename_i hlt
      have hn : 2 ≤ n := by
        have := hs.1.grown.len; rw [← hs.1.nb] at this; omega
      rcases possible_andThen.1 ho with ⟨s1, h1, h2⟩ | ⟨e, h1, h2⟩
      · obtain ⟨s', e1, e2⟩ := wStep_possible hadj hloop (hne hn _) hs hlt h1
        cases e1
        exact ih _ e2 o h2
      · obtain ⟨s', e1, -⟩ := wStep_possible hadj hloop (hne hn _) hs hlt h1
        cases e1
    · rw [Dist.Possible.ret_iff] at ho; exact Or.inr ⟨s, ho, hs.1, by omega⟩

end
end Verif.Model
