import Verif.Props.UST
import Verif.Spec.TreeCount
import Verif.Lemmas.WilsonLim

/-! C84: Wilson's algorithm as coded (whose first branch is drawn by walking from the root until it comes back to it)
returns each spanning tree with the same probability. -/

set_option linter.unusedSectionVars false

namespace Verif.Props
open Verif Verif.Model Verif.Spec Dist Filter Topology
variable {n : ℕ}

/-- the random start does not matter when the limit is the same for all the starts -/
theorem startNode_tendsto {root : Option (Fin n)} (hn : 0 < n) {F : ℕ → Fin n → ℝ} {c : ℝ}
    (h : ∀ v, Tendsto (fun k => F k v) atTop (𝓝 c)) : Tendsto (fun k => (startNode root).E (lift (F k))) atTop (𝓝 c) := by
  have hne : List.finRange n ≠ [] := by rw [Ne, List.finRange_eq_nil_iff]; omega
  have hch : Tendsto (fun k => (choiceO (List.finRange n)).E (lift (F k))) atTop (𝓝 c) := by
    simp only [E_choiceO hne, ← List.ofFn_eq_map, List.sum_ofFn, List.length_finRange]
    have h1 := (tendsto_finsetSum Finset.univ fun v _ => h v).const_mul (1 / (n : ℝ))
    have hn' : (n : ℝ) ≠ 0 := by exact_mod_cast hn.ne'
    simp only [Finset.sum_const, Finset.card_univ, Fintype.card_fin, nsmul_eq_mul] at h1
    rwa [← mul_assoc, one_div, inv_mul_cancel₀ hn', one_mul, ← one_div] at h1
  unfold startNode
  cases root with
  | none => exact hch
  | some r =>
    simp only
    split
    · simp only [E_ret]; exact h r
    · exact hch

/-- probability of a tree as an expectation -/
theorem prob_isT {d : Dist ℝ (Outcome (Option (List (Fin n × Fin n))))} (H : SimpleGraph (Fin n)) :
    d.prob (fun o => ∃ t, o = .ok (some t) ∧ graphOf t = H) = d.E (lift (isT H)) := by
  classical
  rw [Dist.prob_eq]
  refine Dist.E_congr fun o w _ => ?_
  rcases o with (_ | t) | e <;> simp [lift, isT]

/-- C84: on a connected graph without self loops, for every root (or none) and every spanning tree `H` of the graph, the
probability that `ust_sampler_wilson` has returned `H` within `fuel` steps of the walk tends to one over the number of
spanning trees. -/
theorem C84_wilson_uniform (es : List (Fin n × Fin n)) (adj : Fin n → List (Fin n)) (hadj : NbrsOf es adj)
    (hnd : ∀ v, (adj v).Nodup) (hloop : ∀ v, (v, v) ∉ es) (hG : (graphOf es).Connected) (root : Option (Fin n))
    (H : SimpleGraph (Fin n)) (hH : H ≤ graphOf es) (hT : H.IsTree) :
    Tendsto (fun fuel => (wilson adj root fuel).prob (fun o => ∃ t, o = .ok (some t) ∧ graphOf t = H)) atTop
      (𝓝 (1 / (numSpanningTrees (graphOf es) : ℝ))) := by
  have hl : ∀ v, v ∉ adj v := fun v hv => by
    rcases (hadj v v).1 hv with h | h <;> exact hloop v h
  have hn : 0 < n := by have := hG.nonempty; exact Fin.pos_iff_nonempty.2 this
  simp only [prob_isT, wilson, E_andThen]
  refine startNode_tendsto hn fun v => ?_
  obtain ⟨par, dep, hp⟩ := exists_parOf hT v
  have := wLoop_tendsto hadj hnd hl hG hp hH
  rw [lapDet_eq_card hadj hnd hl hG] at this
  simp only [finG_isT hadj hnd hl hG hT] at this
  exact this

/-- C84: the same for `UST.sample(mode='Wilson')`: each spanning tree is the sample appended with the same probability. -/
theorem C84_sample_uniform (G : NxGraph n) (hadj : NbrsOf G.edges G.adj) (hnd : ∀ v, (G.adj v).Nodup)
    (hloop : ∀ v, (v, v) ∉ G.edges) (hG : (graphOf G.edges).Connected) (qr : QR G.edges.length) (o : UstObj n)
    (root : Option (Fin n)) (H : SimpleGraph (Fin n)) (hH : H ≤ graphOf G.edges) (hT : H.IsTree) :
    Tendsto (fun fuel => (ustSample G qr fuel o "Wilson" root).prob
        (fun r => r.2 = .ok (some ()) ∧ ∃ t, r.1.samples = o.samples ++ [t] ∧ graphOf t = H)) atTop
      (𝓝 (1 / (numSpanningTrees (graphOf G.edges) : ℝ))) := by
  classical
  have h := C84_wilson_uniform G.edges G.adj hadj hnd hloop hG none H hH hT
  refine h.congr fun fuel => ?_
  rw [ustSample, if_pos rfl, ustRecord, Dist.prob_eq, Dist.prob_eq, Dist.E_map]
  refine Dist.E_congr fun x w _ => ?_
  rcases x with (_ | t) | e <;> simp

/-- a spanning tree of the paw -/
def pawTree : List (Fin 4 × Fin 4) := [(0, 1), (1, 2), (2, 3)]

theorem pawTree_tree : (graphOf pawTree).IsTree := by
  have h01 : (graphOf pawTree).Adj 0 1 := graphOf_adj.2 (by decide)
  have h12 : (graphOf pawTree).Adj 1 2 := graphOf_adj.2 (by decide)
  have h23 : (graphOf pawTree).Adj 2 3 := graphOf_adj.2 (by decide)
  refine isTree_of_connected ?_ rfl
  rw [SimpleGraph.connected_iff]
  refine ⟨fun a b => ?_, ⟨0⟩⟩
  have hr : ∀ a, (graphOf pawTree).Reachable 0 a := by
    intro a
    fin_cases a
    · exact SimpleGraph.Reachable.refl _
    · exact h01.reachable
    · exact h01.reachable.trans h12.reachable
    · exact (h01.reachable.trans h12.reachable).trans h23.reachable
  exact (hr a).symm.trans (hr b)

theorem pawTree_le : graphOf pawTree ≤ graphOf paw := graphOf_mono (by decide)

/-- C84: the hypotheses hold for a graph with a cycle and one of its trees. -/
example : Tendsto (fun fuel => (wilson pawAdj (some 2) fuel).prob (fun o => ∃ t, o = .ok (some t) ∧ graphOf t = graphOf pawTree)) atTop
    (𝓝 (1 / (numSpanningTrees (graphOf paw) : ℝ))) :=
  C84_wilson_uniform paw pawAdj paw_nbrs (by decide) (by decide) paw_connected _ _ pawTree_le pawTree_tree

end Verif.Props
