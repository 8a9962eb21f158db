import Verif.Props.WilsonLaw
import Verif.Lemmas.ABLaw

/-! C85: the Aldous-Broder walk returns each spanning tree with the same probability. -/

set_option linter.unusedSectionVars false

namespace Verif.Props
open Verif Verif.Model Verif.Spec Dist Filter Topology
variable {n : ℕ}

/-- C85: on a connected graph (self loops allowed), for every root (or none) and every spanning tree `H` of the graph, the
probability that `ust_sampler_aldous_broder` has returned `H` within `fuel` steps of the walk tends to one over the number of
spanning trees. -/
theorem C85_aldous_broder_uniform (es : List (Fin n × Fin n)) (adj : Fin n → List (Fin n)) (hadj : NbrsOf es adj)
    (hnd : ∀ v, (adj v).Nodup) (hG : (graphOf es).Connected) (root : Option (Fin n))
    (H : SimpleGraph (Fin n)) (hH : H ≤ graphOf es) (hT : H.IsTree) :
    Tendsto (fun fuel => (aldousBroder adj root fuel).prob (fun o => ∃ t, o = .ok (some t) ∧ graphOf t = H)) atTop
      (𝓝 (1 / (numSpanningTrees (graphOf es) : ℝ))) := by
  classical
  have hn : 0 < n := by have := hG.nonempty; exact Fin.pos_iff_nonempty.2 this
  simp only [prob_isT, aldousBroder, E_andThen]
  refine startNode_tendsto hn fun v => ?_
  simp only [E_map]
  have hfin : ∀ fuel, ((abLoop adj fuel (abInit v)).E fun a => lift (isT H) (Outcome.map (Option.map ABSt.edges) a))
      = (abLoop adj fuel (abInit v)).E (lift (finS (fun t => if graphOf t = H then 1 else 0) 0)) := by
    intro fuel
    refine Dist.E_congr fun o w _ => ?_
    rcases o with (_ | s) | e <;> simp [lift, isT, finS, Outcome.map]
  simp only [hfin]
  by_cases h2 : 2 ≤ n
  · have hc := squeeze_zero (fun fuel => abs_nonneg _)
      (fun fuel => abLoop_close hadj hnd (fun v => adj_ne_nil hadj hG h2 v) hH hT v fuel) (abLoop_unf_tendsto hadj hG (ABInv.init es v))
    replace hc := (tendsto_zero_iff_abs_tendsto_zero _).2 hc
    have h3 := hc.add_const (1 / (Nat.card {H : SimpleGraph (Fin n) // H ≤ graphOf es ∧ H.IsTree} : ℝ))
    simp only [sub_add_cancel, zero_add] at h3
    exact h3
  · -- a single node
    have h1 : n = 1 := by omega
    subst h1
    have hone : numSpanningTrees (graphOf es) = 1 := by
      unfold numSpanningTrees
      have : Unique {H : SimpleGraph (Fin 1) // H ≤ graphOf es ∧ H.IsTree} :=
        { default := ⟨H, hH, hT⟩
          uniq := fun K => Subtype.ext (Subsingleton.elim _ _) }
      exact Nat.card_unique
    rw [hone]
    have : ∀ fuel, (abLoop adj fuel (abInit v)).E (lift (finS (fun t => if graphOf t = H then 1 else 0) 0)) = 1 := by
      intro fuel
      have hs : graphOf ([] : List (Fin 1 × Fin 1)) = H := Subsingleton.elim _ _
      cases fuel <;> rw [abLoop, if_neg (by simp [abInit]), E_ret] <;> simp [lift, finS, abInit, hs]
    refine (tendsto_const_nhds (x := (1 : ℝ) / ((1 : ℕ) : ℝ))).congr fun fuel => ?_
    trans (1 : ℝ)
    · norm_num
    · convert (this fuel).symm

/-- C85: the same for `UST.sample(mode='Aldous-Broder')`. -/
theorem C85_sample_uniform (G : NxGraph n) (hadj : NbrsOf G.edges G.adj) (hnd : ∀ v, (G.adj v).Nodup)
    (hG : (graphOf G.edges).Connected) (qr : QR G.edges.length) (o : UstObj n)
    (root : Option (Fin n)) (H : SimpleGraph (Fin n)) (hH : H ≤ graphOf G.edges) (hT : H.IsTree) :
    Tendsto (fun fuel => (ustSample G qr fuel o "Aldous-Broder" root).prob
        (fun r => r.2 = .ok (some ()) ∧ ∃ t, r.1.samples = o.samples ++ [t] ∧ graphOf t = H)) atTop
      (𝓝 (1 / (numSpanningTrees (graphOf G.edges) : ℝ))) := by
  classical
  have h := C85_aldous_broder_uniform G.edges G.adj hadj hnd hG none H hH hT
  refine h.congr fun fuel => ?_
  rw [ustSample, if_neg (by decide), if_pos rfl, ustRecord, Dist.prob_eq, Dist.prob_eq, Dist.E_map]
  refine Dist.E_congr fun x w _ => ?_
  rcases x with (_ | t) | e <;> simp

/-- C85: the hypotheses hold for a graph with a cycle and one of its trees. -/
example : Tendsto (fun fuel => (aldousBroder pawAdj (some 2) fuel).prob (fun o => ∃ t, o = .ok (some t) ∧ graphOf t = graphOf pawTree)) atTop
    (𝓝 (1 / (numSpanningTrees (graphOf paw) : ℝ))) :=
  C85_aldous_broder_uniform paw pawAdj paw_nbrs (by decide) paw_connected _ _ pawTree_le pawTree_tree

end Verif.Props
