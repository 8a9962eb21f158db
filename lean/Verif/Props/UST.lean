import Verif.Lemmas.USTTerm
import Verif.Lemmas.USTLaw
import Verif.Props.Projection
import Verif.Props.Spectral

/-!
# Spanning trees (C11, C12, C13, C63)
-/

set_option linter.unusedSectionVars false

namespace Verif.Props
open Verif Verif.Spec Verif.Model

variable {n : ℕ}

theorem possible_startNode {root : Option (Fin n)} {o : Outcome (Fin n)} (hn : 0 < n)
    (ho : (startNode root).Possible o) : ∃ v, o = .ok v := by
  have hc : ∀ o, (choiceO (List.finRange n)).Possible o → ∃ v, o = .ok v := by
    intro o ho
    cases o with
    | ok v => exact ⟨v, rfl⟩
    | raise e =>
      have := (possible_choiceO_raise.1 ho).1
      rw [List.finRange_eq_nil_iff] at this; omega
  unfold startNode at ho
  split at ho
  · split at ho
    · rw [Dist.Possible.ret_iff] at ho; exact ⟨_, ho⟩
    · exact hc _ ho
  · exact hc _ ho

/-- C11: on a connected graph without self loops, whatever the root and the random choices, Wilson's sampler
never raises, and when it returns the result is a spanning tree of the graph. -/
theorem C11_wilson_spanning_tree (es : List (Fin n × Fin n)) (adj : Fin n → List (Fin n)) (hadj : NbrsOf es adj)
    (hloop : ∀ v, (v, v) ∉ es) (hG : (graphOf es).Connected) (root : Option (Fin n)) (fuel : ℕ)
    (o : Outcome (Option (List (Fin n × Fin n)))) (ho : (wilson adj root fuel).Possible o) :
    o = .ok none ∨ ∃ t, o = .ok (some t) ∧ IsSpanningTree es t := by
  have hl : ∀ v, v ∉ adj v := fun v hv => by
    rcases (hadj v v).1 hv with h | h <;> exact hloop v h
  have hn : 0 < n := by have := hG.nonempty; exact Fin.pos_iff_nonempty.2 this
  rcases possible_andThen.1 ho with ⟨v, h1, h2⟩ | ⟨e, h1, h2⟩
  · rw [Dist.Possible.map_iff] at h2
    obtain ⟨o', h3, rfl⟩ := h2
    rcases wLoop_possible hadj hl (fun h2 v => adj_ne_nil hadj hG h2 v) fuel _ (WInv.init es adj v) o' h3 with
      rfl | ⟨s', rfl, h4, h5⟩
    · exact Or.inl rfl
    · refine Or.inr ⟨_, rfl, h4.grown.spanning ?_⟩
      have : (treeSet s').card ≤ n := (Finset.card_le_univ _).trans (by simp)
      rw [h4.nb] at h5; omega
  · obtain ⟨v, hv⟩ := possible_startNode hn h1
    cases hv

/-- C11: with at least two nodes the networkx graph returned contains all the nodes. -/
theorem C11_all_nodes {es t : List (Fin n × Fin n)} (hn : 2 ≤ n) (h : IsSpanningTree es t) :
    nodesOf t = Set.univ := by
  ext v
  simp only [Set.mem_univ, iff_true]
  have : Nontrivial (Fin n) := Fin.nontrivial_iff_two_le.2 hn
  obtain ⟨u, hu⟩ := h.2.2.connected.preconnected.exists_adj_of_nontrivial v
  rcases (graphOf_adj.1 hu).2 with h1 | h1
  · exact ⟨_, h1, Or.inl rfl⟩
  · exact ⟨_, h1, Or.inr rfl⟩

theorem E_prob_unf {α : Type*} (d : Dist ℝ (Outcome (Option α))) : d.prob (· = .ok none) = d.E unf := by
  rw [Dist.prob]
  congr 1
  funext a
  unfold unf
  congr

theorem E_start {α β : Type*} {root : Option (Fin n)} (hn : 0 < n) {k : Fin n → Dist ℝ (Outcome (Option α))}
    {g : α → β} {c : ℝ} (h : ∀ v, (k v).E unf ≤ c) :
    ((startNode root).andThen fun v => (k v).map (Outcome.map (Option.map g))).E unf ≤ c := by
  have hmap : ∀ d : Dist ℝ (Outcome (Option α)), (d.map (Outcome.map (Option.map g))).E unf = d.E unf := by
    intro d
    rw [Dist.E_map]
    congr 1
    funext o
    cases o with
    | ok a => cases a <;> simp [unf, Outcome.map]
    | raise e => simp [unf, Outcome.map]
  have hch : ((choiceO (List.finRange n)).andThen fun v => (k v).map (Outcome.map (Option.map g))).E unf ≤ c := by
    have hne : List.finRange n ≠ [] := by rw [Ne, List.finRange_eq_nil_iff]; omega
    rw [choiceO, if_neg (by rw [List.isEmpty_iff]; exact hne), Dist.andThen, Dist.E_bind, Dist.E_map, Dist.E_choice]
    simp only [hmap]
    have h1 : ((List.finRange n).map fun v => (k v).E unf).sum ≤ ((List.finRange n).map fun _ => c).sum :=
      List.sum_le_sum fun v _ => h v
    have hpos : (0 : ℝ) < n := by exact_mod_cast hn
    simp only [List.map_const', List.sum_replicate, List.length_finRange, nsmul_eq_mul] at h1 ⊢
    rw [one_div, inv_mul_le_iff₀ hpos]
    exact h1
  unfold startNode
  cases root with
  | none => exact hch
  | some r =>
    simp only
    split
    · rw [Dist.andThen, Dist.E_bind, Dist.E_ret]
      simp only [hmap]
      exact h r
    · exact hch

/-- C11: it returns with probability one: the probability that the loop is still running decreases
geometrically with the number of steps. -/
theorem C11_wilson_terminates (es : List (Fin n × Fin n)) (adj : Fin n → List (Fin n)) (hadj : NbrsOf es adj)
    (hloop : ∀ v, (v, v) ∉ es) (hG : (graphOf es).Connected) :
    ∃ (K : ℕ) (ρ : ℝ), ρ < 1 ∧ 0 ≤ ρ ∧ ∀ (root : Option (Fin n)) (m : ℕ),
      (wilson adj root (m * K)).prob (· = .ok none) ≤ ρ ^ m := by
  have hl : ∀ v, v ∉ adj v := fun v hv => by
    rcases (hadj v v).1 hv with h | h <;> exact hloop v h
  have hn : 0 < n := by have := hG.nonempty; exact Fin.pos_iff_nonempty.2 this
  refine ⟨(n + 1) * (maxDist es + 3) + 1, 1 - epsOf adj ^ ((n + 1) * (maxDist es + 3) + 1), ?_, ?_,
    fun root m => ?_⟩
  rotate_left 2
  · rw [E_prob_unf]
    exact E_start hn fun v => wLoop_decay hadj hl hG m _ (WInv.init es adj v)
  · linarith [pow_pos (epsOf_pos adj) ((n + 1) * (maxDist es + 3) + 1)]
  · linarith [pow_le_one₀ (n := (n + 1) * (maxDist es + 3) + 1) (epsOf_pos adj).le (epsOf_le_one adj)]

/-- C11 (finding): for the graph with one node (connected) the graph returned is empty: it does not contain the
node. -/
theorem C11_single_node_refuted (adj : Fin 1 → List (Fin 1)) (fuel : ℕ) :
    (wilson adj none fuel).Possible (.ok (some [])) ∧ nodesOf ([] : List (Fin 1 × Fin 1)) ≠ Set.univ := by
  constructor
  · refine possible_andThen.2 (Or.inl ⟨0, possible_choiceO_ok.2 (by simp), ?_⟩)
    rw [Dist.Possible.map_iff]
    refine ⟨.ok (some (wInit 0)), ?_, rfl⟩
    cases fuel <;> rw [wLoop, if_neg (by simp [wInit])] <;> exact Dist.Possible.ret_iff.2 rfl
  · intro h
    have : (0 : Fin 1) ∈ nodesOf ([] : List (Fin 1 × Fin 1)) := by rw [h]; trivial
    simp [nodesOf] at this

/-- The path `0 - 1 - 2` with a self loop at `0`. -/
def loopG : List (Fin 3 × Fin 3) := [(0, 1), (1, 2), (0, 0)]
/-- its neighbours -/
def loopAdj : Fin 3 → List (Fin 3) := ![[1, 0], [0, 2], [1]]

theorem loopG_nbrs : NbrsOf loopG loopAdj := by unfold NbrsOf; decide

/-- intermediate states of the run `0, 0 | 2, 1, 0` -/
def lw1 : WSt 3 :=
  { n0 := 2
    state := fun v => if v = 0 then .tree else .new
    nb := 1
    path := [2]
    branches := [[0]] }

/-- C11 (finding): with a self loop (networkx allows it, `is_connected` holds) the sampler can return an edge
that is not in the graph: here the walk `0, 0`, restart at `2`, then `1, 0` gives the "branch" `0, 2, 1` with the
edge `(0, 2)`. -/
theorem C11_self_loop_refuted : NbrsOf loopG loopAdj ∧ (graphOf loopG).Connected ∧
    (wilson loopAdj none 3).Possible (.ok (some [(0, 2), (2, 1)])) ∧ ¬ IsSpanningTree loopG [(0, 2), (2, 1)] := by
  refine ⟨loopG_nbrs, ?_, ?_, ?_⟩
  · have h01 : (graphOf loopG).Adj 0 1 := graphOf_adj.2 (by decide)
    have h12 : (graphOf loopG).Adj 1 2 := graphOf_adj.2 (by decide)
    rw [SimpleGraph.connected_iff]
    refine ⟨fun a b => ?_, ⟨0⟩⟩
    have hr : ∀ a, (graphOf loopG).Reachable 0 a := by
      intro a
      fin_cases a
      · exact SimpleGraph.Reachable.refl _
      · exact h01.reachable
      · exact h01.reachable.trans h12.reachable
    exact (hr a).symm.trans (hr b)
  · refine possible_andThen.2 (Or.inl ⟨0, possible_choiceO_ok.2 (by simp), ?_⟩)
    rw [Dist.Possible.map_iff]
    -- first pass: 0 -> 0, restart at 2
    have p1 : (wStep loopAdj (wInit 0)).Possible (.ok lw1) := by
      refine possible_andThen.2 (Or.inl ⟨0, possible_choiceO_ok.2 (by decide), ?_⟩)
      have hv : wVisit (wInit (0 : Fin 3)) 0 = wInit 0 := by rw [wVisit, if_neg (by decide)]
      rw [hv, wAfter, if_neg (by decide), if_pos (by decide), wRestart, if_neg (by decide)]
      refine possible_andThen.2 (Or.inl ⟨2, possible_choiceO_ok.2 (by decide), ?_⟩)
      rw [Dist.Possible.ret_iff]
      congr 1
      simp only [lw1, wAttach, wInit, WSt.mk.injEq]
      refine ⟨trivial, ?_, by simp, trivial, by simp⟩
      funext v; fin_cases v <;> decide
    refine ⟨.ok (some ⟨1, fun _ => .tree, 3, [2, 1], [[0], [0, 2, 1]]⟩), ?_, by decide⟩
    rw [wLoop, if_pos (by decide)]
    refine possible_andThen.2 (Or.inl ⟨_, p1, ?_⟩)
    rw [wLoop, if_pos (by decide)]
    -- second pass: 2 -> 1
    refine possible_andThen.2 (Or.inl ⟨⟨1, fun v => if v = 0 then .tree else if v = 1 then .path else .new, 1,
      [2, 1], [[0]]⟩, ?_, ?_⟩)
    · refine possible_andThen.2 (Or.inl ⟨1, possible_choiceO_ok.2 (by decide), ?_⟩)
      have hv : wVisit lw1 1 = ⟨1, fun v => if v = 0 then .tree else if v = 1 then .path else .new, 1,
          [2, 1], [[0]]⟩ := by
        rw [wVisit, if_pos (by decide)]
        simp only [lw1, WSt.mk.injEq]
        refine ⟨trivial, ?_, trivial, by simp, trivial⟩
        funext v; fin_cases v <;> decide
      rw [hv, wAfter, if_pos (by decide), wErase, if_pos (by decide), Dist.Possible.ret_iff]
      congr 1
    -- third pass: 1 -> 0
    rw [wLoop, if_pos (by decide)]
    refine possible_andThen.2 (Or.inl ⟨⟨1, fun _ => .tree, 3, [2, 1], [[0], [0, 2, 1]]⟩, ?_, ?_⟩)
    · refine possible_andThen.2 (Or.inl ⟨0, possible_choiceO_ok.2 (by decide), ?_⟩)
      rw [wVisit, if_neg (by decide), wAfter, if_neg (by decide), if_pos (by decide), wRestart, if_pos (by decide),
        Dist.Possible.ret_iff]
      congr 1
      simp only [wAttach, WSt.mk.injEq]
      refine ⟨trivial, ?_, by decide, trivial, by decide⟩
      funext v; fin_cases v <;> decide
    · rw [wLoop, if_neg (by decide)]
      exact Dist.Possible.ret_iff.2 rfl
  · intro h
    have := h.1 (0, 2) (by simp)
    revert this; decide

/-- A triangle with a pendant edge. -/
def paw : List (Fin 4 × Fin 4) := [(0, 1), (0, 2), (1, 2), (2, 3)]
/-- its neighbours -/
def pawAdj : Fin 4 → List (Fin 4) := ![[1, 2], [0, 2], [0, 1, 3], [2]]

theorem paw_nbrs : NbrsOf paw pawAdj := by unfold NbrsOf; decide
theorem paw_connected : (graphOf paw).Connected := by
  have h02 : (graphOf paw).Adj 0 2 := graphOf_adj.2 (by decide)
  have h01 : (graphOf paw).Adj 0 1 := graphOf_adj.2 (by decide)
  have h23 : (graphOf paw).Adj 2 3 := graphOf_adj.2 (by decide)
  rw [SimpleGraph.connected_iff]
  refine ⟨fun a b => ?_, ⟨0⟩⟩
  have hr : ∀ a, (graphOf paw).Reachable 0 a := by
    intro a
    fin_cases a
    · exact SimpleGraph.Reachable.refl _
    · exact h01.reachable
    · exact h02.reachable
    · exact h02.reachable.trans h23.reachable
  exact (hr a).symm.trans (hr b)

example (fuel : ℕ) (o : Outcome (Option (List (Fin 4 × Fin 4)))) (ho : (wilson pawAdj (some 2) fuel).Possible o) :
    o = .ok none ∨ ∃ t, o = .ok (some t) ∧ IsSpanningTree paw t :=
  C11_wilson_spanning_tree paw pawAdj paw_nbrs (by decide) paw_connected _ fuel o ho

/-! ## C12 -/

/-- C12: on a connected graph (self loops allowed), whatever the root and the random choices, the Aldous-Broder
sampler never raises, and when it returns the result is a spanning tree of the graph. -/
theorem C12_aldous_broder_spanning_tree (es : List (Fin n × Fin n)) (adj : Fin n → List (Fin n))
    (hadj : NbrsOf es adj) (hG : (graphOf es).Connected) (root : Option (Fin n)) (fuel : ℕ)
    (o : Outcome (Option (List (Fin n × Fin n)))) (ho : (aldousBroder adj root fuel).Possible o) :
    o = .ok none ∨ ∃ t, o = .ok (some t) ∧ IsSpanningTree es t := by
  have hn : 0 < n := by have := hG.nonempty; exact Fin.pos_iff_nonempty.2 this
  rcases possible_andThen.1 ho with ⟨v, h1, h2⟩ | ⟨e, h1, h2⟩
  · rw [Dist.Possible.map_iff] at h2
    obtain ⟨o', h3, rfl⟩ := h2
    rcases abLoop_possible hadj (fun h2 v => adj_ne_nil hadj hG h2 v) fuel _ (ABInv.init es v) o' h3 with
      rfl | ⟨s', rfl, h4, h5⟩
    · exact Or.inl rfl
    · refine Or.inr ⟨_, rfl, h4.grown.spanning ?_⟩
      have := abInv_nb_le h4
      rw [h4.nb] at h5 this; omega
  · obtain ⟨v, hv⟩ := possible_startNode hn h1
    cases hv

/-- C12: it returns with probability one, with a geometric tail. -/
theorem C12_aldous_broder_terminates (es : List (Fin n × Fin n)) (adj : Fin n → List (Fin n))
    (hadj : NbrsOf es adj) (hG : (graphOf es).Connected) :
    ∃ (K : ℕ) (ρ : ℝ), ρ < 1 ∧ 0 ≤ ρ ∧ ∀ (root : Option (Fin n)) (m : ℕ),
      (aldousBroder adj root (m * K)).prob (· = .ok none) ≤ ρ ^ m := by
  have hn : 0 < n := by have := hG.nonempty; exact Fin.pos_iff_nonempty.2 this
  refine ⟨(n + 1) * (maxDist es + 1) + 1, 1 - epsOf adj ^ ((n + 1) * (maxDist es + 1) + 1), ?_, ?_,
    fun root m => ?_⟩
  rotate_left 2
  · rw [E_prob_unf]
    exact E_start hn fun v => abLoop_decay hadj hG m _ (ABInv.init es v)
  · linarith [pow_pos (epsOf_pos adj) ((n + 1) * (maxDist es + 1) + 1)]
  · linarith [pow_le_one₀ (n := (n + 1) * (maxDist es + 1) + 1) (epsOf_pos adj).le (epsOf_le_one adj)]

/-- C12: with at least two nodes, as for `C11_all_nodes`, the returned graph contains all the nodes. -/
theorem C12_all_nodes (es : List (Fin n × Fin n)) (adj : Fin n → List (Fin n)) (hn : 2 ≤ n)
    (hadj : NbrsOf es adj) (hG : (graphOf es).Connected) (root : Option (Fin n)) (fuel : ℕ)
    (t : List (Fin n × Fin n)) (ho : (aldousBroder adj root fuel).Possible (.ok (some t))) :
    nodesOf t = Set.univ := by
  rcases C12_aldous_broder_spanning_tree es adj hadj hG root fuel _ ho with h | ⟨t', h, h'⟩
  · cases h
  · cases h; exact C11_all_nodes hn h'

example (fuel : ℕ) (o : Outcome (Option (List (Fin 3 × Fin 3)))) (ho : (aldousBroder loopAdj none fuel).Possible o) :
    o = .ok none ∨ ∃ t, o = .ok (some t) ∧ IsSpanningTree loopG t :=
  C12_aldous_broder_spanning_tree loopG loopAdj loopG_nbrs C11_self_loop_refuted.2.1 _ fuel o ho

/-! ## C63 -/

/-- C63: the edges of `G` numbered by a sample of the DPP with the kernel of `G` are a spanning tree. -/
theorem ust_sampled {d : ℕ} (G : NxGraph (d + 1)) (hG : (graphOf G.edges).Connected) (qr : QR G.edges.length)
    (hqr : QRSpec qr) (l : List (Fin G.edges.length)) (hl : l.length = d) (hn : l.Nodup)
    (hm : minor (ustKernel G qr) l.toFinset ≠ 0) : IsSpanningTree G.edges (l.map G.edges.get) := by
  have hc : l.toFinset.card = d := by rw [List.toFinset_card_of_nodup hn, hl]
  rw [ustKernel_rowProj hG hqr, minor_tree hc] at hm
  have h1 : (graphOf (edgesAt G l.toFinset)).Connected := by
    by_contra h; rw [if_neg h] at hm; exact hm rfl
  refine (isSpanningTree_congr ?_ ?_).1 ((spanning_edgesAt hc).2 h1)
  · intro e; simp [edgesAt]
  · rw [edgesAt_length, hc]; simp [hl]

section
variable {d : ℕ} (G : NxGraph (d + 1))

/-- the draw of edge numbers in the spectral modes -/
noncomputable def ustDraw (qr : QR G.edges.length) (mode : String) : Dist ℝ (Outcome (List (Fin G.edges.length))) :=
  if mode = "GS" then projDppSamplerEig qr (ustEigVecs G qr) mode none
  else projDppSamplerKernel (ustKernel G qr) mode none

theorem ustDraw_nonneg (qr : QR G.edges.length) (mode : String) : Dist.Nonneg (ustDraw G qr mode) := by
  unfold ustDraw; split
  · exact eig_nonneg qr _ none mode
  · exact kernel_nonneg _ none mode

variable {G}

theorem ustDraw_outcome (hG : (graphOf G.edges).Connected) {qr : QR G.edges.length} (hqr : QRSpec qr) {mode : String}
    (hmode : mode = "GS" ∨ mode = "Schur" ∨ mode = "Chol") (o : Outcome (List (Fin G.edges.length)))
    (ho : (ustDraw G qr mode).Possible o) : ∃ l, o = .ok l ∧ l.length = d ∧ l.Nodup := by
  have hV := ust_orth' hG hqr
  unfold ustDraw at ho
  split at ho
  · rename_i h
    exact C20_proj_eig_outcome qr hqr _ hV none le_rfl mode (Or.inl h) o ho
  · exact C20_proj_kernel_outcome _ (isProjection_of_orthonormal hV) (trace_of_orthonormal hV) none le_rfl mode
      (by tauto) o ho

theorem ustDraw_law (hG : (graphOf G.edges).Connected) {qr : QR G.edges.length} (hqr : QRSpec qr) {mode : String}
    (hmode : mode = "GS" ∨ mode = "Schur" ∨ mode = "Chol") (S : Finset (Fin G.edges.length)) (hS : S.card = d) :
    (ustDraw G qr mode).prob (fun o => ∃ l, o = .ok l ∧ l.toFinset = S) = minor (ustKernel G qr) S := by
  have hV := ust_orth' hG hqr
  unfold ustDraw
  split
  · rename_i h
    rw [C23_eig_law qr hqr _ hV none le_rfl mode (Or.inl h) S hS]
    simp [ustKernel]
  · exact C21_proj_kernel_dpp _ (isProjection_of_orthonormal hV) (trace_of_orthonormal hV) mode
      (by tauto) S hS

theorem ustSample_spectral (qr : QR G.edges.length) (fuel : ℕ) (o : UstObj (d + 1)) {mode : String}
    (hmode : mode = "GS" ∨ mode = "Schur" ∨ mode = "Chol") (root : Option (Fin (d + 1))) :
    ∃ o', o'.samples = o.samples ∧
      ustSample G qr fuel o mode root = ustRecord o' (ustEdges G (ustDraw G qr mode)) := by
  unfold ustSample
  rcases hmode with rfl | rfl | rfl
  · refine ⟨{ o with mode := "GS", eigVecs := true }, rfl, ?_⟩
    simp [ustDraw]
  · refine ⟨{ o with mode := "Schur", eigVecs := true, kernel := true }, rfl, ?_⟩
    simp [ustDraw]
  · refine ⟨{ o with mode := "Chol", eigVecs := true, kernel := true }, rfl, ?_⟩
    simp [ustDraw]

theorem possible_ustRecord {o : UstObj (d + 1)} {D : Dist ℝ (Outcome (List (Fin G.edges.length)))}
    (hD : ∀ o, D.Possible o → ∃ l, o = .ok l ∧ l.length = d ∧ l.Nodup)
    {r : UstObj (d + 1) × Outcome (Option Unit)} (hr : (ustRecord o (ustEdges G D)).Possible r) :
    ∃ l, D.Possible (.ok l) ∧ l.length = d ∧ l.Nodup ∧ r.2 = .ok (some ()) ∧
      r.1.samples = o.samples ++ [l.map G.edges.get] := by
  unfold ustRecord ustEdges at hr
  rw [Dist.Possible.map_iff] at hr
  obtain ⟨o1, h1, rfl⟩ := hr
  rw [Dist.Possible.map_iff] at h1
  obtain ⟨o2, h2, rfl⟩ := h1
  obtain ⟨l, rfl, h3, h4⟩ := hD o2 h2
  exact ⟨l, h2, h3, h4, rfl, rfl⟩

/-- C63: in the modes `GS`, `Schur` and `Chol` on a connected graph, `sample` returns without error and appends a
spanning tree of the graph. -/
theorem C63_spanning_tree (hG : (graphOf G.edges).Connected) (qr : QR G.edges.length) (hqr : QRSpec qr) (fuel : ℕ)
    (o : UstObj (d + 1)) (mode : String) (hmode : mode = "GS" ∨ mode = "Schur" ∨ mode = "Chol")
    (root : Option (Fin (d + 1))) (r : UstObj (d + 1) × Outcome (Option Unit))
    (hr : (ustSample G qr fuel o mode root).Possible r) :
    r.2 = .ok (some ()) ∧ ∃ t, r.1.samples = o.samples ++ [t] ∧ IsSpanningTree G.edges t := by
  obtain ⟨o', ho', hs⟩ := ustSample_spectral qr fuel o hmode root
  rw [hs] at hr
  obtain ⟨l, h1, h2, h3, h4, h5⟩ := possible_ustRecord (ustDraw_outcome hG hqr hmode) hr
  refine ⟨h4, _, by rw [← ho']; exact h5, ust_sampled G hG qr hqr l h2 h3 fun h0 => ?_⟩
  rw [← ustDraw_law hG hqr hmode _ (by rw [List.toFinset_card_of_nodup h3, h2])] at h0
  exact Dist.not_possible_of_prob_zero (ustDraw_nonneg G qr mode) h0 h1 ⟨l, rfl, rfl⟩

/-- C63: and each spanning tree of the graph has the same probability, one over the number of spanning trees. -/
theorem C63_uniform (hG : (graphOf G.edges).Connected) (hnd : G.edges.Nodup) (qr : QR G.edges.length)
    (hqr : QRSpec qr) (fuel : ℕ) (o : UstObj (d + 1)) (mode : String)
    (hmode : mode = "GS" ∨ mode = "Schur" ∨ mode = "Chol") (root : Option (Fin (d + 1)))
    (T : Finset (Fin (d + 1) × Fin (d + 1))) (hT : T ∈ spanningTrees G.edges) :
    (ustSample G qr fuel o mode root).prob (fun r => ∃ t, r.1.samples = o.samples ++ [t] ∧ t.toFinset = T)
      = 1 / (spanningTrees G.edges).card := by
  classical
  obtain ⟨o', ho', hs⟩ := ustSample_spectral qr fuel o hmode root
  have hinj : Function.Injective G.edges.get := List.nodup_iff_injective_get.1 hnd
  obtain ⟨hsub, htree⟩ := Finset.mem_filter.1 hT
  rw [Finset.mem_powerset] at hsub
  obtain ⟨S, hS⟩ : ∃ S : Finset (Fin G.edges.length), S.map ⟨G.edges.get, hinj⟩ = T := by
    refine ⟨Finset.univ.filter fun a => G.edges.get a ∈ T, ?_⟩
    ext e
    simp only [Finset.mem_map, Finset.mem_filter, Finset.mem_univ, true_and, Function.Embedding.coeFn_mk]
    constructor
    · rintro ⟨a, ha, rfl⟩; exact ha
    · intro he
      obtain ⟨a, rfl⟩ := List.mem_iff_get.1 (List.mem_toFinset.1 (hsub he))
      exact ⟨a, he, rfl⟩
  have hc : S.card = d := by
    have h4 := htree.2.1
    rw [Finset.length_toList, ← hS, Finset.card_map] at h4; omega
  have h1 : (ustSample G qr fuel o mode root).prob (fun r => ∃ t, r.1.samples = o.samples ++ [t] ∧ t.toFinset = T)
      = (ustDraw G qr mode).prob (fun o => ∃ l, o = .ok l ∧ l.toFinset = S) := by
    rw [hs, Dist.prob_eq, Dist.prob_eq, ustRecord, Dist.E_map, ustEdges, Dist.E_map]
    refine Dist.E_congr_possible fun x hx => ?_
    obtain ⟨l, rfl, h2, h3⟩ := ustDraw_outcome hG hqr hmode x hx
    have : (∃ t, o'.samples ++ [l.map G.edges.get] = o.samples ++ [t] ∧ t.toFinset = T) ↔
        ∃ l', (Outcome.ok l : Outcome (List (Fin G.edges.length))) = .ok l' ∧ l'.toFinset = S := by
      constructor
      · rintro ⟨t, ht, hT'⟩
        rw [ho', List.append_cancel_left_eq, List.cons.injEq] at ht
        refine ⟨l, rfl, ?_⟩
        apply Finset.map_injective ⟨G.edges.get, hinj⟩
        rw [hS, ← hT', ← ht.1]
        ext e; simp
      · rintro ⟨l', h, hl'⟩
        cases h
        refine ⟨_, by rw [ho'], ?_⟩
        rw [← hS, ← hl']
        ext e; simp
    simp only [Outcome.map]
    exact if_congr this rfl rfl
  rw [h1, ustDraw_law hG hqr hmode S hc, ustKernel_rowProj hG hqr, minor_tree hc, if_pos]
  · have := card_mul_ustC hnd hG
    have h0 : ((spanningTrees G.edges).card : ℝ) ≠ 0 := fun h => by rw [h, zero_mul] at this; exact zero_ne_one this
    rw [eq_div_iff h0, mul_comm]; exact this
  · refine (spanning_edgesAt hc).1 ((isSpanningTree_congr ?_ ?_).1 htree)
    · intro e; rw [← hS]; simp [edgesAt]
    · rw [edgesAt_length, Finset.length_toList, ← hS, Finset.card_map]

end

/-- C63: a concrete connected graph with several spanning trees satisfies the hypotheses: two different trees get
the same positive probability. -/
def pawG : NxGraph 4 where
  edges := paw
  adj := pawAdj

example (mode : String) (hmode : mode = "GS" ∨ mode = "Schur" ∨ mode = "Chol") (o : UstObj 4)
    (T : Finset (Fin 4 × Fin 4)) (hT : T ∈ spanningTrees paw) :
    ∃ qr : QR pawG.edges.length, (ustSample pawG qr 0 o mode none).prob
      (fun r => ∃ t, r.1.samples = o.samples ++ [t] ∧ t.toFinset = T) = 1 / (spanningTrees paw).card := by
  obtain ⟨qr, hqr⟩ := exists_QRSpec pawG.edges.length
  exact ⟨qr, C63_uniform (G := pawG) paw_connected (by decide) qr hqr 0 o mode hmode none T hT⟩

example : (spanningTrees paw).Nonempty := by
  rw [← Finset.card_pos, Nat.pos_iff_ne_zero]
  intro h
  have := card_mul_ustC (G := pawG) (by decide) paw_connected
  rw [show (spanningTrees pawG.edges).card = 0 from h] at this
  simp at this

/-! ## C13 -/

/-- C13: a call to `sample` that succeeds appends exactly one sample and it is a spanning tree; one that fails
(or does not end) leaves the samples as they were. -/
theorem C13_one_sample (G : NxGraph n) (qr : QR G.edges.length) (fuel : ℕ) (o : UstObj n) (mode : String)
    (root : Option (Fin n)) (r : UstObj n × Outcome (Option Unit))
    (hr : (ustSample G qr fuel o mode root).Possible r) :
    if r.2 = .ok (some ()) then ∃ t, r.1.samples = o.samples ++ [t] else r.1.samples = o.samples := by
  have key : ∀ (o' : UstObj n) D, o'.samples = o.samples → (ustRecord o' D).Possible r →
      if r.2 = .ok (some ()) then ∃ t, r.1.samples = o.samples ++ [t] else r.1.samples = o.samples := by
    intro o' D h hr
    rw [ustRecord, Dist.Possible.map_iff] at hr
    obtain ⟨x, -, rfl⟩ := hr
    cases x with
    | ok a => cases a <;> simp [h]
    | raise e => simp [h]
  unfold ustSample at hr
  simp only at hr
  split at hr
  · exact key _ _ (by rfl) hr
  split at hr
  · exact key _ _ (by rfl) hr
  split at hr
  · exact key _ _ (by rfl) hr
  split at hr
  · exact key _ _ (by rfl) hr
  · rw [Dist.Possible.ret_iff] at hr
    rw [hr]; simp

/-- C13: on a connected graph without self loops, in the five supported modes, no call fails, and the sample
appended is a spanning tree. -/
theorem C13_supported_modes {d : ℕ} (G : NxGraph (d + 1)) (hadj : NbrsOf G.edges G.adj)
    (hG : (graphOf G.edges).Connected) (hloop : ∀ v, (v, v) ∉ G.edges) (qr : QR G.edges.length) (hqr : QRSpec qr)
    (fuel : ℕ) (o : UstObj (d + 1)) (mode : String)
    (hmode : mode ∈ ["Wilson", "Aldous-Broder", "GS", "Schur", "Chol"])
    (root : Option (Fin (d + 1))) (r : UstObj (d + 1) × Outcome (Option Unit))
    (hr : (ustSample G qr fuel o mode root).Possible r) :
    r.2 = .ok none ∨ (r.2 = .ok (some ()) ∧ ∃ t, r.1.samples = o.samples ++ [t] ∧ IsSpanningTree G.edges t) := by
  have key : ∀ (o' : UstObj (d + 1)) D, o'.samples = o.samples →
      (∀ x, D.Possible x → x = .ok none ∨ ∃ t, x = .ok (some t) ∧ IsSpanningTree G.edges t) →
      (ustRecord o' D).Possible r →
      r.2 = .ok none ∨ (r.2 = .ok (some ()) ∧ ∃ t, r.1.samples = o.samples ++ [t] ∧ IsSpanningTree G.edges t) := by
    intro o' D h hD hr
    rw [ustRecord, Dist.Possible.map_iff] at hr
    obtain ⟨x, hx, rfl⟩ := hr
    rcases hD x hx with rfl | ⟨t, rfl, ht⟩
    · exact Or.inl rfl
    · exact Or.inr ⟨rfl, t, by rw [← h], ht⟩
  simp only [List.mem_cons, List.not_mem_nil, or_false] at hmode
  rcases hmode with rfl | rfl | hm
  · exact key { o with mode := "Wilson" } _ rfl (C11_wilson_spanning_tree _ _ hadj hloop hG none fuel)
      (by simpa [ustSample] using hr)
  · exact key { o with mode := "Aldous-Broder" } _ rfl (C12_aldous_broder_spanning_tree _ _ hadj hG none fuel)
      (by simpa [ustSample] using hr)
  · exact Or.inr (C63_spanning_tree hG qr hqr fuel o mode hm root r hr)

/-- C13: the constructor accepts exactly the connected graphs and raises `ValueError` otherwise. -/
theorem C13_constructor (conn : Bool) :
    (ustInit conn : Outcome (UstObj n)) =
      if conn then .ok ⟨"Wilson", [], false, false⟩ else .valueError := rfl

/-- C13 (finding): any other mode, among them the documented `GS_bis` and `KuTa12`, makes `sample` raise
`TypeError` and not `ValueError`; the samples are unchanged but the sampling mode stays set to the invalid one. -/
theorem C13_value_error_refuted (G : NxGraph n) (qr : QR G.edges.length) (fuel : ℕ) (o : UstObj n) (mode : String)
    (hmode : mode ∉ ["Wilson", "Aldous-Broder", "GS", "Schur", "Chol"]) (root : Option (Fin n)) :
    ustSample G qr fuel o mode root = Dist.ret ({ o with mode := mode }, .raise .typeError) := by
  simp only [List.mem_cons, List.not_mem_nil, or_false, not_or] at hmode
  unfold ustSample
  simp only
  rw [if_neg hmode.1, if_neg hmode.2.1, if_neg hmode.2.2.1, if_neg (by tauto)]

/-- C13 (finding): the documented modes `GS_bis` and `KuTa12` raise `TypeError`. -/
theorem C13_documented_modes_refuted (G : NxGraph n) (qr : QR G.edges.length) (fuel : ℕ) (o : UstObj n)
    (root : Option (Fin n)) :
    ustSample G qr fuel o "GS_bis" root = Dist.ret ({ o with mode := "GS_bis" }, .raise .typeError) ∧
    ustSample G qr fuel o "KuTa12" root = Dist.ret ({ o with mode := "KuTa12" }, .raise .typeError) :=
  ⟨C13_value_error_refuted G qr fuel o _ (by decide) root, C13_value_error_refuted G qr fuel o _ (by decide) root⟩

/-- C13 (finding): `root` has no effect on `sample`. -/
theorem C13_root_ignored (G : NxGraph n) (qr : QR G.edges.length) (fuel : ℕ) (o : UstObj n) (mode : String)
    (root root' : Option (Fin n)) : ustSample G qr fuel o mode root = ustSample G qr fuel o mode root' := rfl

/-- C13 (finding): the root `0` given to the random walk samplers is ignored: the start is uniform. -/
theorem C13_root_zero_ignored (adj : Fin (n + 1) → List (Fin (n + 1))) (fuel : ℕ) :
    wilson adj (some 0) fuel = wilson adj none fuel ∧ aldousBroder adj (some 0) fuel = aldousBroder adj none fuel := by
  have : (startNode (some (0 : Fin (n + 1)))) = startNode none := by simp [startNode]
  constructor
  · unfold wilson; rw [this]
  · unfold aldousBroder; rw [this]

end Verif.Props
