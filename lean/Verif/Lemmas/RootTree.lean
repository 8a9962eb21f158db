import Verif.Lemmas.WilsonLim

/-! Rooted spanning trees as parent functions, and the change of root by one step of the walk. -/

set_option linter.unusedSectionVars false

namespace Verif.Model
open Verif Verif.Spec Finset
variable {n : ℕ} {es : List (Fin n × Fin n)} {adj : Fin n → List (Fin n)}

/-- `f` is the parent function of a spanning tree with root `x` -/
def RTree (adj : Fin n → List (Fin n)) (x : Fin n) (f : Fin n → Fin n) : Prop :=
  f x = x ∧ (∀ v, v ≠ x → f v ∈ adj v) ∧ ∃ dep : Fin n → ℕ, ∀ v, v ≠ x → dep (f v) < dep v

/-- its graph -/
def rgraph (x : Fin n) (f : Fin n → Fin n) : SimpleGraph (Fin n) := SimpleGraph.fromRel fun a b => a ≠ x ∧ f a = b

theorem RTree.ne {x : Fin n} {f : Fin n → Fin n} (h : RTree adj x f) {v : Fin n} (hv : v ≠ x) : f v ≠ v := by
  obtain ⟨-, -, dep, hd⟩ := h
  intro he
  have := hd v hv
  rw [he] at this
  exact lt_irrefl _ this

theorem RTree.parOf {x : Fin n} {f : Fin n → Fin n} (h : RTree adj x f) : ∃ dep, ParOf (rgraph x f) x f dep := by
  obtain ⟨dep, hd⟩ := h.2.2
  refine ⟨dep, ⟨fun v hv => ?_, hd, ?_⟩⟩
  · rw [rgraph, SimpleGraph.fromRel_adj]
    exact ⟨(h.ne hv).symm, Or.inl ⟨hv, rfl⟩⟩
  · intro a b hab
    rw [rgraph, SimpleGraph.fromRel_adj] at hab
    exact hab.2

theorem RTree.le (hadj : NbrsOf es adj) {x : Fin n} {f : Fin n → Fin n} (h : RTree adj x f) : rgraph x f ≤ graphOf es := by
  intro a b hab
  rw [rgraph, SimpleGraph.fromRel_adj] at hab
  refine graphOf_adj.2 ⟨hab.1, ?_⟩
  rcases hab.2 with ⟨h1, h2⟩ | ⟨h1, h2⟩
  · have := h.2.1 a h1
    rw [h2] at this
    exact (hadj _ _).1 this
  · have := h.2.1 b h1
    rw [h2] at this
    exact ((hadj _ _).1 this).symm

/-- the edges of the tree as a list -/
def rlist (x : Fin n) (f : Fin n → Fin n) : List (Fin n × Fin n) := ((List.finRange n).filter (· ≠ x)).map fun v => (v, f v)

theorem rgraph_eq (x : Fin n) (f : Fin n → Fin n) : rgraph x f = graphOf (rlist x f) := by
  ext a b
  rw [rgraph, SimpleGraph.fromRel_adj, graphOf_adj]
  simp [rlist]

theorem RTree.tree {x : Fin n} {f : Fin n → Fin n} (h : RTree adj x f) : (rgraph x f).IsTree := by
  obtain ⟨dep, hp⟩ := h.parOf
  rw [rgraph_eq]
  refine isTree_of_connected ?_ ?_
  · rw [← rgraph_eq, SimpleGraph.connected_iff]
    have hr : ∀ d v, dep v = d → (rgraph x f).Reachable v x := by
      intro d
      induction d using Nat.strong_induction_on with
      | _ d ih =>
        intro v hv
        by_cases hx : v = x
        · rw [hx]
        · exact (hp.adj v hx).reachable.trans (ih _ (hv ▸ hp.dep v hx) _ rfl)
    exact ⟨fun a b => (hr _ a rfl).trans (hr _ b rfl).symm, ⟨x⟩⟩
  · rw [rlist, List.length_map]
    have h1 : ((List.finRange n).filter (· ≠ x)).toFinset = univ.erase x := by ext v; simp
    have h2 : ((List.finRange n).filter (· ≠ x)).Nodup := (List.nodup_finRange n).filter _
    rw [← List.toFinset_card_of_nodup h2, h1, card_erase_of_mem (mem_univ _), card_univ, Fintype.card_fin]
    have := x.2
    omega

theorem RTree.inj {x : Fin n} {f g : Fin n → Fin n} (hf : RTree adj x f) (hg : RTree adj x g) (h : rgraph x f = rgraph x g) : f = g := by
  obtain ⟨dep, hp⟩ := hf.parOf
  obtain ⟨dep', hp'⟩ := hg.parOf
  have key : ∀ d v, dep v = d → f v = g v := by
    intro d
    induction d using Nat.strong_induction_on with
    | _ d ih =>
      intro v hv
      by_cases hx : v = x
      · rw [hx, hf.1, hg.1]
      have h1 := hp.adj v hx
      rw [h] at h1
      rcases hp'.edge v _ h1 with ⟨-, h2⟩ | ⟨h2, h3⟩
      · exact h2.symm
      · exfalso
        have h4 := ih _ (hv ▸ hp.dep v hx) (f v) rfl
        rw [h3] at h4
        have h5 := hp.dep v hx
        have h6 := hp.dep (f v) h2
        rw [h4] at h6
        omega
  funext v
  exact key _ v rfl

theorem exists_RTree (hadj : NbrsOf es adj) {H : SimpleGraph (Fin n)} (hH : H.IsTree) (hle : H ≤ graphOf es) (x : Fin n) :
    ∃ f, RTree adj x f ∧ rgraph x f = H := by
  obtain ⟨par, dep, hp⟩ := exists_parOf hH x
  have hR : RTree adj x (Function.update par x x) := by
    refine ⟨by simp, ?_, dep, ?_⟩
    · intro v hv
      rw [Function.update_of_ne hv]
      exact (hadj _ _).2 (graphOf_adj.1 (hle (hp.adj v hv))).2
    · intro v hv
      rw [Function.update_of_ne hv]
      exact hp.dep v hv
  refine ⟨_, hR, ?_⟩
  ext a b
  rw [rgraph, SimpleGraph.fromRel_adj]
  constructor
  · rintro ⟨h1, ⟨h2, h3⟩ | ⟨h2, h3⟩⟩
    · rw [Function.update_of_ne h2] at h3
      rw [← h3]; exact hp.adj a h2
    · rw [Function.update_of_ne h2] at h3
      rw [← h3]; exact (hp.adj b h2).symm
  · intro h
    refine ⟨h.ne, ?_⟩
    rcases hp.edge a b h with ⟨h1, h2⟩ | ⟨h1, h2⟩
    · exact Or.inl ⟨h1, by rw [Function.update_of_ne h1]; exact h2⟩
    · exact Or.inr ⟨h1, by rw [Function.update_of_ne h1]; exact h2⟩

open Classical in
/-- the rooted spanning trees -/
noncomputable def rtrees (adj : Fin n → List (Fin n)) (x : Fin n) : Finset (Fin n → Fin n) := univ.filter (RTree adj x)

theorem card_rtrees (hadj : NbrsOf es adj) (x : Fin n) :
    (rtrees adj x).card = Nat.card {H : SimpleGraph (Fin n) // H ≤ graphOf es ∧ H.IsTree} := by
  classical
  rw [Nat.card_eq_fintype_card, ← Finset.card_univ]
  refine Finset.card_bij (fun f hf => ⟨rgraph x f, RTree.le hadj (mem_filter.1 hf).2, RTree.tree (mem_filter.1 hf).2⟩) ?_ ?_ ?_
  · intro f hf; exact mem_univ _
  · intro f hf g hg h
    exact RTree.inj (mem_filter.1 hf).2 (mem_filter.1 hg).2 (Subtype.ext_iff.1 h)
  · intro H _
    obtain ⟨f, h1, h2⟩ := exists_RTree hadj H.2.2 H.2.1 x
    exact ⟨f, mem_filter.2 ⟨mem_univ _, h1⟩, Subtype.ext h2⟩

/-- one step of the walk from `x` to `y`, seen from the tree of what comes after -/
def reroot (x y : Fin n) (f : Fin n → Fin n) : Fin n → Fin n := fun v => if v = x then x else if v = y then x else f v

theorem RTree.reroot (hadj : NbrsOf es adj) {x y : Fin n} {f : Fin n → Fin n} (h : RTree adj y f) (hy : y ∈ adj x) :
    RTree adj x (reroot x y f) := by
  obtain ⟨h1, h2, dep, hd⟩ := h
  refine ⟨by simp [Model.reroot], ?_, fun v => if v = x then 0 else dep v + 1, ?_⟩
  · intro v hv
    rw [Model.reroot, if_neg hv]
    split
    · rename_i h
      rw [h]
      exact (hadj _ _).2 ((hadj _ _).1 hy).symm
    · rename_i h
      exact h2 v h
  · intro v hv
    simp only [Model.reroot, if_neg hv]
    split
    · simp
    · rename_i h
      have := hd v h
      split <;> omega

/-- the trees that lead to `g` are indexed by the neighbours of the new root -/
theorem reroot_unique (hadj : NbrsOf es adj) {x z : Fin n} {g : Fin n → Fin n} (hg : RTree adj x g) (hz : z ∈ adj x) :
    ∃! p : Fin n × (Fin n → Fin n), p.1 ∈ adj x ∧ RTree adj p.1 p.2 ∧ reroot x p.1 p.2 = g ∧ p.2 x = z := by
  obtain ⟨dep, hp⟩ := hg.parOf
  -- a preimage that moves the root
  have hanc : ∀ y f, RTree adj y f → reroot x y f = g → f x = z → y ≠ x → Child x g x y ∧ Anc x g y z := by
    intro y f hf hfg hfz hyx
    have hgv : ∀ v, v ≠ x → v ≠ y → g v = f v := by
      intro v h1 h2
      rw [← hfg, Model.reroot, if_neg h1, if_neg h2]
    refine ⟨⟨hyx, by rw [← hfg, Model.reroot, if_neg hyx, if_pos rfl]⟩, ?_⟩
    obtain ⟨df, hpf⟩ := hf.parOf
    have key : ∀ w, Anc y f y w → ¬ Anc y f x w → Anc x g y w := by
      intro w hw
      induction hw with
      | refl => intro _; exact Relation.ReflTransGen.refl
      | tail h1 h2 ih =>
        rename_i a b
        intro hb
        have hbx : b ≠ x := fun h => hb (h ▸ Relation.ReflTransGen.refl)
        exact (ih fun h => hb (h.tail h2)).tail ⟨hbx, by rw [hgv b hbx h2.1, h2.2]⟩
    refine key z (anc_root hpf z) fun h => ?_
    have h1 := Anc.dep_le hpf h
    have h2 := hpf.dep x hyx.symm
    rw [hfz] at h2
    omega
  have hval : ∀ y f, RTree adj y f → reroot x y f = g → f x = z → f = fun v => if v = y then y else if v = x then z else g v := by
    intro y f hf hfg hfz
    funext v
    by_cases hvy : v = y
    · rw [if_pos hvy, hvy, hf.1]
    · rw [if_neg hvy]
      by_cases hvx : v = x
      · rw [if_pos hvx, hvx, hfz]
      · rw [if_neg hvx, ← hfg, Model.reroot, if_neg hvx, if_neg hvy]
  by_cases hzx : z = x
  · -- a self loop
    refine ⟨(x, g), ⟨hzx ▸ hz, hg, ?_, by simp only; rw [hg.1, hzx]⟩, ?_⟩
    · funext v
      simp only [Model.reroot]
      by_cases hv : v = x
      · rw [if_pos hv, hv, hg.1]
      · rw [if_neg hv, if_neg hv]
    · rintro ⟨y, f⟩ ⟨h1, h2, h3, h4⟩
      simp only at h1 h2 h3 h4
      have hy : y = x := by
        by_contra hy
        exact h2.ne (Ne.symm hy) (by rw [h4, hzx])
      subst hy
      rw [Prod.mk.injEq]
      refine ⟨rfl, ?_⟩
      rw [hval y f h2 h3 h4]
      funext v
      by_cases hv : v = y
      · rw [if_pos hv, hv, hg.1]
      · rw [if_neg hv, if_neg hv]
  · obtain ⟨y, hc, ha⟩ : ∃ y, Child x g x y ∧ Anc x g y z := by
      rcases Relation.ReflTransGen.cases_head (anc_root hp z) with h | ⟨y, h1, h2⟩
      · exact absurd h.symm hzx
      · exact ⟨y, h1, h2⟩
    have hyx : y ≠ x := hc.1
    have hyadj : x ∈ adj y := by have := hg.2.1 y hyx; rwa [hc.2] at this
    have hnx : ¬ Anc x g y x := fun h => by
      have h1 := Anc.dep_le hp h
      have h2 := hp.dep y hyx
      rw [hc.2] at h2
      omega
    refine ⟨(y, fun v => if v = y then y else if v = x then z else g v), ⟨?_, ?_, ?_, ?_⟩, ?_⟩
    · exact (hadj _ _).2 ((hadj _ _).1 hyadj).symm
    · refine ⟨by simp, ?_, ?_⟩
      · intro v hv
        simp only [if_neg hv]
        split
        · rename_i h; rw [h]; exact hz
        · rename_i h; exact hg.2.1 v h
      · classical
        refine ⟨fun v => if Anc x g y v then dep v else dep v + ∑ u, dep u + 1, ?_⟩
        intro v hv
        have hle : ∀ u, dep u ≤ ∑ u, dep u := fun u => single_le_sum (f := dep) (fun _ _ => Nat.zero_le _) (mem_univ u)
        simp only [if_neg hv]
        by_cases hvx : v = x
        · rw [if_pos hvx, if_pos ha, hvx, if_neg hnx]
          have := hle z
          omega
        · rw [if_neg hvx]
          have hd := hp.dep v hvx
          have hiff : Anc x g y (g v) ↔ Anc x g y v := by
            constructor
            · intro h; exact h.tail ⟨hvx, rfl⟩
            · intro h
              rcases Relation.ReflTransGen.cases_tail h with h | ⟨w, h1, h2⟩
              · exact absurd h hv
              · rw [h2.2]; exact h1
          simp only [hiff]
          split <;> omega
    · funext v
      simp only [Model.reroot]
      by_cases h1 : v = x
      · rw [if_pos h1, h1, hg.1]
      · rw [if_neg h1]
        by_cases h2 : v = y
        · rw [if_pos h2, h2, hc.2]
        · rw [if_neg h2, if_neg h2, if_neg h1]
    · simp only [if_neg hyx.symm, if_true]
    · rintro ⟨y', f⟩ ⟨h1, h2, h3, h4⟩
      simp only at h1 h2 h3 h4
      have hy' : y' ≠ x := by
        rintro rfl
        rw [h2.1] at h4
        exact hzx h4.symm
      obtain ⟨h5, h6⟩ := hanc y' f h2 h3 h4 hy'
      have hyy : y' = y := anc_unique hp h5 hc h6 ha
      subst hyy
      rw [Prod.mk.injEq]
      exact ⟨rfl, hval y' f h2 h3 h4⟩

open Classical in
/-- number of the ways to get `g` -/
theorem reroot_count (hadj : NbrsOf es adj) (hnd : ∀ v, (adj v).Nodup) {x : Fin n} {g : Fin n → Fin n} (hg : RTree adj x g) :
    ((adj x).map fun y => ∑ f ∈ rtrees adj y, if reroot x y f = g then (1 : ℝ) else 0).sum = (adj x).length := by
  rw [← List.sum_toFinset _ (hnd x)]
  have h1 : ∀ y ∈ (adj x).toFinset, (∑ f ∈ rtrees adj y, if reroot x y f = g then (1 : ℝ) else 0)
      = ∑ z ∈ (adj x).toFinset, ∑ f ∈ rtrees adj y, if reroot x y f = g ∧ f x = z then (1 : ℝ) else 0 := by
    intro y hy
    rw [sum_comm]
    refine sum_congr rfl fun f hf => ?_
    have hf := (mem_filter.1 hf).2
    have hfx : f x ∈ (adj x).toFinset := by
      rw [List.mem_toFinset]
      by_cases hxy : x = y
      · rw [hxy, hf.1, ← hxy]
        subst hxy
        simpa using hy
      · exact hf.2.1 x hxy
    by_cases h : reroot x y f = g
    · simp only [h, true_and, if_true]
      rw [sum_ite_eq, if_pos hfx]
    · simp [h]
  rw [sum_congr rfl h1, sum_comm]
  have h2 : ∀ z ∈ (adj x).toFinset, (∑ y ∈ (adj x).toFinset, ∑ f ∈ rtrees adj y, if reroot x y f = g ∧ f x = z then (1 : ℝ) else 0) = 1 := by
    intro z hz
    obtain ⟨⟨y, f⟩, ⟨a1, a2, a3, a4⟩, hu⟩ := reroot_unique hadj hg (List.mem_toFinset.1 hz)
    simp only at a1 a2 a3 a4
    rw [sum_eq_single y, sum_eq_single f, if_pos ⟨a3, a4⟩]
    · intro f' hf' hne
      rw [if_neg]
      rintro ⟨b1, b2⟩
      have := hu (y, f') ⟨a1, (mem_filter.1 hf').2, b1, b2⟩
      rw [Prod.mk.injEq] at this
      exact hne this.2
    · intro h
      exact absurd (mem_filter.2 ⟨mem_univ _, a2⟩) h
    · intro y' hy' hne
      refine sum_eq_zero fun f' hf' => ?_
      rw [if_neg]
      rintro ⟨b1, b2⟩
      have := hu (y', f') ⟨List.mem_toFinset.1 hy', (mem_filter.1 hf').2, b1, b2⟩
      rw [Prod.mk.injEq] at this
      exact hne this.1
    · intro h
      exact absurd (List.mem_toFinset.2 a1) h
  rw [sum_congr rfl h2, sum_const, nsmul_eq_mul, mul_one, List.toFinset_card_of_nodup (hnd x)]

end Verif.Model
