import Verif.Lemmas.WilsonHarm

/-! Law of Wilson's algorithm as coded: the probability of each tree, given the state of the loop. -/

set_option linter.unusedSectionVars false

namespace Verif.Model
open Verif Verif.Spec Verif.Dist Finset
variable {n : ℕ} {es : List (Fin n × Fin n)} {adj : Fin n → List (Fin n)}

/-- the edges chosen so far are edges of `H` -/
def GoodW (H : SimpleGraph (Fin n)) (s : WSt n) : Prop := ∀ e ∈ s.branches.flatMap pathEdges, H.Adj e.1 e.2

open Classical in
noncomputable def goodI (H : SimpleGraph (Fin n)) (s : WSt n) : ℝ := if GoodW H s then 1 else 0

/-- probability that the tree is `H`, given the state -/
noncomputable def wilPhi (adj : Fin n → List (Fin n)) (H : SimpleGraph (Fin n)) (r : Fin n) (par : Fin n → Fin n) (s : WSt n) : ℝ :=
  if ¬ s.nb < n then goodI H s
  else if s.nb = 1 then
    (if s.path = [] then 1 / lapDet adj (treeSet s)ᶜ else pathSum adj (wgt1 adj r par) (treeSet s)ᶜ [] s.path s.n0)
  else goodI H s * pathSum adj (wgt2 par) (treeSet s)ᶜ [] s.path s.n0

/-- the nodes of the tree are closed under parents -/
def WCl (H : SimpleGraph (Fin n)) (r : Fin n) (par : Fin n → Fin n) (s : WSt n) : Prop :=
  GoodW H s → ∀ v ∈ treeSet s, v ≠ r → par v ∈ treeSet s

theorem ite_aux1 {A B P : Prop} [Decidable (A ∧ B ∧ P)] [Decidable A] [Decidable B] [Decidable P] (D : ℝ) :
    (if A ∧ B ∧ P then (1 : ℝ) else 0) / D = (if A then 1 else 0) * if B then (if P then 1 else 0) / D else 0 := by
  by_cases h1 : A <;> by_cases h2 : B <;> by_cases h3 : P <;> simp [h1, h2, h3]

theorem ite_aux2 {B P : Prop} [Decidable (P ∧ B)] [Decidable B] [Decidable P] (D : ℝ) :
    (if P ∧ B then (1 : ℝ) else 0) / D = if B then (if P then 1 else 0) / D else 0 := by
  by_cases h2 : B <;> by_cases h3 : P <;> simp [h2, h3]

theorem treeSet_attach (s : WSt n) (n1 : Fin n) : treeSet (wAttach s n1) = treeSet s ∪ s.path.toFinset := by
  ext v
  rw [Finset.mem_union, mem_treeSet, mem_treeSet]
  simp only [wAttach, List.mem_toFinset]
  split <;> simp_all

theorem compl_attach (s : WSt n) (n1 : Fin n) : (treeSet (wAttach s n1))ᶜ = (treeSet s)ᶜ \ s.path.toFinset := by
  rw [treeSet_attach, compl_union, sdiff_eq_inter_compl]

theorem pathEdges_adj {H : SimpleGraph (Fin n)} {x : List (Fin n)} : (∀ e ∈ pathEdges x, H.Adj e.1 e.2) ↔ x.IsChain H.Adj := by
  constructor
  · intro h
    exact (chain_pathEdges x).imp fun a b hab => h _ hab
  · intro h
    induction x with
    | nil => intro e he; simp [pathEdges] at he
    | cons a x ih =>
      cases x with
      | nil => intro e he; simp [pathEdges] at he
      | cons b x =>
        rw [List.isChain_cons_cons] at h
        rw [pathEdges_cons_cons]
        intro e he
        rcases List.mem_cons.1 he with rfl | he
        · exact h.1
        · exact ih h.2 e he

theorem goodW_attach {H : SimpleGraph (Fin n)} {s : WSt n} {n1 : Fin n} : GoodW H (wAttach s n1)
    ↔ GoodW H s ∧ (if s.nb = 1 then n1 :: s.path else s.path ++ [n1]).IsChain H.Adj := by
  rw [← pathEdges_adj, GoodW, GoodW]
  simp only [wAttach, List.flatMap_append, List.flatMap_singleton, List.mem_append]
  constructor
  · intro h; exact ⟨fun e he => h e (Or.inl he), fun e he => h e (Or.inr he)⟩
  · rintro ⟨h1, h2⟩ e (he | he)
    · exact h1 e he
    · exact h2 e he

theorem pass_path {root h n1 : Fin n} {s : WSt n} {q : List (Fin n)} (w : WPath adj root s h q)
    (hnt : s.state n1 ≠ .tree) :
    wAfter (wVisit s n1) n1 = Dist.ret (.ok (wErased (wVisit s n1) n1)) ∧
    (wErased (wVisit s n1) n1).path = if n1 ∈ s.path then s.path.take (s.path.idxOf n1 + 1) else s.path ++ [n1] := by
  by_cases hp : s.state n1 = .path
  · have hv : wVisit s n1 = s := by rw [wVisit, if_neg (by rw [hp]; decide)]
    have hm : n1 ∈ s.path := by
      have := (w.marked n1).1 hp
      rcases w.shape with ⟨-, e, -⟩ | ⟨-, e, -⟩ <;> simp [e, this]
    rw [hv, if_pos hm]
    exact ⟨by rw [wAfter, if_pos hp, wErase_eq hm], rfl⟩
  · have hnew : s.state n1 = .new := by cases hs : s.state n1 <;> simp_all
    have hst : (wVisit s n1).state n1 = .path := by rw [wVisit, if_pos hnew]; simp
    have hpa : (wVisit s n1).path = s.path ++ [n1] := by rw [wVisit, if_pos hnew]
    refine ⟨by rw [wAfter, if_pos hst, wErase_eq (by rw [hpa]; simp)], ?_⟩
    change (wVisit s n1).path.take ((wVisit s n1).path.idxOf n1 + 1) = _
    rw [hpa]
    split
    · rename_i hm
      rw [List.idxOf_append_of_mem hm, List.take_append_of_le_length]
      exact List.idxOf_lt_length_of_mem hm
    · rename_i hm
      rw [idxOf_append_self hm]
      exact List.take_of_length_le (by simp)

section
variable (hadj : NbrsOf es adj) (hnd : ∀ v, (adj v).Nodup) (hloop : ∀ v, v ∉ adj v) (hG : (graphOf es).Connected)
  {H : SimpleGraph (Fin n)} {r : Fin n} {par : Fin n → Fin n} {dep : Fin n → ℕ} (hp : ParOf H r par dep) (hH : H ≤ graphOf es)
include hadj hnd hloop hG hp hH

theorem wgt1_mem {q : List (Fin n)} {y : Fin n} (hy : y = r ∨ y ∈ q) : wgt1 adj r par (q ++ [y]) = 0 := by
  have hdep : ∀ (l : List (Fin n)) (a : Fin n), (a :: l).IsChain (Child r par) → ∀ v ∈ l, dep a < dep v := by
    intro l
    induction l with
    | nil => intro a _ v hv; simp at hv
    | cons b l ih =>
      intro a hc v hv
      rw [List.isChain_cons_cons] at hc
      have h1 : dep a < dep b := by
        have := hp.dep b hc.1.1
        rwa [hc.1.2] at this
      rcases List.mem_cons.1 hv with rfl | hv
      · exact h1
      · exact h1.trans (ih b hc.2 v hv)
  rw [wgt1, if_neg]
  intro hc
  rcases hy with rfl | hy
  · rw [← List.cons_append, isChain_snoc hp (by simp)] at hc
    exact hc.2.1 rfl
  · obtain ⟨l1, l2, rfl⟩ := List.append_of_mem hy
    rw [show r :: (l1 ++ y :: l2 ++ [y]) = (r :: l1) ++ (y :: (l2 ++ [y])) by simp, List.isChain_append] at hc
    exact lt_irrefl _ (hdep _ _ hc.2.1 y (by simp))

theorem restart_E {s : WSt n} (hc : WCore es r s) (hnp : ∀ v, s.state v ≠ .path) (hnb : 1 < s.nb) :
    E (wRestart s) (lift (wilPhi adj H r par)) = goodI H s / lapDet adj (treeSet s)ᶜ := by
  have hS : (treeSet s)ᶜ ≠ univ := fun h => by
    have := mem_univ r
    rw [← h, mem_compl] at this
    exact this hc.grown.root_mem
  rw [wRestart]
  split
  · rename_i h0
    have hcard := card_treeSet_of_new hnp h0
    have hT : (treeSet s)ᶜ = ∅ := by
      rw [compl_eq_empty_iff, ← card_eq_iff_eq_univ]; simpa using hcard
    have hD : lapDet adj (∅ : Finset (Fin n)) = 1 := by
      have : lapS adj (∅ : Finset (Fin n)) = 1 := by
        ext i j; simp [lapS, Matrix.one_apply]
      rw [lapDet, this, Matrix.det_one]
    rw [E_ret, lift, wilPhi, if_pos (by rw [hc.nb, hcard]; simp), hT, hD, div_one]
  · rename_i h0
    have hlt : s.nb < n := by
      obtain ⟨v, hv⟩ := List.exists_mem_of_ne_nil _ h0
      have hv' : v ∉ treeSet s := by
        rw [mem_treeSet]
        simp only [wNew, List.mem_filter, List.mem_finRange, true_and, decide_eq_true_eq] at hv
        rw [hv]; decide
      rw [hc.nb]
      have := card_lt_univ_of_notMem hv'
      simpa using this
    rw [E_andThen, E_choiceO h0]
    have hval : ∀ v, E (Dist.ret (.ok { s with n0 := v, path := [v] }) : Dist ℝ (Outcome (WSt n))) (lift (wilPhi adj H r par))
        = goodI H s / lapDet adj (treeSet s)ᶜ := by
      intro v
      rw [E_ret, lift, wilPhi]
      have ht : treeSet ({ s with n0 := v, path := [v] } : WSt n) = treeSet s := rfl
      have hg : goodI H ({ s with n0 := v, path := [v] } : WSt n) = goodI H s := rfl
      rw [if_neg (by simpa using hlt), if_neg (by simp only; omega), ht, hg]
      simp only [pathSum, List.nil_append, add_zero, green_self hadj hnd hG hS]
      rw [wgt2, if_pos (by simp)]
      ring
    rw [show (fun a => E (Dist.ret (.ok { s with n0 := a, path := [a] }) : Dist ℝ (Outcome (WSt n))) (lift (wilPhi adj H r par)))
      = fun _ => goodI H s / lapDet adj (treeSet s)ᶜ from funext hval]
    rw [List.map_const', List.sum_replicate, nsmul_eq_mul, ← mul_assoc, one_div, inv_mul_cancel₀, one_mul]
    exact_mod_cast (List.length_pos_of_ne_nil h0).ne'

theorem list_sum_congr {f g : Fin n → ℝ} {l : List (Fin n)} (h : ∀ v ∈ l, f v = g v) : (l.map f).sum = (l.map g).sum := by
  rw [List.map_congr_left h]

theorem list_sum_add {f g : Fin n → ℝ} (l : List (Fin n)) : (l.map fun v => f v + g v).sum = (l.map f).sum + (l.map g).sum := by
  induction l with
  | nil => simp
  | cons a l ih => simp [ih]; ring

theorem list_sum_div {f : Fin n → ℝ} (c : ℝ) (l : List (Fin n)) : (l.map fun v => f v / c).sum = (l.map f).sum / c := by
  induction l with
  | nil => simp
  | cons a l ih => simp [ih, add_div]

theorem list_sum_mul {f : Fin n → ℝ} (c : ℝ) (l : List (Fin n)) : (l.map fun v => c * f v).sum = c * (l.map f).sum := by
  induction l with
  | nil => simp
  | cons a l ih => simp [ih, mul_add]

open Classical in
/-- the first branch -/
theorem wStep_harm1 {s : WSt n} (hI : WInv es adj r s) (hlt : s.nb < n) {q : List (Fin n)} (w : WPath adj r s r q)
    (ha : s.nb = 1) (hq : s.path = q) : E (wStep adj s) (lift (wilPhi adj H r par)) = wilPhi adj H r par s := by
  have hn : 2 ≤ n := by have := hI.1.grown.len; rw [← hI.1.nb] at this; omega
  have hne := adj_ne_nil hadj hG hn s.n0
  have hroot := mem_treeSet.1 hI.1.grown.root_mem
  have hT : treeSet s = {r} := by
    have hc := hI.1.nb
    rw [ha] at hc
    obtain ⟨x, hx⟩ := Finset.card_eq_one.1 hc.symm
    have h2 := hI.1.grown.root_mem
    rw [hx, mem_singleton] at h2
    rw [hx, h2]
  have hS : (treeSet s)ᶜ ≠ univ := by rw [hT]; intro h; have := mem_univ r; rw [← h] at this; simp at this
  have hgood : GoodW H s := by
    intro e he
    have := hI.1.grown.len
    rw [← hI.1.nb, ha] at this
    have : s.branches.flatMap pathEdges = [] := List.length_eq_zero_iff.1 (by omega)
    rw [this] at he; simp at he
  have hqn : q.Nodup := (List.nodup_cons.1 w.nodup).2
  have hqr : r ∉ q := (List.nodup_cons.1 w.nodup).1
  have hqS : ∀ v ∈ q, v ∈ (treeSet s)ᶜ := by
    intro v hv
    rw [hT, mem_compl, mem_singleton]
    rintro rfl; exact hqr hv
  have hval : ∀ n1 ∈ adj s.n0, E (wAfter (wVisit s n1) n1) (lift (wilPhi adj H r par))
      = pathSum adj (wgt1 adj r par) (treeSet s)ᶜ [] q n1
        + (wgt1 adj r par (q ++ [n1]) + if n1 = r ∧ (r :: q).IsChain (Child r par) then 1 else 0) / lapDet adj ((treeSet s)ᶜ \ q.toFinset) := by
    intro n1 hn1
    by_cases ht : s.state n1 = .tree
    · have hr1 : n1 = r := by
        have := mem_treeSet.2 ht
        rwa [hT, mem_singleton] at this
      subst hr1
      obtain ⟨e1, e2, e3, e4⟩ := w.hit hadj hloop hI.1 hn1 ht
      rw [e1, restart_E hadj hnd hloop hG hp hH e2 e4 (by omega), compl_attach, hq, wgt1_mem hadj hnd hloop hG hp hH (Or.inl rfl),
        pathSum_out hadj hnd hG _ q _ _ hS hqn hqS (by simp [hT]), zero_add, zero_add]
      congr 1
      rw [goodI]
      refine if_congr ?_ rfl rfl
      rw [goodW_attach, if_pos ha, hq]
      constructor
      · rintro ⟨-, h⟩
        exact ⟨rfl, chain_child hp q n1 h w.nodup (by simp)⟩
      · rintro ⟨-, h⟩
        refine ⟨hgood, h.imp fun a b hab => ?_⟩
        rw [← hab.2]; exact (hp.adj b hab.1).symm
    · obtain ⟨s', e1, -, e3, e4, e5, e6⟩ := w.pass hroot hn1 ht
      obtain ⟨e7, e8⟩ := pass_path w ht
      rw [e1] at e7
      have hs' : s' = wErased (wVisit s n1) n1 := by
        simpa [Dist.ret] using e7
      rw [← hs', hq] at e8
      have hnr : n1 ≠ r := by rintro rfl; exact ht hroot
      rw [e1, E_ret, lift, wilPhi, if_neg (by rw [e4]; simpa using hlt), if_pos (by rw [e4, ha]), e3, e6, e8]
      by_cases hm : n1 ∈ q
      · simp only [if_pos hm]
        rw [if_neg (by rw [← List.length_eq_zero_iff, List.length_take]; have := List.idxOf_lt_length_of_mem hm; omega),
          pathSum_take hadj hnd hG _ hS hqn hqS hm, wgt1_mem hadj hnd hloop hG hp hH (Or.inr hm), if_neg (fun h => hnr h.1)]
        simp
      · simp only [if_neg hm]
        rw [if_neg (by simp), pathSum_new hadj hnd hG _ hS, if_neg (fun h => hnr h.1), add_zero]
  rw [wStep, E_andThen, E_choiceO hne, list_sum_congr hadj hnd hloop hG hp hH hval, list_sum_add hadj hnd hloop hG hp hH,
    list_sum_div hadj hnd hloop hG hp hH, wgt1_balance hp hadj hnd hH q w.last, wilPhi, if_neg (by simpa using hlt), if_pos ha, hq]
  have hdeg : ((adj s.n0).length : ℝ) ≠ 0 := by exact_mod_cast (List.length_pos_of_ne_nil hne).ne'
  rcases List.eq_nil_or_concat q with rfl | ⟨q', x, hqx⟩
  · have hx : r = s.n0 := by simpa using w.last
    rw [if_pos rfl, wgt1, if_pos (by simp)]
    simp only [List.getLast_singleton]
    rw [cntDesc_root hp hnd]
    have e : pathSum adj (wgt1 adj r par) (treeSet s)ᶜ [] [] = fun _ => 0 := rfl
    rw [e, hx]
    simp
    field_simp
  · rw [List.concat_eq_append] at hqx
    subst hqx
    have hx : x = s.n0 := by simpa using w.last
    rw [if_neg (by simp), ← hx, pathSum_last hadj hnd hG _ q' hS (hqS x (by simp)) (by
      intro h
      exact (List.nodup_append'.1 hqn).2.2 h (by simp))]
    rw [← hx] at hdeg
    field_simp
    ring

open Classical in
/-- the other branches -/
theorem wStep_harm2 {s : WSt n} (hI : WInv es adj r s) (hcl : WCl H r par s) (hlt : s.nb < n) {h : Fin n} {q : List (Fin n)}
    (w : WPath adj r s h q) (ha : 1 < s.nb) (hq : s.path = h :: q) (hh : s.state h = .new) :
    E (wStep adj s) (lift (wilPhi adj H r par)) = wilPhi adj H r par s := by
  have hn : 2 ≤ n := by have := hI.1.grown.len; rw [← hI.1.nb] at this; omega
  have hne := adj_ne_nil hadj hG hn s.n0
  have hroot := mem_treeSet.1 hI.1.grown.root_mem
  have hS : (treeSet s)ᶜ ≠ univ := fun h => by
    have := mem_univ r
    rw [← h, mem_compl] at this
    exact this hI.1.grown.root_mem
  have hpn : s.path.Nodup := by rw [hq]; exact w.nodup
  have hpT : ∀ v ∈ s.path, v ∉ treeSet s := by
    intro v hv
    rw [mem_treeSet]
    rw [hq] at hv
    rcases List.mem_cons.1 hv with rfl | hv
    · rw [hh]; decide
    · rw [(w.marked v).2 hv]; decide
  have hpS : ∀ v ∈ s.path, v ∈ (treeSet s)ᶜ := fun v hv => mem_compl.2 (hpT v hv)
  have hpr : ∀ v ∈ s.path, v ≠ r := fun v hv e => hpT v hv (e ▸ hI.1.grown.root_mem)
  obtain ⟨p', x, hpx⟩ : ∃ p' x, s.path = p' ++ [x] := by
    rcases List.eq_nil_or_concat s.path with h0 | ⟨p', x, h0⟩
    · rw [hq] at h0; simp at h0
    · exact ⟨p', x, by rw [h0, List.concat_eq_append]⟩
  have hx : x = s.n0 := by
    have := w.last
    simp only [← hq, hpx, List.getLast_append_singleton] at this
    exact this
  have hlast : s.path.getLast (by rw [hpx]; simp) = x := by simp [hpx]
  have hpne : s.path ≠ [] := by rw [hpx]; simp
  have hval : ∀ n1 ∈ adj s.n0, E (wAfter (wVisit s n1) n1) (lift (wilPhi adj H r par))
      = goodI H s * (pathSum adj (wgt2 par) (treeSet s)ᶜ [] s.path n1
        + (if n1 = par x then wgt2 par s.path / lapDet adj ((treeSet s)ᶜ \ s.path.toFinset) else 0)) := by
    intro n1 hn1
    by_cases ht : s.state n1 = .tree
    · obtain ⟨e1, e2, e3, e4⟩ := w.hit hadj hloop hI.1 hn1 ht
      rw [e1, restart_E hadj hnd hloop hG hp hH e2 e4 (by omega), compl_attach,
        pathSum_out hadj hnd hG _ s.path _ _ hS hpn hpS (by simpa using mem_treeSet.2 ht), zero_add]
      have hg : GoodW H (wAttach s n1) ↔ GoodW H s ∧ n1 = par x ∧ s.path.IsChain (fun u v => v = par u) := by
        rw [goodW_attach, if_neg (by omega)]
        refine and_congr_right fun hgs => ?_
        rw [← hlast, ← and_comm (a := s.path.IsChain _), ← isChain_snoc hp (R := fun u v => v = par u) hpne]
        constructor
        · intro hc
          refine chain_par hp (hcl hgs) (mem_treeSet.2 ht) s.path hc ?_ hpT
          rw [List.nodup_append']
          refine ⟨hpn, by simp, ?_⟩
          intro v hv hv'
          rw [List.mem_singleton.1 hv'] at hv
          exact hpT _ hv (mem_treeSet.2 ht)
        · intro hc
          refine chain_adj hp hc ?_
          rw [List.dropLast_concat]; exact hpr
      rw [goodI, goodI, wgt2, if_congr hg rfl rfl]
      exact ite_aux1 _
    · obtain ⟨s', e1, -, e3, e4, e5, e6⟩ := w.pass hroot hn1 ht
      obtain ⟨e7, e8⟩ := pass_path w ht
      rw [e1] at e7
      have hs' : s' = wErased (wVisit s n1) n1 := by
        simpa [Dist.ret] using e7
      rw [← hs'] at e8
      have hg : goodI H s' = goodI H s := by rw [goodI, goodI, GoodW, GoodW, e5]
      rw [e1, E_ret, lift, wilPhi, if_neg (by rw [e4]; simpa using hlt), if_neg (by rw [e4]; omega), e3, e6, e8, hg]
      congr 1
      by_cases hm : n1 ∈ s.path
      · rw [if_pos hm, pathSum_take hadj hnd hG _ hS hpn hpS hm]
        by_cases h2 : n1 = par x
        · rw [if_pos h2, wgt2, if_neg, zero_div, add_zero]
          intro hc
          rw [hpx] at hc hm hpr
          exact hp.last_not_mem hc hpr (h2 ▸ hm)
        · rw [if_neg h2, add_zero]
      · rw [if_neg hm, pathSum_new hadj hnd hG _ hS]
        congr 1
        rw [wgt2, wgt2]
        have := isChain_snoc hp (R := fun u v => v = par u) hpne (y := n1)
        rw [hlast] at this
        rw [if_congr this rfl rfl]
        exact ite_aux2 _
  have hparx : par x ∈ adj s.n0 := by
    have := hH (hp.adj x (hpr x (by rw [hpx]; simp)))
    rw [← hx]
    exact (hadj _ _).2 (graphOf_adj.1 this).2
  have hsum : ((adj s.n0).map fun n1 => if n1 = par x then wgt2 par s.path / lapDet adj ((treeSet s)ᶜ \ s.path.toFinset) else 0).sum
      = wgt2 par s.path / lapDet adj ((treeSet s)ᶜ \ s.path.toFinset) := by
    rw [← List.sum_toFinset _ (hnd _), sum_ite_eq', if_pos (by simpa using hparx)]
  rw [wStep, E_andThen, E_choiceO hne, list_sum_congr hadj hnd hloop hG hp hH hval, list_sum_mul hadj hnd hloop hG hp hH,
    list_sum_add hadj hnd hloop hG hp hH, hsum, wilPhi, if_neg (by simpa using hlt), if_neg (by omega)]
  have hdeg : ((adj s.n0).length : ℝ) ≠ 0 := by exact_mod_cast (List.length_pos_of_ne_nil hne).ne'
  have hl := pathSum_last hadj hnd hG (wgt2 par) p' hS (x := x) (hpS x (by rw [hpx]; simp)) (by
      intro h
      rw [hpx] at hpn
      exact (List.nodup_append'.1 hpn).2.2 h (by simp))
  rw [← hpx, hx] at hl
  rw [hl]
  field_simp
  ring

/-- `wilPhi` is harmonic for the loop -/
theorem wStep_harm {s : WSt n} (hI : WInv es adj r s) (hcl : WCl H r par s) (hlt : s.nb < n) :
    E (wStep adj s) (lift (wilPhi adj H r par)) = wilPhi adj H r par s := by
  obtain ⟨h, q, w⟩ := hI.2 hlt
  rcases w.shape with ⟨a, e, rfl⟩ | ⟨a, e, b⟩
  · exact wStep_harm1 hadj hnd hloop hG hp hH hI hlt w a e
  · exact wStep_harm2 hadj hnd hloop hG hp hH hI hcl hlt w a e b
end

end Verif.Model
