import Verif.Lemmas.WilsonLaw
import Mathlib.Data.Fintype.List
import Mathlib.Analysis.SpecificLimits.Basic

/-! The law of Wilson's algorithm as the number of passes grows. -/

set_option linter.unusedSectionVars false

namespace Verif.Model
open Verif Verif.Spec Verif.Dist Finset Filter Topology
variable {n : ℕ} {es : List (Fin n × Fin n)} {adj : Fin n → List (Fin n)}

theorem chain_child_mem {r : Fin n} {par : Fin n → Fin n} : ∀ (l : List (Fin n)) (a : Fin n), (a :: l).IsChain (Child r par) → ∀ v ∈ l, par v ∈ a :: l
  | [], a, _, v, hv => by simp at hv
  | b :: l, a, hc, v, hv => by
    rw [List.isChain_cons_cons] at hc
    rcases List.mem_cons.1 hv with rfl | hv
    · rw [hc.1.2]; simp
    · exact List.mem_cons_of_mem _ (chain_child_mem l b hc.2 v hv)

theorem chain_par_mem {par : Fin n → Fin n} : ∀ (l : List (Fin n)) (k : Fin n), (l ++ [k]).IsChain (fun u v => v = par u) → ∀ v ∈ l, par v ∈ l ++ [k]
  | [], k, _, v, hv => by simp at hv
  | [a], k, hc, v, hv => by
    simp only [List.singleton_append, List.isChain_cons_cons, List.isChain_singleton, and_true] at hc
    rw [List.mem_singleton.1 hv, ← hc]; simp
  | a :: b :: l, k, hc, v, hv => by
    rw [List.cons_append, List.cons_append, List.isChain_cons_cons] at hc
    rcases List.mem_cons.1 hv with rfl | hv
    · rw [← hc.1]; simp
    · rw [List.cons_append]
      exact List.mem_cons_of_mem _ (chain_par_mem (b :: l) k hc.2 v hv)

section
variable (hadj : NbrsOf es adj) (hnd : ∀ v, (adj v).Nodup) (hloop : ∀ v, v ∉ adj v) (hG : (graphOf es).Connected)
  {H : SimpleGraph (Fin n)} {r : Fin n} {par : Fin n → Fin n} {dep : Fin n → ℕ} (hp : ParOf H r par dep) (hH : H ≤ graphOf es)
include hadj hnd hloop hG hp hH

theorem wCl_attach {s : WSt n} (hI : WInv es adj r s) (hcl : WCl H r par s) (hlt : s.nb < n) {n1 : Fin n} (ht : s.state n1 = .tree) :
    WCl H r par (wAttach s n1) := by
  obtain ⟨h, q, w⟩ := hI.2 hlt
  intro hg v hv hvr
  rw [goodW_attach] at hg
  rw [treeSet_attach, mem_union] at hv ⊢
  rcases hv with hv | hv
  · exact Or.inl (hcl hg.1 v hv hvr)
  rw [List.mem_toFinset] at hv
  have hn1 := mem_treeSet.2 ht
  rcases w.shape with ⟨a, e, rfl⟩ | ⟨a, e, b⟩
  · have hT : treeSet s = {h} := by
      have hc := hI.1.nb
      rw [a] at hc
      obtain ⟨x, hx⟩ := Finset.card_eq_one.1 hc.symm
      have h2 := hI.1.grown.root_mem
      rw [hx, mem_singleton] at h2
      rw [hx, h2]
    have hn : n1 = h := by rwa [hT, mem_singleton] at hn1
    rw [if_pos a, hn, e] at hg
    rw [e] at hv ⊢
    have := chain_child_mem q h (chain_child hp q h hg.2 w.nodup (by simp)) v hv
    rcases List.mem_cons.1 this with h1 | h1
    · rw [h1]; exact Or.inl hI.1.grown.root_mem
    · exact Or.inr (by simpa using h1)
  · have hpT : ∀ v ∈ s.path, v ∉ treeSet s := by
      intro v hv
      rw [mem_treeSet]
      rw [e] at hv
      rcases List.mem_cons.1 hv with rfl | hv
      · rw [b]; decide
      · rw [(w.marked v).2 hv]; decide
    rw [if_neg (by omega)] at hg
    have := chain_par_mem s.path n1 (chain_par hp (hcl hg.1) hn1 s.path hg.2 (by
      rw [List.nodup_append']
      refine ⟨by rw [e]; exact w.nodup, by simp, ?_⟩
      intro v hv hv'
      rw [List.mem_singleton.1 hv'] at hv
      exact hpT _ hv hn1) hpT) v hv
    rcases List.mem_append.1 this with h1 | h1
    · exact Or.inr (by simpa using h1)
    · rw [List.mem_singleton.1 h1]; exact Or.inl hn1

theorem wStep_cl {s : WSt n} (hI : WInv es adj r s) (hcl : WCl H r par s) (hlt : s.nb < n) {t : WSt n}
    (ho : (wStep adj s).Possible (.ok t)) : WCl H r par t := by
  obtain ⟨h, q, w⟩ := hI.2 hlt
  rcases possible_andThen.1 ho with ⟨n1, h1, h2⟩ | ⟨e, h1, h2⟩
  · rw [possible_choiceO_ok] at h1
    by_cases ht : s.state n1 = .tree
    · obtain ⟨e1, e2, -, e3⟩ := w.hit hadj hloop hI.1 h1 ht
      have hA := wCl_attach hadj hnd hloop hG hp hH hI hcl hlt ht
      rw [e1, wRestart] at h2
      split at h2
      · rw [Dist.Possible.ret_iff] at h2
        cases h2; exact hA
      · rcases possible_andThen.1 h2 with ⟨v, h3, h4⟩ | ⟨e, h3, h4⟩
        · rw [Dist.Possible.ret_iff] at h4
          cases h4; exact hA
        · cases h4
    · obtain ⟨s', e1, -, e3, e4, e5, -⟩ := w.pass (mem_treeSet.1 hI.1.grown.root_mem) h1 ht
      rw [e1, Dist.Possible.ret_iff] at h2
      cases h2
      intro hg
      rw [e3]
      exact hcl (by rw [GoodW, ← e5]; exact hg)
  · cases h2

theorem wCl_init : WCl H r par (wInit r) := by
  intro _ v hv hvr
  exfalso
  rw [mem_treeSet] at hv
  simp [wInit, hvr] at hv

/-- the state in as much as `wilPhi` sees it -/
noncomputable def phiOf (adj : Fin n → List (Fin n)) (r : Fin n) (par : Fin n → Fin n)
    (x : Bool × Bool × Bool × Finset (Fin n) × {l : List (Fin n) // l.Nodup} × Fin n) : ℝ :=
  if x.1 then (if x.2.1 then 1 else 0)
  else if x.2.2.1 then
    (if x.2.2.2.2.1.1 = [] then 1 / lapDet adj (x.2.2.2.1)ᶜ else pathSum adj (wgt1 adj r par) (x.2.2.2.1)ᶜ [] x.2.2.2.2.1.1 x.2.2.2.2.2)
  else (if x.2.1 then 1 else 0) * pathSum adj (wgt2 par) (x.2.2.2.1)ᶜ [] x.2.2.2.2.1.1 x.2.2.2.2.2

open Classical in
theorem wilPhi_bdd : ∃ B : ℝ, 0 ≤ B ∧ ∀ s : WSt n, WInv es adj r s → |wilPhi adj H r par s| ≤ B := by
  have hfin : Set.Finite (Set.range fun x => |phiOf adj r par x|) := Set.finite_range _
  obtain ⟨B, hB⟩ := hfin.bddAbove
  refine ⟨max B 0, le_max_right _ _, fun s hI => le_max_of_le_left ?_⟩
  obtain ⟨p, hpp⟩ : ∃ p : {l : List (Fin n) // l.Nodup}, s.nb < n → p.1 = s.path := by
    by_cases hlt : s.nb < n
    · obtain ⟨h, q, w⟩ := hI.2 hlt
      refine ⟨⟨s.path, ?_⟩, fun _ => rfl⟩
      rcases w.shape with ⟨-, e, -⟩ | ⟨-, e, -⟩
      · rw [e]; exact (List.nodup_cons.1 w.nodup).2
      · rw [e]; exact w.nodup
    · exact ⟨⟨[], by simp⟩, fun h => absurd h hlt⟩
  have : wilPhi adj H r par s = phiOf adj r par (decide (¬ s.nb < n), decide (GoodW H s), decide (s.nb = 1), treeSet s, p, s.n0) := by
    rw [wilPhi, phiOf]
    by_cases hlt : s.nb < n
    · simp only [decide_eq_true_eq, hpp hlt, goodI]
    · simp only [decide_eq_true_eq, goodI, if_pos hlt]
  rw [this]
  exact hB ⟨_, rfl⟩

end

/-- reward of a finished loop -/
noncomputable def finG (H : SimpleGraph (Fin n)) : Option (WSt n) → ℝ
  | some s => goodI H s
  | none => 0

noncomputable def unfO {α : Type*} : Option α → ℝ
  | some _ => 0
  | none => 1

theorem unf_eq {α : Type*} : (unf : Outcome (Option α) → ℝ) = lift unfO := by
  funext o
  rcases o with (_ | a) | e <;> simp [unf, lift, unfO]

/-- expectations are monotone on the possible outcomes -/
theorem E_mono_possible {α : Type*} {d : Dist ℝ α} (hd : Nonneg d) {f g : α → ℝ} (h : ∀ a, d.Possible a → f a ≤ g a) : d.E f ≤ d.E g := by
  induction d with
  | nil => simp
  | cons x d ih =>
    obtain ⟨b, v⟩ := x
    have hv : 0 ≤ v := hd (b, v) (by simp)
    have h3 := ih (fun a h => hd a (List.mem_cons_of_mem _ h)) (fun a ⟨w, h1, h2⟩ => h a ⟨w, List.mem_cons_of_mem _ h1, h2⟩)
    rw [E_cons, E_cons]
    have : v * f b ≤ v * g b := by
      by_cases h0 : v = 0
      · simp [h0]
      · exact mul_le_mul_of_nonneg_left (h b ⟨v, by simp, h0⟩) hv
    linarith

theorem E_sub {α : Type*} (d : Dist ℝ α) (f g : α → ℝ) : (d.E fun a => f a - g a) = d.E f - d.E g := by
  have := E_add d f (fun a => -1 * g a)
  rw [E_const_mul] at this
  simp only [sub_eq_add_neg]
  rw [show (fun a => f a + -g a) = fun a => f a + -1 * g a by funext a; ring, this]
  ring

theorem abs_E_le {α : Type*} {d : Dist ℝ α} (hd : Nonneg d) {f g : α → ℝ} (h : ∀ a, d.Possible a → |f a| ≤ g a) : |d.E f| ≤ d.E g := by
  rw [abs_le]
  constructor
  · have := E_mono_possible hd (f := fun a => -1 * g a) (g := f) fun a ha => by linarith [(abs_le.1 (h a ha)).1]
    rw [E_const_mul] at this
    linarith
  · exact E_mono_possible hd fun a ha => (le_abs_self _).trans (h a ha)

theorem wLoop_unf_antitone (s : WSt n) : Antitone fun fuel => (wLoop adj fuel s).E unf := by
  refine antitone_nat_of_succ_le fun fuel => ?_
  induction fuel generalizing s with
  | zero =>
    by_cases hlt : s.nb < n
    · rw [show wLoop adj 0 s = Dist.ret (.ok none) by rw [wLoop, if_pos hlt], E_ret]
      exact (E_le_one (wLoop_mass _ _).2 (wLoop_mass _ _).1 unf_le_one).trans (by simp [unf])
    · rw [wLoop, wLoop, if_neg hlt, if_neg hlt]
  | succ fuel ih =>
    by_cases hlt : s.nb < n
    · rw [wLoop, if_pos hlt, wLoop, if_pos hlt, unf_eq, E_andThen, E_andThen]
      refine E_mono_possible (wStep_mass s).2 ?_
      intro o _
      cases o with
      | ok t => have := ih t; rw [unf_eq] at this; exact this
      | raise e => exact le_rfl
    · rw [wLoop, wLoop, if_neg hlt, if_neg hlt]

theorem wLoop_unf_tendsto (hadj : NbrsOf es adj) (hloop : ∀ v, v ∉ adj v) (hG : (graphOf es).Connected) {r : Fin n} {s : WSt n}
    (hs : WInv es adj r s) : Tendsto (fun fuel => (wLoop adj fuel s).E unf) atTop (𝓝 0) := by
  set K := (n + 1) * (maxDist es + 3) + 1 with hK
  set ρ := 1 - epsOf adj ^ K with hρ
  have h0 : 0 ≤ ρ := by linarith [pow_le_one₀ (n := K) (epsOf_pos adj).le (epsOf_le_one adj)]
  have h1 : ρ < 1 := by linarith [pow_pos (epsOf_pos adj) K]
  have h2 : Tendsto (fun fuel => ρ ^ (fuel / K)) atTop (𝓝 0) :=
    (tendsto_pow_atTop_nhds_zero_of_lt_one h0 h1).comp (Nat.tendsto_div_const_atTop (by omega))
  refine squeeze_zero (fun fuel => E_nonneg (wLoop_mass _ _).2 unf_nonneg) (fun fuel => ?_) h2
  exact (wLoop_unf_antitone s (Nat.div_mul_le_self fuel K)).trans (wLoop_decay hadj hloop hG _ s hs)

section
variable (hadj : NbrsOf es adj) (hnd : ∀ v, (adj v).Nodup) (hloop : ∀ v, v ∉ adj v) (hG : (graphOf es).Connected)
  {H : SimpleGraph (Fin n)} {r : Fin n} {par : Fin n → Fin n} {dep : Fin n → ℕ} (hp : ParOf H r par dep) (hH : H ≤ graphOf es)
include hadj hnd hloop hG hp hH

theorem wLoop_close {B : ℝ} (hB : ∀ s : WSt n, WInv es adj r s → |wilPhi adj H r par s| ≤ B) : ∀ (fuel : ℕ) (s : WSt n), WInv es adj r s → WCl H r par s →
    |(wLoop adj fuel s).E (lift (finG H)) - wilPhi adj H r par s| ≤ B * (wLoop adj fuel s).E unf := by
  intro fuel
  induction fuel with
  | zero =>
    intro s hI hcl
    by_cases hlt : s.nb < n
    · rw [wLoop, if_pos hlt, E_ret, E_ret]
      simpa [lift, finG, unf] using hB s hI
    · rw [wLoop, if_neg hlt, E_ret, E_ret, wilPhi, if_pos hlt]
      simp [lift, finG, unf]
  | succ fuel ih =>
    intro s hI hcl
    by_cases hlt : s.nb < n
    · have hn : 2 ≤ n := by have := hI.1.grown.len; rw [← hI.1.nb] at this; omega
      rw [wLoop, if_pos hlt, E_andThen, ← wStep_harm hadj hnd hloop hG hp hH hI hcl hlt, ← E_sub, unf_eq, E_andThen, ← E_const_mul]
      refine abs_E_le (wStep_mass s).2 ?_
      intro o ho
      obtain ⟨t, rfl, ht⟩ := wStep_possible hadj hloop (adj_ne_nil hadj hG hn _) hI hlt ho
      have := ih t ht (wStep_cl hadj hnd hloop hG hp hH hI hcl hlt ho)
      rw [unf_eq] at this
      exact this
    · rw [wLoop, if_neg hlt, E_ret, E_ret, wilPhi, if_pos hlt]
      simp [lift, finG, unf]

theorem wilPhi_init : wilPhi adj H r par (wInit r) = 1 / lapDet adj {r}ᶜ := by
  have hT : treeSet (wInit r) = {r} := by
    ext v
    rw [mem_treeSet, Finset.mem_singleton]
    by_cases h : v = r <;> simp [wInit, h]
  rw [wilPhi]
  split
  · rename_i h
    have hn : n ≤ 1 := by simpa [wInit] using h
    have hS : ({r} : Finset (Fin n))ᶜ = ∅ := by
      rw [compl_eq_empty_iff]
      ext v
      have := v.2; have := r.2
      simp only [mem_singleton, mem_univ, iff_true]
      exact Fin.ext (by omega)
    have hD : lapDet adj (∅ : Finset (Fin n)) = 1 := by
      have : lapS adj (∅ : Finset (Fin n)) = 1 := by
        ext i j; simp [lapS, Matrix.one_apply]
      rw [lapDet, this, Matrix.det_one]
    rw [hS, hD, goodI, if_pos]
    · simp
    · intro e he; simp [wInit] at he
  · rw [if_pos (show (wInit r).nb = 1 from rfl), if_pos (show (wInit r).path = [] from rfl), hT]

theorem wLoop_tendsto : Tendsto (fun fuel => (wLoop adj fuel (wInit r)).E (lift (finG H))) atTop (𝓝 (1 / lapDet adj {r}ᶜ)) := by
  obtain ⟨B, hB0, hB⟩ := wilPhi_bdd hadj hnd hloop hG hp hH
  have hI := WInv.init es adj r
  have h1 : Tendsto (fun fuel => B * (wLoop adj fuel (wInit r)).E unf) atTop (𝓝 0) := by
    simpa using (wLoop_unf_tendsto hadj hloop hG hI).const_mul B
  have h2 := squeeze_zero (fun fuel => abs_nonneg _)
    (fun fuel => wLoop_close hadj hnd hloop hG hp hH hB fuel _ hI (wCl_init hadj hnd hloop hG hp hH)) h1
  replace h2 := (tendsto_zero_iff_abs_tendsto_zero _).2 h2
  have h3 := h2.add_const (wilPhi adj H r par (wInit r))
  simp only [sub_add_cancel, zero_add] at h3
  rwa [wilPhi_init hadj hnd hloop hG hp hH] at h3
end

/-- two trees, one within the other -/
theorem tree_eq_of_le {H H' : SimpleGraph (Fin n)} (h : H.IsTree) (h' : H'.IsTree) (hle : H ≤ H') : H = H' := by
  classical
  refine le_antisymm hle ?_
  have h1 := h.card_edgeFinset
  have h2 := h'.card_edgeFinset
  have h3 : H.edgeFinset ⊆ H'.edgeFinset := SimpleGraph.edgeFinset_subset_edgeFinset.2 hle
  have h4 := Finset.eq_of_subset_of_card_le h3 (by omega)
  exact SimpleGraph.edgeFinset_subset_edgeFinset.1 h4.ge

theorem goodW_iff (hadj : NbrsOf es adj) (hloop : ∀ v, v ∉ adj v) {s : WSt n} {r : Fin n} (hc : WCore es r s) (hn : n ≤ s.nb) {H : SimpleGraph (Fin n)} (hH : H.IsTree) :
    GoodW H s ↔ graphOf (s.branches.flatMap pathEdges) = H := by
  have hle : (treeSet s).card ≤ n := (Finset.card_le_univ _).trans (by simp)
  have ht := (hc.grown.spanning (by rw [← hc.nb] at hle ⊢; omega)).2.2
  constructor
  · intro hg
    refine tree_eq_of_le ht hH ?_
    intro a b hab
    rw [graphOf_adj] at hab
    rcases hab.2 with h | h
    · exact hg _ h
    · exact (hg _ h).symm
  · rintro rfl e he
    refine graphOf_adj.2 ⟨fun h => ?_, Or.inl he⟩
    have h1 := (hadj e.1 e.2).2 (hc.grown.sub e he)
    rw [← h] at h1
    exact hloop _ h1

section
variable (hadj : NbrsOf es adj) (hnd : ∀ v, (adj v).Nodup) (hloop : ∀ v, v ∉ adj v) (hG : (graphOf es).Connected)
include hadj hnd hloop hG

open Classical in
/-- reward of an outcome that is the tree `H` -/
noncomputable def isT (H : SimpleGraph (Fin n)) : Option (List (Fin n × Fin n)) → ℝ
  | some t => if graphOf t = H then 1 else 0
  | none => 0

open Classical in
theorem finG_isT {H : SimpleGraph (Fin n)} (hH : H.IsTree) (r : Fin n) (fuel : ℕ) :
    (wLoop adj fuel (wInit r)).E (lift (finG H))
      = ((wLoop adj fuel (wInit r)).map (Outcome.map (Option.map fun s => s.branches.flatMap pathEdges))).E (lift (isT H)) := by
  rw [E_map]
  refine Dist.E_congr_possible fun o ho => ?_
  rcases wLoop_possible hadj hloop (fun h v => adj_ne_nil hadj hG h v) fuel _ (WInv.init es adj r) o ho with rfl | ⟨s, rfl, h1, h2⟩
  · rfl
  · simp only [lift, finG, Outcome.map, Option.map, isT, goodI]
    exact if_congr (goodW_iff hadj hloop h1 h2 hH) rfl rfl

open Classical in
theorem sum_finG (r : Fin n) (fuel : ℕ) :
    (∑ H : {H : SimpleGraph (Fin n) // H ≤ graphOf es ∧ H.IsTree}, (wLoop adj fuel (wInit r)).E (lift (finG H.1)))
      + (wLoop adj fuel (wInit r)).E unf = 1 := by
  have hs : ∀ (d : Dist ℝ (Outcome (Option (WSt n)))) (S : Finset {H : SimpleGraph (Fin n) // H ≤ graphOf es ∧ H.IsTree}),
      (∑ H ∈ S, d.E (lift (finG H.1))) = d.E fun o => ∑ H ∈ S, lift (finG H.1) o := by
    intro d S
    induction S using Finset.induction_on with
    | empty => simp
    | insert a S ha ih => simp only [Finset.sum_insert ha, ih, E_add]
  rw [hs, ← E_add, ← (wLoop_mass fuel (wInit r)).1, mass]
  refine Dist.E_congr_possible fun o ho => ?_
  rcases wLoop_possible hadj hloop (fun h v => adj_ne_nil hadj hG h v) fuel _ (WInv.init es adj r) o ho with rfl | ⟨s, rfl, h1, h2⟩
  · simp [lift, finG, unf]
  · have hle : (treeSet s).card ≤ n := (Finset.card_le_univ _).trans (by simp)
    have ht := h1.grown.spanning (by have := h1.nb; omega)
    let H0 : {H : SimpleGraph (Fin n) // H ≤ graphOf es ∧ H.IsTree} := ⟨graphOf (s.branches.flatMap pathEdges), by
      refine ⟨?_, ht.2.2⟩
      intro a b hab
      rw [graphOf_adj] at hab ⊢
      refine ⟨hab.1, ?_⟩
      rcases hab.2 with h | h
      · exact ht.1 _ h
      · exact (ht.1 _ h).symm⟩
    rw [Finset.sum_eq_single H0]
    · simp only [lift, finG, goodI]
      rw [if_pos ((goodW_iff hadj hloop h1 h2 H0.2.2).2 rfl)]
      simp [unf]
    · intro H _ hne
      simp only [lift, finG, goodI]
      rw [if_neg]
      intro hg
      exact hne (Subtype.ext ((goodW_iff hadj hloop h1 h2 H.2.2).1 hg).symm)
    · simp

/-- Kirchhoff: the number of spanning trees -/
theorem lapDet_eq_card (r : Fin n) : lapDet adj {r}ᶜ = (Nat.card {H : SimpleGraph (Fin n) // H ≤ graphOf es ∧ H.IsTree} : ℝ) := by
  classical
  have h1 : Tendsto (fun fuel => (∑ H : {H : SimpleGraph (Fin n) // H ≤ graphOf es ∧ H.IsTree}, (wLoop adj fuel (wInit r)).E (lift (finG H.1)))
      + (wLoop adj fuel (wInit r)).E unf) atTop (𝓝 ((∑ H : {H : SimpleGraph (Fin n) // H ≤ graphOf es ∧ H.IsTree}, 1 / lapDet adj {r}ᶜ) + 0)) := by
    refine Tendsto.add (tendsto_finsetSum _ fun H _ => ?_) (wLoop_unf_tendsto hadj hloop hG (WInv.init es adj r))
    obtain ⟨par, dep, hp⟩ := exists_parOf H.2.2 r
    exact wLoop_tendsto hadj hnd hloop hG hp H.2.1
  simp only [sum_finG hadj hnd hloop hG] at h1
  have h2 := tendsto_nhds_unique h1 tendsto_const_nhds
  have hS : ({r} : Finset (Fin n))ᶜ ≠ univ := by
    intro h; have := mem_univ r; rw [← h] at this; simp at this
  have hne := lapDet_ne_zero hadj hnd hG hS
  rw [Finset.sum_const, add_zero, nsmul_eq_mul, Finset.card_univ] at h2
  rw [Nat.card_eq_fintype_card]
  field_simp at h2
  linarith
end

end Verif.Model
