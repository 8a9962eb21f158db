import Verif.Lemmas.MatrixTree
import Verif.Props.Spectral
import Verif.Props.Projection

/-! Law of the spectral samplers of spanning trees. -/

set_option linter.unusedSectionVars false

namespace Verif.Spec
open Classical in
/-- The spanning trees of the graph with edges `es`, as sets of edges. -/
noncomputable def spanningTrees {n : ℕ} (es : List (Fin n × Fin n)) : Finset (Finset (Fin n × Fin n)) :=
  es.toFinset.powerset.filter fun T => IsSpanningTree es T.toList
end Verif.Spec

namespace Verif.Model
open Verif Verif.Spec Verif.Props Matrix

variable {d : ℕ} (G : NxGraph (d + 1))

/-- rows of the reduced incidence matrix -/
def incRows : Fin d → Fin G.edges.length → ℝ := fun k e => incEntry (G.edges.get e) k.castSucc

theorem incRows_independent (hG : (graphOf G.edges).Connected) : LinearIndependent ℝ (incRows G) := by
  refine inc_rows_independent (E := G.edges.get) ?_
  rw [List.ofFn_get]; exact hG

variable {G}

theorem ust_orth (hG : (graphOf G.edges).Connected) {qr : QR G.edges.length} (hqr : QRSpec qr) :
    (∀ k l : Fin d, ∑ i, ustEigVecs G qr i k * ustEigVecs G qr i l = if k = l then 1 else 0) ∧
      ker (fun i k => ustEigVecs G qr i k) (fun _ => 1) = rowProj (incRows G) :=
  qr_rowProj hqr (incRows G) (incRows_independent G hG)

theorem ust_orth' (hG : (graphOf G.edges).Connected) {qr : QR G.edges.length} (hqr : QRSpec qr) :
    (ustEigVecs G qr)ᵀ * ustEigVecs G qr = 1 := by
  ext k l
  rw [Matrix.mul_apply, Matrix.one_apply]
  exact (ust_orth hG hqr).1 k l

theorem ustKernel_eq_ker (qr : QR G.edges.length) :
    ustKernel G qr = ker (fun i k => ustEigVecs G qr i k) (fun _ => (1 : ℝ)) := by
  ext i j
  simp [ustKernel, ker, Matrix.mul_apply]

theorem ustKernel_rowProj (hG : (graphOf G.edges).Connected) {qr : QR G.edges.length} (hqr : QRSpec qr) :
    ustKernel G qr = rowProj (incRows G) := by
  rw [ustKernel_eq_ker]; exact (ust_orth hG hqr).2

theorem graphOf_congr {n : ℕ} {t t' : List (Fin n × Fin n)} (h : ∀ e, e ∈ t ↔ e ∈ t') : graphOf t = graphOf t' :=
  le_antisymm (graphOf_mono fun e he => (h e).1 he) (graphOf_mono fun e he => (h e).2 he)

/-- the normalising constant -/
noncomputable def ustC (G : NxGraph (d + 1)) : ℝ := ((Matrix.of (incRows G) * (Matrix.of (incRows G))ᵀ)⁻¹).det

/-- the edges numbered by `S` -/
noncomputable def edgesAt (G : NxGraph (d + 1)) (S : Finset (Fin G.edges.length)) : List (Fin (d + 1) × Fin (d + 1)) :=
  S.toList.map G.edges.get

open Classical in
theorem minor_tree {S : Finset (Fin G.edges.length)} (hS : S.card = d) :
    minor (rowProj (incRows G)) S = if (graphOf (edgesAt G S)).Connected then ustC G else 0 := by
  have f : Fin d ≃ S := (finCongr hS.symm).trans S.equivFin.symm
  have hg : graphOf (edgesAt G S) = graphOf (edgesOf fun j => G.edges.get (f j)) := by
    apply graphOf_congr
    intro e
    simp only [edgesAt, edgesOf, List.mem_map, Finset.mem_toList, List.mem_ofFn]
    constructor
    · rintro ⟨a, ha, rfl⟩
      exact ⟨f.symm ⟨a, ha⟩, by simp⟩
    · rintro ⟨j, rfl⟩
      exact ⟨f j, (f j).2, rfl⟩
  have hdet : (Matrix.of fun k j => incRows G k (f j)).det = (((blockZ fun j => G.edges.get (f j)).det : ℤ) : ℝ) := by
    rw [show (((blockZ fun j => G.edges.get (f j)).det : ℤ) : ℝ)
      = (Int.castRingHom ℝ) (blockZ fun j => G.edges.get (f j)).det from rfl, RingHom.map_det]
    congr 1
    ext k j
    simp [incRows, blockZ, incEntry_cast]
  rw [minor_rowProj _ S f, hdet, hg]
  split
  · rename_i h
    have := det_block_connected h
    rw [← Int.cast_pow, this]
    simp [ustC]
  · rename_i h
    rw [det_block_not_connected h]
    simp

theorem edgesAt_length (S : Finset (Fin G.edges.length)) : (edgesAt G S).length = S.card := by
  simp [edgesAt]

theorem spanning_edgesAt {S : Finset (Fin G.edges.length)} (hS : S.card = d) :
    IsSpanningTree G.edges (edgesAt G S) ↔ (graphOf (edgesAt G S)).Connected := by
  have hl : (edgesAt G S).length + 1 = d + 1 := by rw [edgesAt_length, hS]
  constructor
  · intro h; exact h.2.2.connected
  · intro h
    refine ⟨fun e he => Or.inl ?_, hl, isTree_of_connected h hl⟩
    simp only [edgesAt, List.mem_map] at he
    obtain ⟨a, -, rfl⟩ := he
    exact List.get_mem _ _

/-- being a spanning tree depends on the set of edges only, for lists without repetition -/
theorem isSpanningTree_congr {n : ℕ} {es t t' : List (Fin n × Fin n)} (h : ∀ e, e ∈ t ↔ e ∈ t')
    (hl : t.length = t'.length) : IsSpanningTree es t ↔ IsSpanningTree es t' := by
  unfold IsSpanningTree
  rw [graphOf_congr h, hl]
  simp only [h]

open Classical in
/-- number of spanning trees times the constant -/
theorem card_mul_ustC (hnd : G.edges.Nodup) (hG : (graphOf G.edges).Connected) :
    ((spanningTrees G.edges).card : ℝ) * ustC G = 1 := by
  obtain ⟨qr, hqr⟩ := exists_QRSpec G.edges.length
  have hU : OrthOn (fun i (k : Fin d) => ustEigVecs G qr i k) (fun _ => (1 : ℝ)) := fun a b _ _ => (ust_orth hG hqr).1 a b
  have h1 := sum_minor_eq_esp _ (fun _ : Fin d => (1 : ℝ)) hU d
  have h2 : (∑ J ∈ (Finset.univ : Finset (Fin d)).powersetCard d, ∏ a ∈ J, (1 : ℝ)) = 1 := by
    simp
  rw [h2] at h1
  refine Eq.trans ?_ (Eq.trans (Finset.sum_congr rfl fun S _ =>
    congrArg (minor · S) (ust_orth hG hqr).2.symm) h1)
  have h3 : ∑ S ∈ (Finset.univ : Finset (Fin G.edges.length)).powersetCard d, minor (rowProj (incRows G)) S
      = ∑ S ∈ (Finset.univ : Finset (Fin G.edges.length)).powersetCard d,
        if (graphOf (edgesAt G S)).Connected then ustC G else 0 :=
    Finset.sum_congr rfl fun S hS => minor_tree (Finset.mem_powersetCard.1 hS).2
  rw [h3, ← Finset.sum_filter, Finset.sum_const, nsmul_eq_mul]
  congr 2
  have hinj : Function.Injective G.edges.get := List.nodup_iff_injective_get.1 hnd
  symm
  refine Finset.card_bij (fun S _ => S.map ⟨G.edges.get, hinj⟩) ?_ ?_ ?_
  · intro S hS
    obtain ⟨hS, hc⟩ := Finset.mem_filter.1 hS
    have hcard := (Finset.mem_powersetCard.1 hS).2
    rw [spanningTrees, Finset.mem_filter, Finset.mem_powerset]
    constructor
    · intro e he
      obtain ⟨a, -, rfl⟩ := Finset.mem_map.1 he
      simp
    · refine (isSpanningTree_congr (t := edgesAt G S) ?_ ?_).1 ((spanning_edgesAt hcard).2 hc)
      · intro e; simp [edgesAt]
      · simp [edgesAt]
  · intro S _ S' _ h
    exact Finset.map_injective _ h
  · intro T hT
    rw [spanningTrees, Finset.mem_filter, Finset.mem_powerset] at hT
    obtain ⟨hsub, htree⟩ := hT
    have hTm : (Finset.univ.filter fun a => G.edges.get a ∈ T).map ⟨G.edges.get, hinj⟩ = T := by
      ext e
      simp only [Finset.mem_map, Finset.mem_filter, Finset.mem_univ, true_and, Function.Embedding.coeFn_mk]
      constructor
      · rintro ⟨a, ha, rfl⟩; exact ha
      · intro he
        obtain ⟨a, rfl⟩ := List.mem_iff_get.1 (List.mem_toFinset.1 (hsub he))
        exact ⟨a, he, rfl⟩
    have hcard : (Finset.univ.filter fun a => G.edges.get a ∈ T).card = d := by
      have h4 : T.card = d := by have := htree.2.1; rw [Finset.length_toList] at this; omega
      refine Eq.trans ?_ h4
      conv_rhs => rw [← hTm]
      rw [Finset.card_map]
    refine ⟨Finset.univ.filter fun a => G.edges.get a ∈ T, ?_, hTm⟩
    rw [Finset.mem_filter, Finset.mem_powersetCard]
    refine ⟨⟨Finset.subset_univ _, hcard⟩, (spanning_edgesAt hcard).1 ?_⟩
    refine (isSpanningTree_congr ?_ ?_).1 htree
    · intro e
      conv_lhs => rw [← hTm]
      simp [edgesAt]
    · rw [edgesAt_length, hcard]; have := htree.2.1; omega

end Verif.Model
