import Verif.Lemmas.GaussMat
import Verif.Spec.Ensemble
import Mathlib.Data.List.GetD
import Mathlib.MeasureTheory.Constructions.BorelSpace.Order
import Mathlib.LinearAlgebra.Matrix.Charpoly.Coeff

/-!
# From characteristic polynomials to the law of the sorted eigenvalues; entries of the sampled matrices
-/

namespace Verif.Lemmas
open Finset Matrix MeasureTheory ProbabilityTheory Verif.Model Verif.Spec

local notation "g₀" => gaussianReal 0 1

/-! ### Sorted vectors -/

/-- values at the integers of the monic polynomial with given roots -/
noncomputable def prodT {N : ℕ} (l : Fin N → ℝ) (t : ℕ) : ℝ := ∏ i, ((t : ℝ) - l i)

theorem prodT_inj {N : ℕ} {l l' : Fin N → ℝ} (h : Monotone l) (h' : Monotone l') (e : prodT l = prodT l') : l = l' := by
  have hp : ∏ i, (Polynomial.X - Polynomial.C (l i)) = ∏ i, (Polynomial.X - Polynomial.C (l' i)) := by
    refine Polynomial.eq_of_infinite_eval_eq _ _ (Set.Infinite.mono (s := Set.range fun t : ℕ => (t : ℝ)) ?_
      (Set.infinite_range_of_injective Nat.cast_injective))
    rintro _ ⟨t, rfl⟩
    have := congrFun e t
    simp only [prodT] at this
    simp only [Set.mem_setOf_eq, Polynomial.eval_prod, Polynomial.eval_sub, Polynomial.eval_X, Polynomial.eval_C]
    exact this
  have hr : ∀ f : Fin N → ℝ, (∏ i, (Polynomial.X - Polynomial.C (f i))).roots = ((List.ofFn f : List ℝ) : Multiset ℝ) := fun f => by
    have : ∏ i, (Polynomial.X - Polynomial.C (f i)) = (Multiset.map (fun x => Polynomial.X - Polynomial.C x) ((List.ofFn f : List ℝ) : Multiset ℝ)).prod := by
      rw [Multiset.map_coe, Multiset.prod_coe, List.map_ofFn, List.prod_ofFn]; rfl
    rw [this, Polynomial.roots_multiset_prod_X_sub_C]
  have h2 := congrArg Polynomial.roots hp
  rw [hr, hr] at h2
  have h3 := (Multiset.coe_eq_coe.1 h2).eq_of_pairwise' (by rw [List.pairwise_ofFn]; exact fun i j hij => h hij.le)
    (by rw [List.pairwise_ofFn]; exact fun i j hij => h' hij.le)
  exact List.ofFn_injective h3

theorem measurableSet_mono (N : ℕ) : MeasurableSet {l : Fin N → ℝ | Monotone l} := by
  have : {l : Fin N → ℝ | Monotone l} = ⋂ i, ⋂ j, ⋂ _ : i ≤ j, {l | l i ≤ l j} := by
    ext l; simp [Monotone]
  rw [this]
  exact MeasurableSet.iInter fun i => MeasurableSet.iInter fun j => MeasurableSet.iInter fun _ =>
    measurableSet_le (measurable_pi_apply i) (measurable_pi_apply j)

theorem measurable_prodT {N : ℕ} : Measurable (prodT (N := N)) := by
  refine measurable_pi_lambda _ fun t => ?_
  simp only [prodT]
  fun_prop

theorem embedding_prodT (N : ℕ) : MeasurableEmbedding fun l : {l : Fin N → ℝ // Monotone l} => prodT l.1 := by
  have : StandardBorelSpace {l : Fin N → ℝ // Monotone l} := (measurableSet_mono N).standardBorel
  exact Measurable.measurableEmbedding (measurable_prodT.comp measurable_subtype_coe)
    fun a b h => Subtype.ext (prodT_inj a.2 b.2 h)

/-- a sorted vector whose monic polynomial is measurable is measurable -/
theorem measurable_sorted {X : Type} [MeasurableSpace X] {N : ℕ} {e : X → Fin N → ℝ} (he : ∀ x, Monotone (e x))
    (hm : Measurable fun x => prodT (e x)) : Measurable e := by
  have h : Measurable fun x => (⟨e x, he x⟩ : {l : Fin N → ℝ // Monotone l}) :=
    (embedding_prodT N).measurable_comp_iff.1 hm
  exact measurable_subtype_coe.comp h

/-- the law of a sorted vector is determined by the law of its monic polynomial -/
theorem sorted_law {X Y : Type} [MeasurableSpace X] [MeasurableSpace Y] {μ : Measure X} {ν : Measure Y} {N : ℕ} {e : X → Fin N → ℝ}
    {e' : Y → Fin N → ℝ} (he : ∀ x, Monotone (e x)) (he' : ∀ y, Monotone (e' y)) (hm : Measurable fun x => prodT (e x))
    (hm' : Measurable fun y => prodT (e' y)) (h : μ.map (fun x => prodT (e x)) = ν.map fun y => prodT (e' y)) :
    μ.map e = ν.map e' := by
  have hE := embedding_prodT N
  set s : X → {l : Fin N → ℝ // Monotone l} := fun x => ⟨e x, he x⟩ with hs
  set s' : Y → {l : Fin N → ℝ // Monotone l} := fun y => ⟨e' y, he' y⟩ with hs'
  have h1 : Measurable s := hE.measurable_comp_iff.1 hm
  have h1' : Measurable s' := hE.measurable_comp_iff.1 hm'
  have h2 : μ.map s = ν.map s' := by
    have h3 : (μ.map s).map (fun l => prodT l.1) = (ν.map s').map fun l => prodT l.1 := by
      rw [Measure.map_map hE.measurable h1, Measure.map_map hE.measurable h1']
      exact h
    rw [← hE.comap_map (μ.map s), h3, hE.comap_map]
  have h4 := congrArg (Measure.map (Subtype.val : {l : Fin N → ℝ // Monotone l} → Fin N → ℝ)) h2
  rw [Measure.map_map measurable_subtype_coe h1, Measure.map_map measurable_subtype_coe h1'] at h4
  exact h4

/-! ### Eigenvalues returned by the solver -/

theorem eig_length {la : LA} (hla : LAOK la) {N : ℕ} {A : Matrix (Fin N) (Fin N) ℂ} (hA : A.IsHermitian) : (la.eigvalsh A).length = N := by
  have h := congrArg Polynomial.natDegree (hla.eigvalsh_char A hA)
  rw [Matrix.charpoly_natDegree_eq_dim, Fintype.card_fin] at h
  refine Eq.trans ?_ h
  have e : ((la.eigvalsh A).map fun x : ℝ => (Polynomial.X - Polynomial.C (x : ℂ) : Polynomial ℂ))
      = ((la.eigvalsh A).map (fun x : ℝ => (x : ℂ))).map fun z : ℂ => (Polynomial.X - Polynomial.C z : Polynomial ℂ) := by
    rw [List.map_map]; rfl
  rw [e, ← Multiset.prod_coe, ← Multiset.map_coe, Polynomial.natDegree_multiset_prod_X_sub_C_eq_card]
  simp

theorem toVec_mono {N : ℕ} {l : List ℝ} (hl : l.length = N) (hs : l.Pairwise (· ≤ ·)) : Monotone (toVec N l) := by
  intro i j hij
  have hi : (i : ℕ) < l.length := by rw [hl]; exact i.2
  have hj : (j : ℕ) < l.length := by rw [hl]; exact j.2
  rw [toVec, toVec, List.getD_eq_getElem _ _ hi, List.getD_eq_getElem _ _ hj]
  rcases eq_or_lt_of_le hij with h | h
  · subst h; exact le_rfl
  · exact List.pairwise_iff_getElem.1 hs _ _ hi hj h

theorem prod_toVec {N : ℕ} {l : List ℝ} (hl : l.length = N) (f : ℝ → ℝ) : ∏ i, f (toVec N l i) = (l.map f).prod := by
  subst hl
  rw [← List.prod_ofFn]
  congr 1
  refine List.ext_getElem (by simp) fun i h1 h2 => ?_
  simp only [List.getElem_ofFn, List.getElem_map, toVec]
  rw [List.getD_eq_getElem _ _ (by simpa using h1)]

theorem eig_prod {la : LA} (hla : LAOK la) {N : ℕ} {A : Matrix (Fin N) (Fin N) ℂ} (hA : A.IsHermitian) (t : ℝ) :
    ∏ i, (t - toVec N (la.eigvalsh A) i) = (((t : ℂ) • (1 : Matrix (Fin N) (Fin N) ℂ) - A).det).re := by
  rw [prod_toVec (eig_length hla hA)]
  have h := congrArg (Polynomial.eval (t : ℂ)) (hla.eigvalsh_char A hA)
  rw [Matrix.eval_charpoly, Polynomial.eval_list_prod, List.map_map] at h
  have e : (Matrix.scalar (Fin N)) (t : ℂ) - A = (t : ℂ) • (1 : Matrix (Fin N) (Fin N) ℂ) - A := by
    rw [Matrix.scalar_apply, ← Matrix.smul_one_eq_diagonal]
  rw [e] at h
  rw [← h]
  have e2 : (Polynomial.eval (t : ℂ) ∘ fun x : ℝ => (Polynomial.X - Polynomial.C (x : ℂ) : Polynomial ℂ)) = fun x : ℝ => (((t - x : ℝ)) : ℂ) := by
    funext x; simp
  rw [e2]
  have : (List.map (fun x : ℝ => ((t - x : ℝ) : ℂ)) (la.eigvalsh A)).prod = (((la.eigvalsh A).map fun x => t - x).prod : ℝ) := by
    rw [← Complex.ofRealHom_eq_coe, map_list_prod, List.map_map]; rfl
  rw [this, Complex.ofReal_re]

/-! ### Entries of the sampled matrices -/

theorem pi_reindex {ι κ α : Type} [Fintype ι] [Fintype κ] [MeasurableSpace α] (γ : Measure α) [IsProbabilityMeasure γ] (e : ι ≃ κ) :
    (Measure.pi fun _ : κ => γ).map (fun x i => x (e i)) = Measure.pi fun _ : ι => γ := by
  symm
  refine Measure.pi_eq fun s hs => ?_
  rw [Measure.map_apply (by fun_prop) (MeasurableSet.univ_pi hs)]
  have : (fun (x : κ → α) i => x (e i)) ⁻¹' (Set.pi Set.univ s) = Set.pi Set.univ fun k => s (e.symm k) := by
    ext x
    simp only [Set.mem_preimage, Set.mem_pi, Set.mem_univ, true_implies]
    exact ⟨fun h k => by simpa using h (e.symm k), fun h i => by simpa using h (e i)⟩
  rw [this, Measure.pi_pi, ← Equiv.prod_comp e]
  exact prod_congr rfl fun i _ => by simp

/-- position of an entry in the vector of draws -/
theorem vget_prod {n m : ℕ} (x : Fin (n * m) → ℝ) (p : Fin n × Fin m) : vget x (p.1 * m + p.2) = x (finProdFinEquiv p) := by
  have h : (p.1 : ℕ) * m + p.2 = ((finProdFinEquiv p : Fin (n * m)) : ℕ) := by
    rw [finProdFinEquiv_apply_val]; ring
  rw [vget, dif_pos (by rw [h]; exact (finProdFinEquiv p).2)]
  congr 1
  exact Fin.ext h

theorem law_asMat (n m : ℕ) : (Measure.pi fun _ : Fin (n * m) => g₀).map (fun x => unmat (asMat n m x)) = Measure.pi fun _ : Fin n × Fin m => gam1 := by
  have := prob_gam1
  have h : ∀ _ : Fin n × Fin m, SigmaFinite ((g₀).map (fun x : ℝ => (x : ℂ))) := fun _ => (inferInstance : SigmaFinite gam1)
  have h2 := Measure.pi_map_pi (μ := fun _ : Fin n × Fin m => g₀) (f := fun _ x => ((x : ℝ) : ℂ)) (fun _ => by fun_prop)
  rw [← pi_reindex g₀ finProdFinEquiv, Measure.map_map (by fun_prop) (by fun_prop)] at h2
  refine Eq.trans ?_ h2
  congr 1
  funext x p
  simp only [unmat, asMat, Matrix.of_apply, Function.comp_apply]
  rw [vget_prod x p]

theorem measurable_asMat (n m : ℕ) : Measurable fun x => unmat (asMat n m x) := by
  have : (fun x => unmat (asMat n m x)) = fun x p => ((x (finProdFinEquiv p) : ℝ) : ℂ) := by
    funext x p
    simp only [unmat, asMat, Matrix.of_apply]
    rw [vget_prod x p]
  rw [this]
  fun_prop

theorem measurable_cplxMat (n m : ℕ) : Measurable fun z : (Fin (n * m) → ℝ) × (Fin (n * m) → ℝ) => unmat (cplxMat n m z.1 z.2) := by
  have : (fun z : (Fin (n * m) → ℝ) × (Fin (n * m) → ℝ) => unmat (cplxMat n m z.1 z.2))
      = fun z p => unmat (asMat n m z.1) p + Complex.I * unmat (asMat n m z.2) p := by
    funext z p
    simp [unmat, cplxMat]
  rw [this]
  have h := measurable_asMat n m
  refine measurable_pi_lambda _ fun p => ?_
  have h1 : Measurable fun z : (Fin (n * m) → ℝ) × (Fin (n * m) → ℝ) => unmat (asMat n m z.1) p := (measurable_pi_apply p).comp (h.comp measurable_fst)
  have h2 : Measurable fun z : (Fin (n * m) → ℝ) × (Fin (n * m) → ℝ) => unmat (asMat n m z.2) p := (measurable_pi_apply p).comp (h.comp measurable_snd)
  exact h1.add (h2.const_mul _)

theorem law_cplxMat (n m : ℕ) : ((Measure.pi fun _ : Fin (n * m) => g₀).prod (Measure.pi fun _ : Fin (n * m) => g₀)).map
    (fun z => unmat (cplxMat n m z.1 z.2)) = Measure.pi fun _ : Fin n × Fin m => gam2 := by
  have := prob_gam2
  have hg : ((g₀).prod g₀).map (fun p : ℝ × ℝ => (⟨p.1, p.2⟩ : ℂ)) = gam2 := by
    have h := measurePreserving_finTwoArrow g₀
    rw [← h.map_eq, Measure.map_map _ h.measurable]
    · rfl
    · have : (fun p : ℝ × ℝ => (⟨p.1, p.2⟩ : ℂ)) = fun p => ((p.1 : ℝ) : ℂ) + ((p.2 : ℝ) : ℂ) * Complex.I := by
        funext z; exact Complex.mk_eq_add_mul_I _ _
      rw [this]; fun_prop
  have hmk : Measurable fun p : ℝ × ℝ => (⟨p.1, p.2⟩ : ℂ) := by
    have : (fun p : ℝ × ℝ => (⟨p.1, p.2⟩ : ℂ)) = fun p => ((p.1 : ℝ) : ℂ) + ((p.2 : ℝ) : ℂ) * Complex.I := by
      funext z; exact Complex.mk_eq_add_mul_I _ _
    rw [this]; fun_prop
  have h1 := pi_pair (ι := Fin (n * m)) (γ := g₀) (γ' := gam2) (fun _ p => (⟨p.1, p.2⟩ : ℂ)) (fun _ => hmk) (fun _ => hg)
  have h3 : Measurable fun (p : (Fin (n * m) → ℝ) × (Fin (n * m) → ℝ)) i => (⟨(p.1 i, p.2 i).1, (p.1 i, p.2 i).2⟩ : ℂ) :=
    measurable_pi_lambda _ fun i => hmk.comp (f := fun p : (Fin (n * m) → ℝ) × (Fin (n * m) → ℝ) => (p.1 i, p.2 i)) (by fun_prop)
  rw [← pi_reindex gam2 finProdFinEquiv, ← h1, Measure.map_map (by fun_prop) h3]
  congr 1
  funext z p
  simp only [unmat, cplxMat, Matrix.add_apply, Matrix.smul_apply, asMat, Matrix.of_apply, Function.comp_apply, smul_eq_mul]
  rw [vget_prod z.1 p, vget_prod z.2 p]
  exact Complex.ext (by simp) (by simp)

end Verif.Lemmas
