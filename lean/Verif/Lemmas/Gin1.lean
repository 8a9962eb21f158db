import Verif.Spec.Ginibre
import Verif.Lemmas.GaussHermite
import Verif.Lemmas.GaussMat2
import Verif.Lemmas.Haar1
import Mathlib.Analysis.Complex.Polynomial.Basic

/-!
# Ginibre ensemble: sorted eigenvalues
-/

namespace Verif.Lemmas
open Finset Matrix MeasureTheory ProbabilityTheory Verif.Model Verif.Spec

theorem lexKey_inj : Function.Injective lexKey := fun z w h => by
  have := congrArg ofLex h
  simp only [lexKey, ofLex_toLex, Prod.mk.injEq] at this
  exact Complex.ext this.1 this.2

theorem lexKey_le {z w : ℂ} : lexKey z ≤ lexKey w ↔ z.re < w.re ∨ z.re = w.re ∧ z.im ≤ w.im := by
  rw [lexKey, lexKey, Prod.Lex.toLex_le_toLex]

theorem lexKey_lt {z w : ℂ} : lexKey z < lexKey w ↔ z.re < w.re ∨ z.re = w.re ∧ z.im < w.im := by
  rw [lexKey, lexKey, Prod.Lex.toLex_lt_toLex]

instance lexTotal : Std.Total (fun z w : ℂ => lexKey z ≤ lexKey w) := ⟨fun _ _ => le_total _ _⟩
instance lexTrans : IsTrans ℂ (fun z w : ℂ => lexKey z ≤ lexKey w) := ⟨fun _ _ _ => le_trans⟩
instance lexAnti : Std.Antisymm (fun z w : ℂ => lexKey z ≤ lexKey w) := ⟨fun _ _ h h' => lexKey_inj (le_antisymm h h')⟩

/-- weakly increasing vectors -/
def LexMono {N : ℕ} (z : Fin N → ℂ) : Prop := Monotone fun i => lexKey (z i)

/-- strictly increasing vectors -/
def LexStrict {N : ℕ} (z : Fin N → ℂ) : Prop := StrictMono fun i => lexKey (z i)

theorem measurableSet_lexle {X : Type} [MeasurableSpace X] {f g : X → ℂ} (hf : Measurable f) (hg : Measurable g) :
    MeasurableSet {x | lexKey (f x) ≤ lexKey (g x)} := by
  simp only [lexKey_le]
  have a1 := Complex.measurable_re.comp hf
  have a2 := Complex.measurable_im.comp hf
  have b1 := Complex.measurable_re.comp hg
  have b2 := Complex.measurable_im.comp hg
  exact (measurableSet_lt a1 b1).union ((measurableSet_eq_fun a1 b1).inter (measurableSet_le a2 b2))

theorem measurableSet_lexlt {X : Type} [MeasurableSpace X] {f g : X → ℂ} (hf : Measurable f) (hg : Measurable g) :
    MeasurableSet {x | lexKey (f x) < lexKey (g x)} := by
  simp only [lexKey_lt]
  have a1 := Complex.measurable_re.comp hf
  have a2 := Complex.measurable_im.comp hf
  have b1 := Complex.measurable_re.comp hg
  have b2 := Complex.measurable_im.comp hg
  exact (measurableSet_lt a1 b1).union ((measurableSet_eq_fun a1 b1).inter (measurableSet_lt a2 b2))

theorem measurableSet_lexMono (N : ℕ) : MeasurableSet {l : Fin N → ℂ | LexMono l} := by
  have : {l : Fin N → ℂ | LexMono l} = ⋂ i, ⋂ j, ⋂ _ : i ≤ j, {l | lexKey (l i) ≤ lexKey (l j)} := by
    ext l; simp [Monotone, LexMono]
  rw [this]
  exact MeasurableSet.iInter fun i => MeasurableSet.iInter fun j => MeasurableSet.iInter fun _ =>
    measurableSet_lexle (measurable_pi_apply i) (measurable_pi_apply j)

theorem measurableSet_lexStrict (N : ℕ) : MeasurableSet {l : Fin N → ℂ | LexStrict l} := by
  have : {l : Fin N → ℂ | LexStrict l} = ⋂ i, ⋂ j, ⋂ _ : i < j, {l | lexKey (l i) < lexKey (l j)} := by
    ext l; simp [StrictMono, LexStrict]
  rw [this]
  exact MeasurableSet.iInter fun i => MeasurableSet.iInter fun j => MeasurableSet.iInter fun _ =>
    measurableSet_lexlt (measurable_pi_apply i) (measurable_pi_apply j)

/-! ### Roots from the polynomial -/

/-- values at the integers of the monic polynomial with given roots -/
noncomputable def prodZ {N : ℕ} (l : Fin N → ℂ) (t : ℕ) : ℂ := ∏ i, ((t : ℂ) - l i)

theorem poly_of_prodZ {N : ℕ} {l : Fin N → ℂ} {P : Polynomial ℂ} (e : ∀ t : ℕ, prodZ l t = P.eval (t : ℂ)) :
    ∏ i, (Polynomial.X - Polynomial.C (l i)) = P := by
  refine Polynomial.eq_of_infinite_eval_eq _ _ (Set.Infinite.mono (s := Set.range fun t : ℕ => (t : ℂ)) ?_
    (Set.infinite_range_of_injective Nat.cast_injective))
  rintro _ ⟨t, rfl⟩
  have := e t
  simp only [prodZ] at this
  simp only [Set.mem_ofPred_eq, Polynomial.eval_prod, Polynomial.eval_sub, Polynomial.eval_X, Polynomial.eval_C]
  exact this

theorem roots_prodC {N : ℕ} (f : Fin N → ℂ) :
    (∏ i, (Polynomial.X - Polynomial.C (f i))).roots = ((List.ofFn f : List ℂ) : Multiset ℂ) := by
  have : ∏ i, (Polynomial.X - Polynomial.C (f i)) = (Multiset.map (fun x => Polynomial.X - Polynomial.C x) ((List.ofFn f : List ℂ) : Multiset ℂ)).prod := by
    rw [Multiset.map_coe, Multiset.prod_coe, List.map_ofFn, List.prod_ofFn]; rfl
  rw [this, Polynomial.roots_multiset_prod_X_sub_C]

theorem lexMono_unique {N : ℕ} {l l' : Fin N → ℂ} (h : LexMono l) (h' : LexMono l')
    (hp : ∏ i, (Polynomial.X - Polynomial.C (l i)) = ∏ i, (Polynomial.X - Polynomial.C (l' i))) : l = l' := by
  have h2 := congrArg Polynomial.roots hp
  rw [roots_prodC, roots_prodC] at h2
  have h3 := (Multiset.coe_eq_coe.1 h2).eq_of_pairwise' (r := fun z w : ℂ => lexKey z ≤ lexKey w)
    (by rw [List.pairwise_ofFn]; exact fun i j hij => h hij.le) (by rw [List.pairwise_ofFn]; exact fun i j hij => h' hij.le)
  exact List.ofFn_injective h3

theorem measurable_prodZ {N : ℕ} : Measurable (prodZ (N := N)) := by
  refine measurable_pi_lambda _ fun t => ?_
  simp only [prodZ]
  fun_prop

theorem embedding_prodZ (N : ℕ) : MeasurableEmbedding fun l : {l : Fin N → ℂ // LexMono l} => prodZ l.1 := by
  have : StandardBorelSpace {l : Fin N → ℂ // LexMono l} := (measurableSet_lexMono N).standardBorel
  refine Measurable.measurableEmbedding (measurable_prodZ.comp measurable_subtype_coe) fun a b h => Subtype.ext (lexMono_unique a.2 b.2 ?_)
  refine poly_of_prodZ fun t => ?_
  rw [congrFun h t]
  simp [prodZ, Polynomial.eval_prod]

theorem measurable_lexSorted {X : Type} [MeasurableSpace X] {N : ℕ} {e : X → Fin N → ℂ} (he : ∀ x, LexMono (e x))
    (hm : Measurable fun x => prodZ (e x)) : Measurable e := by
  have h : Measurable fun x => (⟨e x, he x⟩ : {l : Fin N → ℂ // LexMono l}) :=
    (embedding_prodZ N).measurable_comp_iff.1 hm
  exact measurable_subtype_coe.comp h

/-! ### Sorted eigenvalues -/

theorem lexSorted_mono {N : ℕ} {l : List ℂ} (h : l.length = N) : LexMono (lexSorted N l) := by
  have hs := List.pairwise_insertionSort (fun z w : ℂ => lexKey z ≤ lexKey w) l
  have hl : (l.insertionSort fun z w : ℂ => lexKey z ≤ lexKey w).length = N := (List.length_insertionSort _ _).trans h
  intro i j hij
  simp only [lexSorted]
  rw [List.getD_eq_getElem _ _ (by rw [hl]; exact i.2), List.getD_eq_getElem _ _ (by rw [hl]; exact j.2)]
  rcases hij.lt_or_eq with h | h
  · exact List.pairwise_iff_getElem.1 hs _ _ _ _ h
  · subst h; exact le_rfl

theorem lexSorted_ofFn {N : ℕ} {l : List ℂ} (h : l.length = N) :
    List.ofFn (lexSorted N l) = l.insertionSort fun z w : ℂ => lexKey z ≤ lexKey w := by
  have hl : (l.insertionSort fun z w : ℂ => lexKey z ≤ lexKey w).length = N := (List.length_insertionSort _ _).trans h
  refine List.ext_getElem (by simp [hl]) fun i h1 h2 => ?_
  rw [List.getElem_ofFn]
  simp only [lexSorted]
  exact List.getD_eq_getElem _ _ _

theorem lexSorted_prod {N : ℕ} {l : List ℂ} (h : l.length = N) :
    ∏ i, (Polynomial.X - Polynomial.C (lexSorted N l i)) = (l.map fun z => Polynomial.X - Polynomial.C z).prod := by
  have hp := (List.perm_insertionSort (fun z w : ℂ => lexKey z ≤ lexKey w) l).map fun z : ℂ => Polynomial.X - Polynomial.C z
  rw [← hp.prod_eq, ← lexSorted_ofFn h, List.map_ofFn, List.prod_ofFn]
  rfl

/-- eigenvalues in lexicographic order -/
noncomputable def evs {N : ℕ} (A : Matrix (Fin N) (Fin N) ℂ) : Fin N → ℂ := lexSorted N A.charpoly.roots.toList

theorem card_roots {N : ℕ} (A : Matrix (Fin N) (Fin N) ℂ) : A.charpoly.roots.toList.length = N := by
  rw [Multiset.length_toList, ← (IsAlgClosed.splits A.charpoly).natDegree_eq_card_roots, Matrix.charpoly_natDegree_eq_dim, Fintype.card_fin]

theorem evs_mono {N : ℕ} (A : Matrix (Fin N) (Fin N) ℂ) : LexMono (evs A) := lexSorted_mono (card_roots A)

theorem evs_charpoly {N : ℕ} (A : Matrix (Fin N) (Fin N) ℂ) : ∏ i, (Polynomial.X - Polynomial.C (evs A i)) = A.charpoly := by
  rw [evs, lexSorted_prod (card_roots A)]
  have h := (IsAlgClosed.splits A.charpoly).eq_prod_roots_of_monic (Matrix.charpoly_monic A)
  conv_rhs => rw [h, ← Multiset.coe_toList A.charpoly.roots, Multiset.map_coe, Multiset.prod_coe]

theorem evs_unique {N : ℕ} {A : Matrix (Fin N) (Fin N) ℂ} {z : Fin N → ℂ} (hz : LexMono z)
    (h : ∏ i, (Polynomial.X - Polynomial.C (z i)) = A.charpoly) : z = evs A :=
  lexMono_unique hz (evs_mono A) (h.trans (evs_charpoly A).symm)

theorem eval_charpolyZ {N : ℕ} (A : Matrix (Fin N) (Fin N) ℂ) (t : ℂ) : A.charpoly.eval t = (t • (1 : Matrix (Fin N) (Fin N) ℂ) - A).det := by
  rw [Matrix.eval_charpoly]
  congr 1
  ext i j
  simp [Matrix.smul_one_eq_diagonal]

theorem evs_det {N : ℕ} (A : Matrix (Fin N) (Fin N) ℂ) (t : ℂ) : ∏ i, (t - evs A i) = (t • (1 : Matrix (Fin N) (Fin N) ℂ) - A).det := by
  rw [← eval_charpolyZ, ← evs_charpoly, Polynomial.eval_prod]
  simp

theorem measurable_evs {X : Type} [MeasurableSpace X] {N : ℕ} {A : X → Matrix (Fin N) (Fin N) ℂ} (h : ∀ i j, Measurable fun x => A x i j) :
    Measurable fun x => evs (A x) := by
  refine measurable_lexSorted (fun x => evs_mono (A x)) (measurable_pi_lambda _ fun t => ?_)
  simp only [prodZ, evs_det]
  refine measurable_det fun i j => ?_
  simp only [Matrix.sub_apply]
  exact measurable_const.sub (h i j)

/-- the sampler's eigenvalues -/
theorem lexSorted_eigvals {la : LA} (hla : LAOK la) {N : ℕ} (A : Matrix (Fin N) (Fin N) ℂ) (hlen : (la.eigvals A).length = N) :
    lexSorted N (la.eigvals A) = evs A :=
  evs_unique (lexSorted_mono hlen) (by rw [lexSorted_prod hlen]; exact hla.eigvals_char A)

end Verif.Lemmas
