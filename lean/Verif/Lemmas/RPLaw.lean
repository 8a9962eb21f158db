import Verif.Model.RandProg
import Mathlib.MeasureTheory.Measure.Prod

/-!
Laws of programs composed with `RP.bind`.
-/

namespace Verif.Lemmas
open MeasureTheory ProbabilityTheory Verif Verif.Model

variable {α β γ : Type} [MeasurableSpace α] [MeasurableSpace β] [MeasurableSpace γ]

/-- the continuations are measurable, at every draw -/
def RPMeas {α : Type} [MeasurableSpace α] : RP α → Prop
  | .ret _ => True
  | .fail _ => True
  | .normal _ _ _ k => Measurable (fun x => (k x).law) ∧ ∀ x, RPMeas (k x)
  | .gamma _ _ _ k => Measurable (fun x => (k x).law) ∧ ∀ x, RPMeas (k x)
  | .beta _ _ _ k => Measurable (fun x => (k x).law) ∧ ∀ x, RPMeas (k x)
  | .unif _ k => Measurable (fun x => (k x).law) ∧ ∀ x, RPMeas (k x)
  | .randint _ k => ∀ x, RPMeas (k x)

theorem bind_zero_left (f : α → Measure β) : (0 : Measure α).bind f = 0 := Measure.bind_zero_left f

theorem bind_sum_smul {ι : Type} [Fintype ι] (c : ENNReal) (m : ι → Measure α) {f : α → Measure β} (hf : Measurable f) :
    (∑ i, c • m i).bind f = ∑ i, c • (m i).bind f := by
  ext s hs
  rw [Measure.bind_apply hs hf.aemeasurable, lintegral_finsetSum_measure, Measure.finsetSum_apply]
  refine Finset.sum_congr rfl fun i _ => ?_
  rw [lintegral_smul_measure, Measure.smul_apply, Measure.bind_apply hs hf.aemeasurable]

theorem law_bind {p : RP α} (hp : RPMeas p) {f : α → RP β} (hf : Measurable fun a => (f a).law) :
    (p.bind f).law = p.law.bind fun a => (f a).law := by
  induction p with
  | ret a => simp only [RP.bind, RP.law]; rw [Measure.dirac_bind hf]
  | fail e => simp only [RP.bind, RP.law]; exact (Measure.bind_zero_left _).symm
  | normal n l s k ih =>
    simp only [RP.bind, RP.law]
    split_ifs
    · exact (Measure.bind_zero_left _).symm
    · rw [Measure.bind_bind hp.1.aemeasurable hf.aemeasurable]
      congr 1; funext x; exact ih x (hp.2 x)
  | gamma n sh sc k ih =>
    simp only [RP.bind, RP.law]
    split_ifs
    · exact (Measure.bind_zero_left _).symm
    · rw [Measure.bind_bind hp.1.aemeasurable hf.aemeasurable]
      congr 1; funext x; exact ih x (hp.2 x)
  | beta n a b k ih =>
    simp only [RP.bind, RP.law]
    split_ifs
    · exact (Measure.bind_zero_left _).symm
    · rw [Measure.bind_bind hp.1.aemeasurable hf.aemeasurable]
      congr 1; funext x; exact ih x (hp.2 x)
  | unif n k ih =>
    simp only [RP.bind, RP.law]
    rw [Measure.bind_bind hp.1.aemeasurable hf.aemeasurable]
    congr 1; funext x; exact ih x (hp.2 x)
  | randint n k ih =>
    simp only [RP.bind, RP.law]
    rw [bind_sum_smul _ _ hf]
    exact Finset.sum_congr rfl fun i _ => by rw [ih i (hp i)]

theorem RPMeas.bind {p : RP α} (hp : RPMeas p) {f : α → RP β} (hf : Measurable fun a => (f a).law)
    (hf' : ∀ a, RPMeas (f a)) : RPMeas (p.bind f) := by
  have key : ∀ {δ : Type} [MeasurableSpace δ] {k : δ → RP α}, Measurable (fun x => (k x).law) → (∀ x, RPMeas (k x)) →
      Measurable fun x => ((k x).bind f).law := by
    intro δ _ k h1 h2
    have : (fun x => ((k x).bind f).law) = fun x => (k x).law.bind fun a => (f a).law :=
      funext fun x => law_bind (h2 x) hf
    rw [this]
    exact (Measure.measurable_bind' hf).comp h1
  induction p with
  | ret a => exact hf' a
  | fail e => exact True.intro
  | normal n l s k ih => exact ⟨key hp.1 hp.2, fun x => ih x (hp.2 x)⟩
  | gamma n sh sc k ih => exact ⟨key hp.1 hp.2, fun x => ih x (hp.2 x)⟩
  | beta n a b k ih => exact ⟨key hp.1 hp.2, fun x => ih x (hp.2 x)⟩
  | unif n k ih => exact ⟨key hp.1 hp.2, fun x => ih x (hp.2 x)⟩
  | randint n k ih => exact fun x => ih x (hp x)

omit [MeasurableSpace α] [MeasurableSpace β] in
theorem map_eq_bind (p : RP α) (f : α → β) : p.map f = p.bind fun a => .ret (f a) := by
  induction p with
  | ret a => rfl
  | fail e => rfl
  | normal n l s k ih => simp only [RP.map, RP.bind, ih]
  | gamma n sh sc k ih => simp only [RP.map, RP.bind, ih]
  | beta n a b k ih => simp only [RP.map, RP.bind, ih]
  | unif n k ih => simp only [RP.map, RP.bind, ih]
  | randint n k ih => simp only [RP.map, RP.bind, ih]

theorem law_map_of_meas {p : RP α} (hp : RPMeas p) {f : α → β} (hf : Measurable f) : (p.map f).law = p.law.map f := by
  rw [map_eq_bind, law_bind hp (by simp only [RP.law]; exact Measure.measurable_dirac.comp hf)]
  simp only [RP.law]
  exact Measure.bind_dirac_eq_map p.law hf

/-- draws that do not depend on the parameter -/
theorem measurable_bind_param {S A B : Type*} [MeasurableSpace S] [MeasurableSpace A] [MeasurableSpace B] {m : Measure A} [SFinite m]
    {f : S → A → Measure B} (hf : Measurable (Function.uncurry f)) : Measurable fun s => m.bind (f s) := by
  refine Measure.measurable_of_measurable_coe _ fun t ht => ?_
  have : (fun s => (m.bind (f s)) t) = fun s => ∫⁻ a, (Function.uncurry f (s, a)) t ∂m := by
    funext s
    have h2 : Measurable (f s) := hf.comp measurable_prodMk_left
    rw [Measure.bind_apply ht h2.aemeasurable]
    rfl
  rw [this]
  exact ((Measure.measurable_coe ht).comp hf).lintegral_prod_right'

theorem law_le_one_bind {A B : Type*} [MeasurableSpace A] [MeasurableSpace B] {m : Measure A} (hm : m Set.univ ≤ 1)
    {f : A → Measure B} (hf : ∀ a, f a Set.univ ≤ 1) : m.bind f Set.univ ≤ 1 := by
  by_cases h : AEMeasurable f m
  · rw [Measure.bind_apply MeasurableSet.univ h]
    calc ∫⁻ a, f a Set.univ ∂m ≤ ∫⁻ _, 1 ∂m := lintegral_mono fun a => hf a
      _ ≤ 1 := by simpa using hm
  · rw [Measure.bind, Measure.map_of_not_aemeasurable h]
    simp

end Verif.Lemmas
