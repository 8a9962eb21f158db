import Verif.Spec.Inner
import Verif.Lemmas.KerAlg
import Verif.Lemmas.Nonneg
import Verif.Props.Spectral
import Mathlib.Analysis.Matrix.PosDef

/-!
The modelled spectral sampler, as a `PMF`, meets the contract `InnerSpec`.
-/

namespace Verif
open Verif Verif.Spec Verif.Model Matrix
open scoped ENNReal NNReal

namespace Dist
variable {α β : Type*}

open Classical in
theorem tsum_list_single (l : List (α × ℝ≥0∞)) (f : α → ℝ≥0∞) :
    ∑' a, (l.map fun aw => if aw.1 = a then aw.2 else 0).sum * f a = (l.map fun aw => aw.2 * f aw.1).sum := by
  induction l with
  | nil => simp
  | cons aw l ih =>
    simp only [List.map_cons, List.sum_cons, add_mul]
    rw [ENNReal.tsum_add, ih]
    congr 1
    rw [tsum_eq_single aw.1]
    · simp
    · intro b hb; rw [if_neg (fun h => hb h.symm), zero_mul]

theorem sum_ofReal {d : Dist ℝ α} (hd : Nonneg d) :
    (List.map (fun aw => ENNReal.ofReal aw.2) d).sum = ENNReal.ofReal (d.mass) := by
  induction d with
  | nil => simp [mass]
  | cons aw d ih =>
    have h1 : Nonneg d := fun x hx => hd x (List.mem_cons_of_mem _ hx)
    have h2 : (0:ℝ) ≤ mass d := E_nonneg h1 fun _ => zero_le_one
    have h3 : 0 ≤ aw.2 := hd aw (by simp)
    rw [List.map_cons, List.sum_cons, ih h1, ← ENNReal.ofReal_add h3 h2]
    congr 1
    obtain ⟨a, w⟩ := aw
    simp [mass]

open Classical in
/-- A finite random program with non-negative weights of total mass one, as a `PMF`. -/
noncomputable def toPMF (d : Dist ℝ α) (hd : Nonneg d) (hm : d.mass = 1) : PMF α :=
  ⟨fun a => (List.map (fun aw => if aw.1 = a then ENNReal.ofReal aw.2 else 0) d).sum, by
    have h := tsum_list_single (List.map (fun aw => (aw.1, ENNReal.ofReal aw.2)) d) (fun _ => 1)
    simp only [List.map_map, Function.comp_def, mul_one] at h
    rw [sum_ofReal hd, hm, ENNReal.ofReal_one] at h
    rw [← h]; exact ENNReal.summable.hasSum⟩

theorem PE_toPMF {d : Dist ℝ α} (hd : Nonneg d) (hm : d.mass = 1) (f : α → ℝ) (hf : ∀ a, 0 ≤ f a) :
    PE (toPMF d hd hm) (fun a => ENNReal.ofReal (f a)) = ENNReal.ofReal (d.E f) := by
  classical
  have h := tsum_list_single (List.map (fun aw => (aw.1, ENNReal.ofReal aw.2)) d) (fun a => ENNReal.ofReal (f a))
  simp only [List.map_map, Function.comp_def] at h
  refine h.trans ?_
  clear h hm
  induction d with
  | nil => simp
  | cons aw d ih =>
    have h1 : Nonneg d := fun x hx => hd x (List.mem_cons_of_mem _ hx)
    have h3 : 0 ≤ aw.2 := hd aw (by simp)
    obtain ⟨a, w⟩ := aw
    rw [List.map_cons, List.sum_cons, ih h1, E_cons, ENNReal.ofReal_add (mul_nonneg h3 (hf a)) (E_nonneg h1 hf),
      ENNReal.ofReal_mul h3]

theorem PP_toPMF {d : Dist ℝ α} (hd : Nonneg d) (hm : d.mass = 1) (ev : α → Prop) :
    PP (toPMF d hd hm) ev = ENNReal.ofReal (d.prob ev) := by
  classical
  rw [Dist.prob_eq, ← PE_toPMF hd hm _ (fun a => by split <;> simp)]
  unfold PP
  congr 1
  funext a
  split <;> simp

theorem mem_support_toPMF {d : Dist ℝ α} (hd : Nonneg d) (hm : d.mass = 1) {a : α}
    (h : a ∈ (toPMF d hd hm).support) : d.Possible a := by
  classical
  rw [PMF.mem_support_iff] at h
  by_contra hn
  apply h
  change (List.map (fun aw => if aw.1 = a then ENNReal.ofReal aw.2 else 0) d).sum = 0
  apply List.sum_eq_zero
  intro x hx
  obtain ⟨⟨b, w⟩, hb, rfl⟩ := List.mem_map.1 hx
  by_cases hba : b = a
  · subst hba
    have hw : w = 0 := by
      by_contra hw
      exact hn ⟨w, hb, hw⟩
    simp [hw]
  · rw [if_neg hba]

theorem npChoice_mass (l : List α) (w : α → ℝ) : (npChoice l w).mass = 1 := by
  by_cases h : Valid l w
  · rw [npChoice_of_valid h, mass, E]
    simpa [Function.comp_def] using h.2.2
  · have e : npChoice l w = ret Outcome.valueError := by unfold npChoice; exact if_neg h
    rw [e]; simp [mass]

theorem andThen_mass' {d : Dist ℝ (Outcome α)} {k : α → Dist ℝ (Outcome β)} (hd : d.mass = 1)
    (hk : ∀ a, (k a).mass = 1) : (d.andThen k).mass = 1 := by
  rw [mass, andThen, E_bind]
  refine Eq.trans ?_ hd
  refine E_congr ?_
  intro o w _
  cases o with
  | ok a => exact hk a
  | raise e => simp

theorem map_mass (d : Dist ℝ α) (f : α → β) : (d.map f).mass = d.mass := by
  rw [mass, mass, E_map]

end Dist

variable {N M : ℕ}

theorem eigGsLoop_ok (V : Fin N → Fin M → ℝ) : ∀ m it st,
    (eigGsLoop V m it st).mass = 1 ∧ Dist.Nonneg (eigGsLoop V m it st)
  | 0, it, st => by rw [eigGsLoop]; exact ⟨by simp [Dist.mass], Dist.Nonneg.ret _⟩
  | m + 1, it, st => by
    rw [eigGsLoop]
    constructor
    · refine Dist.andThen_mass' (Dist.npChoice_mass _ _) fun j => ?_
      split
      · simp [Dist.mass]
      · rw [Dist.map_mass]; exact (eigGsLoop_ok V m _ _).1
    · refine Dist.andThen_nonneg (Dist.npChoice_nonneg _ _) fun j => ?_
      split
      · exact Dist.Nonneg.ret _
      · exact (eigGsLoop_ok V m _ _).2.map

theorem projDppSamplerEig_ok (qr : QR N) (V : Fin N → Fin M → ℝ) :
    (projDppSamplerEig qr V "GS" none).mass = 1 ∧ Dist.Nonneg (projDppSamplerEig qr V "GS" none) := by
  unfold projDppSamplerEig
  split
  · exact eigGsLoop_ok V _ _ _
  · exact ⟨by simp [Dist.mass], Dist.Nonneg.ret _⟩

theorem selector_ok (lam : ℕ → ℝ) : ∀ m, (dppEigVecsSelector lam m).mass = 1 ∧ Dist.Nonneg (dppEigVecsSelector lam m)
  | 0 => by rw [dppEigVecsSelector]; exact ⟨by simp [Dist.mass], Dist.Nonneg.ret _⟩
  | m + 1 => by
    obtain ⟨h1, h2⟩ := selector_ok lam m
    rw [dppEigVecsSelector]
    constructor
    · rw [Dist.mass, Dist.E_bind]
      refine Eq.trans ?_ h1
      refine Dist.E_congr fun a w _ => ?_
      rw [Dist.E_bind]
      simp [Dist.bern]
    · exact Dist.Nonneg.bind h2 fun _ => Dist.Nonneg.bind (Dist.Nonneg.bern _) fun _ => Dist.Nonneg.ret _

theorem sampleExactEig_ok (qr : QR N) (lam : Fin M → ℝ) (U : Fin N → Fin M → ℝ) :
    (sampleExactEig qr lam U "GS").mass = 1 ∧ Dist.Nonneg (sampleExactEig qr lam U "GS") := by
  obtain ⟨h1, h2⟩ := selector_ok (vecNat lam) M
  unfold sampleExactEig
  constructor
  · rw [Dist.mass, Dist.E_bind]
    refine Eq.trans ?_ h1
    exact Dist.E_congr fun a w _ => (projDppSamplerEig_ok qr _).1
  · exact Dist.Nonneg.bind h2 fun _ => (projDppSamplerEig_ok qr _).2

/-- `FiniteDPP(kernel_type='likelihood', L_eig_dec=np.linalg.eigh(M)).sample_exact(random_state=rng)`
(`/repo/dppy/intermediate_sampling.py` lines 436-442 and 801-807, `/repo/dppy/finite_dpps.py` lines 397-419):
`K_eig_vals = L_eig_vals / (1 + L_eig_vals)`, then the two-step sampler in mode `'GS'`. -/
noncomputable def spectralSampler (qr : (N : ℕ) → QR N)
    (eigh : (n : ℕ) → (Fin n → Fin n → ℝ) → (Fin n → ℝ) × (Fin n → Fin n → ℝ)) (m : ℕ)
    (M : Matrix (Fin m) (Fin m) ℝ) : PMF (Outcome (List (Fin m))) :=
  Dist.toPMF (sampleExactEig (qr m) (KofL (eigh m M).1) (eigh m M).2 "GS")
    (sampleExactEig_ok _ _ _).2 (sampleExactEig_ok _ _ _).1

theorem quad_eq (L : Matrix (Fin N) (Fin N) ℝ) (x : Fin N → ℝ) :
    x ⬝ᵥ (L *ᵥ x) = ∑ i, ∑ j, x i * L i j * x j := by
  simp only [dotProduct, mulVec, Finset.mul_sum, mul_assoc]

theorem _root_.Matrix.PosSemidef.symm' {L : Matrix (Fin N) (Fin N) ℝ} (h : L.PosSemidef) (i j : Fin N) :
    L i j = L j i := by
  have := congrFun (congrFun h.1 j) i
  simpa using this

theorem psd_eig {L : Matrix (Fin N) (Fin N) ℝ} (h : L.PosSemidef)
    {eigh : (n : ℕ) → (Fin n → Fin n → ℝ) → (Fin n → ℝ) × (Fin n → Fin n → ℝ)} (he : EighSpec eigh) :
    OrthOn (eigh N L).2 (eigh N L).1 ∧ (∀ a, 0 ≤ (eigh N L).1 a) ∧ L = ker (eigh N L).2 (eigh N L).1 := by
  obtain ⟨h1, h2⟩ := he N L h.symm'
  have h3 : OrthOn (eigh N L).2 (eigh N L).1 := fun a b _ _ => h1 a b
  have h4 : L = ker (eigh N L).2 (eigh N L).1 := by ext i j; exact h2 i j
  refine ⟨h3, fun a => eigval_nonneg h3 (fun x => ?_) a, h4⟩
  rw [← h4, ← quad_eq]
  have := h.dotProduct_mulVec_nonneg x
  simpa using this

/-- The modelled sampler meets the contract. -/
theorem innerSpec_spectral {qr : (N : ℕ) → QR N} (hqr : ∀ N, QRSpec (qr N))
    {eigh : (n : ℕ) → (Fin n → Fin n → ℝ) → (Fin n → ℝ) × (Fin n → Fin n → ℝ)} (he : EighSpec eigh) :
    InnerSpec (spectralSampler qr eigh) where
  nodup := by
    intro m M hM o ho
    obtain ⟨h1, h2, h3⟩ := psd_eig hM he
    have hp := Dist.mem_support_toPMF _ _ ho
    refine Props.C24_dpp_outcome (qr m) (hqr m) _ "GS" (Or.inl rfl) _ (fun a b ha hb => h1 a b ?_ ?_) o hp
    · intro h; exact ha (by simp [KofL, h])
    · intro h; exact hb (by simp [KofL, h])
  law := by
    intro m M hM S
    obtain ⟨h1, h2, h3⟩ := psd_eig hM he
    unfold spectralSampler
    rw [Dist.PP_toPMF]
    congr 1
    exact Props.C24_L_ensemble_law (qr m) (hqr m) _ "GS" (Or.inl rfl) _ h1 h2 M
      (fun i j => congrFun (congrFun h3 i) j) S

theorem exists_innerSpec : ∃ inner, InnerSpec inner := by
  obtain ⟨eigh, he⟩ := exists_EighSpec
  choose qr hqr using Props.exists_QRSpec
  exact ⟨_, innerSpec_spectral hqr he⟩

/-- the weights of the likelihood DPP sum to one -/
theorem sum_lDppProb {L : Matrix (Fin N) (Fin N) ℝ} (h : L.PosSemidef) : ∑ S, minor L S = (1 + L).det := by
  obtain ⟨eigh, he⟩ := exists_EighSpec
  obtain ⟨h1, h2, h3⟩ := psd_eig h he
  rw [h3, Props.det_one_add_ker _ _ h1, ← Finset.sum_fiberwise_of_maps_to (s := Finset.univ) (t := Finset.range (N + 1))
    (g := Finset.card) (fun S _ => Finset.mem_range.2 (Nat.lt_succ_of_le (by simpa using S.card_le_univ)))]
  have h4 : ∀ k, ∑ S ∈ Finset.univ.filter (fun S : Finset (Fin N) => S.card = k), minor (ker (eigh N L).2 (eigh N L).1) S
      = ∑ S ∈ (Finset.univ : Finset (Fin N)).powersetCard k, minor (ker (eigh N L).2 (eigh N L).1) S := by
    intro k
    apply Finset.sum_congr _ fun _ _ => rfl
    ext S; simp [Finset.mem_powersetCard]
  simp_rw [h4, Props.sum_minor_eq_esp _ _ h1]
  rw [Finset.prod_one_add]
  rw [Finset.sum_powerset, Finset.card_univ, Fintype.card_fin]

end Verif
