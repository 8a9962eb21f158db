import Verif.Props.BetaEnsembles2
import Mathlib.LinearAlgebra.Matrix.NonsingularInverse

/-!
# C77, C78: number and support of the points of a sample
-/

namespace Verif.Props
open Verif Verif.Model Verif.Lemmas Matrix
open scoped ComplexOrder

theorem ginDraw_runs {beta : ℝ} {N M : ℕ} {α : Type} {k1 : Matrix (Fin N) (Fin M) ℂ → RP α}
    {k4 : Matrix (Fin N ⊕ Fin N) (Fin M ⊕ Fin M) ℂ → RP α} {x : α} (h : (ginDraw beta N M k1 k4).Runs (.ok x)) :
    (beta ≠ 4 ∧ ∃ A, (k1 A).Runs (.ok x)) ∨ (beta = 4 ∧ ∃ A, (k4 A).Runs (.ok x)) := by
  have h01 : ¬ ((1 : ℝ) < 0) := by norm_num
  rw [ginDraw] at h
  split_ifs at h with h1 h2 h3
  · simp only [RP.Runs, h01, if_false] at h
    obtain ⟨y, h⟩ := h
    exact Or.inl ⟨by rw [h1]; norm_num, _, h⟩
  · simp only [RP.Runs, h01, if_false] at h
    obtain ⟨y, z, h⟩ := h
    exact Or.inl ⟨by rw [h2]; norm_num, _, h⟩
  · simp only [RP.Runs, h01, if_false] at h
    obtain ⟨_, _, _, _, h⟩ := h
    exact Or.inr ⟨h3, _, h⟩
  · simp [RP.Runs] at h

variable {ι : Type} [Fintype ι] [DecidableEq ι]

/-- eigenvalues of `A (A + B)⁻¹` for positive semi-definite `A`, `B` -/
theorem jacobi_eigen {A B : Matrix ι ι ℂ} (hA : A.PosSemidef) (hB : B.PosSemidef) (hdet : (A + B).det ≠ 0) {z : ℂ} {v : ι → ℂ}
    (hv : v ≠ 0) (h : (A * (A + B)⁻¹) *ᵥ v = z • v) : z = (z.re : ℂ) ∧ 0 ≤ z.re ∧ z.re ≤ 1 := by
  have hunit : IsUnit (A + B).det := isUnit_iff_ne_zero.2 hdet
  set w := (A + B)⁻¹ *ᵥ v with hw
  have hv' : v = (A + B) *ᵥ w := by
    rw [hw, Matrix.mulVec_mulVec, Matrix.mul_nonsing_inv _ hunit, Matrix.one_mulVec]
  have hAw : A *ᵥ w = z • ((A + B) *ᵥ w) := by
    rw [← hv', ← h, hw, Matrix.mulVec_mulVec]
  have h1 := hA.dotProduct_mulVec_nonneg w
  have h2 := hB.dotProduct_mulVec_nonneg w
  have hsum : star w ⬝ᵥ ((A + B) *ᵥ w) = star w ⬝ᵥ (A *ᵥ w) + star w ⬝ᵥ (B *ᵥ w) := by
    rw [Matrix.add_mulVec, dotProduct_add]
  have he : star w ⬝ᵥ (A *ᵥ w) = z * (star w ⬝ᵥ ((A + B) *ᵥ w)) := by
    conv_lhs => rw [hAw]
    rw [dotProduct_smul, smul_eq_mul]
  have hne : star w ⬝ᵥ ((A + B) *ᵥ w) ≠ 0 := by
    intro h0
    rw [hsum] at h0
    have : (A + B).PosSemidef := hA.add hB
    have h0' : star w ⬝ᵥ ((A + B) *ᵥ w) = 0 := by rw [hsum, h0]
    rw [this.dotProduct_mulVec_zero_iff] at h0'
    exact hv (hv'.trans h0')
  obtain ⟨ha0, hai⟩ := Complex.nonneg_iff.1 h1
  obtain ⟨hb0, hbi⟩ := Complex.nonneg_iff.1 h2
  set a := star w ⬝ᵥ (A *ᵥ w) with ha
  set b := star w ⬝ᵥ (B *ᵥ w) with hb
  rw [hsum] at he hne
  have haR : a = (a.re : ℂ) := Complex.ext rfl hai.symm
  have hbR : b = (b.re : ℂ) := Complex.ext rfl hbi.symm
  have hs : (0 : ℝ) < a.re + b.re := by
    refine lt_of_le_of_ne (by positivity) fun h => hne ?_
    rw [haR, hbR, ← Complex.ofReal_add, ← h, Complex.ofReal_zero]
  have hz : z = ((a.re / (a.re + b.re) : ℝ) : ℂ) := by
    rw [haR, hbR] at he
    push_cast at he ⊢
    rw [eq_div_iff (by exact_mod_cast hs.ne')]
    exact he.symm
  rw [hz, Complex.ofReal_re]
  exact ⟨rfl, by positivity, by rw [div_le_one hs]; linarith⟩

theorem jacobiFinish_ok {la : LA} (hla : LAOK la) {κ₁ κ₂ : Type} [Fintype κ₁] [Fintype κ₂]
    {X : Matrix ι κ₁ ℂ} {Y : Matrix ι κ₂ ℂ} {pts : List ℝ} (h : (jacobiFinish la X Y).Runs (.ok pts)) :
    pts.length = Fintype.card ι ∧ ∀ x ∈ pts, 0 ≤ x ∧ x ≤ 1 := by
  rw [jacobiFinish] at h
  split_ifs at h with hd
  · simp [RP.Runs] at h
  · obtain rfl := Outcome.ok.inj h
    have he := eigen_eigvals hla (X * Xᴴ * (X * Xᴴ + Y * Yᴴ)⁻¹)
    refine ⟨by rw [List.length_map, he.1], fun x hx => ?_⟩
    obtain ⟨z, hz, rfl⟩ := List.mem_map.1 hx
    obtain ⟨v, hv, h⟩ := he.2 z hz
    exact (jacobi_eigen (Matrix.posSemidef_self_mul_conjTranspose X) (Matrix.posSemidef_self_mul_conjTranspose Y) hd hv h).2

theorem qrFinish_ok {la : LA} (hla : LAOK la) {N : ℕ} {A : Matrix (Fin N) (Fin N) ℂ} {pts : List ℂ}
    (h : (qrFinish la A).Runs (.ok pts)) : pts.length = N ∧ ∀ z ∈ pts, ‖z‖ = 1 := by
  rw [qrFinish] at h
  split_ifs at h with hd
  · simp [RP.Runs] at h
  · obtain rfl := Outcome.ok.inj h
    push Not at hd
    have he := eigen_eigvals hla (Matrix.of fun i j =>
      (la.qr A).1 i j * ((la.qr A).2 j j / ((‖(la.qr A).2 j j‖ : ℝ) : ℂ)))
    refine ⟨by rw [he.1, Fintype.card_fin], fun z hz => ?_⟩
    obtain ⟨v, hv, h⟩ := he.2 z hz
    refine eigen_unitary ?_ hv h
    have hQ := hla.qr_unitary A
    have hD : Matrix.diagonal (fun j => (la.qr A).2 j j / ((‖(la.qr A).2 j j‖ : ℝ) : ℂ)) ∈ unitaryGroup (Fin N) ℂ := by
      rw [mem_unitaryGroup_iff, Matrix.star_eq_conjTranspose, Matrix.diagonal_conjTranspose, Matrix.diagonal_mul_diagonal,
        ← Matrix.diagonal_one]
      congr 1
      ext j
      rw [Pi.star_apply, Complex.star_def, Complex.mul_conj', norm_div, Complex.norm_real, norm_norm,
        div_self (norm_ne_zero_iff.2 (hd j))]
      simp
    have := mul_mem hQ hD
    convert this using 1
    ext i j
    rw [Matrix.mul_diagonal]
    rfl

/-- what the points of a sample of each class must look like -/
def InSupport : EnsKind → ℂ → Prop
  | .hermite, z => ∃ x : ℝ, z = x
  | .laguerre, z => ∃ x : ℝ, z = x ∧ 0 ≤ x
  | .jacobi, z => ∃ x : ℝ, z = x ∧ 0 ≤ x ∧ x ≤ 1
  | .circular, z => ‖z‖ = 1
  | .ginibre, _ => True

/-- number of points returned: `N`, but twice as many for the full models with `beta = 4` -/
noncomputable def expectedCount (st : EnsSt) : EnsCall → ℕ
  | .full N _ _ _ => by classical exact if st.b = 4 ∧ st.kind ≠ .ginibre then 2 * N else N
  | .banded _ _ N _ _ => N
  | _ => 0

theorem hermitian_add {κ : Type} (A : Matrix κ κ ℂ) : (A + Aᴴ).IsHermitian := by
  rw [Matrix.IsHermitian, Matrix.conjTranspose_add, Matrix.conjTranspose_conjTranspose, add_comm]

theorem length_vecC {n : ℕ} (x : Fin n → ℝ) : (vecC x).length = n := by simp [vecC]

theorem mem_vecC {n : ℕ} {x : Fin n → ℝ} {z : ℂ} (h : z ∈ vecC x) : ∃ i, z = (x i : ℂ) := by
  rw [vecC, List.mem_map] at h
  obtain ⟨y, hy, rfl⟩ := h
  obtain ⟨i, rfl⟩ := (List.mem_ofFn' x y).1 hy
  exact ⟨i, rfl⟩

theorem runs_toC {p : RP (List ℝ)} {pts : List ℂ} (h : (p.map toC).Runs (.ok pts)) :
    ∃ l, p.Runs (.ok l) ∧ pts = toC l := by
  obtain ⟨o, h1, h2⟩ := runs_map toC p _ h
  cases o with
  | ok l => exact ⟨l, h1, Outcome.ok.inj h2⟩
  | raise e => cases h2

theorem mem_toC {l : List ℝ} {z : ℂ} (h : z ∈ toC l) : ∃ x ∈ l, z = (x : ℂ) := by
  obtain ⟨x, hx, rfl⟩ := List.mem_map.1 h
  exact ⟨x, hx, rfl⟩

theorem length_toC (l : List ℝ) : (toC l).length = l.length := List.length_map ..

theorem unitPts_ok {n : ℕ} (x : Fin n → ℝ) : (unitPts x).length = n ∧ ∀ z ∈ unitPts x, ‖z‖ = 1 := by
  refine ⟨by simp [unitPts], fun z hz => ?_⟩
  obtain ⟨t, _, rfl⟩ := List.mem_map.1 hz
  rw [show (2 * Complex.I * Real.pi * t : ℂ) = ((2 * Real.pi * t : ℝ) : ℂ) * Complex.I by push_cast; ring]
  exact Complex.norm_exp_ofReal_mul_I _

theorem card_sum_fin (N : ℕ) : Fintype.card (Fin N ⊕ Fin N) = 2 * N := by simp; omega

theorem normalTridiag_ok {la : LA} (hla : LAOK la) {loc scale beta : ℝ} {N : ℕ} {l : List ℝ}
    (h : (normalTridiag la loc scale beta N).Runs (.ok l)) : l.length = N ∧ l.Pairwise (· ≤ ·) := by
  rw [normalTridiag] at h
  split_ifs at h with h0
  swap
  · simp [RP.Runs] at h
  simp only [RP.Runs] at h
  split_ifs at h with h1 h2
  · obtain ⟨_, ⟨⟩⟩ := h
  · obtain ⟨_, _, _, h⟩ := h
    obtain rfl := Outcome.ok.inj h
    exact ⟨(eig_tridiag hla _ _ _).1, (eig_tridiag hla _ _ _).2.1⟩

theorem full_ok {la : LA} (hla : LAOK la) {st : EnsSt} {N M1 M2 : ℕ} {m : Haar} {x : EnsSt × RP (List ℂ)} {pts : List ℂ}
    (hp : ensPrep la st (.full N M1 M2 m) = some x) (h : x.2.Runs (.ok pts)) :
    pts.length = expectedCount st (.full N M1 M2 m) ∧ ∀ z ∈ pts, InSupport st.kind z := by
  classical
  obtain rfl := (Option.some.inj hp).symm
  have h01 : ¬ (√2 < 0) := not_lt.2 (Real.sqrt_nonneg 2)
  have hpsd : ∀ {κ κ' : Type} [Fintype κ] [Fintype κ'] [DecidableEq κ] (A : Matrix κ κ' ℂ), (A * Aᴴ).PosSemidef :=
    fun A => Matrix.posSemidef_self_mul_conjTranspose A
  rcases hk : st.kind with _ | _ | _ | _ | _
  · have hc : expectedCount st (.full N M1 M2 m) = if st.b = 4 then 2 * N else N := by simp [expectedCount, hk]
    rw [hc]
    simp only [hk, hermiteFullPrep] at h
    split_ifs at h with h0
    · simp only [RP.Runs, h01, if_false] at h
      obtain ⟨y, h⟩ := h
      obtain rfl := Outcome.ok.inj h
      refine ⟨by rw [length_vecC, if_neg (by rw [h0]; norm_num)], fun z hz => ?_⟩
      obtain ⟨i, rfl⟩ := mem_vecC hz
      exact ⟨_, rfl⟩
    · obtain ⟨l, h', rfl⟩ := runs_toC h
      refine ⟨?_, fun z hz => by obtain ⟨x, _, rfl⟩ := mem_toC hz; exact ⟨x, rfl⟩⟩
      rw [length_toC]
      rcases ginDraw_runs (show (ginDraw _ _ _ _ _).Runs _ from h') with ⟨h4, A, h⟩ | ⟨h4, A, h⟩
      · obtain rfl := Outcome.ok.inj h
        rw [if_neg h4, List.length_map, (eigen_eigvalsh hla (hermitian_add A)).1, Fintype.card_fin]
      · obtain rfl := Outcome.ok.inj h
        rw [if_pos h4, List.length_map, (eigen_eigvalsh hla (hermitian_add A)).1, card_sum_fin]
  · have hc : expectedCount st (.full N M1 M2 m) = if st.b = 4 then 2 * N else N := by simp [expectedCount, hk]
    rw [hc]
    simp only [hk, laguerreFullPrep] at h
    split_ifs at h with hM h0 hs
    · exfalso; rw [h0] at hs; norm_num at hs
    · simp [RP.Runs] at h
    · obtain ⟨l, h', rfl⟩ := runs_toC h
      have key : l.length = (if st.b = 4 then 2 * N else N) ∧ ∀ x ∈ l, 0 ≤ x := by
        rcases ginDraw_runs (show (ginDraw _ _ _ _ _).Runs _ from h') with ⟨h4, A, h⟩ | ⟨h4, A, h⟩
        · obtain rfl := Outcome.ok.inj h
          have he := eigen_eigvalsh hla (hpsd A).isHermitian
          refine ⟨by rw [if_neg h4, he.1, Fintype.card_fin], fun x hx => ?_⟩
          obtain ⟨v, hv, h⟩ := he.2 x hx
          exact eigen_nonneg (hpsd A) hv h
        · obtain rfl := Outcome.ok.inj h
          have he := eigen_eigvalsh hla (hpsd A).isHermitian
          refine ⟨by rw [if_pos h4, he.1, card_sum_fin], fun x hx => ?_⟩
          obtain ⟨v, hv, h⟩ := he.2 x hx
          exact eigen_nonneg (hpsd A) hv h
      refine ⟨by rw [length_toC, key.1], fun z hz => ?_⟩
      obtain ⟨x, hx, rfl⟩ := mem_toC hz
      exact ⟨x, rfl, key.2 x hx⟩
    · simp [RP.Runs] at h
  · have hc : expectedCount st (.full N M1 M2 m) = if st.b = 4 then 2 * N else N := by simp [expectedCount, hk]
    rw [hc]
    simp only [hk, jacobiFullPrep] at h
    split_ifs at h with hM h0
    · simp only [RP.Runs] at h
      split_ifs at h with hbad
      obtain ⟨y, hy, h⟩ := h
      obtain rfl := Outcome.ok.inj h
      refine ⟨by rw [length_vecC, if_neg (by rw [h0]; norm_num)], fun z hz => ?_⟩
      obtain ⟨i, rfl⟩ := mem_vecC hz
      exact ⟨_, rfl, hy i⟩
    · obtain ⟨l, h', rfl⟩ := runs_toC h
      have key : l.length = (if st.b = 4 then 2 * N else N) ∧ ∀ x ∈ l, 0 ≤ x ∧ x ≤ 1 := by
        rcases ginDraw_runs (show (ginDraw _ _ _ _ _).Runs _ from h') with ⟨h4, A, h⟩ | ⟨h4, A, h⟩
        · rcases ginDraw_runs h with ⟨_, B, h⟩ | ⟨h4', _⟩
          · have := jacobiFinish_ok hla h
            rw [if_neg h4]
            simpa using this
          · exact absurd h4' h4
        · rcases ginDraw_runs h with ⟨h4', _⟩ | ⟨_, B, h⟩
          · exact absurd h4 h4'
          · have := jacobiFinish_ok hla h
            rw [if_pos h4]
            rwa [card_sum_fin] at this
      refine ⟨by rw [length_toC, key.1], fun z hz => ?_⟩
      obtain ⟨x, hx, rfl⟩ := mem_toC hz
      exact ⟨x, rfl, key.2 x hx⟩
    · simp [RP.Runs] at h
  · have hc : expectedCount st (.full N M1 M2 m) = if st.b = 4 then 2 * N else N := by simp [expectedCount, hk]
    rw [hc]
    simp only [hk, circularFullPrep] at h
    split_ifs at h with h0
    · simp only [RP.Runs] at h
      obtain ⟨y, _, h⟩ := h
      obtain rfl := Outcome.ok.inj h
      exact ⟨by rw [(unitPts_ok y).1, if_neg (by rw [h0]; norm_num)], (unitPts_ok y).2⟩
    · cases m with
      | hermite =>
        simp only [circularSamplerFull] at h
        rcases ginDraw_runs h with ⟨h4, A, h⟩ | ⟨h4, A, h⟩
        · obtain rfl := Outcome.ok.inj h
          have he := eigen_eigvals hla (la.eighVec (A + Aᴴ))
          refine ⟨by rw [he.1, if_neg h4, Fintype.card_fin], fun z hz => ?_⟩
          obtain ⟨v, hv, h⟩ := he.2 z hz
          exact eigen_unitary (hla.eigh_unitary _ (hermitian_add A)) hv h
        · obtain rfl := Outcome.ok.inj h
          have he := eigen_eigvals hla (la.eighVec (A + Aᴴ))
          refine ⟨by rw [he.1, if_pos h4, card_sum_fin], fun z hz => ?_⟩
          obtain ⟨v, hv, h⟩ := he.2 z hz
          exact eigen_unitary (hla.eigh_unitary _ (hermitian_add A)) hv h
      | qr =>
        simp only [circularSamplerFull] at h
        rcases ginDraw_runs h with ⟨h4, A, h⟩ | ⟨h4, A, h⟩
        · rw [if_neg h4]; exact qrFinish_ok hla h
        · simp [RP.Runs] at h
      | other => simp [circularSamplerFull, RP.Runs] at h
  · have hc : expectedCount st (.full N M1 M2 m) = N := by simp [expectedCount, hk]
    rw [hc]
    simp only [hk, ginibreFullPrep, ginibreSamplerFull, RP.Runs] at h
    rw [if_neg (by norm_num)] at h
    obtain ⟨y, h⟩ := h
    rw [if_neg (by norm_num)] at h
    obtain ⟨z, h⟩ := h
    obtain rfl := Outcome.ok.inj h
    exact ⟨by rw [List.length_map, (eigen_eigvals hla _).1, Fintype.card_fin], fun _ _ => trivial⟩

theorem banded_ok {la : LA} (hla : LAOK la) {st : EnsSt} {p q : ℝ} {N : ℕ} {M1 M2 : Option ℝ} {x : EnsSt × RP (List ℂ)}
    {pts : List ℂ} (hp : ensPrep la st (.banded p q N M1 M2) = some x) (h : x.2.Runs (.ok pts)) :
    pts.length = N ∧ ∀ z ∈ pts, InSupport st.kind z := by
  classical
  obtain rfl := (Option.some.inj hp).symm
  have hlag : ∀ {sh sc : ℝ}, (laguerreBandedProg la st.b sh sc N).Runs (.ok pts) →
      pts.length = N ∧ ∀ z ∈ pts, InSupport .laguerre z := by
    intro sh sc h
    rw [laguerreBandedProg] at h
    split_ifs at h with h0 hs
    · simp only [RP.Runs] at h
      split_ifs at h with hbad
      obtain ⟨y, hy, h⟩ := h
      obtain rfl := Outcome.ok.inj h
      refine ⟨length_vecC _, fun z hz => ?_⟩
      obtain ⟨i, rfl⟩ := mem_vecC hz
      exact ⟨_, rfl, hy i⟩
    · simp [RP.Runs] at h
    · obtain ⟨l, h', rfl⟩ := runs_toC h
      obtain ⟨h1, -, h3⟩ := C53_laguerre_points hla h'
      refine ⟨by rw [length_toC, h1], fun z hz => ?_⟩
      obtain ⟨x, hx, rfl⟩ := mem_toC hz
      exact ⟨x, rfl, h3 x hx⟩
  have hjac : ∀ {a b : ℝ}, (jacobiBandedProg la st.b a b N).Runs (.ok pts) →
      pts.length = N ∧ ∀ z ∈ pts, InSupport .jacobi z := by
    intro a b h
    rw [jacobiBandedProg] at h
    split_ifs at h with h0
    · simp only [RP.Runs] at h
      split_ifs at h with hbad
      obtain ⟨y, hy, h⟩ := h
      obtain rfl := Outcome.ok.inj h
      refine ⟨length_vecC _, fun z hz => ?_⟩
      obtain ⟨i, rfl⟩ := mem_vecC hz
      exact ⟨_, rfl, hy i⟩
    · obtain ⟨l, h', rfl⟩ := runs_toC h
      obtain ⟨h1, -, h3⟩ := C53_jacobi_points hla h'
      refine ⟨by rw [length_toC, h1], fun z hz => ?_⟩
      obtain ⟨x, hx, rfl⟩ := mem_toC hz
      exact ⟨x, rfl, h3 x hx⟩
  rcases hk : st.kind with _ | _ | _ | _ | _
  · simp only [hk, hermiteBandedPrep] at h
    split_ifs at h with h0
    · simp only [RP.Runs] at h
      split_ifs at h
      obtain ⟨y, h⟩ := h
      obtain rfl := Outcome.ok.inj h
      refine ⟨length_vecC _, fun z hz => ?_⟩
      obtain ⟨i, rfl⟩ := mem_vecC hz
      exact ⟨_, rfl⟩
    · obtain ⟨l, h', rfl⟩ := runs_toC h
      refine ⟨by rw [length_toC, (normalTridiag_ok hla h').1], fun z hz => by obtain ⟨x, _, rfl⟩ := mem_toC hz; exact ⟨x, rfl⟩⟩
  · simp only [hk] at h
    cases M1 with
    | none => exact hlag h
    | some m =>
      simp only [laguerreBandedPrep] at h
      split_ifs at h
      · exact hlag h
      · exact hlag h
      · simp [RP.Runs] at h
  · simp only [hk, jacobiBandedPrep] at h
    cases hbs : bothSizes M1 M2 with
    | none => rw [hbs] at h; exact hjac h
    | some mm =>
      rw [hbs] at h
      simp only at h
      split_ifs at h
      · exact hjac h
      · simp [RP.Runs] at h
  · simp only [hk, circularBandedPrep] at h
    split_ifs at h with h0
    · simp only [RP.Runs] at h
      obtain ⟨y, _, h⟩ := h
      obtain rfl := Outcome.ok.inj h
      exact unitPts_ok y
    · cases hbt : st.beta with
      | int z => rw [hbt] at h; exact C54_quindiagonal_unit_circle hla h
      | float r => rw [hbt] at h; simp [RP.Runs] at h
      | nan => rw [hbt] at h; simp [RP.Runs] at h
  · simp [hk, RP.Runs] at h

theorem sample_result {la : LA} {st st' : EnsSt} {c : EnsCall} {r : ℕ} (h : EnsStep la st c (st', .ok (.array r)))
    {x : EnsSt × RP (List ℂ)} (hp : ensPrep la st c = some x) : x.2.Runs (.ok (st'.heap.getD r [])) := by
  generalize hres : (st', Outcome.ok (EnsRet.array r)) = res at h
  cases h with
  | @sample _ st1 q o hp' hr =>
    rw [hp] at hp'
    obtain rfl := Option.some.inj hp'
    cases o with
    | raise e => cases hres
    | ok pts =>
      obtain ⟨h1, h2⟩ := Prod.mk.inj hres
      simp only [Outcome.ok.injEq, EnsRet.array.injEq] at h2
      have : st'.heap.getD r [] = pts := by rw [h1, h2]; simp
      rw [this]
      exact hr
  | normalize => simp [ensPrep] at hp
  | newArray => simp [ensPrep] at hp
  | flush => simp [ensPrep] at hp
  | display => simp [ensPrep] at hp

/-- **C77.** A successful banded call returns exactly `size_N` points, and a successful full call returns `size_N` points when
`beta` is `0`, `1` or `2` — but `2 * size_N` points when `beta = 4`. -/
theorem C77_number_of_points_partial {la : LA} (hla : LAOK la) {st st' : EnsSt} {r : ℕ} :
    (∀ {p q : ℝ} {N : ℕ} {M1 M2}, EnsStep la st (.banded p q N M1 M2) (st', .ok (.array r)) →
      (st'.heap.getD r []).length = N) ∧
    (∀ {N M1 M2 : ℕ} {m}, EnsStep la st (.full N M1 M2 m) (st', .ok (.array r)) → st.b ≠ 4 →
      (st'.heap.getD r []).length = N) ∧
    (∀ {N M1 M2 : ℕ} {m}, EnsStep la st (.full N M1 M2 m) (st', .ok (.array r)) → st.b = 4 → st.kind ≠ .ginibre →
      (st'.heap.getD r []).length = 2 * N) := by
  refine ⟨?_, ?_, ?_⟩
  · intro p q N M1 M2 h
    exact (banded_ok hla rfl (sample_result h rfl)).1
  · intro N M1 M2 m h h4
    rw [(full_ok hla rfl (sample_result h rfl)).1, expectedCount, if_neg (fun h => h4 h.1)]
  · intro N M1 M2 m h h4 hk
    rw [(full_ok hla rfl (sample_result h rfl)).1, expectedCount, if_pos ⟨h4, hk⟩]

/-- **C77** (refuted). `HermiteEnsemble(beta=4).sample_full_model(size_N=1)` succeeds, whatever is drawn, and returns `2` points. -/
theorem C77_quaternionic_count_refuted {la : LA} (hla : LAOK la) : ∃ st, ensInit .hermite (.int 4) = .ok st ∧
    (∃ st' r, EnsStep la st (.full 1 1 1 .hermite) (st', .ok (.array r))) ∧
    ∀ st' r, EnsStep la st (.full 1 1 1 .hermite) (st', .ok (.array r)) → (st'.heap.getD r []).length = 2 := by
  have hb : (ensNew .hermite (.int 4)).b = 4 := by simp [EnsSt.b, ensNew, BetaVal.val]
  refine ⟨ensNew .hermite (.int 4), by simp [ensInit, ensInitBase], ?_, ?_⟩
  · have hp : ensPrep la (ensNew .hermite (.int 4)) (.full 1 1 1 .hermite)
        = some (hermiteFullPrep la (ensNew .hermite (.int 4)) 1) := rfl
    have hr : ∃ pts, (hermiteFullPrep la (ensNew .hermite (.int 4)) 1).2.Runs (.ok pts) := by
      simp only [hermiteFullPrep, hb, hermiteSamplerFull, ginDraw]
      norm_num [RP.map, RP.Runs]
      exact ⟨_, fun _ => 0, fun _ => 0, fun _ => 0, fun _ => 0, rfl⟩
    obtain ⟨pts, hr⟩ := hr
    exact ⟨_, _, EnsStep.sample hp hr⟩
  · intro st' r h
    exact C77_number_of_points_partial hla |>.2.2 h hb (by simp [ensNew])

/-- **C78.** Whatever the class, `beta`, history and draws, every point of a sample returned by `sample_full_model` or
`sample_banded_model` lies in the support of the ensemble: real (Hermite), real `>= 0` (Laguerre), in `[0, 1]` (Jacobi), on the unit
circle (circular). -/
theorem C78_points_in_support {la : LA} (hla : LAOK la) {st st' : EnsSt} {r : ℕ} {c : EnsCall}
    (hc : (∃ N M1 M2 m, c = .full N M1 M2 m) ∨ ∃ p q N M1 M2, c = .banded p q N M1 M2)
    (h : EnsStep la st c (st', .ok (.array r))) : ∀ z ∈ st'.heap.getD r [], InSupport st.kind z := by
  rcases hc with ⟨N, M1, M2, m, rfl⟩ | ⟨p, q, N, M1, M2, rfl⟩
  · exact (full_ok hla rfl (sample_result h rfl)).2
  · exact (banded_ok hla rfl (sample_result h rfl)).2

end Verif.Props
