import Verif.Props.ZonoLaw

/-!
C41: from the default starting point the initialisation may loop forever.
-/

namespace Verif.Props
open Verif Verif.Spec Verif.Model Matrix MeasureTheory Verif.Lemmas.ZonoTiles
open scoped ENNReal

variable {N r : ℕ} {A : Matrix (Fin r) (Fin N) ℝ} {c : Fin N → ℝ} {L : Lp N r}

theorem exists_tile (hA : (A * Aᵀ).det ≠ 0) : ∃ (T : Finset (Fin N)) (hT : T.card = r), (Lemmas.ZonoTiles.cols A (ec T hT)).det ≠ 0 := by
  by_contra hcon
  push Not at hcon
  have h4 := exactProb_superset (Aᵀ * (A * Aᵀ)⁻¹ * A) ∅
  have h5 : minor (Aᵀ * (A * Aᵀ)⁻¹ * A) ∅ = 1 := by
    rw [minor]; exact Matrix.det_isEmpty
  rw [h5, Finset.sum_eq_zero] at h4
  · exact zero_ne_one h4
  · intro S _
    rw [← C116_projection_dpp hA, kDppProb]
    split
    · rename_i h
      rw [gram_det h, hcon _ h]
      simp
    · rfl

/-- C41 (finding): when `x_0` is not given, `x_0 = A rng.rand(N)`: with positive probability the initialisation solves the
same linear program forever. -/
theorem C41_default_start_may_loop (hr : 0 < r) (hA : (A * Aᵀ).det ≠ 0) (hu : UniqueOptimum A c) (hL : LpExact A c L)
    (o : McmcOpts) (tape : ℕ → ZDraw r) :
    0 < volume {u : Fin N → ℝ | (∀ i, 0 ≤ u i ∧ u i ≤ 1) ∧ ∀ fuel, zonoSampler A L o tape (A *ᵥ u) fuel = none} := by
  classical
  obtain ⟨T, hT, hdet⟩ := exists_tile hA
  obtain ⟨b0, hb0⟩ : ∃ b0 : Fin r, b0 = ⟨0, hr⟩ := ⟨_, rfl⟩
  have e0 := zEps_pos
  have e1 : zEps < 1 := by unfold zEps; norm_num
  obtain ⟨O, hO⟩ : ∃ O : Set (Fin r → ℝ), O = coord A c T hT ⁻¹' Set.univ.pi fun b => if b = b0 then Set.Ioo 0 zEps else Set.Ioo 0 1 := ⟨_, rfl⟩
  have hOo : IsOpen O := by
    rw [hO]
    refine (isOpen_set_pi Set.finite_univ fun b _ => ?_).preimage ?_
    · split <;> exact isOpen_Ioo
    · unfold coord; fun_prop
  have hinv : ∀ s, coord A c T hT (fun a => (Lemmas.ZonoTiles.cols A (ec T hT) *ᵥ s) a + shift A c (ec T hT) a) = s := by
    intro s
    have : (fun a => (Lemmas.ZonoTiles.cols A (ec T hT) *ᵥ s) a + shift A c (ec T hT) a) - shift A c (ec T hT)
        = Lemmas.ZonoTiles.cols A (ec T hT) *ᵥ s := by
      funext a; simp
    rw [coord, this, Matrix.mulVec_mulVec, Matrix.nonsing_inv_mul _ (Ne.isUnit hdet), Matrix.one_mulVec]
  have hbad : ∀ x ∈ O, (extractBasis zEps (L.lp x)).length ≠ r := by
    intro x hx
    obtain ⟨s, hs⟩ : ∃ s, s = coord A c T hT x := ⟨_, rfl⟩
    have hxe : x = fun a => (Lemmas.ZonoTiles.cols A (ec T hT) *ᵥ s) a + shift A c (ec T hT) a := by
      rw [hs, coord, Matrix.mulVec_mulVec, Matrix.mul_nonsing_inv _ (Ne.isUnit hdet), Matrix.one_mulVec]
      funext a; simp
    have hsb : ∀ b, s b ∈ if b = b0 then Set.Ioo (0 : ℝ) zEps else Set.Ioo 0 1 := by
      rw [hO] at hx
      intro b
      rw [hs]
      exact hx b trivial
    have hopt : Optimal A c x (lifted A c (ec T hT) s) := by
      rw [hxe]
      refine lifted_optimal (ec_inj hT) hdet fun b => ?_
      have := hsb b
      split at this
      · exact ⟨this.1.le, (this.2.trans e1).le⟩
      · exact ⟨this.1.le, this.2.le⟩
    have he : L.lp x = lifted A c (ec T hT) s := hu x _ _ (hL.opt x ⟨_, hopt.1⟩) hopt
    have hsub : (extractBasis zEps (L.lp x)).toFinset ⊆ T.erase (ec T hT b0) := by
      intro i hi
      rw [List.mem_toFinset, mem_extractBasis, he] at hi
      rw [Finset.mem_erase]
      constructor
      · rintro rfl
        rw [lifted_col (ec_inj hT)] at hi
        have := hsb b0
        rw [if_pos rfl] at this
        linarith [hi.1, this.2]
      · by_contra hiT
        have hn : ∀ b, i ≠ ec T hT b := fun b h => hiT (h ▸ ec_mem hT b)
        rw [lifted_out hn] at hi
        rcases upper_mem (A := A) (c := c) (e := ec T hT) i with h0 | h0 <;> rw [h0] at hi <;> linarith [hi.1, hi.2]
    have hcard := Finset.card_le_card hsub
    rw [List.toFinset_card_of_nodup (extractBasis_sorted.imp fun h => h.ne), Finset.card_erase_of_mem (ec_mem hT b0), hT] at hcard
    omega
  obtain ⟨U, hU⟩ : ∃ U : Set (Fin N → ℝ), U = {u | (∀ i, 0 < u i ∧ u i < 1) ∧ A *ᵥ u ∈ O} := ⟨_, rfl⟩
  have hUo : IsOpen U := by
    have : U = (Set.univ.pi fun _ => Set.Ioo 0 1) ∩ (fun u => A *ᵥ u) ⁻¹' O := by
      rw [hU]; ext u; simp
    rw [this]
    exact (isOpen_set_pi Set.finite_univ fun _ _ => isOpen_Ioo).inter (hOo.preimage (by fun_prop))
  have hUn : U.Nonempty := by
    obtain ⟨s, hs⟩ : ∃ s : Fin r → ℝ, s = fun b => if b = b0 then zEps / 2 else 1 / 2 := ⟨_, rfl⟩
    obtain ⟨y, hy⟩ : ∃ y, y = lifted A c (ec T hT) s := ⟨_, rfl⟩
    have hopt := lifted_optimal (A := A) (c := c) (ec_inj hT) hdet (s := s) fun b => by
      rw [hs]; simp only
      split <;> constructor <;> linarith
    rw [← hy] at hopt
    have hyO : A *ᵥ y ∈ O := by
      have : A *ᵥ y = fun a => (Lemmas.ZonoTiles.cols A (ec T hT) *ᵥ s) a + shift A c (ec T hT) a := funext hopt.1.1
      rw [this, hO, Set.mem_preimage, hinv]
      intro b _
      rw [hs]
      simp only
      split <;> constructor <;> linarith
    have hc : Filter.Tendsto (fun δ : ℝ => A *ᵥ (y + δ • (fun i => 1 / 2 - y i))) (nhdsWithin 0 (Set.Ioi 0)) (nhds (A *ᵥ y)) := by
      have : Continuous fun δ : ℝ => A *ᵥ (y + δ • (fun i => 1 / 2 - y i)) := by fun_prop
      have h := this.tendsto 0
      rw [zero_smul, add_zero] at h
      exact h.mono_left nhdsWithin_le_nhds
    have hpos : ∀ᶠ δ in nhdsWithin (0 : ℝ) (Set.Ioi 0), (0 : ℝ) < δ := self_mem_nhdsWithin
    have hlt : ∀ᶠ δ in nhdsWithin (0 : ℝ) (Set.Ioi 0), (δ : ℝ) < 1 := nhdsWithin_le_nhds (gt_mem_nhds one_pos)
    obtain ⟨δ, ⟨h1, h2⟩, h3⟩ := ((hc.eventually (hOo.mem_nhds hyO)).and hpos |>.and hlt).exists
    refine ⟨y + δ • (fun i => 1 / 2 - y i), ?_⟩
    rw [hU]
    refine ⟨fun i => ?_, h1⟩
    obtain ⟨g1, g2⟩ := hopt.1.2 i
    simp only [Pi.add_apply, Pi.smul_apply, smul_eq_mul]
    constructor <;> nlinarith
  refine lt_of_lt_of_le (hUo.measure_pos volume hUn) (measure_mono fun u hu1 => ?_)
  rw [hU] at hu1
  exact ⟨fun i => ⟨(hu1.1 i).1.le, (hu1.1 i).2.le⟩, fun fuel => C41_init_diverges o tape hr (hbad _ hu1.2) fuel⟩

end Verif.Props
