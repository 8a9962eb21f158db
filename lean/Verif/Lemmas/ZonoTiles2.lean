import Verif.Lemmas.ZonoTiles
import Verif.Spec.Det

/-!
The set of the points at which `extract_basis` gives a tile, and its volume.
-/

namespace Verif.Lemmas.ZonoTiles
open Verif Verif.Spec Verif.Model Verif.Props Matrix MeasureTheory
open scoped ENNReal

variable {N r : ℕ} {A : Matrix (Fin r) (Fin N) ℝ} {c : Fin N → ℝ} {L : Lp N r}

theorem zEps_pos : 0 < zEps := by unfold zEps; norm_num
theorem zEps_lt : zEps < 1 - zEps := by unfold zEps; norm_num

/-- the tile `T` as a list -/
def tl (T : Finset (Fin N)) : List (Fin N) := (List.finRange N).filter (· ∈ T)

theorem tl_toFinset (T : Finset (Fin N)) : (tl T).toFinset = T := by ext i; simp [tl]

theorem tl_nodup (T : Finset (Fin N)) : (tl T).Nodup := (List.nodup_finRange N).filter _

theorem tl_length {T : Finset (Fin N)} (hT : T.card = r) : (tl T).length = r := by
  rw [← List.toFinset_card_of_nodup (tl_nodup T), tl_toFinset, hT]

theorem extract_eq_tl (y : Fin N → ℝ) : extractBasis zEps y = tl (extractBasis zEps y).toFinset := by
  refine List.filter_congr fun i _ => ?_
  simp [extractBasis]

/-- the columns of the tile -/
def ec (T : Finset (Fin N)) (hT : T.card = r) (b : Fin r) : Fin N := (tl T).get (Fin.cast (tl_length hT).symm b)

theorem ec_inj {T : Finset (Fin N)} (hT : T.card = r) : Function.Injective (ec T hT) := by
  intro a b hab
  have := (List.nodup_iff_injective_get.1 (tl_nodup T)) hab
  simpa using this

theorem ec_mem {T : Finset (Fin N)} (hT : T.card = r) (b : Fin r) : ec T hT b ∈ T := by
  have : ec T hT b ∈ tl T := List.get_mem _ _
  simpa [tl] using this

theorem ec_surj {T : Finset (Fin N)} (hT : T.card = r) {i : Fin N} (hi : i ∈ T) : ∃ b, i = ec T hT b := by
  have h1 : i ∈ tl T := by simpa [tl] using hi
  obtain ⟨n, hn⟩ := List.mem_iff_get.1 h1
  exact ⟨Fin.cast (tl_length hT) n, by rw [ec, ← hn]; rfl⟩

theorem detCols_tl {T : Finset (Fin N)} (hT : T.card = r) : detCols A (tl T) = (cols A (ec T hT)).det := by
  rw [detCols, dif_pos (tl_length hT)]; rfl

theorem gram_det {T : Finset (Fin N)} (hT : T.card = r) : minor (Aᵀ * A) T = (cols A (ec T hT)).det ^ 2 := by
  have hb : Function.Bijective fun b : Fin r => (⟨ec T hT b, ec_mem hT b⟩ : {i // i ∈ T}) := by
    refine ⟨fun a b h => ec_inj hT (congrArg Subtype.val h), fun ⟨i, hi⟩ => ?_⟩
    obtain ⟨b, hb⟩ := ec_surj hT hi
    exact ⟨b, Subtype.ext hb.symm⟩
  rw [minor, ← Matrix.det_submatrix_equiv_self (Equiv.ofBijective _ hb), pow_two]
  nth_rewrite 1 [← Matrix.det_transpose (cols A (ec T hT))]
  rw [← Matrix.det_mul]
  rfl

/-- the feasible set of the zonotope -/
def Zono (A : Matrix (Fin r) (Fin N) ℝ) : Set (Fin r → ℝ) := {x | (Feasible A x).Nonempty}

theorem zono_image : Zono A = (fun y => A *ᵥ y) '' Set.univ.pi fun _ : Fin N => Set.Icc (0 : ℝ) 1 := by
  ext x
  constructor
  · rintro ⟨y, h1, h2⟩
    exact ⟨y, fun i _ => h2 i, funext h1⟩
  · rintro ⟨y, h1, rfl⟩
    exact ⟨y, fun a => rfl, fun i => h1 i trivial⟩

theorem zono_closed : IsClosed (Zono A) := by
  rw [zono_image]
  refine (IsCompact.image (isCompact_univ_pi fun _ => isCompact_Icc) ?_).isClosed
  fun_prop

theorem zono_meas : MeasurableSet (Zono A) := zono_closed.measurableSet

theorem zono_convex : Convex ℝ (Zono A) := by
  rw [zono_image]
  exact (convex_pi fun _ _ => convex_Icc 0 1).linear_image (Matrix.mulVecLin A)

section tile
variable (A c)
variable (T : Finset (Fin N)) (hT : T.card = r)

/-- coordinates in the tile -/
noncomputable def coord (x : Fin r → ℝ) : Fin r → ℝ := (cols A (ec T hT))⁻¹ *ᵥ (x - shift A c (ec T hT))

/-- the tile -/
def tile : Set (Fin r → ℝ) := {x | ∀ b, zEps < coord A c T hT x b ∧ coord A c T hT x b < 1 - zEps}

variable {A c T hT}

theorem tile_eq : tile A c T hT = coord A c T hT ⁻¹' Set.univ.pi fun _ => Set.Ioo zEps (1 - zEps) := by
  ext x; simp [tile]

theorem tile_open : IsOpen (tile A c T hT) := by
  rw [tile_eq]
  refine (isOpen_set_pi Set.finite_univ fun _ _ => isOpen_Ioo).preimage ?_
  unfold coord
  fun_prop

theorem tile_volume (hdet : (cols A (ec T hT)).det ≠ 0) :
    volume (tile A c T hT) = ENNReal.ofReal |(cols A (ec T hT)).det| * ENNReal.ofReal (1 - 2 * zEps) ^ r := by
  have h1 : tile A c T hT = (fun x => x - shift A c (ec T hT)) ⁻¹'
      ((Matrix.toLin' (cols A (ec T hT))⁻¹) ⁻¹' Set.univ.pi fun _ => Set.Ioo zEps (1 - zEps)) := by
    rw [tile_eq]; rfl
  have h2 : LinearMap.det (Matrix.toLin' (cols A (ec T hT))⁻¹) = ((cols A (ec T hT)).det)⁻¹ := by
    rw [LinearMap.det_toLin', Matrix.det_nonsing_inv, Ring.inverse_eq_inv']
  have h3 : volume ((fun x => x - shift A c (ec T hT)) ⁻¹'
      ((Matrix.toLin' (cols A (ec T hT))⁻¹) ⁻¹' Set.univ.pi fun _ => Set.Ioo zEps (1 - zEps)))
      = volume ((Matrix.toLin' (cols A (ec T hT))⁻¹) ⁻¹' Set.univ.pi fun _ => Set.Ioo zEps (1 - zEps)) := by
    simp only [sub_eq_add_neg]
    exact measure_preimage_add_right _ _ _
  rw [h1, h3, Measure.addHaar_preimage_linearMap _ (by rw [h2]; exact inv_ne_zero hdet), h2, inv_inv, Real.volume_pi_Ioo]
  simp only [Finset.prod_const, Finset.card_univ, Fintype.card_fin]
  congr 3
  ring

theorem mem_tile_iff (hu : UniqueOptimum A c) (hL : LpExact A c L) (hdet : (cols A (ec T hT)).det ≠ 0) {x : Fin r → ℝ} :
    (x ∈ Zono A ∧ (extractBasis zEps (L.lp x)).toFinset = T) ↔ x ∈ tile A c T hT := by
  have hmem : ∀ i, i ∈ (extractBasis zEps (L.lp x)).toFinset ↔ zEps < L.lp x i ∧ L.lp x i < 1 - zEps := fun i => by
    rw [List.mem_toFinset, mem_extractBasis]
  have hinv : ∀ s, coord A c T hT (fun a => (cols A (ec T hT) *ᵥ s) a + shift A c (ec T hT) a) = s := by
    intro s
    have : (fun a => (cols A (ec T hT) *ᵥ s) a + shift A c (ec T hT) a) - shift A c (ec T hT) = cols A (ec T hT) *ᵥ s := by
      funext a; simp
    rw [coord, this, Matrix.mulVec_mulVec, Matrix.nonsing_inv_mul _ (Ne.isUnit hdet), Matrix.one_mulVec]
  constructor
  · rintro ⟨hx, hB⟩
    have hopt := hL.opt x hx
    have hin : ∀ b, zEps < L.lp x (ec T hT b) ∧ L.lp x (ec T hT b) < 1 - zEps := fun b => by
      rw [← hmem, hB]; exact ec_mem hT b
    have he := eq_lifted hu (ec_inj hT) hdet hopt fun b => ⟨zEps_pos.trans (hin b).1, by have := (hin b).2; linarith [zEps_pos]⟩
    have hxe : x = fun a => (cols A (ec T hT) *ᵥ fun b => L.lp x (ec T hT b)) a + shift A c (ec T hT) a := by
      funext a
      rw [← lifted_image (ec_inj hT), ← he]
      exact (hopt.1.1 a).symm
    intro b
    have h4 : coord A c T hT x = fun b => L.lp x (ec T hT b) := (congrArg _ hxe).trans (hinv _)
    rw [h4]
    exact hin b
  · intro hx
    have hxe : x = fun a => (cols A (ec T hT) *ᵥ coord A c T hT x) a + shift A c (ec T hT) a := by
      rw [coord, Matrix.mulVec_mulVec, Matrix.mul_nonsing_inv _ (Ne.isUnit hdet), Matrix.one_mulVec]
      funext a; simp
    obtain ⟨s, hs⟩ : ∃ s, s = coord A c T hT x := ⟨_, rfl⟩
    have hopt : Optimal A c x (lifted A c (ec T hT) s) := by
      have := lifted_optimal (c := c) (ec_inj hT) hdet (s := s) fun b => by
        rw [hs]; exact ⟨(zEps_pos.trans (hx b).1).le, by have := (hx b).2; linarith [zEps_pos]⟩
      rw [hs] at this ⊢
      rwa [← hxe] at this
    have hZ : x ∈ Zono A := ⟨_, hopt.1⟩
    have he : L.lp x = lifted A c (ec T hT) s := hu x _ _ (hL.opt x hZ) hopt
    refine ⟨hZ, ?_⟩
    ext i
    rw [hmem, he]
    by_cases hi : i ∈ T
    · obtain ⟨b, rfl⟩ := ec_surj hT hi
      rw [lifted_col (ec_inj hT), hs]
      exact ⟨fun _ => hi, fun _ => hx b⟩
    · have hn : ∀ b, i ≠ ec T hT b := fun b h => hi (h ▸ ec_mem hT b)
      rw [lifted_out hn]
      refine ⟨fun h => ?_, fun h => absurd h hi⟩
      have e1 := zEps_pos
      rcases upper_mem (A := A) (c := c) (e := ec T hT) i with h0 | h0 <;> rw [h0] at h <;> linarith [h.1, h.2]

end tile

/-- the optimum is a vertex -/
theorem optimal_vertex (hu : UniqueOptimum A c) {x : Fin r → ℝ} {y : Fin N → ℝ} (hy : Optimal A c x y) :
    y ∈ Set.extremePoints ℝ (Feasible A x) := by
  refine ⟨hy.1, fun y1 h1 y2 h2 hseg => ?_⟩
  obtain ⟨a, b, ha, hb, hab, heq⟩ := hseg
  have hcost : ∑ i, c i * y i = a * ∑ i, c i * y1 i + b * ∑ i, c i * y2 i := by
    rw [← heq, Finset.mul_sum, Finset.mul_sum, ← Finset.sum_add_distrib]
    refine Finset.sum_congr rfl fun i _ => ?_
    simp only [Pi.add_apply, Pi.smul_apply, smul_eq_mul]
    ring
  have g1 := hy.2 y1 h1
  have g2 := hy.2 y2 h2
  have e1 : ∑ i, c i * y1 i = ∑ i, c i * y i := by
    refine le_antisymm ?_ g1
    by_contra hlt
    have hb' : b = 1 - a := by linarith
    subst hb'
    nlinarith [mul_pos ha (sub_pos.2 (not_le.1 hlt)), mul_nonneg hb.le (sub_nonneg.2 g2)]
  exact hu x _ _ ⟨h1, fun z hz => by rw [e1]; exact hy.2 z hz⟩ hy

end Verif.Lemmas.ZonoTiles
