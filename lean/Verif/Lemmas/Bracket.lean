import Verif.Lemmas.Ties2
import Verif.Lemmas.Bless2

/-!
Where the search of the rescaling of alpha-dpp starts, compared with its interval.
-/

namespace Verif
open Verif Verif.Spec Verif.Model Matrix

variable {n : ℕ} {num : Numerics} {L : Matrix (Fin n) (Fin n) ℝ}

theorem nysDeff_mono {N : Nystrom n} (hN : ∀ j, 0 ≤ N.eigvals j) {a b : ℝ} (ha : 0 < a) (hab : a ≤ b) : nysDeff N a ≤ nysDeff N b := by
  unfold nysDeff
  refine Finset.sum_le_sum fun j _ => ?_
  have h1 := mul_nonneg ha.le (hN j)
  have h2 := mul_le_mul_of_nonneg_right hab (hN j)
  have : 1 / (b * N.eigvals j + 1) ≤ 1 / (a * N.eigvals j + 1) := one_div_le_one_div_of_le (by linarith) (by linarith)
  linarith

theorem lHat_diag {D : Centers n} (hp : ∀ e, 0 < D.probs e) (e : Fin D.items.length) :
    lHat L D e e = L (D.idx e) (D.idx e) / D.probs e := by
  unfold lHat
  have h := Real.mul_self_sqrt (hp e).le
  have h1 := (Real.sqrt_pos.2 (hp e)).ne'
  have h2 := (hp e).ne'
  rw [div_mul_eq_mul_div, one_mul, div_mul_div_comm, mul_one, h]

/-- the natural size of the pre-computation is the effective dimension at `1 / lam`, if nothing was discarded -/
theorem alphaNatural_eq (hn : NumericsSpec num) (hL : L.PosSemidef) {D : Centers n} (hp : ∀ e, 0 < D.probs e)
    {keep : List (Fin D.items.length)} (hk : keep.Nodup) {lam : ℝ} (hlam : 0 < lam)
    (hall : ∑ j, (nysOf num L D keep).eigvals j = ∑ e, L (D.idx e) (D.idx e) / D.probs e) :
    alphaNatural L (nysOf num L D keep) lam = nysDeff (nysOf num L D keep) (1 / lam) := by
  obtain ⟨a, ha⟩ : ∃ a, a = 1 / lam := ⟨_, rfl⟩
  have ha0 : 0 < a := by rw [ha]; positivity
  have hN := nysOf_ok hn hL D hk
  have hsym := lHat_symm hL D
  obtain ⟨horth, hdec⟩ := hn.eigh _ _ hsym
  have heig : ∀ e c, ∑ f, (num.eigh _ (lHat L D)).2 f c * lHat L D f e
      = (num.eigh _ (lHat L D)).1 c * (num.eigh _ (lHat L D)).2 e c := by
    intro e c
    calc ∑ f, (num.eigh _ (lHat L D)).2 f c * lHat L D f e
        = ∑ f, (num.eigh _ (lHat L D)).2 f c * ∑ b, (num.eigh _ (lHat L D)).1 b * (num.eigh _ (lHat L D)).2 f b *
            (num.eigh _ (lHat L D)).2 e b := Finset.sum_congr rfl fun f _ => by rw [hdec f e]
      _ = ∑ b, (num.eigh _ (lHat L D)).1 b * (num.eigh _ (lHat L D)).2 e b *
            ∑ f, (num.eigh _ (lHat L D)).2 f c * (num.eigh _ (lHat L D)).2 f b := by
          simp_rw [Finset.mul_sum]
          rw [Finset.sum_comm]
          exact Finset.sum_congr rfl fun b _ => Finset.sum_congr rfl fun f _ => by ring
      _ = _ := by simp_rw [horth]; simp
  have hE : ∀ j e, nysE L (nysOf num L D keep) a j (D.idx e) ^ 2 / D.probs e
      = (nysOf num L D keep).eigvals j ^ 2 / (a * (nysOf num L D keep).eigvals j + 1) *
        ((num.eigh _ (lHat L D)).2 e (keep.get j) * (num.eigh _ (lHat L D)).2 e (keep.get j)) := by
    intro j e
    have hs := Real.sqrt_pos.2 (hp e)
    have h1 : ∑ f, (nysOf num L D keep).eigvecs f j * (L ((nysOf num L D keep).idx f) (D.idx e) *
          (1 / Real.sqrt ((nysOf num L D keep).probs f)))
        = Real.sqrt (D.probs e) * ((nysOf num L D keep).eigvals j * (num.eigh _ (lHat L D)).2 e (keep.get j)) := by
      change _ = Real.sqrt (D.probs e) * ((num.eigh _ (lHat L D)).1 (keep.get j) * (num.eigh _ (lHat L D)).2 e (keep.get j))
      rw [← heig, Finset.mul_sum]
      refine Finset.sum_congr rfl fun f _ => ?_
      change (num.eigh _ (lHat L D)).2 f (keep.get j) * (L (D.idx f) (D.idx e) * (1 / Real.sqrt (D.probs f))) = _
      unfold lHat
      field_simp
    have h2 : 0 < a * (nysOf num L D keep).eigvals j + 1 := by
      have := mul_nonneg ha0.le (hN.nonneg j)
      linarith
    unfold nysE
    rw [h1, mul_pow, mul_pow, Real.sq_sqrt (hp e).le, Real.sq_sqrt (by positivity), mul_pow]
    have h3 := (hp e).ne'
    field_simp
  have hsum : ∀ j, ∑ e, nysE L (nysOf num L D keep) a j (D.idx e) ^ 2 / D.probs e
      = (nysOf num L D keep).eigvals j ^ 2 / (a * (nysOf num L D keep).eigvals j + 1) := by
    intro j
    simp_rw [hE]
    rw [← Finset.mul_sum, horth, if_pos rfl, mul_one]
  unfold alphaNatural nysDeff
  rw [← ha]
  calc ∑ e, nysRls L (nysOf num L D keep) a ((nysOf num L D keep).idx e) / (nysOf num L D keep).probs e
      = ∑ e : Fin D.items.length, (a * (L (D.idx e) (D.idx e) / D.probs e) - a ^ 2 * ∑ j, nysE L (nysOf num L D keep) a j (D.idx e) ^ 2 / D.probs e) := by
        refine Finset.sum_congr rfl fun e _ => ?_
        change a * (L (D.idx e) (D.idx e) - a * ∑ j, nysE L (nysOf num L D keep) a j (D.idx e) ^ 2) / D.probs e = _
        rw [← Finset.sum_div]
        ring
    _ = a * ∑ j, (nysOf num L D keep).eigvals j - a ^ 2 * ∑ j, (nysOf num L D keep).eigvals j ^ 2 / (a * (nysOf num L D keep).eigvals j + 1) := by
        rw [Finset.sum_sub_distrib, ← Finset.mul_sum, ← Finset.mul_sum, ← hall, Finset.sum_comm]
        simp_rw [hsum]
    _ = _ := by
        rw [Finset.mul_sum, Finset.mul_sum, ← Finset.sum_sub_distrib]
        refine Finset.sum_congr rfl fun j _ => ?_
        have h2 : 0 < a * (nysOf num L D keep).eigvals j + 1 := by
          have := mul_nonneg ha0.le (hN.nonneg j)
          linarith
        field_simp
        ring

/-- the pre-computation for a k-DPP: the rescaling is below `1 / lam` of its dictionary -/
theorem alphaPrecompute_lt (hn : NumericsSpec num) (hL : L.PosSemidef) {D : Centers n} (hp : ∀ e, 0 < D.probs e) (hlam : 0 < D.lam)
    {s : ℤ × ℝ × ℝ} {pc : AlphaInfo n} (h : alphaPrecompute num L D (some s) = .ok pc) :
    pc.alphaMin = 1 / s.2.1 ∧ pc.alphaMax = 1 / s.2.2 ∧
    (∑ j, pc.dict.eigvals j = ∑ e, L (pc.dict.idx e) (pc.dict.idx e) / pc.dict.probs e → pc.alphaHat < 1 / D.lam) := by
  unfold alphaPrecompute at h
  rcases stableFilter_cases num.eps (num.eigh _ (lHat L D)).1 with h1 | h1
  · rw [h1] at h; exact absurd h (by simp)
  rw [h1] at h
  simp only at h
  split at h
  · exact absurd h (by simp)
  split at h
  · exact absurd h (by simp)
  have hk := stableKeep_nodup num.eps (num.eigh _ (lHat L D)).1
  have hN := nysOf_ok hn hL D hk
  simp only [Option.map_some, alphaHatOf] at h
  split at h
  · exact absurd h (by simp)
  rename_i a ha
  split at ha
  · exact absurd ha (by simp)
  rename_i hnat
  split at ha
  swap
  · exact absurd ha (by simp)
  rename_i x hx
  split at ha
  · exact absurd ha (by simp)
  simp only [Outcome.ok.injEq] at ha h
  subst ha
  subst h
  refine ⟨rfl, rfl, fun hall => ?_⟩
  obtain ⟨-, -, b3⟩ := hn.brentq _ _ _ _ hx
  rw [alphaNatural_eq hn hL hp hk hlam hall] at hnat
  change x < 1 / D.lam
  by_contra hge
  have := nysDeff_mono hN.nonneg (a := 1 / D.lam) (by positivity) (not_lt.1 hge)
  exact hnat (this.trans (by linarith))

/-- the pre-computation of the k-DPP sampler -/
theorem alphaKPre_lt (hn : NumericsSpec num) (hL : L.PosSemidef) {over : ℝ} (ho : 0 < over) {dict : PMF (Outcome (SizeState n))}
    {size : ℕ} {pc : AlphaInfo n} (h : .ok pc ∈ (alphaKPre num L over dict size).support)
    (hall : ∑ j, pc.dict.eigvals j = ∑ e, L (pc.dict.idx e) (pc.dict.idx e) / pc.dict.probs e)
    (hd : ∀ D, .ok D ∈ dict.support → 0 < D.dict.lam) :
    ∃ D, .ok D ∈ dict.support ∧ pc.alphaMin = 1 / D.lamMax ∧ pc.alphaMax = 1 / D.lamMin ∧ pc.alphaHat < 1 / D.dict.lam := by
  unfold alphaKPre at h
  rw [mem_support_andThen] at h
  rcases h with ⟨D, hD, h⟩ | ⟨e, -, h⟩
  swap
  · exact absurd h (by simp)
  rw [mem_support_andThen] at h
  rcases h with ⟨DA, hDA, h⟩ | ⟨e, -, h⟩
  swap
  · exact absurd h (by simp)
  have h1 : 0 < (some over).getD D.dict.over := ho
  rcases reduceLambda_support hL (hd D hD) h1 hDA with h2 | ⟨DA', h2, hv, hlam, -⟩
  · exact absurd h2 (by simp)
  simp only [Outcome.ok.injEq] at h2
  subst h2
  rw [liftOut, PMF.support_pure, Set.mem_singleton_iff] at h
  obtain ⟨h3, h4, h5⟩ := alphaPrecompute_lt hn hL (fun e => hv.pos _ (List.get_mem _ _)) (by rw [hlam]; exact hd D hD) h.symm
  exact ⟨D, hD, h3, h4, by rw [← hlam]; exact h5 hall⟩

/-- `bless_size` with one iteration: the dictionary is the initial one -/
theorem blessSize_one {size over : ℝ} {nbIter : Option ℕ} (hit : sizeIters (sizeLamInit L size) nbIter = 1) {st : SizeState n}
    (ho : .ok st ∈ (blessSize num L size over nbIter).support) :
    st.dict.lam = sizeLamInit L size ∧ st.lamMax = sizeLamInit L size ∧ st.lamMin = 1 := by
  unfold blessSize at ho
  split at ho
  · exact absurd ho (by simp)
  split at ho
  · exact absurd ho (by simp)
  rw [mem_support_andThen] at ho
  rcases ho with ⟨D, hD, ho⟩ | ⟨e, he, ho⟩
  swap
  · exact absurd ho (by simp)
  rcases blessInit_support hD with h | ⟨D', h, hlam, hov, -⟩
  · exact absurd h (by simp)
  simp only [Outcome.ok.injEq] at h
  subst h
  have hg : (geomspace 1 (sizeLamInit L size) (sizeIters (sizeLamInit L size) nbIter).toNat).reverse = [1] := by
    rw [hit]; simp [geomspace]
  rw [hg] at ho
  simp only [sizeLoop, PMF.support_pure, Set.mem_singleton_iff, Outcome.ok.injEq] at ho
  subst ho
  exact ⟨hlam, rfl, rfl⟩

end Verif
