import Verif.Lemmas.FiniteKDpp2

/-!
`sample_exact_k_dpp` on coherent objects, projection kernels.
-/

set_option linter.unusedSectionVars false

namespace Verif.Model
open Verif Verif.Spec Verif.Props Matrix Relation

variable {N : ℕ} {Info : Type} {env : Env N Info}
variable (hqr : QRSpec env.qr) (heigh : EighSpec env.eigh)

include heigh in
theorem kDppProb_rank {P : Mat N} (hP : IsProjection P) {r : ℕ} (ht : P.trace = (r : ℝ)) :
    kDppProb P r = exactProb P := by
  funext S
  rw [kDppProb, exactProb_proj hP ht, sum_minor_proj heigh hP ht, Nat.choose_self]
  simp

theorem rintSum_eq {E : EigVecs N} {v : ℕ → ℝ} (hE : EigOK E v) {r : ℕ}
    (ht : (kerOf E v).trace = (r : ℝ)) : rintSum v E.M = r := by
  rw [kerOf, trace_ker hE.orth] at ht
  rw [rintSum, Finset.sum_range, ht, round_natCast]

theorem ones_zono {A : Rect N} : aboveHalf (fun _ => 1) (zonoVecs env A).M = List.range A.d := by
  unfold aboveHalf zonoVecs
  simp only
  rw [List.filter_eq_self]
  intro a _
  norm_num

variable {mode : String} (hmode : mode = "GS" ∨ mode = "GS_bis" ∨ mode = "KuTa12")
include hqr heigh hmode

/-- projection correlation kernels: only `size = rank` is possible, and this is the DPP itself -/
theorem sampleKDpp_corr_proj {o : Obj N Info} {K0 : Mat N} (h : Coh o K0) (hc : o.corr = true)
    (hp : o.projection = true) {r : ℕ} (ht : K0.trace = (r : ℝ)) (k : ℕ)
    (hn : o.Kvals = none → o.zono = none → mode = "GS") :
    (k = r → GoodCall (sampleExactKDpp env o k mode) (exactProb K0)) ∧
    (k ≠ r → Raises (sampleExactKDpp env o k mode) .valueError) := by
  obtain ⟨_, _, m3, m4⟩ := mode_ne hqr heigh hmode
  have hP := (h.cp hc hp).1
  rw [← kDppProb_rank heigh hP ht, sampleExactKDpp, recLimit, sampleExactKDppF, sampleExactKDppBody]
  simp only [m3, m4, if_false, hp, hc, if_true]
  cases hv : o.Kvals with
  | some v =>
    obtain ⟨E, hE, h1, h2, h3⟩ := h.Kv v hv
    have h01 := kv_proj hqr heigh h hc hp h1 h3
    have hr := rintSum_eq h1 (by rw [← h3]; exact ht)
    simp only [hE, hr]
    constructor
    · rintro rfl
      rw [if_neg (by simp), h3]
      refine (good_proj_size hqr h1 h01 ?_ mode hmode).record _
      have := ones_card h1 h01
      rw [← h3, ht] at this
      exact le_of_eq (by exact_mod_cast this)
    · intro hk
      rw [if_pos (by simpa using hk)]
      exact ⟨_, rfl⟩
  | none =>
    simp only
    cases hA : o.zono with
    | some A =>
      obtain ⟨_, _, hl, hK⟩ := h.zono A hA
      obtain ⟨h1, h2⟩ := zono_spec hqr heigh hl
      have h01 : ∀ a : Fin (zonoVecs env A).M, (fun _ : ℕ => (1 : ℝ)) a.val = 0 ∨
          (fun _ : ℕ => (1 : ℝ)) a.val = 1 := fun _ => Or.inr rfl
      have hcard : (ones (zonoVecs env A) (fun _ => 1)).card = A.d := by
        have : ones (zonoVecs env A) (fun _ => 1) = Finset.univ := by simp [ones]
        rw [this, Finset.card_univ, Fintype.card_fin]
        rfl
      have hrd : r = A.d := by
        have := ones_card h1 h01
        rw [h2, ← hK, ht, hcard] at this
        exact_mod_cast this
      simp only
      constructor
      · rintro rfl
        rw [if_neg (by simpa using hrd), hK, ← h2, ← ones_zono]
        exact (good_proj_size hqr h1 h01 (by rw [hcard, hrd]) mode hmode).record _
      · intro hk
        rw [if_pos (by rw [← hrd]; exact hk)]
        exact ⟨_, rfl⟩
    | none =>
      have := hn hv hA
      subst this
      simp only
      have hK1 : o.K ≠ none := by
        have := h.corrK hc
        simpa [hv, hA] using this
      obtain ⟨A, hK⟩ := Option.ne_none_iff_exists'.1 hK1
      rcases h.K A hK with rfl | ⟨_, _, h3⟩
      swap
      · exact absurd hv h3
      simp only [hK, rintTr, rintTrace_eq ht]
      constructor
      · rintro rfl
        rw [if_neg (by simp)]
        exact (good_kernel_size heigh hP ht le_rfl "GS" (by simp)).record _
      · intro hk
        rw [if_pos (by simpa using hk)]
        exact ⟨_, rfl⟩

/-- projection likelihood kernels -/
theorem sampleKDpp_lik_proj {o : Obj N Info} {K0 : Mat N} (h : Coh o K0) (hc : o.corr = false)
    (hp : o.projection = true) {L : Mat N} (hL : LikelihoodOf L K0) {r : ℕ} (ht : L.trace = (r : ℝ))
    {k : ℕ} (hk : k ≤ r) (hn : o.Lvals = none → mode = "GS") :
    GoodCall (sampleExactKDpp env o k mode) (kDppProb L k) := by
  obtain ⟨_, _, m3, m4⟩ := mode_ne hqr heigh hmode
  obtain ⟨L', hL', hP'⟩ := h.lp hc hp
  have hP : IsProjection L := by rw [hL.unique hL']; exact hP'
  rw [sampleExactKDpp, recLimit, sampleExactKDppF, sampleExactKDppBody]
  simp only [m3, m4, if_false, hp, hc, if_true, Bool.false_eq_true]
  cases hv : o.Lvals with
  | some v =>
    obtain ⟨E, hE, h1, h2, h3⟩ := h.Lv v hv
    have hLk : L = kerOf E v := hL.unique h3
    have h01 : ∀ a : Fin E.M, v a.val = 0 ∨ v a.val = 1 :=
      eigval_idem h1.orth (by
        have := hP.2
        rw [hLk] at this; exact this)
    simp only [hE]
    rw [hLk]
    refine (good_proj_size hqr h1 h01 ?_ mode hmode).record _
    have := ones_card h1 h01
    rw [← hLk, ht] at this
    rw [show (ones E v).card = r from by exact_mod_cast this.symm]
    exact hk
  | none =>
    have := hn hv
    subst this
    have key : ∃ B o2, computeL env { o with mode := "GS", sizeK := k } = (o2, .ok ()) ∧
        o2.L = some (.num B) ∧ LikelihoodOf B K0 := by
      rw [computeL, recLimit, computeLF]
      cases hLL : o.L with
      | some A =>
        rcases h.L A hLL with ⟨B, rfl, hB⟩ | ⟨_, _, h3⟩
        · exact ⟨B, _, rfl, rfl, hB⟩
        · exact absurd hv h3
      | none =>
        simp only [hc, Bool.false_and, Bool.false_eq_true, if_false, hv]
        cases hg : o.gram with
        | some Phi => exact ⟨_, _, rfl, rfl, h.gram Phi hg⟩
        | none =>
          cases he : o.evalL with
          | some A => exact ⟨_, _, rfl, rfl, h.evalL A he⟩
          | none =>
            have := h.likL hc
            simp [hLL, hv, hg, he] at this
    obtain ⟨B, o2, h1, h2, h3⟩ := key
    simp only [hc, hp, hv] at h1
    simp only [h1, h2]
    rw [hL.unique h3]
    refine (good_kernel_size heigh (by rw [← hL.unique h3]; exact hP) (r := r)
      (by rw [← hL.unique h3]; exact ht) hk "GS" (by simp)).record _

end Verif.Model
