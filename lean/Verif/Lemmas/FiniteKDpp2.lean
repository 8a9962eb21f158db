import Verif.Lemmas.FiniteKDpp

/-!
`sample_exact_k_dpp` on coherent objects, kernels that are not flagged as projections.
-/

set_option linter.unusedSectionVars false

namespace Verif.Model
open Verif Verif.Spec Verif.Props Matrix Relation

variable {N : ℕ} {Info : Type} {env : Env N Info}

/-- the call raises `e`, for certain -/
def Raises (c : Call N Info) (e : PyErr) : Prop := ∃ o', c = Dist.ret (o', .raise e)

/-- the cached table is the one computed for size `s` from the eigenvalues of the object -/
def TableAt (o : Obj N Info) (s : ℕ) : Prop :=
  ∃ E v, o.vecs = some E ∧ o.Lvals = some v ∧ o.Epoly = some (elementarySymmetricPolynomials E.M v s)

/-- What a call `sample_exact_k_dpp(k)` does. -/
def KRes (env : Env N Info) (K0 : Mat N) (k s : ℕ) (c : Call N Info) : Prop :=
  ((1 - K0).det = 0 ∧ Raises c .floatingPointError) ∨
  ∃ E : EigVecs N, ∃ v : ℕ → ℝ, EigOK E v ∧ (∀ a : Fin E.M, 0 ≤ v a.val) ∧
    LikelihoodOf (kerOf E v) K0 ∧
    ((k ≤ rankOf E v (rankTol env v E.M) ∧ GoodCall c (kDppProb (kerOf E v) k)) ∨
     (rankOf E v (rankTol env v E.M) < k ∧ Raises c .valueError)) ∧
    ∀ r, c.Possible r → TableAt r.1 s

theorem recordExact_raise (o : Obj N Info) (e : PyErr) :
    recordExact o (Dist.ret (.raise e)) = Dist.ret (o, .raise e) := by
  simp [recordExact, Dist.map, Dist.ret]

theorem andThen_raise {α β : Type*} (e : PyErr) (k : α → Dist ℝ (Outcome β)) :
    (Dist.ret (.raise e)).andThen k = Dist.ret (.raise e) := by
  simp [Dist.andThen, Dist.ret, Dist.bind]

theorem rankTol_nonneg (heps : 0 ≤ env.eps) (v : ℕ → ℝ) (M : ℕ) : 0 ≤ rankTol env v M := by
  unfold rankTol
  have h : ∀ l : List ℝ, 0 ≤ l.foldr max 0 := by
    intro l
    induction l with
    | nil => exact le_rfl
    | cons a l ih => exact le_max_of_le_right ih
  exact mul_nonneg (mul_nonneg (h _) (Nat.cast_nonneg _)) heps

theorem recordExact_post {o : Obj N Info} {d : Dist ℝ (Outcome (List (Fin N)))} {s : ℕ}
    (h : TableAt o s) : ∀ r, (recordExact o d).Possible r → TableAt r.1 s := by
  intro r hr
  rw [recordExact, Dist.Possible.map_iff] at hr
  obtain ⟨a, _, rfl⟩ := hr
  cases a with
  | ok l => exact h
  | raise e => exact h

variable (hqr : QRSpec env.qr) (heigh : EighSpec env.eigh)
variable {mode : String} (hmode : mode = "GS" ∨ mode = "GS_bis" ∨ mode = "KuTa12")
include hqr heigh hmode

theorem coh_book {o : Obj N Info} {K0 : Mat N} (h : Coh o K0) (m : String) (k : ℕ) :
    Coh { o with mode := m, sizeK := k } K0 :=
  h.upd hqr heigh (.book o m o.samples k o.info)

theorem kF_1 (heps : 0 ≤ env.eps) {o : Obj N Info} {K0 : Mat N} (h : Coh o K0)
    (hp : o.projection = false) (f : ℕ)
    {k s : ℕ} (hk : 1 ≤ k) (hT : (o.Epoly = none ∧ s = k) ∨ (TableAt o s ∧ k ≤ s)) (hs : o.Lvals ≠ none) :
    KRes env K0 k s (sampleExactKDppF env (f + 1) o k mode) := by
  obtain ⟨_, _, m3, m4⟩ := mode_ne hqr heigh hmode
  obtain ⟨v, hv⟩ := Option.ne_none_iff_exists'.1 hs
  obtain ⟨E, hE, h1, h2, h3⟩ := h.Lv v hv
  have ht := rankTol_nonneg heps v E.M
  right
  refine ⟨E, v, h1, h2, h3, ?_⟩
  obtain ⟨T, hTT, hc, hT1⟩ : ∃ T, (if o.Epoly.isNone ∨ k < k then
      some (elementarySymmetricPolynomials E.M v k) else o.Epoly) = some T ∧ Covers T E.M v k ∧
      T = elementarySymmetricPolynomials E.M v s := by
    rcases hT with ⟨h4, rfl⟩ | ⟨⟨E', v', h4, h5, h6⟩, h7⟩
    · exact ⟨_, by rw [if_pos (by simp [h4])], covers_esp _ _ le_rfl, rfl⟩
    · rw [hE] at h4; cases h4
      rw [hv] at h5; cases h5
      exact ⟨_, by rw [if_neg (by simp [h6]), h6], covers_esp _ _ h7, rfl⟩
  have e : sampleExactKDppF env (f + 1) o k mode
      = recordExact { o with mode := mode, sizeK := k, Epoly := some T }
        ((kDppEigVecsSelector E.M v (rankTol env v E.M) k (some T)).andThen fun l =>
          projEig env E l mode none) := by
    rw [sampleExactKDppF, sampleExactKDppBody]
    simp only [m3, m4, if_false, hp, hv, hE, Bool.false_eq_true, hTT]
  rw [e]
  constructor
  · by_cases hr : k ≤ rankOf E v (rankTol env v E.M)
    · exact Or.inl ⟨hr, (good_kselect hqr h1 h2 hk ht hr hc mode hmode).record _⟩
    · push Not at hr
      refine Or.inr ⟨hr, { o with mode := mode, sizeK := k, Epoly := some T }, ?_⟩
      rw [kDppEigVecsSelector, rankOf_eq, if_pos hr]
      rw [show (Outcome.valueError : Outcome (List ℕ)) = .raise .valueError from rfl, andThen_raise,
        recordExact_raise]
  · apply recordExact_post
    exact ⟨E, v, hE, hv, by rw [hT1]⟩

theorem kF_2 (heps : 0 ≤ env.eps) {o : Obj N Info} {K0 : Mat N} (h : Coh o K0)
    (hp : o.projection = false) (f : ℕ)
    {k : ℕ} (hk : 1 ≤ k) (hT : o.Epoly = none) (hl : o.Lvals = none) (hs : o.Kvals ≠ none) :
    KRes env K0 k k (sampleExactKDppF env (f + 2) o k mode) := by
  obtain ⟨_, _, m3, m4⟩ := mode_ne hqr heigh hmode
  obtain ⟨v, hv⟩ := Option.ne_none_iff_exists'.1 hs
  obtain ⟨E, hE, h1, h2, h3⟩ := h.Kv v hv
  have hb := coh_book hqr heigh hmode h mode k
  rw [sampleExactKDppF, sampleExactKDppBody]
  simp only [m3, m4, if_false, hp, hv, hl, Bool.false_eq_true]
  split
  · rename_i h1'
    left
    refine ⟨?_, _, rfl⟩
    rw [h3]
    exact (someOne_iff (o := { o with mode := mode, sizeK := k }) hE h1).1 (by
      simpa only [hp, hv, hl] using h1')
  · rename_i h1'
    have q := kF_1 hqr heigh hmode heps (hb.upd hqr heigh (.lOfK _ v (by simp [hp]) hl hv
      (by simpa [hp, hv, hl] using h1'))) hp f hk (Or.inl ⟨hT, rfl⟩) (by simp)
    simpa only [hp, hv, hl] using q

theorem kF_3 (heps : 0 ≤ env.eps) {o : Obj N Info} {K0 : Mat N} (h : Coh o K0)
    (hp : o.projection = false) (f : ℕ)
    {k : ℕ} (hk : 1 ≤ k) (hT : o.Epoly = none) (hl : o.Lvals = none)
    (hs : o.L ≠ none ∨ o.dual ≠ none ∨ o.K ≠ none) :
    KRes env K0 k k (sampleExactKDppF env (f + 3) o k mode) := by
  by_cases hkv : o.Kvals ≠ none
  · exact kF_2 hqr heigh hmode heps h hp (f + 1) hk hT hl hkv
  push Not at hkv
  obtain ⟨_, _, m3, m4⟩ := mode_ne hqr heigh hmode
  have hb := coh_book hqr heigh hmode h mode k
  rw [sampleExactKDppF, sampleExactKDppBody]
  simp only [m3, m4, if_false, hp, hkv, hl, Bool.false_eq_true]
  cases hd : o.dual with
  | some Phi =>
    simp only [(dualEig_spec hqr heigh Phi true).1, Bool.false_eq_true, if_false]
    have q := kF_1 hqr heigh hmode heps (hb.upd hqr heigh (.dual _ Phi false hkv hl hd)) hp (f + 1) hk
      (Or.inl ⟨hT, rfl⟩) (by simp)
    simpa only [hp, hkv, hd] using q
  | none =>
    simp only
    cases hL : o.L with
    | some A =>
      rcases h.L A hL with ⟨L, rfl, hL2⟩ | ⟨_, _, h3⟩
      swap
      · exact absurd hl h3
      simp only [eighMat]
      have hu := hb.upd hqr heigh (.eighL _ L hkv hl hL)
      obtain ⟨E, hE, _, h4, _⟩ := hu.Lv _ rfl
      simp only [Option.some.injEq] at hE
      subst hE
      have q := kF_1 hqr heigh hmode heps hu hp (f + 1) hk (Or.inl ⟨hT, rfl⟩) (by simp)
      simpa only [someNeg_false h4, hp, hkv, hd, hL, Bool.false_eq_true, if_false] using q
    | none =>
      simp only
      have hK1 : o.K ≠ none := by simpa [hd, hL] using hs
      obtain ⟨A, hK⟩ := Option.ne_none_iff_exists'.1 hK1
      simp only [hK]
      rcases h.K A hK with rfl | ⟨_, _, h3⟩
      swap
      · exact absurd hkv h3
      simp only [eighMat]
      have hu := hb.upd hqr heigh (.eighK _ K0 hkv hl hK)
      obtain ⟨E, hE, _, h4, _⟩ := hu.Kv _ rfl
      simp only [Option.some.injEq] at hE
      subst hE
      have q := kF_2 hqr heigh hmode heps hu hp f hk hT hl (by simp)
      simpa only [someNotIn01_false h4, hp, hl, hd, hL, hK, Bool.false_eq_true, if_false] using q

/-- `sample_exact_k_dpp(k)` on a kernel that is not flagged as a projection -/
theorem sampleKDpp_good (heps : 0 ≤ env.eps) {o : Obj N Info} {K0 : Mat N} (h : Coh o K0)
    (hp : o.projection = false) {k s : ℕ} (hk : 1 ≤ k)
    (hT : (o.Epoly = none ∧ s = k) ∨ (TableAt o s ∧ k ≤ s)) :
    KRes env K0 k s (sampleExactKDpp env o k mode) := by
  change KRes env K0 k s (sampleExactKDppF env (996 + 4) o k mode)
  by_cases hl : o.Lvals ≠ none
  · exact kF_1 hqr heigh hmode heps h hp 999 hk hT hl
  push Not at hl
  have hT0 : o.Epoly = none ∧ s = k := by
    rcases hT with hT | ⟨⟨E, v, _, h1, _⟩, _⟩
    · exact hT
    · rw [hl] at h1; cases h1
  clear hT
  obtain ⟨hT, rfl⟩ := hT0
  by_cases hkv : o.Kvals ≠ none
  · exact kF_2 hqr heigh hmode heps h hp 998 hk hT hl hkv
  by_cases hs : o.L ≠ none ∨ o.dual ≠ none ∨ o.K ≠ none
  · exact kF_3 hqr heigh hmode heps h hp 997 hk hT hl hs
  push Not at hkv hs
  obtain ⟨hL, hd, hK⟩ := hs
  obtain ⟨_, _, m3, m4⟩ := mode_ne hqr heigh hmode
  have hb := coh_book hqr heigh hmode h mode s
  have hz : o.zono = none := by
    by_contra hz
    obtain ⟨A, hA⟩ := Option.ne_none_iff_exists'.1 hz
    rw [(h.zono A hA).2.1] at hp; cases hp
  have hc : o.corr = false := by
    by_contra hc
    have := h.corrK (by simpa using hc)
    simp [hK, hkv, hz] at this
  have hg : o.gram = none := by
    by_contra hg
    obtain ⟨Phi, hP⟩ := Option.ne_none_iff_exists'.1 hg
    have := h.gramL Phi hP hd
    simp [hL, hl] at this
  have he : o.evalL ≠ none := by
    have := h.likL hc
    simpa [hL, hl, hg] using this
  obtain ⟨A, hA⟩ := Option.ne_none_iff_exists'.1 he
  rw [sampleExactKDppF, sampleExactKDppBody]
  simp only [m3, m4, if_false, hl, hkv, hd, hK, hL, hp, hA, Bool.false_eq_true]
  have e : computeL env { o with mode := mode, sizeK := s }
      = ({ o with mode := mode, sizeK := s, L := some (.num A) }, .ok ()) := by
    rw [computeL, recLimit, computeLF]
    simp [hL, hc, hl, hg, hA]
  simp only [hl, hkv, hd, hK, hL, hp, hA] at e
  rw [e]
  have q := kF_3 hqr heigh hmode heps (hb.upd hqr heigh (.evalL _ A hL (by simp [hc]) hA)) hp 996 hk hT hl
    (Or.inl (by simp))
  simpa only [hl, hkv, hd, hK, hL, hp, hA] using q

/-- a cached table that is too small: `IndexError` (or `ValueError` when the size exceeds the rank) -/
theorem sampleKDpp_small (heps : 0 ≤ env.eps) {o : Obj N Info} {K0 : Mat N} (h : Coh o K0)
    (hp : o.projection = false) {k s : ℕ} (hT : TableAt o s) (hk : s < k) :
    ∃ E v, o.vecs = some E ∧ o.Lvals = some v ∧
      ((k ≤ rankOf E v (rankTol env v E.M) ∧ Raises (sampleExactKDpp env o k mode) .indexError) ∨
       (rankOf E v (rankTol env v E.M) < k ∧ Raises (sampleExactKDpp env o k mode) .valueError)) := by
  obtain ⟨_, _, m3, m4⟩ := mode_ne hqr heigh hmode
  obtain ⟨E, v, hE, hv, hEp⟩ := hT
  refine ⟨E, v, hE, hv, ?_⟩
  have e : sampleExactKDpp env o k mode
      = recordExact { o with mode := mode, sizeK := k }
        ((kDppEigVecsSelector E.M v (rankTol env v E.M) k
          (some (elementarySymmetricPolynomials E.M v s))).andThen fun l =>
          projEig env E l mode none) := by
    rw [sampleExactKDpp, recLimit, sampleExactKDppF, sampleExactKDppBody]
    simp only [m3, m4, if_false, hp, hv, hE, Bool.false_eq_true, hEp, Option.isNone_some, lt_irrefl,
      or_self]
  rw [e]
  by_cases hr : k ≤ rankOf E v (rankTol env v E.M)
  · left
    refine ⟨hr, { o with mode := mode, sizeK := k }, ?_⟩
    have hM : ∃ n, E.M = n + 1 := by
      have h5 : rankOf E v (rankTol env v E.M) ≤ E.M := by
        refine (Finset.card_le_univ _).trans ?_
        simp
      exact ⟨E.M - 1, by omega⟩
    obtain ⟨n, hn⟩ := hM
    have hcell : elementarySymmetricPolynomials E.M v s k (n + 1) = none := by
      rw [C14_elementary_symmetric_polynomials, if_neg (by omega)]
    rw [kDppEigVecsSelector, rankOf_eq, if_neg (by omega), Option.getD_some]
    have hloop : kSelLoop v (elementarySymmetricPolynomials E.M v s) E.M k (List.replicate k 0)
        = Dist.ret none := by
      generalize elementarySymmetricPolynomials E.M v s = T at hcell
      rw [hn, kSelLoop]
      simp only [hcell]
      split <;> rename_i h7 <;> simp_all
    rw [hloop]
    have hmap : ∀ g : Option (List ℕ) → Outcome (List ℕ),
        Dist.map g (Dist.ret (R := ℝ) none) = Dist.ret (g none) := fun g => rfl
    rw [hmap]
    simp only [Outcome.indexError]
    rw [andThen_raise, recordExact_raise]
  · push Not at hr
    refine Or.inr ⟨hr, { o with mode := mode, sizeK := k }, ?_⟩
    rw [kDppEigVecsSelector, rankOf_eq, if_pos hr]
    rw [show (Outcome.valueError : Outcome (List ℕ)) = .raise .valueError from rfl, andThen_raise,
      recordExact_raise]

omit hmode in
/-- later calls do not change the table -/
theorem TableAt.upd {o o' : Obj N Info} {K0 : Mat N} (h : Coh o K0) {s : ℕ} (hp : o.projection = false)
    (hT : TableAt o s) (hu : Upd env o o') : TableAt o' s := by
  obtain ⟨E, v, hE, hv, hEp⟩ := hT
  cases hu with
  | book m s k i => exact ⟨E, v, hE, hv, hEp⟩
  | epoly v E k hp hc hv hE => rw [hEp] at hp; cases hp
  | setK => exact ⟨E, v, hE, hv, hEp⟩
  | zono A hv' hA => rw [(h.zono A hA).2.1] at hp; cases hp
  | kOfL => exact ⟨E, v, hE, hv, hEp⟩
  | eighL A hk hl => rw [hv] at hl; cases hl
  | setL => exact ⟨E, v, hE, hv, hEp⟩
  | gram => exact ⟨E, v, hE, hv, hEp⟩
  | evalL => exact ⟨E, v, hE, hv, hEp⟩
  | lOfK v hc hl => rw [hv] at hl; cases hl
  | eighK A hk hl => rw [hv] at hl; cases hl
  | dual Phi clip hk hl => rw [hv] at hl; cases hl
  | dualNeg Phi hP hn => rw [(dualEig_spec hqr heigh Phi true).1] at hn; cases hn

omit hmode in
theorem TableAt.rtg {o o' : Obj N Info} {K0 : Mat N} (h : Coh o K0) {s : ℕ} (hp : o.projection = false)
    (hT : TableAt o s) (hu : ReflTransGen (Upd env) o o') : TableAt o' s := by
  induction hu with
  | refl => exact hT
  | tail h1 h2 ih =>
    exact ih.upd hqr heigh (h.rtg hqr heigh h1) (by rw [(upd_const hqr heigh h1).2.1, hp]) h2

end Verif.Model
