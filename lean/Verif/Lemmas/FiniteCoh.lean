import Verif.Lemmas.FiniteAlg
import Verif.Lemmas.SpectralLaw
import Mathlib.Logic.Relation

/-!
Invariant of `FiniteDPP` objects: every attribute that is set describes the same DPP, the one with
correlation kernel `K0`.
-/

set_option linter.unusedSectionVars false

namespace Verif.Model
open Verif Verif.Spec Matrix

variable {N : ℕ} {Info : Type}

/-- The dual kernel of the object is singular: the rows of the Gram factor are dependent. -/
def RankDef (o : Obj N Info) : Prop := ∃ Phi, o.dual = some Phi ∧ ¬ LinearIndependent ℝ Phi.a

/-- eigenvalues with coherent eigenvectors -/
structure EigOK (E : EigVecs N) (v : ℕ → ℝ) : Prop where
  orth : OrthOn E.u (fun a : Fin E.M => v a.val)
  bad : ∀ a, E.bad a = true → v a.val = 0

/-- `Σ_a v_a u_a u_aᵀ` -/
abbrev kerOf (E : EigVecs N) (v : ℕ → ℝ) : Mat N := ker E.u (fun a => v a.val)

/-- The attributes describe the DPP with correlation kernel `K0`. -/
structure Coh (o : Obj N Info) (K0 : Mat N) : Prop where
  ic : IsCorrelation K0
  K : ∀ A, o.K = some A → A = .num K0 ∨ (A = .nan ∧ RankDef o ∧ o.Kvals ≠ none)
  L : ∀ A, o.L = some A → (∃ L, A = .num L ∧ LikelihoodOf L K0) ∨
    (A = .nan ∧ RankDef o ∧ o.Lvals ≠ none)
  Kv : ∀ v, o.Kvals = some v → ∃ E, o.vecs = some E ∧ EigOK E v ∧
    (∀ a : Fin E.M, 0 ≤ v a.val ∧ v a.val ≤ 1) ∧ K0 = kerOf E v
  Lv : ∀ v, o.Lvals = some v → ∃ E, o.vecs = some E ∧ EigOK E v ∧
    (∀ a : Fin E.M, 0 ≤ v a.val) ∧ LikelihoodOf (kerOf E v) K0
  bad : ∀ E, o.vecs = some E → (∃ a, E.bad a = true) → RankDef o
  zono : ∀ A, o.zono = some A → o.corr = true ∧ o.projection = true ∧ LinearIndependent ℝ A.a ∧
    K0 = rowProj A.a
  gram : ∀ Phi, o.gram = some Phi → LikelihoodOf (gramMat Phi) K0
  dual : ∀ Phi, o.dual = some Phi → o.gram = some Phi
  evalL : ∀ A, o.evalL = some A → LikelihoodOf A K0
  corrK : o.corr = true → o.K ≠ none ∨ o.Kvals ≠ none ∨ o.zono ≠ none
  corrL : o.corr = true → o.gram = none ∧ o.evalL = none
  likL : o.corr = false → o.L ≠ none ∨ o.Lvals ≠ none ∨ o.gram ≠ none ∨ o.evalL ≠ none
  likK : o.corr = false → o.K ≠ none → o.Kvals ≠ none
  gramL : ∀ Phi, o.gram = some Phi → o.dual = none → o.L ≠ none ∨ o.Lvals ≠ none
  likV : o.corr = false → o.Kvals ≠ none → o.Lvals ≠ none
  corrV : o.corr = true → o.Lvals ≠ none → o.Kvals ≠ none
  corrLV : o.corr = true → o.L ≠ none → o.Lvals ≠ none
  cp : o.corr = true → o.projection = true → IsProjection K0 ∧ o.L = none ∧ o.Lvals = none
  lp : o.corr = false → o.projection = true → ∃ L, LikelihoodOf L K0 ∧ IsProjection L

/-- Elementary updates of the attributes. -/
inductive Upd (env : Env N Info) : Obj N Info → Obj N Info → Prop
  | book (o) (m s k i) :
      Upd env o { o with mode := m, samples := s, sizeK := k, info := i }
  | epoly (o v E k) (hp : o.Epoly = none) (hc : o.projection = false) (hv : o.Lvals = some v)
      (hE : o.vecs = some E) :
      Upd env o { o with Epoly := some (elementarySymmetricPolynomials E.M v k) }
  | setK (o v E) (hK : o.K = none) (hv : o.Kvals = some v) (hE : o.vecs = some E) :
      Upd env o { o with K := some (kerMat E v) }
  | zono (o A) (hv : o.Kvals = none) (hA : o.zono = some A) :
      Upd env o { o with Kvals := some fun _ => 1, vecs := some (zonoVecs env A) }
  | kOfL (o v) (hk : o.Kvals = none) (hv : o.Lvals = some v) : Upd env o { o with Kvals := some (toK v) }
  | eighL (o) (A : Mat N) (hk : o.Kvals = none) (hl : o.Lvals = none) (hL : o.L = some (.num A)) :
      Upd env o { o with Lvals := some (vecNat (env.eigh N A).1),
                         vecs := some { M := N, u := (env.eigh N A).2, bad := fun _ => false } }
  | setL (o v E) (hL : o.L = none) (hc : (o.corr && o.projection) = false) (hv : o.Lvals = some v)
      (hE : o.vecs = some E) : Upd env o { o with L := some (kerMat E v) }
  | gram (o Phi) (hL : o.L = none) (hc : (o.corr && o.projection) = false)
      (hP : o.gram = some Phi) : Upd env o { o with L := some (.num (gramMat Phi)) }
  | evalL (o) (A : Mat N) (hL : o.L = none) (hc : (o.corr && o.projection) = false)
      (hA : o.evalL = some A) : Upd env o { o with L := some (.num A) }
  | lOfK (o v) (hc : (o.corr && o.projection) = false) (hl : o.Lvals = none) (hv : o.Kvals = some v)
      (h1 : someOne v (nbCols o) = false) : Upd env o { o with Lvals := some (toL v) }
  | eighK (o) (A : Mat N) (hk : o.Kvals = none) (hl : o.Lvals = none) (hK : o.K = some (.num A)) :
      Upd env o { o with Kvals := some (vecNat (env.eigh N A).1),
                         vecs := some { M := N, u := (env.eigh N A).2, bad := fun _ => false } }
  | dual (o Phi clip) (hk : o.Kvals = none) (hl : o.Lvals = none) (hP : o.dual = some Phi) :
      Upd env o { o with Lvals := some (dualEig env Phi clip).1, vecs := some (dualEig env Phi clip).2 }
  | dualNeg (o Phi) (hP : o.dual = some Phi) (hn : dualNeg env Phi = true) :
      Upd env o { o with Lvals := some (dualEig env Phi false).1 }

theorem kerMat_eq {E : EigVecs N} {v : ℕ → ℝ} :
    ((∃ a, E.bad a = true) ∧ kerMat E v = .nan) ∨ ((∀ a, E.bad a = false) ∧ kerMat E v = .num (kerOf E v)) := by
  unfold kerMat
  by_cases h : (List.finRange E.M).any E.bad = true
  · left
    rw [if_pos h]
    rw [List.any_eq_true] at h
    obtain ⟨a, _, ha⟩ := h
    exact ⟨⟨a, ha⟩, rfl⟩
  · right
    rw [if_neg h]
    refine ⟨fun a => ?_, rfl⟩
    by_contra hb
    apply h
    rw [List.any_eq_true]
    exact ⟨a, List.mem_finRange a, by simpa using hb⟩

section
variable {env : Env N Info} (hqr : QRSpec env.qr) (heigh : EighSpec env.eigh)
include hqr heigh

theorem dualEig_spec (Phi : Rect N) (clip : Bool) :
    dualNeg env Phi = false ∧
    EigOK (dualEig env Phi clip).2 (dualEig env Phi clip).1 ∧
    (∀ a : Fin (dualEig env Phi clip).2.M, 0 ≤ (dualEig env Phi clip).1 a.val) ∧
    kerOf (dualEig env Phi clip).2 (dualEig env Phi clip).1 = gramMat Phi ∧
    ((∃ a, (dualEig env Phi clip).2.bad a = true) → ¬ LinearIndependent ℝ Phi.a) := by
  obtain ⟨hW, hG⟩ := heigh Phi.d (fun k l => ∑ i, Phi.a k i * Phi.a l i)
    (fun k l => Finset.sum_congr rfl (fun _ _ => by ring))
  unfold dualNeg dualEig
  generalize env.eigh Phi.d (fun k l => ∑ i, Phi.a k i * Phi.a l i) = e at hW hG
  have h0 := dual_nonneg hW hG
  have hv : ∀ a, (if clip = true then max (e.1 a) 0 else e.1 a) = e.1 a := by
    intro a
    split
    · exact max_eq_left (h0 a)
    · rfl
  simp only [hv]
  refine ⟨?_, ⟨?_, ?_⟩, ?_, ?_, ?_⟩
  · simp only [decide_eq_false_iff_not, not_exists, not_lt]
    intro a
    refine le_trans ?_ (h0 a)
    rw [tol8]; norm_num
  · simp only [vecNat_val]
    exact dual_orthOn hW hG
  · intro a ha
    simp only [decide_eq_true_eq] at ha
    exact (vecNat_val e.1 a).trans (le_antisymm ha (h0 a))
  · intro a; exact (h0 a).trans_eq (vecNat_val e.1 a).symm
  · simp only [kerOf, vecNat_val]
    exact dual_ker hW hG
  · rintro ⟨a, ha⟩
    simp only [decide_eq_true_eq] at ha
    exact dual_dep hW hG a (le_antisymm ha (h0 a))

theorem eigh_spec {A : Mat N} (hs : ∀ i j, A i j = A j i) :
    EigOK { M := N, u := (env.eigh N A).2, bad := fun _ => false } (vecNat (env.eigh N A).1) ∧
    kerOf { M := N, u := (env.eigh N A).2, bad := fun _ => false } (vecNat (env.eigh N A).1) = A := by
  obtain ⟨h1, h2⟩ := heigh N A hs
  refine ⟨⟨orth_orthOn h1 _, fun a ha => by simp at ha⟩, ?_⟩
  ext i j
  refine Eq.trans ?_ (h2 i j).symm
  simp only [ker, Matrix.of_apply, vecNat_val]

theorem zono_spec {A : Rect N} (hA : LinearIndependent ℝ A.a) :
    EigOK (zonoVecs env A) (fun _ => 1) ∧ kerOf (zonoVecs env A) (fun _ => 1) = rowProj A.a := by
  obtain ⟨h1, h2⟩ := qr_rowProj hqr A.a hA
  exact ⟨⟨orth_orthOn h1 _, fun a ha => by simp [zonoVecs] at ha⟩, h2⟩

theorem Coh.upd {o o' : Obj N Info} {K0 : Mat N} (h : Coh o K0) (hu : Upd env o o') : Coh o' K0 := by
  cases hu with
  | book m s k i => exact { h with }
  | epoly v E k hp hc hv hE => exact { h with }
  | setK v E hK hv hE =>
    obtain ⟨E', hE', h1, h2, h3⟩ := h.Kv v hv
    rw [hE] at hE'; cases hE'
    exact { h with
      K := by
        intro A hA
        simp only [Option.some.injEq] at hA
        subst hA
        rcases kerMat_eq (E := E) (v := v) with ⟨hb, hn⟩ | ⟨hb, hn⟩
        · exact Or.inr ⟨hn, h.bad E hE hb, by simp [hv]⟩
        · left; rw [hn, ← h3]
      corrK := fun _ => Or.inl (by simp)
      likK := fun _ _ => by simp [hv] }
  | zono A hv hA =>
    obtain ⟨hc, hp, hl, hK⟩ := h.zono A hA
    obtain ⟨h1, h2⟩ := zono_spec hqr heigh hl
    obtain ⟨_, hLn, hLv⟩ := h.cp hc hp
    exact { h with
      K := fun B hB => (h.K B hB).imp id (fun ⟨a, b, _⟩ => ⟨a, b, by simp⟩)
      Kv := by
        intro v hv'
        simp only [Option.some.injEq] at hv'
        subst hv'
        exact ⟨zonoVecs env A, rfl, h1, fun _ => ⟨zero_le_one, le_rfl⟩, by rw [hK, h2]⟩
      Lv := by intro v hv'; rw [hLv] at hv'; cases hv'
      bad := by
        intro E hE ⟨a, ha⟩
        simp only [Option.some.injEq] at hE
        subst hE
        simp [zonoVecs] at ha
      corrK := fun _ => Or.inr (Or.inl (by simp))
      likK := fun _ _ => by simp
      likV := fun hc' => by rw [hc] at hc'; cases hc'
      corrV := fun _ _ => by simp }
  | kOfL v hk hv =>
    obtain ⟨E, hE, h1, h2, h3⟩ := h.Lv v hv
    exact { h with
      K := fun B hB => (h.K B hB).imp id (fun ⟨a, b, _⟩ => ⟨a, b, by simp⟩)
      Kv := by
        intro w hw
        simp only [Option.some.injEq] at hw
        subst hw
        refine ⟨E, hE, ⟨h1.orth.congr (fun a ha => by simp [toK, ha]), fun a ha => by simp [toK, h1.bad a ha]⟩,
          fun a => ?_, ?_⟩
        · have := h2 a
          simp only [toK]
          exact ⟨by positivity, by rw [div_le_one (by positivity)]; linarith⟩
        · exact h3.unique_K (likelihoodOf_ker h1.orth h2)
      corrK := fun _ => Or.inr (Or.inl (by simp))
      likK := fun _ _ => by simp
      likV := fun _ _ => by simp [hv]
      corrV := fun _ _ => by simp }
  | eighL A hk hl hL =>
    obtain ⟨L, h1, h2⟩ | ⟨h1, _, h3⟩ := h.L _ hL
    swap
    · cases h1
    simp only [KMat.num.injEq] at h1
    subst h1
    obtain ⟨h3, h4⟩ := eigh_spec hqr heigh h2.symm
    exact { h with
      L := fun B hB => (h.L B hB).imp id (fun ⟨a, b, _⟩ => ⟨a, b, by simp⟩)
      Kv := by intro v hv'; rw [hk] at hv'; cases hv'
      Lv := by
        intro v hv
        simp only [Option.some.injEq] at hv
        subst hv
        refine ⟨_, rfl, h3, eigval_nonneg h3.orth ?_, ?_⟩
        · exact fun x => (h2.nonneg x).trans_eq (congrArg (fun B : Mat N => ∑ i, ∑ j, x i * B i j * x j) h4).symm
        · rw [h4]; exact h2
      bad := by
        intro E hE ⟨a, ha⟩
        simp only [Option.some.injEq] at hE
        subst hE
        simp at ha
      likL := fun _ => Or.inr (Or.inl (by simp))
      gramL := fun _ _ _ => Or.inr (by simp)
      likV := fun _ _ => by simp
      corrV := fun hc _ => absurd (h.corrLV hc (by simp [hL])) (by simp [hl])
      corrLV := fun _ _ => by simp
      cp := fun hc hp => by have := (h.cp hc hp).2.1; rw [hL] at this; cases this }
  | setL v E hL hc hv hE =>
    obtain ⟨E', hE', h1, h2, h3⟩ := h.Lv v hv
    rw [hE] at hE'; cases hE'
    exact { h with
      L := by
        intro A hA
        simp only [Option.some.injEq] at hA
        subst hA
        rcases kerMat_eq (E := E) (v := v) with ⟨hb, hn⟩ | ⟨hb, hn⟩
        · exact Or.inr ⟨hn, h.bad E hE hb, by simp [hv]⟩
        · left; exact ⟨_, hn, h3⟩
      likL := fun _ => Or.inl (by simp)
      gramL := fun _ _ _ => Or.inl (by simp)
      corrLV := fun _ _ => by simp [hv]
      cp := fun hc1 hp => by
        rw [show o.corr = true from hc1, show o.projection = true from hp] at hc; cases hc }
  | gram Phi hL hc hP =>
    exact { h with
      L := by
        intro A hA
        simp only [Option.some.injEq] at hA
        subst hA
        exact Or.inl ⟨_, rfl, h.gram Phi hP⟩
      likL := fun _ => Or.inl (by simp)
      gramL := fun _ _ _ => Or.inl (by simp)
      corrLV := fun hc1 => by have := (h.corrL hc1).1; rw [hP] at this; cases this
      cp := fun hc1 hp => by
        rw [show o.corr = true from hc1, show o.projection = true from hp] at hc; cases hc }
  | evalL A hL hc hA =>
    exact { h with
      L := by
        intro B hB
        simp only [Option.some.injEq] at hB
        subst hB
        exact Or.inl ⟨_, rfl, h.evalL A hA⟩
      likL := fun _ => Or.inl (by simp)
      gramL := fun _ _ _ => Or.inl (by simp)
      corrLV := fun hc1 => by have := (h.corrL hc1).2; rw [hA] at this; cases this
      cp := fun hc1 hp => by
        rw [show o.corr = true from hc1, show o.projection = true from hp] at hc; cases hc }
  | lOfK v hc hl hv h1 =>
    obtain ⟨E, hE, h2, h3, h4⟩ := h.Kv v hv
    have hne : ∀ a : Fin E.M, v a.val ≠ 1 := by
      intro a ha
      simp only [someOne, nbCols, hE, decide_eq_false_iff_not, not_exists, not_and] at h1
      exact h1 a.val a.isLt ha
    exact { h with
      L := fun B hB => (h.L B hB).imp id (fun ⟨a, b, _⟩ => ⟨a, b, by simp⟩)
      Lv := by
        intro w hw
        simp only [Option.some.injEq] at hw
        subst hw
        have hnn : ∀ a : Fin E.M, 0 ≤ toL v a.val := fun a => by
          have := h3 a
          exact div_nonneg this.1 (by linarith)
        have ho : OrthOn E.u (fun a : Fin E.M => toL v a.val) :=
          h2.orth.congr (fun a ha => by simp [toL, ha])
        refine ⟨E, hE, ⟨ho, fun a ha => by simp [toL, h2.bad a ha]⟩, hnn, ?_⟩
        have e := likelihoodOf_ker ho hnn
        have : ker E.u (fun a : Fin E.M => toL v a.val / (1 + toL v a.val)) = K0 := by
          rw [h4]
          exact ker_congr _ (fun a => toK_toL (hne a))
        rw [this] at e
        exact e
      likL := fun _ => Or.inr (Or.inl (by simp))
      gramL := fun _ _ _ => Or.inr (by simp)
      likV := fun _ _ => by simp
      corrV := fun _ _ => by simp [hv]
      corrLV := fun _ _ => by simp
      cp := fun hc1 hp => by
        rw [show o.corr = true from hc1, show o.projection = true from hp] at hc; cases hc }
  | eighK A hk hl hK =>
    obtain h1 | ⟨h1, _, h3⟩ := h.K _ hK
    swap
    · cases h1
    simp only [KMat.num.injEq] at h1
    subst h1
    obtain ⟨h3, h4⟩ := eigh_spec hqr heigh h.ic.symm
    exact { h with
      K := fun B hB => (h.K B hB).imp id (fun ⟨a, b, _⟩ => ⟨a, b, by simp⟩)
      Lv := by intro v hv'; rw [hl] at hv'; cases hv'
      Kv := by
        intro v hv
        simp only [Option.some.injEq] at hv
        subst hv
        have e1 := eigval_nonneg h3.orth (fun x => (h.ic.nonneg x).trans_eq (congrArg (fun B : Mat N => ∑ i, ∑ j, x i * B i j * x j) h4).symm)
        have e2 := eigval_le_one h3.orth (fun x => le_of_eq_of_le (congrArg (fun B : Mat N => ∑ i, ∑ j, x i * B i j * x j) h4) (h.ic.le_one x))
        exact ⟨_, rfl, h3, fun a => ⟨e1 a, e2 a⟩, h4.symm⟩
      bad := by
        intro E hE ⟨a, ha⟩
        simp only [Option.some.injEq] at hE
        subst hE
        simp at ha
      corrK := fun _ => Or.inl (by simp [hK])
      likK := fun _ _ => by simp
      likV := fun hc _ => absurd (h.likK hc (by simp [hK])) (by simp [hk])
      corrV := fun _ _ => by simp }
  | dual Phi clip hk hl hP =>
    obtain ⟨_, h3, h4, h5, h6⟩ := dualEig_spec hqr heigh Phi clip
    exact { h with
      L := fun B hB => (h.L B hB).imp id (fun ⟨a, b, _⟩ => ⟨a, b, by simp⟩)
      Kv := by intro v hv'; rw [hk] at hv'; cases hv'
      Lv := by
        intro v hv
        simp only [Option.some.injEq] at hv
        subst hv
        exact ⟨_, rfl, h3, h4, by rw [h5]; exact h.gram Phi (h.dual Phi hP)⟩
      bad := by
        intro E hE ha
        simp only [Option.some.injEq] at hE
        subst hE
        exact ⟨Phi, hP, h6 ha⟩
      likL := fun _ => Or.inr (Or.inl (by simp))
      gramL := fun _ _ _ => Or.inr (by simp)
      likV := fun _ _ => by simp
      corrV := fun hc1 => by
        have := (h.corrL hc1).1; rw [h.dual Phi hP] at this; cases this
      corrLV := fun _ _ => by simp
      cp := fun hc1 _ => by
        have := (h.corrL hc1).1; rw [h.dual Phi hP] at this; cases this }
  | dualNeg Phi hP hn =>
    rw [(dualEig_spec hqr heigh Phi false).1] at hn
    cases hn

theorem Coh.rtg {o o' : Obj N Info} {K0 : Mat N} (h : Coh o K0)
    (hu : Relation.ReflTransGen (Upd env) o o') : Coh o' K0 := by
  induction hu with
  | refl => exact h
  | tail _ hu ih => exact ih.upd hqr heigh hu

end
end Verif.Model
