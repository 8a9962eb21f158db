import Verif.Model.ErrState
import Verif.Lemmas.FiniteLaw
import Verif.Lemmas.FiniteRec

/-!
The methods with the error state of numpy (`Model/ErrState.lean`) against those of
`Model/FiniteDPP.lean`.
-/

set_option linter.unusedSectionVars false

namespace Verif.Lemmas.Err
open Verif Verif.Model Relation

variable {N : ℕ} {Info : Type} (env : Env N Info)

/-! ### refinement -/

theorem compute_refines (fuel : ℕ) : ∀ (fl : Bool) (o : Obj N Info),
    (computeKFE env fuel fl o).2 = computeKF env fuel o ∧
      (computeLFE env fuel fl o).2 = computeLF env fuel o := by
  induction fuel with
  | zero => intro fl o; simp [computeKF, computeLF, computeKFE, computeLFE]
  | succ fuel ih =>
    intro fl o
    constructor
    · rw [computeKF, computeKFE]
      have h2 := (ih fl o).2
      cases h1 : o.K with
      | some A => rfl
      | none =>
      cases h2 : o.Kvals with
      | some v => cases h3 : o.vecs <;> rfl
      | none =>
      cases h3 : o.zono with
      | some A => rfl
      | none =>
      cases h4 : o.Lvals with
      | some v => exact (ih _ _).1
      | none =>
      cases h5 : o.L with
      | some A =>
        simp only
        cases h6 : eighMat env A with
        | raise e => rfl
        | ok p =>
          obtain ⟨v, E⟩ := p
          simp only
          by_cases hn : someNeg v E.M = true
          · simp only [hn, if_true]
          · simp only [hn, if_false, Bool.false_eq_true]; exact (ih _ _).1
      | none =>
        have h2 := (ih fl o).2
        simp only
        generalize computeLFE env fuel fl o = a at h2
        obtain ⟨f, o', r⟩ := a
        simp only at h2
        rw [← h2]
        cases r with
        | ok u => exact (ih _ _).1
        | raise e => rfl
    · rw [computeLF, computeLFE]
      cases h1 : o.L with
      | some A => rfl
      | none =>
      simp only
      by_cases hc : (o.corr && o.projection) = true
      · simp only [hc, if_true]
      simp only [hc, if_false, Bool.false_eq_true]
      cases h2 : o.Lvals with
      | some v => cases h3 : o.vecs <;> rfl
      | none =>
      cases h3 : o.gram with
      | some A => rfl
      | none =>
      cases h4 : o.evalL with
      | some v => rfl
      | none =>
      cases h5 : o.Kvals with
      | some v =>
        simp only
        by_cases hn : someOne v (nbCols o) = true
        · simp only [hn, if_true]
        · simp only [hn, if_false, Bool.false_eq_true]; exact (ih _ _).2
      | none =>
      cases h6 : o.K with
      | some A =>
        simp only
        cases h6 : eighMat env A with
        | raise e => rfl
        | ok p =>
          obtain ⟨v, E⟩ := p
          simp only
          by_cases hn : someNotIn01 v E.M = true
          · simp only [hn, if_true]
          · simp only [hn, if_false, Bool.false_eq_true]; exact (ih _ _).2
      | none =>
        have h2 := (ih fl o).1
        simp only
        generalize computeKFE env fuel fl o = a at h2
        obtain ⟨f, o', r⟩ := a
        simp only at h2
        rw [← h2]
        cases r with
        | ok u => exact (ih _ _).2
        | raise e => rfl

theorem computeKE_eq (fl : Bool) (o : Obj N Info) : ∃ fl', computeKE env fl o = (fl', computeK env o) :=
  ⟨(computeKE env fl o).1, by
    have := (compute_refines env recLimit fl o).1
    rw [computeK, ← this]; rfl⟩

theorem computeLE_eq (fl : Bool) (o : Obj N Info) : ∃ fl', computeLE env fl o = (fl', computeL env o) :=
  ⟨(computeLE env fl o).1, by
    have := (compute_refines env recLimit fl o).2
    rw [computeL, ← this]; rfl⟩

theorem map_withFlag (fl : Bool) (c : Call N Info) : (withFlag fl c).map Prod.snd = c := by
  simp [withFlag, Dist.map, List.map_map, Function.comp_def]

theorem map_ret' {α β : Type*} (f : α → β) (a : α) :
    (Dist.ret a : Dist ℝ α).map f = Dist.ret (f a) := rfl

/-- the division by the square roots of the dual eigenvalues never divides by zero -/
def DualSafe (o : Obj N Info) : Prop :=
  ∀ Phi, o.dual = some Phi → ∀ clip, dualDivides env Phi clip = false

/-- the object does not need the division, or it is harmless -/
def Settled (o : Obj N Info) : Prop := DualSafe env o ∨ o.Kvals ≠ none ∨ o.Lvals ≠ none

theorem upd_const' {o o' : Obj N Info} (h : ReflTransGen (Upd env) o o') : o'.dual = o.dual := by
  induction h with
  | refl => rfl
  | tail _ hu ih => cases hu <;> exact ih

theorem sampleExactFE_refines (mode : String) (fuel : ℕ) : ∀ (fl : Bool) (o : Obj N Info),
    (fl = true → Settled env o) →
    (sampleExactFE env fuel fl o mode).map Prod.snd = sampleExactF env fuel o mode := by
  induction fuel with
  | zero => intro fl o _; rfl
  | succ fuel ih =>
    intro fl o ho
    rw [sampleExactFE, sampleExactF]
    have ho1 : fl = true → Settled env ({ o with mode := mode } : Obj N Info) := ho
    generalize ({ o with mode := mode } : Obj N Info) = o1 at ho1
    clear ho o
    unfold sampleExactBodyE sampleExactBody
    obtain ⟨f1, hf1⟩ := computeKE_eq env fl o1
    obtain ⟨f2, hf2⟩ := computeLE_eq env fl o1
    rw [hf1, hf2]
    by_cases m1 : mode = "Schur"
    · simp only [if_pos m1]
      by_cases hc : (o1.corr && o1.projection) = true
      · simp only [if_pos hc]
        generalize computeK env o1 = a
        obtain ⟨o', u | e⟩ := a
        · cases hK : o'.K
          · simp only [hK]; rfl
          · simp only [hK]; exact map_withFlag _ _
        · rfl
      · simp only [if_neg hc]; rfl
    simp only [if_neg m1]
    by_cases m2 : mode = "Chol"
    · simp only [if_pos m2]
      generalize computeK env o1 = a
      obtain ⟨o', u | e⟩ := a
      · cases hK : o'.K
        · simp only [hK]; rfl
        · simp only [hK]
          by_cases hc : (o'.corr && o'.projection) = true
          · simp only [if_pos hc]; exact map_withFlag _ _
          · simp only [if_neg hc]; exact map_withFlag _ _
      · rfl
    simp only [if_neg m2]
    by_cases m3 : mode = "vfx"
    · simp only [if_pos m3]
      cases hE : o1.evalL
      · rfl
      · exact map_withFlag _ _
    simp only [if_neg m3]
    by_cases m4 : mode = "alpha"
    · simp only [if_pos m4]
      cases hE : o1.evalL
      · rfl
      · exact map_withFlag _ _
    simp only [if_neg m4]
    cases hk : o1.Kvals with
    | some v =>
      cases hE : o1.vecs with
      | none => rfl
      | some E =>
        simp only
        by_cases hc : (o1.corr && o1.projection) = true
        · simp only [if_pos hc]; exact map_withFlag _ _
        · simp only [if_neg hc]; exact map_withFlag _ _
    | none =>
    cases hl : o1.Lvals with
    | some v => exact ih _ _ fun _ => Or.inr (Or.inl (by simp))
    | none =>
    cases hd : o1.dual with
    | some Phi =>
      simp only
      by_cases hn : dualNeg env Phi = true
      · simp only [if_pos hn]; rfl
      · simp only [if_neg hn]
        have hz : (fl && dualDivides env Phi true) = false := by
          cases fl with
          | false => rfl
          | true =>
            rcases ho1 rfl with h | h | h
            · rw [h Phi hd true]; rfl
            · exact absurd hk h
            · exact absurd hl h
        simp only [hz, Bool.false_eq_true, if_false]
        exact ih _ _ fun _ => Or.inr (Or.inr (by simp))
    | none =>
    cases hK : o1.K with
    | some A =>
      simp only
      by_cases hp : o1.projection = true
      · simp only [if_pos hp]; exact map_withFlag _ _
      · simp only [if_neg hp]
        cases h6 : eighMat env A with
        | raise e => rfl
        | ok p =>
          obtain ⟨v, E⟩ := p
          simp only
          by_cases hn : someNotIn01 v E.M = true
          · simp only [if_pos hn]; rfl
          · simp only [if_neg hn]; exact ih _ _ fun _ => Or.inr (Or.inl (by simp))
    | none =>
    cases hL : o1.L with
    | some A =>
      simp only
      cases h6 : eighMat env A with
      | raise e => rfl
      | ok p =>
        obtain ⟨v, E⟩ := p
        simp only
        by_cases hn : someNeg v E.M = true
        · simp only [if_pos hn]; rfl
        · simp only [if_neg hn]; exact ih _ _ fun _ => Or.inr (Or.inr (by simp))
    | none =>
    cases hz : o1.zono with
    | some A => exact ih _ _ fun _ => Or.inr (Or.inl (by simp))
    | none =>
    cases he : o1.evalL with
    | none => rfl
    | some A =>
      simp only
      have hu := (upd_const' env (computeL_upd env o1)).trans hd
      generalize computeL env o1 = a at hu
      obtain ⟨o', u | e⟩ := a
      · exact ih _ _ fun _ => Or.inl fun Phi h => by simp only at hu; rw [hu] at h; cases h
      · rfl

theorem sampleExactKDppFE_refines (size : ℕ) (mode : String) (fuel : ℕ) :
    ∀ (fl : Bool) (o : Obj N Info), (fl = true → Settled env o) →
    (sampleExactKDppFE env fuel fl o size mode).map Prod.snd = sampleExactKDppF env fuel o size mode := by
  induction fuel with
  | zero => intro fl o _; rfl
  | succ fuel ih =>
    intro fl o ho
    rw [sampleExactKDppFE, sampleExactKDppF]
    have ho1 : fl = true → Settled env ({ o with mode := mode, sizeK := size } : Obj N Info) := ho
    generalize ({ o with mode := mode, sizeK := size } : Obj N Info) = o1 at ho1
    clear ho o
    unfold sampleExactKDppBodyE sampleExactKDppBody
    obtain ⟨f2, hf2⟩ := computeLE_eq env fl o1
    rw [hf2]
    by_cases m3 : mode = "vfx"
    · simp only [if_pos m3]
      cases hE : o1.evalL
      · rfl
      · exact map_withFlag _ _
    simp only [if_neg m3]
    by_cases m4 : mode = "alpha"
    · simp only [if_pos m4]
      cases hE : o1.evalL
      · rfl
      · exact map_withFlag _ _
    simp only [if_neg m4]
    by_cases hp : o1.projection = true
    · simp only [if_pos hp]
      by_cases hc : o1.corr = true
      · simp only [if_pos hc]
        cases hk : o1.Kvals with
        | some v =>
          cases hE : o1.vecs with
          | none => rfl
          | some E =>
            simp only
            by_cases hs : (size : ℤ) ≠ rintSum v E.M
            · simp only [if_pos hs]; rfl
            · simp only [if_neg hs]; exact map_withFlag _ _
        | none =>
        cases hz : o1.zono with
        | some A =>
          simp only
          by_cases hs : size ≠ A.d
          · simp only [if_pos hs]; rfl
          · simp only [if_neg hs]; exact map_withFlag _ _
        | none =>
        cases hK : o1.K with
        | some A =>
          simp only
          by_cases hs : some (size : ℤ) ≠ rintTr A
          · simp only [if_pos hs]; rfl
          · simp only [if_neg hs]; exact map_withFlag _ _
        | none => rfl
      · simp only [if_neg hc]
        cases hl : o1.Lvals with
        | some v =>
          cases hE : o1.vecs with
          | none => rfl
          | some E => exact map_withFlag _ _
        | none =>
          simp only
          generalize computeL env o1 = a
          obtain ⟨o', u | e⟩ := a
          · cases hL : o'.L
            · simp only [hL]; rfl
            · simp only [hL]; exact map_withFlag _ _
          · rfl
    simp only [if_neg hp]
    cases hl : o1.Lvals with
    | some v =>
      cases hE : o1.vecs with
      | none => rfl
      | some E => exact map_withFlag _ _
    | none =>
    cases hk : o1.Kvals with
    | some v =>
      simp only
      by_cases hn : someOne v (nbCols o1) = true
      · simp only [if_pos hn]; rfl
      · simp only [if_neg hn]; exact ih _ _ fun _ => Or.inr (Or.inr (by simp))
    | none =>
    cases hd : o1.dual with
    | some Phi =>
      simp only
      by_cases hn : dualNeg env Phi = true
      · simp only [if_pos hn]; rfl
      · simp only [if_neg hn]
        have hz : (fl && dualDivides env Phi false) = false := by
          cases fl with
          | false => rfl
          | true =>
            rcases ho1 rfl with h | h | h
            · rw [h Phi hd false]; rfl
            · exact absurd hk h
            · exact absurd hl h
        simp only [hz, Bool.false_eq_true, if_false]
        exact ih _ _ fun _ => Or.inr (Or.inr (by simp))
    | none =>
    cases hL : o1.L with
    | some A =>
      simp only
      cases h6 : eighMat env A with
      | raise e => rfl
      | ok p =>
        obtain ⟨v, E⟩ := p
        simp only
        by_cases hn : someNeg v E.M = true
        · simp only [if_pos hn]; rfl
        · simp only [if_neg hn]; exact ih _ _ fun _ => Or.inr (Or.inr (by simp))
    | none =>
    cases hK : o1.K with
    | some A =>
      simp only
      cases h6 : eighMat env A with
      | raise e => rfl
      | ok p =>
        obtain ⟨v, E⟩ := p
        simp only
        by_cases hn : someNotIn01 v E.M = true
        · simp only [if_pos hn]; rfl
        · simp only [if_neg hn]; exact ih _ _ fun _ => Or.inr (Or.inl (by simp))
    | none =>
    cases he : o1.evalL with
    | none => rfl
    | some A =>
      simp only
      have hu := (upd_const' env (computeL_upd env o1)).trans hd
      generalize computeL env o1 = a at hu
      obtain ⟨o', u | e⟩ := a
      · exact ih _ _ fun _ => Or.inl fun Phi h => by simp only at hu; rw [hu] at h; cases h
      · rfl

theorem sampleMcmcE_refines (mode : String) (size : Option ℕ) (fl : Bool) (o : Obj N Info) :
    (sampleMcmcE env fl o mode size).map Prod.snd = sampleMcmc env o mode size := by
  rw [sampleMcmcE, sampleMcmc]
  generalize ({ o with mode := mode } : Obj N Info) = o1
  clear o
  unfold sampleMcmcBodyE sampleMcmcBody
  obtain ⟨f1, hf1⟩ := computeKE_eq env fl o1
  obtain ⟨f2, hf2⟩ := computeLE_eq env fl o1
  rw [hf1, hf2]
  by_cases m1 : mode = "zonotope"
  · simp only [if_pos m1]
    cases hz : o1.zono
    · rfl
    · exact map_withFlag _ _
  simp only [if_neg m1]
  by_cases m2 : mode = "E"
  · simp only [if_pos m2]
    by_cases hc : (o1.corr && o1.projection) = true
    · simp only [if_pos hc]
      generalize computeK env o1 = a
      obtain ⟨o', u | e⟩ := a
      · cases hK : o'.K with
        | none => simp only [hK]; rfl
        | some A =>
          simp only [hK]
          by_cases hs : size.map (Int.ofNat) = rintTr A ∧ size.isSome
          · simp only [if_pos hs]; exact map_withFlag _ _
          · simp only [if_neg hs]; rfl
      · rfl
    · simp only [if_neg hc]
      generalize computeL env o1 = a
      obtain ⟨o', u | e⟩ := a
      · cases hL : o'.L
        · simp only [hL]; rfl
        · simp only [hL]; exact map_withFlag _ _
      · rfl
  simp only [if_neg m2]
  by_cases m3 : mode = "AED" ∨ mode = "AD"
  · simp only [if_pos m3]
    generalize computeL env o1 = a
    obtain ⟨o', u | e⟩ := a
    · cases hL : o'.L
      · simp only [hL]; rfl
      · simp only [hL]; exact map_withFlag _ _
    · rfl
  · simp only [if_neg m3]; rfl

theorem map_comp {α β γ : Type*} (f : α → β) (g : β → γ) (d : Dist ℝ α) :
    (d.map f).map g = d.map fun a => g (f a) := by
  simp [Dist.map, List.map_map, Function.comp_def]

/-- one call, in a state in which it does not divide by zero -/
theorem stepE_refines (c : Cmd) (fl : Bool) (o : Obj N Info) (h : fl = true → Settled env o) :
    (stepE env c fl o).map Prod.snd = step env c o := by
  cases c with
  | exact mode =>
    rw [stepE, step, map_comp, sampleExact, ← sampleExactFE_refines env mode recLimit fl o h, map_comp]
    rfl
  | exactK size mode =>
    rw [stepE, step, map_comp, sampleExactKDpp,
      ← sampleExactKDppFE_refines env size mode recLimit fl o h, map_comp]
    rfl
  | mcmc mode size =>
    rw [stepE, step, map_comp, ← sampleMcmcE_refines env mode size fl o, map_comp]
  | mcmcK size mode =>
    rw [stepE, step, map_comp, sampleMcmcKDpp, ← sampleMcmcE_refines env "E" (some size) fl, map_comp]
  | computeK =>
    obtain ⟨f, hf⟩ := computeKE_eq env fl o
    rw [stepE, step, hf]; rfl
  | computeL =>
    obtain ⟨f, hf⟩ := computeLE_eq env fl o
    rw [stepE, step, hf]; rfl
  | flush => rfl

end Verif.Lemmas.Err
