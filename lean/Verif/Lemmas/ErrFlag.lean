import Verif.Lemmas.ErrState

/-!
When the methods change the error state of numpy.
-/

set_option linter.unusedSectionVars false

namespace Verif.Lemmas.Err
open Verif Verif.Model Relation

variable {N : ℕ} {Info : Type} (env : Env N Info)

/-! ### the state is never reset -/

theorem compute_true (fuel : ℕ) : ∀ (o : Obj N Info),
    (computeKFE env fuel true o).1 = true ∧ (computeLFE env fuel true o).1 = true := by
  induction fuel with
  | zero => intro o; simp [computeKFE, computeLFE]
  | succ fuel ih =>
    intro o
    constructor
    · rw [computeKFE]
      have h2 := (ih o).2
      repeat' (first | rfl | exact (ih _).1 | split)
      · rename_i f o' e he
        rw [he] at h2; exact h2
      · rename_i f o' u he
        rw [he] at h2
        simp only at h2
        subst h2
        exact (ih _).1
    · rw [computeLFE]
      have h2 := (ih o).1
      repeat' (first | rfl | exact (ih _).2 | split)
      · rename_i f o' e he
        rw [he] at h2; exact h2
      · rename_i f o' u he
        rw [he] at h2
        simp only at h2
        subst h2
        exact (ih _).2

theorem fl_ret {fl fl' : Bool} {y : Obj N Info × Outcome (List (Fin N))} {x}
    (h : Mem (Dist.ret (fl', y) : CallE N Info) x) (hf : fl' = fl) : x.1 = fl := by
  rw [mem_ret] at h; subst h; exact hf

theorem fl_with {fl fl' : Bool} {c : Call N Info} {x} (h : Mem (withFlag fl' c) x) (hf : fl' = fl) :
    x.1 = fl := by
  rw [withFlag, mem_map] at h
  obtain ⟨r, _, rfl⟩ := h
  exact hf

theorem sampleExactFE_true (mode : String) (fuel : ℕ) : ∀ (o : Obj N Info) x,
    Mem (sampleExactFE env fuel true o mode) x → x.1 = true := by
  induction fuel with
  | zero => intro o x h; exact fl_ret h rfl
  | succ fuel ih =>
    intro o x h
    rw [sampleExactFE] at h
    generalize ({ o with mode := mode } : Obj N Info) = o1 at h
    clear o
    unfold sampleExactBodyE at h
    have hk : (computeKE env true o1).1 = true := (compute_true env _ o1).1
    have hL : (computeLE env true o1).1 = true := (compute_true env _ o1).2
    generalize computeKE env true o1 = ck at h hk
    generalize computeLE env true o1 = cl at h hL
    rcases ck with ⟨fk, ok', _ | _⟩ <;> rcases cl with ⟨f2, ol', _ | _⟩ <;> dsimp only at h hk hL <;>
    subst hk hL <;>
    repeat' (first
      | exact fl_ret h rfl | exact fl_with h rfl | exact ih _ _ h
      | split at h)

theorem sampleExactKDppFE_true (size : ℕ) (mode : String) (fuel : ℕ) : ∀ (o : Obj N Info) x,
    Mem (sampleExactKDppFE env fuel true o size mode) x → x.1 = true := by
  induction fuel with
  | zero => intro o x h; exact fl_ret h rfl
  | succ fuel ih =>
    intro o x h
    rw [sampleExactKDppFE] at h
    generalize ({ o with mode := mode, sizeK := size } : Obj N Info) = o1 at h
    clear o
    unfold sampleExactKDppBodyE at h
    have hL : (computeLE env true o1).1 = true := (compute_true env _ o1).2
    generalize computeLE env true o1 = cl at h hL
    rcases cl with ⟨f2, ol', _ | _⟩ <;> dsimp only at h hL <;>
    subst hL <;>
    repeat' (first
      | exact fl_ret h rfl | exact fl_with h rfl | exact ih _ _ h
      | split at h)

theorem sampleMcmcE_true (mode : String) (size : Option ℕ) (o : Obj N Info) (x)
    (h : Mem (sampleMcmcE env true o mode size) x) : x.1 = true := by
  rw [sampleMcmcE] at h
  generalize ({ o with mode := mode } : Obj N Info) = o1 at h
  unfold sampleMcmcBodyE at h
  have hk : (computeKE env true o1).1 = true := (compute_true env _ o1).1
  have hL : (computeLE env true o1).1 = true := (compute_true env _ o1).2
  generalize computeKE env true o1 = ck at h hk
  generalize computeLE env true o1 = cl at h hL
  rcases ck with ⟨fk, ok', _ | _⟩ <;> rcases cl with ⟨f2, ol', _ | _⟩ <;> dsimp only at h hk hL <;>
  subst hk hL <;>
  repeat' (first
    | exact fl_ret h rfl | exact fl_with h rfl
    | split at h)

theorem stepE_true (c : Cmd) (o : Obj N Info) (x) (h : Mem (stepE env c true o) x) : x.1 = true := by
  cases c with
  | exact mode =>
    rw [stepE, mem_map] at h
    obtain ⟨a, ha, rfl⟩ := h
    exact sampleExactFE_true env mode _ o a ha
  | exactK size mode =>
    rw [stepE, mem_map] at h
    obtain ⟨a, ha, rfl⟩ := h
    exact sampleExactKDppFE_true env size mode _ o a ha
  | mcmc mode size =>
    rw [stepE, mem_map] at h
    obtain ⟨a, ha, rfl⟩ := h
    exact sampleMcmcE_true env mode size o a ha
  | mcmcK size mode =>
    rw [stepE, mem_map] at h
    obtain ⟨a, ha, rfl⟩ := h
    exact sampleMcmcE_true env _ _ _ a ha
  | computeK => rw [stepE, mem_ret] at h; subst h; exact (compute_true env _ o).1
  | computeL => rw [stepE, mem_ret] at h; subst h; exact (compute_true env _ o).2
  | flush => rw [stepE, mem_ret] at h; subst h; rfl

/-! ### objects whose methods do not change the state -/

/-- something of the likelihood kernel is known -/
def HasL (o : Obj N Info) : Prop := o.L ≠ none ∨ o.Lvals ≠ none ∨ o.gram ≠ none ∨ o.evalL ≠ none

/-- projection correlation objects, and likelihood objects -/
def Quiet (o : Obj N Info) : Prop :=
  (o.corr && o.projection) = true ∨
    (HasL o ∧ o.zono = none ∧ (o.Kvals ≠ none → o.Lvals ≠ none) ∧ (o.K ≠ none → o.Lvals ≠ none))

theorem Quiet.upd {o o' : Obj N Info} (h : Quiet o) (hu : Upd env o o') : Quiet o' := by
  rcases h with h | ⟨h1, h2, h3, h4⟩
  · left; cases hu <;> exact h
  · right
    cases hu with
    | book => exact ⟨h1, h2, h3, h4⟩
    | epoly => exact ⟨h1, h2, h3, h4⟩
    | setK v E hK hv hE => exact ⟨h1, h2, h3, fun _ => h3 (by simp [hv])⟩
    | zono A hv hA => rw [h2] at hA; cases hA
    | kOfL v hk hv => exact ⟨h1, h2, fun _ => by simp [hv], h4⟩
    | eighL A hk hl hL => exact ⟨Or.inr (Or.inl (by simp)), h2, by simp, by simp⟩
    | setL => exact ⟨Or.inl (by simp), h2, h3, h4⟩
    | gram => exact ⟨Or.inl (by simp), h2, h3, h4⟩
    | evalL => exact ⟨Or.inl (by simp), h2, h3, h4⟩
    | lOfK => exact ⟨Or.inr (Or.inl (by simp)), h2, by simp, by simp⟩
    | eighK A hk hl hK => exact absurd hl (h4 (by simp [hK]))
    | dual => exact ⟨Or.inr (Or.inl (by simp)), h2, by simp, by simp⟩
    | dualNeg => exact ⟨Or.inr (Or.inl (by simp)), h2, by simp, by simp⟩

theorem Quiet.rtg {o o' : Obj N Info} (h : Quiet o) (hu : ReflTransGen (Upd env) o o') : Quiet o' := by
  induction hu with
  | refl => exact h
  | tail _ hu ih => exact ih.upd env hu

theorem Quiet.setLvals {o : Obj N Info} (h : Quiet o) (v : ℕ → ℝ) (E : Option (EigVecs N)) :
    Quiet { o with Lvals := some v, vecs := E } := by
  rcases h with h | ⟨_, h2, _, _⟩
  · left; exact h
  · right; exact ⟨Or.inr (Or.inl (by simp)), h2, by simp, by simp⟩

theorem Quiet.setKvals {o : Obj N Info} (h : Quiet o) (hL : o.Lvals ≠ none) (v : ℕ → ℝ) :
    Quiet { o with Kvals := some v } := by
  rcases h with h | ⟨h1, h2, _, h4⟩
  · left; exact h
  · right; exact ⟨h1, h2, fun _ => hL, h4⟩

theorem Quiet.eighK {o : Obj N Info} (h : Quiet o) {A : KMat N} (hK : o.K = some A)
    (hL : o.Lvals = none) (v : ℕ → ℝ) (E : Option (EigVecs N)) :
    Quiet { o with Kvals := some v, vecs := E } := by
  rcases h with h | ⟨h1, h2, _, h4⟩
  · left; exact h
  · exact absurd hL (h4 (by simp [hK]))

theorem Quiet.setZono {o : Obj N Info} (h : Quiet o) {A : Rect N} (hA : o.zono = some A)
    (v : ℕ → ℝ) (E : Option (EigVecs N)) :
    Quiet { o with Kvals := some v, vecs := E } := by
  rcases h with h | ⟨h1, h2, _, h4⟩
  · left; exact h
  · rw [hA] at h2; cases h2

theorem compute_quiet (fuel : ℕ) : ∀ (fl : Bool) (o : Obj N Info), Quiet o →
    (computeKFE env fuel fl o).1 = fl ∧ (computeLFE env fuel fl o).1 = fl := by
  induction fuel with
  | zero => intro fl o _; simp [computeKFE, computeLFE]
  | succ fuel ih =>
    intro fl o hq
    constructor
    · rw [computeKFE]
      split
      · rfl
      split
      · split <;> rfl
      split
      · rfl
      split
      · rename_i v hv
        exact (ih _ _ (hq.setKvals (by simp [hv]) _)).1
      split
      · split
        · rfl
        · dsimp only
          split
          · rfl
          · exact (ih _ _ (hq.setLvals _ _)).1
      · have h2 := (ih fl o hq).2
        have h3 := (compute_refines env fuel fl o).2
        have h4 := (compute_upd env fuel o).2
        generalize computeLFE env fuel fl o = a at h2 h3
        obtain ⟨f, o', r⟩ := a
        simp only at h2 h3
        rw [← h3] at h4
        subst h2
        cases r with
        | raise e => rfl
        | ok u => exact (ih _ _ (hq.rtg env h4)).1
    · rw [computeLFE]
      split
      · rfl
      rename_i hL
      split
      · rfl
      rename_i hc
      split
      · split <;> rfl
      rename_i hl
      split
      · rfl
      rename_i hg
      split
      · rfl
      rename_i he
      exfalso
      rcases hq with h | ⟨h, _⟩
      · exact hc h
      · rcases h with h | h | h | h
        · exact h hL
        · exact h hl
        · exact h hg
        · exact h he

set_option maxHeartbeats 1000000 in
theorem sampleExactFE_quiet (mode : String) (fuel : ℕ) : ∀ (fl : Bool) (o : Obj N Info) x, Quiet o →
    Mem (sampleExactFE env fuel fl o mode) x → x.1 = fl := by
  induction fuel with
  | zero => intro fl o x _ h; exact fl_ret h rfl
  | succ fuel ih =>
    intro fl o x hq h
    rw [sampleExactFE] at h
    have hq1 : Quiet ({ o with mode := mode } : Obj N Info) := hq
    generalize ({ o with mode := mode } : Obj N Info) = o1 at h hq1
    clear hq o
    unfold sampleExactBodyE at h
    have hk : (computeKE env fl o1).1 = fl := (compute_quiet env _ fl o1 hq1).1
    have hL : (computeLE env fl o1).1 = fl := (compute_quiet env _ fl o1 hq1).2
    have hu := computeL_upd env o1
    obtain ⟨f2, hf2⟩ := computeLE_eq env fl o1
    have hu2 : ReflTransGen (Upd env) o1 (computeLE env fl o1).2.1 := by rw [hf2]; exact hu
    generalize computeKE env fl o1 = ck at h hk
    generalize computeLE env fl o1 = cl at h hL hu2
    rcases ck with ⟨fk, ok', _ | _⟩ <;> rcases cl with ⟨f2, ol', _ | _⟩ <;> dsimp only at h hk hL hu2 <;>
    subst hk <;> subst hL <;>
    repeat' (first
      | exact fl_ret h rfl | exact fl_with h rfl
      | exact ih _ _ _ (hq1.setLvals _ _) h
      | exact ih _ _ _ (hq1.setKvals (Option.ne_none_iff_exists'.2 ⟨_, ‹o1.Lvals = some _›⟩) _) h
      | exact ih _ _ _ (hq1.eighK ‹_› ‹_› _ _) h
      | exact ih _ _ _ (hq1.setZono ‹_› _ _) h
      | exact ih _ _ _ (hq1.rtg env hu2) h
      | split at h)

set_option maxHeartbeats 1000000 in
theorem sampleExactKDppFE_quiet (size : ℕ) (mode : String) (fuel : ℕ) :
    ∀ (fl : Bool) (o : Obj N Info) x, Quiet o →
    Mem (sampleExactKDppFE env fuel fl o size mode) x → x.1 = fl := by
  induction fuel with
  | zero => intro fl o x _ h; exact fl_ret h rfl
  | succ fuel ih =>
    intro fl o x hq h
    rw [sampleExactKDppFE] at h
    have hq1 : Quiet ({ o with mode := mode, sizeK := size } : Obj N Info) := hq
    generalize ({ o with mode := mode, sizeK := size } : Obj N Info) = o1 at h hq1
    clear hq o
    unfold sampleExactKDppBodyE at h
    have hL : (computeLE env fl o1).1 = fl := (compute_quiet env _ fl o1 hq1).2
    have hu := computeL_upd env o1
    obtain ⟨f2, hf2⟩ := computeLE_eq env fl o1
    have hu2 : ReflTransGen (Upd env) o1 (computeLE env fl o1).2.1 := by rw [hf2]; exact hu
    generalize computeLE env fl o1 = cl at h hL hu2
    have hbad : ∀ v, o1.Kvals = some v → o1.Lvals = none → ¬ o1.projection = true → False := by
      intro v h1 h2 h3
      rcases hq1 with h | ⟨_, _, h, _⟩
      · exact h3 (Bool.and_elim_right h)
      · exact h (by simp [h1]) h2
    rcases cl with ⟨f2, ol', _ | _⟩ <;> dsimp only at h hL hu2 <;>
    subst hL <;>
    repeat' (first
      | exact fl_ret h rfl | exact fl_with h rfl
      | (exfalso; exact hbad _ ‹_› ‹_› ‹_›)
      | exact ih _ _ _ (hq1.setLvals _ _) h
      | exact ih _ _ _ (hq1.eighK ‹_› ‹_› _ _) h
      | exact ih _ _ _ (hq1.rtg env hu2) h
      | split at h)

theorem sampleMcmcE_quiet (mode : String) (size : Option ℕ) (fl : Bool) (o : Obj N Info) (x)
    (hq : Quiet o) (h : Mem (sampleMcmcE env fl o mode size) x) : x.1 = fl := by
  rw [sampleMcmcE] at h
  have hq1 : Quiet ({ o with mode := mode } : Obj N Info) := hq
  generalize ({ o with mode := mode } : Obj N Info) = o1 at h hq1
  unfold sampleMcmcBodyE at h
  have hk : (computeKE env fl o1).1 = fl := (compute_quiet env _ fl o1 hq1).1
  have hL : (computeLE env fl o1).1 = fl := (compute_quiet env _ fl o1 hq1).2
  generalize computeKE env fl o1 = ck at h hk
  generalize computeLE env fl o1 = cl at h hL
  rcases ck with ⟨fk, ok', _ | _⟩ <;> rcases cl with ⟨f2, ol', _ | _⟩ <;> dsimp only at h hk hL <;>
  subst hk <;> subst hL <;>
  repeat' (first
    | exact fl_ret h rfl | exact fl_with h rfl
    | split at h)

theorem stepE_quiet (c : Cmd) (fl : Bool) (o : Obj N Info) (hq : Quiet o) (x)
    (h : Mem (stepE env c fl o) x) : x.1 = fl := by
  cases c with
  | exact mode =>
    rw [stepE, mem_map] at h
    obtain ⟨a, ha, rfl⟩ := h
    exact sampleExactFE_quiet env mode _ fl o a hq ha
  | exactK size mode =>
    rw [stepE, mem_map] at h
    obtain ⟨a, ha, rfl⟩ := h
    exact sampleExactKDppFE_quiet env size mode _ fl o a hq ha
  | mcmc mode size =>
    rw [stepE, mem_map] at h
    obtain ⟨a, ha, rfl⟩ := h
    exact sampleMcmcE_quiet env mode size fl o a hq ha
  | mcmcK size mode =>
    rw [stepE, mem_map] at h
    obtain ⟨a, ha, rfl⟩ := h
    exact sampleMcmcE_quiet env _ _ _ { o with mode := "E", sizeK := size } a hq ha
  | computeK => rw [stepE, mem_ret] at h; subst h; exact (compute_quiet env _ fl o hq).1
  | computeL => rw [stepE, mem_ret] at h; subst h; exact (compute_quiet env _ fl o hq).2
  | flush => rw [stepE, mem_ret] at h; subst h; rfl

end Verif.Lemmas.Err
