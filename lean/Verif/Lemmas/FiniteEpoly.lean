import Verif.Lemmas.FiniteRec

/-!
Methods that leave the cached table of elementary symmetric polynomials alone.
-/

set_option linter.unusedSectionVars false

namespace Verif.Model
open Verif Verif.Spec Matrix Relation

variable {N : ℕ} {Info : Type} (env : Env N Info)

theorem compute_Epoly (fuel : ℕ) : ∀ o : Obj N Info,
    (computeKF env fuel o).1.Epoly = o.Epoly ∧ (computeLF env fuel o).1.Epoly = o.Epoly := by
  induction fuel with
  | zero => intro o; simp [computeKF, computeLF]
  | succ fuel ih =>
    intro o
    constructor
    · rw [computeKF]
      have h2 := (ih o).2
      repeat' (first | rfl | exact (ih _).1 | split)
      · rename_i o' e he
        rw [he] at h2; exact h2
      · rename_i o' u he
        rw [he] at h2
        exact (ih _).1.trans h2
    · rw [computeLF]
      have h2 := (ih o).1
      repeat' (first | rfl | exact (ih _).2 | split)
      · rename_i o' e he
        rw [he] at h2; exact h2
      · rename_i o' u he
        rw [he] at h2
        exact (ih _).2.trans h2

theorem computeK_Epoly (o : Obj N Info) : (computeK env o).1.Epoly = o.Epoly := (compute_Epoly env _ o).1
theorem computeL_Epoly (o : Obj N Info) : (computeL env o).1.Epoly = o.Epoly := (compute_Epoly env _ o).2

theorem ep_ret {T} {o' : Obj N Info} {r} {x}
    (h : Mem (Dist.ret (o', r) : Call N Info) x) (hs : o'.Epoly = T) : x.1.Epoly = T := by
  rw [mem_ret] at h; subst h; exact hs

theorem ep_exact {T} {o' : Obj N Info} {d} {x}
    (h : Mem (recordExact o' d) x) (hs : o'.Epoly = T) : x.1.Epoly = T := by
  rw [recordExact, mem_map] at h
  obtain ⟨r, _, rfl⟩ := h
  cases r <;> exact hs

theorem ep_info {T} {o' : Obj N Info} {d} {x}
    (h : Mem (recordInfo o' d) x) (hs : o'.Epoly = T) : x.1.Epoly = T := by
  rw [recordInfo, mem_map] at h
  obtain ⟨r, _, rfl⟩ := h
  cases r <;> exact hs

theorem ep_chain {T} {o' : Obj N Info} {d} {x}
    (h : Mem (recordChain o' d) x) (hs : o'.Epoly = T) : x.1.Epoly = T := by
  rw [recordChain, mem_map] at h
  obtain ⟨r, _, rfl⟩ := h
  cases r <;> exact hs

theorem sampleExactF_ep (fuel : ℕ) : ∀ (o : Obj N Info) (mode : String) x,
    Mem (sampleExactF env fuel o mode) x → x.1.Epoly = o.Epoly := by
  induction fuel with
  | zero => intro o mode x h; exact ep_ret h rfl
  | succ fuel ih =>
    intro o mode x h
    rw [sampleExactF] at h
    have hs : ({ o with mode := mode } : Obj N Info).Epoly = o.Epoly := rfl
    generalize ({ o with mode := mode } : Obj N Info) = o1 at h hs
    rw [← hs]
    clear hs o
    unfold sampleExactBody at h
    have hk := computeK_Epoly env o1
    have hL := computeL_Epoly env o1
    generalize computeK env o1 = ck at h hk
    generalize computeL env o1 = cl at h hL
    rcases ck with ⟨ok', _ | _⟩ <;> rcases cl with ⟨ol', _ | _⟩ <;> dsimp only at h hk hL <;>
    repeat' (first
      | exact ep_ret h rfl | exact ep_exact h rfl | exact ep_info h rfl
      | exact ep_ret h hk | exact ep_exact h hk | exact ep_ret h hL
      | (have h' := ih _ _ _ h; first | exact h' | (rw [hL] at h'; exact h'))
      | split at h)

theorem sampleMcmc_ep (o : Obj N Info) (mode : String) (size : Option ℕ) (x)
    (h : Mem (sampleMcmc env o mode size) x) : x.1.Epoly = o.Epoly := by
  rw [sampleMcmc] at h
  have hs : ({ o with mode := mode } : Obj N Info).Epoly = o.Epoly := rfl
  generalize ({ o with mode := mode } : Obj N Info) = o1 at h hs
  rw [← hs]
  clear hs o
  have hk := computeK_Epoly env o1
  have hL := computeL_Epoly env o1
  unfold sampleMcmcBody at h
  generalize computeK env o1 = ck at h hk
  generalize computeL env o1 = cl at h hL
  rcases ck with ⟨ok', _ | _⟩ <;> rcases cl with ⟨ol', _ | _⟩ <;> dsimp only at h hk hL <;>
  repeat' (first
    | exact ep_ret h rfl | exact ep_chain h rfl
    | exact ep_ret h hk | exact ep_chain h hk | exact ep_ret h hL | exact ep_chain h hL
    | split at h)

theorem sampleExactKDpp_ep (o : Obj N Info) (size : ℕ) (mode : String) (x)
    (hm : mode = "vfx" ∨ mode = "alpha")
    (h : Mem (sampleExactKDpp env o size mode) x) : x.1.Epoly = o.Epoly := by
  unfold sampleExactKDpp at h
  generalize hf : recLimit = f at h
  cases f with
  | zero => exact ep_ret h rfl
  | succ f =>
    rw [sampleExactKDppF, sampleExactKDppBody] at h
    rcases hm with rfl | rfl
    · simp only [if_true] at h
      split at h
      · exact ep_ret h rfl
      · exact ep_info h rfl
    · simp only [show ("alpha" = "vfx") = False by decide, if_false, if_true] at h
      split at h
      · exact ep_ret h rfl
      · exact ep_info h rfl

/-- calls that do not use the table -/
def NoTable : Cmd → Prop
  | .exactK _ mode => mode = "vfx" ∨ mode = "alpha"
  | _ => True

theorem step_ep (c : Cmd) (hc : NoTable c) (o : Obj N Info) (x) (h : Mem (step env c o) x) :
    x.1.Epoly = o.Epoly := by
  cases c with
  | exact mode =>
    rw [step, mem_map] at h
    obtain ⟨a, ha, rfl⟩ := h
    exact sampleExactF_ep env _ o mode a ha
  | exactK size mode =>
    rw [step, mem_map] at h
    obtain ⟨a, ha, rfl⟩ := h
    exact sampleExactKDpp_ep env o size mode a hc ha
  | mcmc mode size =>
    rw [step, mem_map] at h
    obtain ⟨a, ha, rfl⟩ := h
    exact sampleMcmc_ep env o mode size a ha
  | mcmcK size mode =>
    rw [step, mem_map] at h
    obtain ⟨a, ha, rfl⟩ := h
    exact sampleMcmc_ep env { o with mode := "E", sizeK := size } "E" (some size) a ha
  | computeK => rw [step, mem_ret] at h; subst h; exact computeK_Epoly env o
  | computeL => rw [step, mem_ret] at h; subst h; exact computeL_Epoly env o
  | flush => rw [step, mem_ret] at h; subst h; rfl

theorem runHist_ep (cs : List Cmd) : ∀ (_ : ∀ c ∈ cs, NoTable c) (o : Obj N Info) (x),
    Mem (runHist env cs o) x → x.1.Epoly = o.Epoly := by
  induction cs with
  | nil => intro _ o x h; rw [runHist, mem_ret] at h; subst h; rfl
  | cons c cs ih =>
    intro hc o x h
    rw [runHist, mem_bind] at h
    obtain ⟨r, h1, h2⟩ := h
    rw [mem_map] at h2
    obtain ⟨q, h3, rfl⟩ := h2
    exact (ih (fun c h => hc c (List.mem_cons_of_mem _ h)) _ q h3).trans
      (step_ep env c (hc c List.mem_cons_self) o r h1)

end Verif.Model
