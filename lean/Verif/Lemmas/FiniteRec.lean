import Verif.Lemmas.FiniteRun

/-!
What the methods of `FiniteDPP` append to `list_of_samples`.
-/

set_option linter.unusedSectionVars false

namespace Verif.Model
open Verif Verif.Spec Matrix Relation

variable {N : ℕ} {Info : Type} (env : Env N Info)

theorem compute_samples (fuel : ℕ) : ∀ o : Obj N Info,
    (computeKF env fuel o).1.samples = o.samples ∧ (computeLF env fuel o).1.samples = o.samples := by
  induction fuel with
  | zero => intro o; simp [computeKF, computeLF]
  | succ fuel ih =>
    intro o
    constructor
    · rw [computeKF]
      have h2 := (ih o).2
      repeat' (first | rfl | exact (ih _).1 | split)
      · rename_i o' e he
        rw [he] at h2; exact h2
      · rename_i o' u he
        rw [he] at h2
        exact (ih _).1.trans h2
    · rw [computeLF]
      have h2 := (ih o).1
      repeat' (first | rfl | exact (ih _).2 | split)
      · rename_i o' e he
        rw [he] at h2; exact h2
      · rename_i o' u he
        rw [he] at h2
        exact (ih _).2.trans h2

theorem computeK_samples (o : Obj N Info) : (computeK env o).1.samples = o.samples :=
  (compute_samples env _ o).1
theorem computeL_samples (o : Obj N Info) : (computeL env o).1.samples = o.samples :=
  (compute_samples env _ o).2

/-- result of an exact sampling method on an object with recorded samples `s` -/
def RecE (s : List (Record N)) (x : Obj N Info × Outcome (List (Fin N))) : Prop :=
  (∃ l, x.2 = .ok l ∧ x.1.samples = s ++ [.exact l]) ∨ (∃ e, x.2 = .raise e ∧ x.1.samples = s)

theorem recE_ret {s : List (Record N)} {o' : Obj N Info} {e : PyErr} {x}
    (h : Mem (Dist.ret (o', .raise e) : Call N Info) x) (hs : o'.samples = s) : RecE s x := by
  rw [mem_ret] at h; subst h; exact Or.inr ⟨e, rfl, hs⟩

theorem recE_exact {s : List (Record N)} {o' : Obj N Info} {d} {x}
    (h : Mem (recordExact o' d) x) (hs : o'.samples = s) : RecE s x := by
  rw [recordExact, mem_map] at h
  obtain ⟨r, _, rfl⟩ := h
  subst hs
  cases r with
  | ok l => exact Or.inl ⟨l, rfl, rfl⟩
  | raise e => exact Or.inr ⟨e, rfl, rfl⟩

theorem recE_info {s : List (Record N)} {o' : Obj N Info} {d} {x}
    (h : Mem (recordInfo o' d) x) (hs : o'.samples = s) : RecE s x := by
  rw [recordInfo, mem_map] at h
  obtain ⟨r, _, rfl⟩ := h
  subst hs
  cases r with
  | ok l => exact Or.inl ⟨l.1, rfl, rfl⟩
  | raise e => exact Or.inr ⟨e, rfl, rfl⟩

theorem sampleExactF_rec (fuel : ℕ) : ∀ (o : Obj N Info) (mode : String) x,
    Mem (sampleExactF env fuel o mode) x → RecE o.samples x := by
  induction fuel with
  | zero => intro o mode x h; exact recE_ret h rfl
  | succ fuel ih =>
    intro o mode x h
    rw [sampleExactF] at h
    have hs : ({ o with mode := mode } : Obj N Info).samples = o.samples := rfl
    generalize ({ o with mode := mode } : Obj N Info) = o1 at h hs
    rw [← hs]
    clear hs o
    unfold sampleExactBody at h
    have hk := computeK_samples env o1
    have hL := computeL_samples env o1
    generalize computeK env o1 = ck at h hk
    generalize computeL env o1 = cl at h hL
    rcases ck with ⟨ok', _ | _⟩ <;> rcases cl with ⟨ol', _ | _⟩ <;> dsimp only at h hk hL <;>
    repeat' (first
      | exact recE_ret h rfl | exact recE_exact h rfl | exact recE_info h rfl
      | exact recE_ret h hk | exact recE_exact h hk | exact recE_ret h hL
      | (have h' := ih _ _ _ h; first | exact h' | (rw [hL] at h'; exact h'))
      | split at h)

theorem sampleExactKDppF_rec (fuel : ℕ) : ∀ (o : Obj N Info) (size : ℕ) (mode : String) x,
    Mem (sampleExactKDppF env fuel o size mode) x → RecE o.samples x := by
  induction fuel with
  | zero => intro o size mode x h; exact recE_ret h rfl
  | succ fuel ih =>
    intro o size mode x h
    rw [sampleExactKDppF] at h
    have hs : ({ o with mode := mode, sizeK := size } : Obj N Info).samples = o.samples := rfl
    generalize ({ o with mode := mode, sizeK := size } : Obj N Info) = o1 at h hs
    rw [← hs]
    clear hs o
    unfold sampleExactKDppBody at h
    have hL := computeL_samples env o1
    generalize computeL env o1 = cl at h hL
    rcases cl with ⟨ol', _ | _⟩ <;> dsimp only at h hL <;>
    repeat' (first
      | exact recE_ret h rfl | exact recE_exact h rfl | exact recE_info h rfl
      | exact recE_exact h hL | exact recE_ret h hL
      | (have h' := ih _ _ _ _ h; first | exact h' | (rw [hL] at h'; exact h'))
      | split at h)

/-- result of an MCMC method -/
def RecM (s : List (Record N)) (x : Obj N Info × Outcome (List (Fin N))) : Prop :=
  (∃ c l, c.getLast? = some l ∧ x.2 = .ok l ∧ x.1.samples = s ++ [.chain c]) ∨
  (x.2 = .indexError ∧ x.1.samples = s ++ [.chain []]) ∨
  (∃ e, x.2 = .raise e ∧ x.1.samples = s)

theorem recM_ret {s : List (Record N)} {o' : Obj N Info} {e : PyErr} {x}
    (h : Mem (Dist.ret (o', .raise e) : Call N Info) x) (hs : o'.samples = s) : RecM s x := by
  rw [mem_ret] at h; subst h; exact Or.inr (Or.inr ⟨e, rfl, hs⟩)

theorem recM_chain {s : List (Record N)} {o' : Obj N Info} {d} {x}
    (h : Mem (recordChain o' d) x) (hs : o'.samples = s) :
    RecM s x ∧ (x.1.samples = s ++ [.chain []] → Mem d (.ok [])) := by
  rw [recordChain, mem_map] at h
  obtain ⟨r, hr, rfl⟩ := h
  subst hs
  cases r with
  | ok c =>
    constructor
    · cases hc : c.getLast? with
      | some l => left; exact ⟨c, l, hc, by simp only [hc], rfl⟩
      | none =>
        right; left
        rw [List.getLast?_eq_none_iff] at hc
        subst hc
        exact ⟨rfl, rfl⟩
    · intro h1
      have h2 := List.append_cancel_left h1
      simp only [List.cons.injEq, Record.chain.injEq, and_true] at h2
      subst h2
      exact hr
  | raise e => exact ⟨Or.inr (Or.inr ⟨e, rfl, rfl⟩), fun h1 => by simp at h1⟩

/-- the chains are never empty -/
def ChainsNonempty (env : Env N Info) : Prop :=
  (∀ A mode size, ¬ Mem (env.mcmc A mode size) (.ok [])) ∧ ∀ A, ¬ Mem (env.zono A) (.ok [])

theorem sampleMcmc_rec (o : Obj N Info) (mode : String) (size : Option ℕ) (x)
    (h : Mem (sampleMcmc env o mode size) x) :
    RecM o.samples x ∧ (ChainsNonempty env → x.1.samples ≠ o.samples ++ [.chain []]) := by
  rw [sampleMcmc] at h
  have hs : ({ o with mode := mode } : Obj N Info).samples = o.samples := rfl
  generalize ({ o with mode := mode } : Obj N Info) = o1 at h hs
  rw [← hs]
  clear hs o
  have hk := computeK_samples env o1
  have hL := computeL_samples env o1
  have hret : ∀ {o' : Obj N Info} {e}, Mem (Dist.ret (o', .raise e) : Call N Info) x →
      o'.samples = o1.samples →
      RecM o1.samples x ∧ (ChainsNonempty env → x.1.samples ≠ o1.samples ++ [.chain []]) := by
    intro o' e h hs
    refine ⟨recM_ret h hs, fun _ => ?_⟩
    rw [mem_ret] at h; subst h
    simp [hs]
  have hz : ∀ {o' : Obj N Info} {A}, Mem (recordChain o' (env.zono A)) x →
      o'.samples = o1.samples →
      RecM o1.samples x ∧ (ChainsNonempty env → x.1.samples ≠ o1.samples ++ [.chain []]) :=
    fun h hs => ⟨(recM_chain h hs).1, fun hc h1 => hc.2 _ ((recM_chain h hs).2 h1)⟩
  have hm : ∀ {o' : Obj N Info} {A m s}, Mem (recordChain o' (env.mcmc A m s)) x →
      o'.samples = o1.samples →
      RecM o1.samples x ∧ (ChainsNonempty env → x.1.samples ≠ o1.samples ++ [.chain []]) :=
    fun h hs => ⟨(recM_chain h hs).1, fun hc h1 => hc.1 _ _ _ ((recM_chain h hs).2 h1)⟩
  unfold sampleMcmcBody at h
  split at h
  · split at h
    · exact hz h rfl
    · exact hret h rfl
  split at h
  · split at h
    · split at h
      · rename_i o' e he
        rw [he] at hk; exact hret h hk
      · rename_i o' e he
        rw [he] at hk
        split at h
        · split at h
          · exact hm h hk
          · exact hret h hk
        · exact hret h hk
    · split at h
      · rename_i o' e he
        rw [he] at hL; exact hret h hL
      · rename_i o' e he
        rw [he] at hL
        split at h
        · exact hm h hL
        · exact hret h hL
  split at h
  · split at h
    · rename_i o' e he
      rw [he] at hL; exact hret h hL
    · rename_i o' e he
      rw [he] at hL
      split at h
      · exact hm h hL
      · exact hret h hL
  · exact hret h rfl

end Verif.Model
