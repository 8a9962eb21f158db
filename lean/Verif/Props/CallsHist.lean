import Verif.Model.McmcCall
import Verif.Props.FiniteHist
import Verif.Props.McmcSession

/-!
C29 for histories in which `sample_mcmc` and `sample_mcmc_k_dpp` run the chains of `mcmc_sampling.py`, each call
with its own arguments: nothing is assumed of the chains.
-/

namespace Verif.Props.CallsHist
open Verif Verif.Spec Verif.Model Verif.Props

variable {N : ℕ} {Info : Type} {env : Env N Info}

theorem mem_andThen {α β : Type} {d : Dist ℝ (Outcome α)} {k : α → Dist ℝ (Outcome β)} {x : β}
    (h : Mem (d.andThen k) (.ok x)) : ∃ a, Mem (k a) (.ok x) := by
  rw [Dist.andThen, mem_bind] at h
  obtain ⟨r, -, h⟩ := h
  cases r with
  | ok a => exact ⟨a, h⟩
  | raise e => rw [mem_ret] at h; cases h

theorem cons_ne {α : Type} {d : Dist ℝ (Outcome (List α))} {f : List α → List (List (Fin N))}
    (hf : ∀ l, f l ≠ []) : ¬ Mem (d.map fun r => r.map f) (.ok []) := by
  intro h
  rw [mem_map] at h
  obtain ⟨r, -, h⟩ := h
  cases r with
  | ok l => injection h with h; exact hf l h.symm
  | raise e => cases h

theorem mcmcOfArgs_ne (a : McmcArgs N) (A : KMat N) (mode : String) (size : Option ℕ) :
    ¬ Mem (mcmcOfArgs a A mode size) (.ok []) := by
  cases A with
  | nan => intro h; rw [mcmcOfArgs, Outcome.valueError, mem_ret] at h; cases h
  | num A =>
    rw [mcmcOfArgs, mcmcSampler]
    split
    · intro h
      obtain ⟨S, h⟩ := mem_andThen h
      exact cons_ne (fun l => by simp) h
    split
    · intro h
      obtain ⟨S, h⟩ := mem_andThen h
      exact cons_ne (fun l => by simp) h
    split
    · intro h
      obtain ⟨S, h⟩ := mem_andThen h
      rw [exSampler] at h
      split at h
      · rw [Outcome.indexError, mem_ret] at h; cases h
      · exact cons_ne (fun l => by simp) h
    · intro h; rw [mem_ret] at h; cases h

theorem nonempty_env (hz : ∀ A, ¬ Mem (env.zono A) (.ok [])) (a : McmcArgs N) :
    ChainsNonempty (mcmcEnv env a) := ⟨fun A m s => mcmcOfArgs_ne a A m s, hz⟩

theorem calls_record (hz : ∀ A, ¬ Mem (env.zono A) (.ok [])) (cs : List (Cmd × McmcArgs N)) :
    ∀ (o : Obj N Info) (x) (acc : List (Cmd × List (Fin N))), Mem (runCalls env cs o) x →
      List.Forall₂ RecordOf acc o.samples →
      List.Forall₂ RecordOf (sinceFlush (List.zip (cs.map Prod.fst) x.2) acc) x.1.samples := by
  induction cs with
  | nil => intro o x acc h hacc; rw [runCalls, mem_ret] at h; subst h; simpa [sinceFlush] using hacc
  | cons c cs ih =>
    intro o x acc h hacc
    rw [runCalls, mem_bind] at h
    obtain ⟨r, h1, h2⟩ := h
    rw [mem_map] at h2
    obtain ⟨q, h3, rfl⟩ := h2
    obtain ⟨acc', g1, g2⟩ := step_record (nonempty_env hz c.2) c.1 o r h1 (cs.map Prod.fst) q.2 acc hacc
    simp only [List.map_cons, List.zip_cons_cons]
    rw [g2]
    exact ih _ q acc' h3 g1

theorem init_samples {kt : String} {pa : ProjArg} {p : Params N} {o0 : Obj N Info}
    (h0 : Obj.init kt pa p = .ok o0) : o0.samples = [] := by
  unfold Obj.init at h0
  obtain ⟨_, _, h0⟩ := bind'_ok h0
  obtain ⟨_, _, h0⟩ := bind'_ok h0
  obtain ⟨_, _, h0⟩ := bind'_ok h0
  obtain ⟨_, _, h0⟩ := bind'_ok h0
  obtain ⟨_, _, h0⟩ := bind'_ok h0
  obtain ⟨_, _, h0⟩ := bind'_ok h0
  simp only [Outcome.ok.injEq] at h0
  rw [← h0]

/-- C29: over every history of calls on an object fresh from the constructor, each `sample_mcmc` or
`sample_mcmc_k_dpp` call with any arguments of its own (`s_init`, `nb_iter`, `T_max`), `list_of_samples` holds, in
order, exactly one record for each call that returned a sample since the last flush: that sample for exact methods,
the chain ending with it for MCMC methods.  The linear-programming sampler of `A_zonotope` objects is assumed to
return at least one state when it returns. -/
theorem C29_list_of_samples_mcmc_arguments (hz : ∀ A, ¬ Outcomes (env.zono A) (.ok [])) (kt : String) (pa : ProjArg)
    (p : Params N) (o0 : Obj N Info) (h0 : Obj.init kt pa p = .ok o0) (cs : List (Cmd × McmcArgs N))
    (o : Obj N Info) (rs) (h : Outcomes (runCalls env cs o0) (o, rs)) :
    List.Forall₂ RecordOf (sinceFlush (List.zip (cs.map Prod.fst) rs) []) o.samples :=
  calls_record hz cs o0 (o, rs) [] h (by rw [init_samples h0]; exact .nil)

/-- C29: with chains of any arguments, every call gives exactly one result. -/
theorem C29_one_result_per_call_mcmc_arguments (cs : List (Cmd × McmcArgs N)) : ∀ (o : Obj N Info) (x),
    Outcomes (runCalls env cs o) x → x.2.length = cs.length := by
  induction cs with
  | nil =>
    intro o x h
    have h' : Mem (runCalls env [] o) x := h
    rw [runCalls, mem_ret] at h'; subst h'; rfl
  | cons c cs ih =>
    intro o x h
    have h' : Mem (runCalls env (c :: cs) o) x := h
    rw [runCalls, mem_bind] at h'
    obtain ⟨r, _, h2⟩ := h'
    rw [mem_map] at h2
    obtain ⟨q, h3, rfl⟩ := h2
    simp [ih _ q h3]

/-- the hypothesis on the linear-programming sampler is met -/
example : ∃ env : Env 2 Unit, QRSpec env.qr ∧ EighSpec env.eigh ∧ ∀ A, ¬ Outcomes (env.zono A) (.ok []) := by
  obtain ⟨env, h1, h2, _, _, h3⟩ := exists_env 2
  exact ⟨env, h1, h2, h3.2⟩

end Verif.Props.CallsHist
