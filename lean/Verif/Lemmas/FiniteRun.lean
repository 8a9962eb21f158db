import Verif.Lemmas.FiniteCoh

/-!
Every method of `FiniteDPP` changes the attributes by elementary updates only.
-/

set_option linter.unusedSectionVars false

namespace Verif.Model
open Verif Verif.Spec Matrix Relation

variable {N : ℕ} {Info : Type} (env : Env N Info)

theorem eighMat_ok {A : KMat N} {v E} (h : eighMat env A = .ok (v, E)) :
    ∃ B, A = .num B ∧ v = vecNat (env.eigh N B).1 ∧
      E = { M := N, u := (env.eigh N B).2, bad := fun _ => false } := by
  cases A with
  | nan => simp [eighMat] at h
  | num B =>
    simp only [eighMat, Outcome.ok.injEq, Prod.mk.injEq] at h
    exact ⟨B, rfl, h.1.symm, h.2.symm⟩

theorem compute_upd (fuel : ℕ) : ∀ o : Obj N Info,
    ReflTransGen (Upd env) o (computeKF env fuel o).1 ∧
    ReflTransGen (Upd env) o (computeLF env fuel o).1 := by
  induction fuel with
  | zero => intro o; simp only [computeKF, computeLF]; exact ⟨.refl, .refl⟩
  | succ fuel ih =>
    intro o
    constructor
    · rw [computeKF]
      split
      · exact .refl
      rename_i hK
      split
      · rename_i v hv
        split
        · rename_i E hE
          exact .single (.setK o v E hK hv hE)
        · exact .refl
      rename_i hv
      split
      · rename_i A hA
        refine .tail (.single (.zono o A hv hA)) ?_
        exact Upd.setK _ (fun _ => 1) (zonoVecs env A) hK rfl rfl
      split
      · rename_i v hl
        exact .head (.kOfL o v hv hl) (ih _).1
      rename_i hl
      split
      · rename_i A hL
        split
        · exact .refl
        · rename_i v E hE
          obtain ⟨B, rfl, rfl, rfl⟩ := eighMat_ok env hE
          simp only
          split
          · exact .single (.eighL o B hv hl hL)
          · exact .head (.eighL o B hv hl hL) (ih _).1
      · have h2 := (ih o).2
        split
        · rename_i o' e he
          rw [he] at h2; exact h2
        · rename_i o' u he
          rw [he] at h2
          exact h2.trans (ih _).1
    · rw [computeLF]
      split
      · exact .refl
      rename_i hL
      split
      · exact .refl
      rename_i hc
      rw [Bool.not_eq_true] at hc
      split
      · rename_i v hv
        split
        · rename_i E hE
          exact .single (.setL o v E hL hc hv hE)
        · exact .refl
      rename_i hl
      split
      · rename_i Phi hP
        exact .single (.gram o Phi hL hc hP)
      split
      · rename_i A hA
        exact .single (.evalL o A hL hc hA)
      split
      · rename_i v hv
        split
        · exact .refl
        · rename_i h1
          exact .head (.lOfK o v hc hl hv (by simpa using h1)) (ih _).2
      rename_i hv
      split
      · rename_i A hK
        split
        · exact .refl
        · rename_i v E hE
          obtain ⟨B, rfl, rfl, rfl⟩ := eighMat_ok env hE
          simp only
          split
          · exact .single (.eighK o B hv hl hK)
          · exact .head (.eighK o B hv hl hK) (ih _).2
      · have h2 := (ih o).1
        split
        · rename_i o' e he
          rw [he] at h2; exact h2
        · rename_i o' u he
          rw [he] at h2
          exact h2.trans (ih _).2

theorem computeK_upd (o : Obj N Info) : ReflTransGen (Upd env) o (computeK env o).1 :=
  (compute_upd env _ o).1
theorem computeL_upd (o : Obj N Info) : ReflTransGen (Upd env) o (computeL env o).1 :=
  (compute_upd env _ o).2

/-- `x` is one of the outcomes of `d` -/
def Mem {R α : Type*} (d : Dist R α) (x : α) : Prop := ∃ w, (x, w) ∈ d

theorem mem_ret {α : Type*} {a x : α} : Mem (Dist.ret a : Dist ℝ α) x ↔ x = a := by
  simp [Mem, Dist.ret]

theorem mem_map {α β : Type*} {f : α → β} {d : Dist ℝ α} {x : β} :
    Mem (d.map f) x ↔ ∃ a, Mem d a ∧ x = f a := by
  simp only [Mem, Dist.map, List.mem_map, Prod.mk.injEq, Prod.exists]
  constructor
  · rintro ⟨w, a, w', h1, h2, h3⟩; exact ⟨a, ⟨w', h1⟩, h2.symm⟩
  · rintro ⟨a, ⟨w, h1⟩, h2⟩; exact ⟨w, a, w, h1, h2.symm, rfl⟩

theorem mem_bind {α β : Type*} {d : Dist ℝ α} {k : α → Dist ℝ β} {x : β} :
    Mem (d.bind k) x ↔ ∃ a, Mem d a ∧ Mem (k a) x := by
  simp only [Mem, Dist.bind, List.mem_flatMap, List.mem_map, Prod.mk.injEq, Prod.exists]
  constructor
  · rintro ⟨w, a, w', h1, b, w2, h2, rfl, _⟩; exact ⟨a, ⟨w', h1⟩, w2, h2⟩
  · rintro ⟨a, ⟨w, h1⟩, w2, h2⟩; exact ⟨_, a, w, h1, x, w2, h2, rfl, rfl⟩

theorem mem_of_possible {α : Type*} {d : Dist ℝ α} {x : α} (h : d.Possible x) : Mem d x :=
  let ⟨w, h1, _⟩ := h; ⟨w, h1⟩

theorem book_self (o : Obj N Info) (s : List (Record N)) (i : Option Info) :
    Upd env o { o with samples := s, info := i } := Upd.book o o.mode s o.sizeK i

theorem recordExact_upd {o : Obj N Info} {d x} (h : Mem (recordExact o d) x) :
    ReflTransGen (Upd env) o x.1 := by
  rw [recordExact, mem_map] at h
  obtain ⟨r, _, rfl⟩ := h
  cases r with
  | ok s => exact .single (.book o o.mode _ o.sizeK o.info)
  | raise e => exact .refl

theorem recordInfo_upd {o : Obj N Info} {d x} (h : Mem (recordInfo o d) x) :
    ReflTransGen (Upd env) o x.1 := by
  rw [recordInfo, mem_map] at h
  obtain ⟨r, _, rfl⟩ := h
  cases r with
  | ok s => exact .single (.book o o.mode _ o.sizeK _)
  | raise e => exact .refl

theorem recordChain_upd {o : Obj N Info} {d x} (h : Mem (recordChain o d) x) :
    ReflTransGen (Upd env) o x.1 := by
  rw [recordChain, mem_map] at h
  obtain ⟨r, _, rfl⟩ := h
  cases r with
  | ok s => exact .single (.book o o.mode _ o.sizeK o.info)
  | raise e => exact .refl

theorem ret_upd {o o' : Obj N Info} {r : Outcome (List (Fin N))} {x}
    (h : Mem (Dist.ret (o', r) : Call N Info) x) (hu : ReflTransGen (Upd env) o o') :
    ReflTransGen (Upd env) o x.1 := by
  rw [mem_ret] at h; subst h; exact hu

theorem sampleExact_upd (fuel : ℕ) : ∀ (o : Obj N Info) (mode : String) x,
    Mem (sampleExactF env fuel o mode) x → ReflTransGen (Upd env) o x.1 := by
  induction fuel with
  | zero => intro o mode x h; exact ret_upd env h .refl
  | succ fuel ih =>
    intro o mode x h
    refine .head (.book o mode o.samples o.sizeK o.info) ?_
    rw [sampleExactF] at h
    generalize ({ o with mode := mode } : Obj N Info) = o1 at h ⊢
    clear o
    unfold sampleExactBody at h
    split at h
    · split at h
      · have hk := computeK_upd env o1
        split at h
        · rename_i o' e he
          rw [he] at hk; exact ret_upd env h hk
        · rename_i o' e he
          rw [he] at hk
          split at h
          · exact hk.trans (recordExact_upd env h)
          · exact ret_upd env h hk
      · exact ret_upd env h .refl
    split at h
    · have hk := computeK_upd env o1
      split at h
      · rename_i o' e he
        rw [he] at hk; exact ret_upd env h hk
      · rename_i o' e he
        rw [he] at hk
        split at h
        · split at h
          · exact hk.trans (recordExact_upd env h)
          · exact hk.trans (recordExact_upd env h)
        · exact ret_upd env h hk
    split at h
    · split at h
      · exact ret_upd env h .refl
      · exact recordInfo_upd env h
    split at h
    · split at h
      · exact ret_upd env h .refl
      · exact recordInfo_upd env h
    split at h
    · split at h
      · exact ret_upd env h .refl
      · split at h
        · exact recordExact_upd env h
        · exact recordExact_upd env h
    rename_i hk
    split at h
    · rename_i v hv
      exact .head (.kOfL _ v hk hv) (ih _ _ _ h)
    rename_i hl
    split at h
    · rename_i Phi hP
      split at h
      · rename_i hn
        exact ret_upd env h (.single (.dualNeg _ Phi hP hn))
      · exact .head (.dual _ Phi true hk hl hP) (ih _ _ _ h)
    split at h
    · rename_i A hK
      split at h
      · exact recordExact_upd env h
      · split at h
        · exact ret_upd env h .refl
        · rename_i v E hE
          obtain ⟨B, rfl, rfl, rfl⟩ := eighMat_ok env hE
          split at h
          · exact ret_upd env h (.single (.eighK _ B hk hl hK))
          · exact .head (.eighK _ B hk hl hK) (ih _ _ _ h)
    split at h
    · rename_i A hL
      split at h
      · exact ret_upd env h .refl
      · rename_i v E hE
        obtain ⟨B, rfl, rfl, rfl⟩ := eighMat_ok env hE
        split at h
        · exact ret_upd env h (.single (.eighL _ B hk hl hL))
        · exact .head (.eighL _ B hk hl hL) (ih _ _ _ h)
    split at h
    · rename_i A hA
      exact .head (.zono _ A hk hA) (ih _ _ _ h)
    split at h
    · have hL := computeL_upd env o1
      split at h
      · rename_i o' e he
        rw [he] at hL; exact ret_upd env h hL
      · rename_i o' e he
        rw [he] at hL; exact hL.trans (ih _ _ _ h)
    · exact ret_upd env h .refl

theorem sampleExactKDpp_upd (fuel : ℕ) : ∀ (o : Obj N Info) (size : ℕ) (mode : String) x,
    Mem (sampleExactKDppF env fuel o size mode) x → ReflTransGen (Upd env) o x.1 := by
  induction fuel with
  | zero => intro o size mode x h; exact ret_upd env h .refl
  | succ fuel ih =>
    intro o size mode x h
    refine .head (.book o mode o.samples size o.info) ?_
    rw [sampleExactKDppF] at h
    have hsz : ({ o with mode := mode, sizeK := size } : Obj N Info).sizeK = size := rfl
    generalize ({ o with mode := mode, sizeK := size } : Obj N Info) = o1 at h hsz ⊢
    clear o
    unfold sampleExactKDppBody at h
    split at h
    · split at h
      · exact ret_upd env h .refl
      · exact recordInfo_upd env h
    split at h
    · split at h
      · exact ret_upd env h .refl
      · exact recordInfo_upd env h
    split at h
    · split at h
      · split at h
        · split at h
          · exact ret_upd env h .refl
          · split at h
            · exact ret_upd env h .refl
            · exact recordExact_upd env h
        rename_i hk
        split at h
        · rename_i A hA
          split at h
          · exact ret_upd env h .refl
          · exact .head (.zono _ A hk hA) (recordExact_upd env h)
        split at h
        · split at h
          · exact ret_upd env h .refl
          · exact recordExact_upd env h
        · exact ret_upd env h .refl
      · split at h
        · split at h
          · exact ret_upd env h .refl
          · exact recordExact_upd env h
        · have hL := computeL_upd env o1
          split at h
          · rename_i o' e he
            rw [he] at hL; exact ret_upd env h hL
          · rename_i o' e he
            rw [he] at hL
            split at h
            · exact hL.trans (recordExact_upd env h)
            · exact ret_upd env h hL
    rename_i hp
    have hc : (o1.corr && o1.projection) = false := by
      cases h1 : o1.projection
      · simp
      · exact absurd h1 hp
    split at h
    · rename_i v hv
      split at h
      · exact ret_upd env h .refl
      · rename_i E hE
        rw [hsz] at h
        cases he : o1.Epoly with
        | none =>
          simp only [he, Option.isNone_none, true_or, if_true] at h
          rw [← hsz] at h
          exact .head (.epoly o1 v E o1.sizeK he (by simpa using hp) hv hE) (recordExact_upd env h)
        | some T =>
          simp only [he, Option.isNone_some, lt_irrefl, or_false, Bool.false_eq_true, if_false] at h
          have : ({ o1 with sizeK := size, Epoly := some T } : Obj N Info) = o1 := by
            rw [← hsz, ← he]
          have h2 := recordExact_upd env h
          first | exact h2 | (rw [this] at h2; exact h2)
    rename_i hl
    split at h
    · rename_i v hv
      split at h
      · exact ret_upd env h .refl
      · rename_i h1
        exact .head (.lOfK _ v hc hl hv (by simpa using h1)) (ih _ _ _ _ h)
    rename_i hk
    split at h
    · rename_i Phi hP
      split at h
      · rename_i hn
        exact ret_upd env h (.single (.dualNeg _ Phi hP hn))
      · exact .head (.dual _ Phi false hk hl hP) (ih _ _ _ _ h)
    split at h
    · rename_i A hL
      split at h
      · exact ret_upd env h .refl
      · rename_i v E hE
        obtain ⟨B, rfl, rfl, rfl⟩ := eighMat_ok env hE
        split at h
        · exact ret_upd env h (.single (.eighL _ B hk hl hL))
        · exact .head (.eighL _ B hk hl hL) (ih _ _ _ _ h)
    split at h
    · rename_i A hK
      split at h
      · exact ret_upd env h .refl
      · rename_i v E hE
        obtain ⟨B, rfl, rfl, rfl⟩ := eighMat_ok env hE
        split at h
        · exact ret_upd env h (.single (.eighK _ B hk hl hK))
        · exact .head (.eighK _ B hk hl hK) (ih _ _ _ _ h)
    split at h
    · have hL := computeL_upd env o1
      split at h
      · rename_i o' e he
        rw [he] at hL; exact ret_upd env h hL
      · rename_i o' e he
        rw [he] at hL; exact hL.trans (ih _ _ _ _ h)
    · exact ret_upd env h .refl

theorem sampleMcmc_upd (o : Obj N Info) (mode : String) (size : Option ℕ) (x)
    (h : Mem (sampleMcmc env o mode size) x) : ReflTransGen (Upd env) o x.1 := by
  refine .head (.book o mode o.samples o.sizeK o.info) ?_
  rw [sampleMcmc] at h
  generalize ({ o with mode := mode } : Obj N Info) = o1 at h ⊢
  clear o
  unfold sampleMcmcBody at h
  have hk := computeK_upd env o1
  have hL := computeL_upd env o1
  split at h
  · split at h
    · exact recordChain_upd env h
    · exact ret_upd env h .refl
  split at h
  · split at h
    · split at h
      · rename_i o' e he
        rw [he] at hk; exact ret_upd env h hk
      · rename_i o' e he
        rw [he] at hk
        split at h
        · split at h
          · exact hk.trans (recordChain_upd env h)
          · exact ret_upd env h hk
        · exact ret_upd env h hk
    · split at h
      · rename_i o' e he
        rw [he] at hL; exact ret_upd env h hL
      · rename_i o' e he
        rw [he] at hL
        split at h
        · exact hL.trans (recordChain_upd env h)
        · exact ret_upd env h hL
  split at h
  · split at h
    · rename_i o' e he
      rw [he] at hL; exact ret_upd env h hL
    · rename_i o' e he
      rw [he] at hL
      split at h
      · exact hL.trans (recordChain_upd env h)
      · exact ret_upd env h hL
  · exact ret_upd env h .refl

theorem step_upd (c : Cmd) (o : Obj N Info) (x) (h : Mem (step env c o) x) :
    ReflTransGen (Upd env) o x.1 := by
  cases c with
  | exact mode =>
    rw [step, mem_map] at h
    obtain ⟨a, ha, rfl⟩ := h
    exact sampleExact_upd env _ o mode a ha
  | exactK size mode =>
    rw [step, mem_map] at h
    obtain ⟨a, ha, rfl⟩ := h
    exact sampleExactKDpp_upd env _ o size mode a ha
  | mcmc mode size =>
    rw [step, mem_map] at h
    obtain ⟨a, ha, rfl⟩ := h
    exact sampleMcmc_upd env o mode size a ha
  | mcmcK size mode =>
    rw [step, mem_map] at h
    obtain ⟨a, ha, rfl⟩ := h
    exact .head (.book o "E" o.samples size o.info) (sampleMcmc_upd env _ "E" (some size) a ha)
  | computeK => rw [step, mem_ret] at h; subst h; exact computeK_upd env o
  | computeL => rw [step, mem_ret] at h; subst h; exact computeL_upd env o
  | flush => rw [step, mem_ret] at h; subst h; exact .single (.book o o.mode [] 0 o.info)

theorem runHist_upd (cs : List Cmd) : ∀ (o : Obj N Info) (x), Mem (runHist env cs o) x →
    ReflTransGen (Upd env) o x.1 := by
  induction cs with
  | nil => intro o x h; rw [runHist, mem_ret] at h; subst h; exact .refl
  | cons c cs ih =>
    intro o x h
    rw [runHist, mem_bind] at h
    obtain ⟨r, h1, h2⟩ := h
    rw [mem_map] at h2
    obtain ⟨q, h3, rfl⟩ := h2
    exact (step_upd env c o r h1).trans (ih _ q h3)

end Verif.Model
