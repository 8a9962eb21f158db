import Verif.Lemmas.ErrFlag
import Verif.Lemmas.Inner

/-!
Total mass of the calls of `FiniteDPP`: one, when the samplers of `Env` have mass one.
-/

set_option linter.unusedSectionVars false

namespace Verif.Lemmas.Err
open Verif Verif.Model Verif.Dist Relation

variable {N : ℕ} {Info : Type}

theorem ret_mass {α : Type*} (a : α) : (ret a : Dist ℝ α).mass = 1 := by simp [mass]

theorem bind_mass {α β : Type*} {d : Dist ℝ α} {k : α → Dist ℝ β} (hd : d.mass = 1)
    (hk : ∀ a, (k a).mass = 1) : (d.bind k).mass = 1 := by
  rw [mass, E_bind]
  refine Eq.trans ?_ hd
  exact E_congr fun a w _ => hk a

theorem bern_mass (p : ℝ) : (bern p).mass = 1 := by simp [mass, bern]

theorem gsLoop_mass (K : Mat N) (r : ℤ) : ∀ m it st, (gsLoop K r m it st).mass = 1
  | 0, it, st => by rw [gsLoop]; exact ret_mass _
  | m + 1, it, st => by
    rw [gsLoop]
    refine andThen_mass' (npChoice_mass _ _) fun j => ?_
    split
    · exact ret_mass _
    · rw [map_mass]; exact gsLoop_mass K r m _ _

theorem schurLoop_mass (K : Mat N) (r : ℤ) : ∀ m it st, (schurLoop K r m it st).mass = 1
  | 0, it, st => by rw [schurLoop]; exact ret_mass _
  | m + 1, it, st => by
    rw [schurLoop]
    refine andThen_mass' (npChoice_mass _ _) fun j => ?_
    split
    · exact ret_mass _
    · rw [map_mass]; exact schurLoop_mass K r m _ _

theorem cholLoop_mass (r : ℤ) : ∀ m it (st : CholState N ℝ), (cholLoop r m it st).mass = 1
  | 0, it, st => by rw [cholLoop]; exact ret_mass _
  | m + 1, it, st => by
    rw [cholLoop]
    refine andThen_mass' (npChoice_mass _ _) fun j => ?_
    split
    · dsimp only
      split
      · exact ret_mass _
      · exact cholLoop_mass r m _ _
    · exact ret_mass _

theorem projKernel_mass (A : KMat N) (mode : String) (size : Option ℕ) :
    (projKernel A mode size).mass = 1 := by
  cases A with
  | nan => exact ret_mass _
  | num A =>
    rw [projKernel]
    unfold projDppSamplerKernel
    split
    · exact ret_mass _
    split
    · exact gsLoop_mass _ _ _ _ _
    split
    · rw [map_mass]; exact cholLoop_mass _ _ _ _
    split
    · exact schurLoop_mass _ _ _ _ _
    · exact ret_mass _

theorem luLoop_mass : ∀ (l : List (Fin N)) (A : Mat N), (luLoop l A).mass = 1
  | [], A => by rw [luLoop]; exact ret_mass _
  | j :: js, A => by
    rw [luLoop]
    exact bind_mass (bern_mass _) fun b => bind_mass (luLoop_mass js _) fun _ => ret_mass _

theorem genericKernel_mass (A : KMat N) : (genericKernel A).mass = 1 := by
  cases A with
  | nan => exact ret_mass _
  | num A => rw [genericKernel, map_mass]; exact luLoop_mass _ _

theorem gsBisLoop_mass {r : ℕ} : ∀ m it (st : GSBisState N r), (gsBisLoop m it st).mass = 1
  | 0, it, st => by rw [gsBisLoop]; exact ret_mass _
  | m + 1, it, st => by
    rw [gsBisLoop]
    refine andThen_mass' (npChoice_mass _ _) fun j => ?_
    split
    · exact ret_mass _
    · rw [map_mass]; exact gsBisLoop_mass m _ _

theorem kutaLoop_mass (qr : QR N) (rank : ℕ) : ∀ m it c V, (kutaLoop qr rank m it c V).mass = 1
  | 0, it, c, V => by rw [kutaLoop]; exact ret_mass _
  | m + 1, it, 0, V => by
    rw [kutaLoop]
    refine andThen_mass' (npChoice_mass _ _) fun j => ?_
    split <;> exact ret_mass _
  | m + 1, it, c + 1, V => by
    rw [kutaLoop]
    refine andThen_mass' (npChoice_mass _ _) fun j => ?_
    split
    · exact ret_mass _
    · split
      · exact ret_mass _
      · rw [map_mass]; exact kutaLoop_mass qr rank m _ _ _

theorem projEig_mass (env : Env N Info) (E : EigVecs N) (l : List ℕ) (mode : String)
    (size : Option ℕ) : (projEig env E l mode size).mass = 1 := by
  unfold projEig
  split
  · exact ret_mass _
  unfold projDppSamplerEig
  split
  · split
    · exact (eigGsLoop_ok _ _ _ _).1
    split
    · exact gsBisLoop_mass _ _ _
    split
    · exact kutaLoop_mass _ _ _ _ _ _
    · exact ret_mass _
  · exact ret_mass _

theorem kSelLoop_mass (lam : ℕ → ℝ) (T : Table ℝ) : ∀ n k ind, (kSelLoop lam T n k ind).mass = 1
  | 0, k, ind => by rw [kSelLoop]; exact ret_mass _
  | n + 1, k, ind => by
    rw [kSelLoop]
    split
    · refine bind_mass (bern_mass _) fun b => ?_
      split
      · split
        · exact ret_mass _
        split
        · exact ret_mass _
        · exact kSelLoop_mass lam T n _ _
      · exact kSelLoop_mass lam T n _ _
    · exact ret_mass _

theorem kSelector_mass (M : ℕ) (lam : ℕ → ℝ) (tol : ℝ) (size : ℕ) (T : Option (Table ℝ)) :
    (kDppEigVecsSelector M lam tol size T).mass = 1 := by
  unfold kDppEigVecsSelector
  split
  · exact ret_mass _
  · rw [map_mass]; exact kSelLoop_mass _ _ _ _ _

/-- the samplers that `FiniteDPP` dispatches to return or raise with probability one -/
structure EnvMass (env : Env N Info) : Prop where
  vfx : ∀ i, (env.vfx i).mass = 1
  alpha : ∀ i, (env.alpha i).mass = 1
  vfxK : ∀ k i, (env.vfxK k i).mass = 1
  alphaK : ∀ k i, (env.alphaK k i).mass = 1
  mcmc : ∀ A m s, (env.mcmc A m s).mass = 1
  zono : ∀ A, (env.zono A).mass = 1

variable {env : Env N Info} (he : EnvMass env)

theorem recordExact_mass {o : Obj N Info} {d} (h : d.mass = 1) : (recordExact o d).mass = 1 := by
  rw [recordExact, map_mass, h]
theorem recordInfo_mass {o : Obj N Info} {d} (h : d.mass = 1) : (recordInfo o d).mass = 1 := by
  rw [recordInfo, map_mass, h]
theorem recordChain_mass {o : Obj N Info} {d} (h : d.mass = 1) : (recordChain o d).mass = 1 := by
  rw [recordChain, map_mass, h]

theorem withFlag_mass {fl : Bool} {c : Call N Info} (h : c.mass = 1) : (withFlag fl c).mass = 1 := by
  rw [withFlag, map_mass, h]

include he

set_option maxHeartbeats 1000000 in
theorem sampleExactFE_mass (mode : String) (fuel : ℕ) : ∀ (fl : Bool) (o : Obj N Info),
    (sampleExactFE env fuel fl o mode).mass = 1 := by
  induction fuel with
  | zero => intro fl o; exact ret_mass _
  | succ fuel ih =>
    intro fl o
    rw [sampleExactFE]
    unfold sampleExactBodyE
    dsimp only
    repeat' (first
      | exact ret_mass _
      | exact ih _ _
      | exact withFlag_mass (recordExact_mass (projKernel_mass _ _ _))
      | exact withFlag_mass (recordExact_mass (genericKernel_mass _))
      | exact withFlag_mass (recordExact_mass (projEig_mass _ _ _ _ _))
      | exact withFlag_mass (recordInfo_mass (he.vfx _))
      | exact withFlag_mass (recordInfo_mass (he.alpha _))
      | exact withFlag_mass (recordExact_mass
          (bind_mass (selector_ok _ _).1 fun _ => projEig_mass _ _ _ _ _))
      | split)

set_option maxHeartbeats 1000000 in
theorem sampleExactKDppFE_mass (size : ℕ) (mode : String) (fuel : ℕ) : ∀ (fl : Bool) (o : Obj N Info),
    (sampleExactKDppFE env fuel fl o size mode).mass = 1 := by
  induction fuel with
  | zero => intro fl o; exact ret_mass _
  | succ fuel ih =>
    intro fl o
    rw [sampleExactKDppFE]
    unfold sampleExactKDppBodyE
    dsimp only
    repeat' (first
      | exact ret_mass _
      | exact ih _ _
      | exact withFlag_mass (recordExact_mass (projKernel_mass _ _ _))
      | exact withFlag_mass (recordExact_mass (projEig_mass _ _ _ _ _))
      | exact withFlag_mass (recordInfo_mass (he.vfxK _ _))
      | exact withFlag_mass (recordInfo_mass (he.alphaK _ _))
      | exact withFlag_mass (recordExact_mass
          (andThen_mass' (kSelector_mass _ _ _ _ _) fun _ => projEig_mass _ _ _ _ _))
      | split)

theorem sampleMcmcE_mass (mode : String) (size : Option ℕ) (fl : Bool) (o : Obj N Info) :
    (sampleMcmcE env fl o mode size).mass = 1 := by
  rw [sampleMcmcE]
  unfold sampleMcmcBodyE
  dsimp only
  repeat' (first
    | exact ret_mass _
    | exact withFlag_mass (recordChain_mass (he.zono _))
    | exact withFlag_mass (recordChain_mass (he.mcmc _ _ _))
    | split)

theorem stepE_mass (c : Cmd) (fl : Bool) (o : Obj N Info) : (stepE env c fl o).mass = 1 := by
  cases c with
  | exact mode => rw [stepE, map_mass]; exact sampleExactFE_mass he mode _ fl o
  | exactK size mode => rw [stepE, map_mass]; exact sampleExactKDppFE_mass he size mode _ fl o
  | mcmc mode size => rw [stepE, map_mass]; exact sampleMcmcE_mass he mode size fl o
  | mcmcK size mode => rw [stepE, map_mass]; exact sampleMcmcE_mass he _ _ fl _
  | computeK => exact ret_mass _
  | computeL => exact ret_mass _
  | flush => exact ret_mass _

end Verif.Lemmas.Err
