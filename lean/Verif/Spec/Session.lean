import Verif.Model.Session
import Verif.Spec.Inner
import Verif.Spec.Numerics

/-!
Assumptions on the environment of the intermediate samplers.
-/

namespace Verif.Spec
open Verif Verif.Model

variable {n : ℕ}

/-- The kernel is positive semi-definite, the numerical routines and the sampler of the small DPP are exact, the machine
precision is small for the size of the problem, and `bless` and `bless_size` return positive regularisations. -/
structure GoodEnv (env : SessEnv n) : Prop where
  num : NumericsSpec env.num
  inner : InnerSpec env.inner
  psd : env.L.PosSemidef
  over : 0 < env.over
  eps : (1 + env.L.trace) * n * env.num.eps < 1
  dict : ∀ D, .ok D ∈ env.dict.support → 0 < D.lam
  dictK : ∀ k D, .ok D ∈ (env.dictK k).support → 0 < D.dict.lam ∧ 0 < D.lamMin ∧ 0 < D.lamMax

/-- No intermediate sample has an acceptance probability exactly one. -/
def NoTie (L : Matrix (Fin n) (Fin n) ℝ) (N : Nystrom n) (alpha r : ℝ) : Prop :=
  ∀ c : Fin n → ℕ, (∀ i, 0 < c i → 0 < nysRls L N alpha i) → alphaAcc L N alpha r (nysRls L N alpha) c ≠ 0

/-- No intermediate sample that contains all the items of `T` has an acceptance probability exactly one. -/
def NoTieOn (L : Matrix (Fin n) (Fin n) ℝ) (N : Nystrom n) (alpha r : ℝ) (T : Finset (Fin n)) : Prop :=
  ∀ c : Fin n → ℕ, (∀ i, 0 < c i → 0 < nysRls L N alpha i) → (∀ i ∈ T, 0 < c i) →
    alphaAcc L N alpha r (nysRls L N alpha) c ≠ 0

/-- The parameters of a call do not make the alpha sampler raise on a tie: for the values of `r` computed by the call,
no intermediate sample has an acceptance probability exactly one. -/
def TieFree (env : SessEnv n) : SessCall → Prop
  | .exactVfx _ => True
  | .kVfx _ _ => True
  | .exactAlpha rFunc _ => ∀ pc, .ok pc ∈ (alphaPre env.num env.L env.over env.dict).support →
      0 < rFunc (nysDeff pc.dict pc.alphaHat) ∧ NoTie env.L pc.dict pc.alphaHat (rFunc (nysDeff pc.dict pc.alphaHat))
  | .kAlpha rFunc size _ _ _ => ∀ pc, .ok pc ∈ (alphaKPre env.num env.L env.over (env.dictK size) size).support →
      0 < rFunc (nysDeff pc.dict pc.alphaHat) ∧ ∀ a, 0 < a → NoTie env.L pc.dict a (rFunc (nysDeff pc.dict pc.alphaHat))

/-- calls of the vfx algorithm -/
def _root_.Verif.Model.SessCall.isVfx : SessCall → Prop
  | .exactVfx _ => True
  | .kVfx _ _ => True
  | .exactAlpha _ _ => False
  | .kAlpha _ _ _ _ _ => False

/-- calls that sample a DPP of random size -/
def _root_.Verif.Model.SessCall.isExact : SessCall → Prop
  | .exactVfx _ => True
  | .kVfx _ _ => False
  | .exactAlpha _ _ => True
  | .kAlpha _ _ _ _ _ => False

end Verif.Spec
