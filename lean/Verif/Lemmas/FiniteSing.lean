import Verif.Lemmas.FiniteReach

set_option linter.unusedSectionVars false

namespace Verif.Model
open Verif Verif.Spec Matrix Relation

variable {N : ℕ} {Info : Type} {env : Env N Info}

theorem dep_dual {d : ℕ} {Phi : Fin d → Fin N → ℝ} {th : Fin d → ℝ} {W : Fin d → Fin d → ℝ}
    (hW : ∀ a b, ∑ l, W l a * W l b = if a = b then 1 else 0)
    (hG : ∀ k l, ∑ i, Phi k i * Phi l i = ∑ a, th a * W k a * W l a)
    (hd : ¬ LinearIndependent ℝ Phi) : ∃ a, th a = 0 := by
  by_contra hn
  push Not at hn
  apply hd
  rw [Fintype.linearIndependent_iff]
  intro c hc
  have h0 := fun a => dual_nonneg hW hG a
  -- c^T G c = 0
  have hq : ∑ a, th a * (∑ k, c k * W k a) ^ 2 = 0 := by
    have e1 : ∑ k, ∑ l, c k * c l * ∑ i, Phi k i * Phi l i = 0 := by
      have : ∀ i, ∑ k, c k * Phi k i = 0 := fun i => by
        have := congrFun hc i
        simpa [Finset.sum_apply] using this
      calc ∑ k, ∑ l, c k * c l * ∑ i, Phi k i * Phi l i
          = ∑ i, (∑ k, c k * Phi k i) * (∑ l, c l * Phi l i) := by
            simp only [Finset.mul_sum, Finset.sum_mul]
            rw [Finset.sum_congr rfl (fun k _ => Finset.sum_comm)]
            rw [Finset.sum_comm]
            refine Finset.sum_congr rfl (fun i _ => ?_)
            rw [Finset.sum_comm]
            refine Finset.sum_congr rfl (fun k _ => Finset.sum_congr rfl (fun l _ => by ring))
        _ = 0 := by simp [this]
    rw [← e1]
    simp only [hG]
    calc ∑ a, th a * (∑ k, c k * W k a) ^ 2
        = ∑ a, ∑ k, ∑ l, c k * c l * (th a * W k a * W l a) := by
          refine Finset.sum_congr rfl (fun a _ => ?_)
          rw [pow_two, Finset.sum_mul_sum, Finset.mul_sum]
          refine Finset.sum_congr rfl (fun k _ => ?_)
          rw [Finset.mul_sum]
          exact Finset.sum_congr rfl (fun l _ => by ring)
      _ = _ := by
          rw [Finset.sum_comm]
          refine Finset.sum_congr rfl (fun k _ => ?_)
          rw [Finset.sum_comm]
          refine Finset.sum_congr rfl (fun l _ => ?_)
          rw [Finset.mul_sum]
  have hz : ∀ a, ∑ k, c k * W k a = 0 := by
    intro a
    have := (Finset.sum_eq_zero_iff_of_nonneg
      (fun a _ => mul_nonneg (h0 a) (sq_nonneg _))).1 hq a (Finset.mem_univ a)
    rcases mul_eq_zero.1 this with h | h
    · exact absurd h (hn a)
    · exact pow_eq_zero_iff (two_ne_zero) |>.1 h
  intro k
  have hr := rows_complete hW hG
  have : ∑ a, (∑ l, c l * W l a) * W k a = c k := by
    simp only [Finset.sum_mul]
    rw [Finset.sum_comm]
    have : ∀ l, ∑ a, c l * W l a * W k a = c l * (if l = k then 1 else 0) := by
      intro l
      rw [← hr l k, Finset.mul_sum]
      exact Finset.sum_congr rfl (fun a _ => by ring)
    simp [this]
  rw [← this]
  simp [hz]

/-- a singular dual kernel gives a NaN eigenvector -/
theorem dual_bad (heigh : EighSpec env.eigh) (Phi : Rect N) (clip : Bool)
    (hd : ¬ LinearIndependent ℝ Phi.a) : ∃ a, (dualEig env Phi clip).2.bad a = true := by
  obtain ⟨hW, hG⟩ := heigh Phi.d (fun k l => ∑ i, Phi.a k i * Phi.a l i)
    (fun k l => Finset.sum_congr rfl (fun _ _ => by ring))
  obtain ⟨a, ha⟩ := dep_dual hW hG hd
  refine ⟨a, ?_⟩
  simp only [dualEig, decide_eq_true_eq, ha]
  split <;> simp

theorem kerMat_bad {E : EigVecs N} {v : ℕ → ℝ} (h : ∃ a, E.bad a = true) : kerMat E v = .nan := by
  rcases kerMat_eq (E := E) (v := v) with ⟨_, h1⟩ | ⟨h1, _⟩
  · exact h1
  · obtain ⟨a, ha⟩ := h; rw [h1 a] at ha; cases ha

theorem dual_path (hqr : QRSpec env.qr) (heigh : EighSpec env.eigh) {o : Obj N Info} {Phi : Rect N}
    (h1 : o.Kvals = none) (h2 : o.Lvals = none) (h3 : o.dual = some Phi) (x)
    (hx : Mem (sampleExact env o "GS") x) :
    x.1.Kvals = some (toK (dualEig env Phi true).1) ∧ x.1.vecs = some (dualEig env Phi true).2 ∧
      x.1.K = o.K ∧ x.1.corr = o.corr ∧ x.1.projection = o.projection := by
  have hn := (dualEig_spec hqr heigh Phi true).1
  rw [sampleExact, recLimit, sampleExactF, sampleExactBody] at hx
  simp only [show ("GS" = "Schur") = False by decide, show ("GS" = "Chol") = False by decide,
    show ("GS" = "vfx") = False by decide, show ("GS" = "alpha") = False by decide, if_false, h1, h2, h3,
    hn, Bool.false_eq_true] at hx
  rw [sampleExactF, sampleExactBody] at hx
  simp only [show ("GS" = "Schur") = False by decide, show ("GS" = "Chol") = False by decide,
    show ("GS" = "vfx") = False by decide, show ("GS" = "alpha") = False by decide, if_false, h1, h2, h3,
    hn, Bool.false_eq_true] at hx
  rw [sampleExactF, sampleExactBody] at hx
  simp only [show ("GS" = "Schur") = False by decide, show ("GS" = "Chol") = False by decide,
    show ("GS" = "vfx") = False by decide, show ("GS" = "alpha") = False by decide, if_false, h1, h2, h3,
    hn, Bool.false_eq_true] at hx
  have key : ∀ o' : Obj N Info, ∀ d, Mem (recordExact o' d) x →
      x.1.Kvals = o'.Kvals ∧ x.1.vecs = o'.vecs ∧ x.1.K = o'.K ∧ x.1.corr = o'.corr ∧
        x.1.projection = o'.projection := by
    intro o' d h
    rw [recordExact, mem_map] at h
    obtain ⟨r, _, rfl⟩ := h
    cases r <;> exact ⟨rfl, rfl, rfl, rfl, rfl⟩
  split at hx <;> exact key _ _ hx

theorem computeK_nan {o : Obj N Info} {v : ℕ → ℝ} {E : EigVecs N} (h1 : o.K = none)
    (h2 : o.Kvals = some v) (h3 : o.vecs = some E) (hbad : ∃ a, E.bad a = true) :
    computeK env o = ({ o with K := some .nan }, .ok ()) := by
  unfold computeK
  generalize hf : recLimit = f
  cases f with
  | zero => simp [recLimit] at hf
  | succ f =>
    rw [computeKF]
    simp only [h1, h2, h3]
    rw [kerMat_bad hbad]

theorem sampleExact_chol_nan {o : Obj N Info} {v : ℕ → ℝ} {E : EigVecs N} (h1 : o.K = none)
    (h2 : o.Kvals = some v) (h3 : o.vecs = some E) (hbad : ∃ a, E.bad a = true) (hc : o.corr = false) :
    ∃ o', sampleExact env o "Chol" = Dist.ret (o', .ok []) := by
  unfold sampleExact
  generalize hf : recLimit = f
  cases f with
  | zero => simp [recLimit] at hf
  | succ f =>
    rw [sampleExactF, sampleExactBody]
    simp only [show ("Chol" = "Schur") = False by decide, if_false, if_true]
    have e := computeK_nan (env := env) (o := { o with mode := "Chol" }) h1 h2 h3 hbad
    rw [e]
    simp only [hc, Bool.false_and, Bool.false_eq_true, if_false, genericKernel]
    exact ⟨_, rfl⟩

end Verif.Model
