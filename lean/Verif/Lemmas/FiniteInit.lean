import Verif.Lemmas.FiniteKDpp3
import Verif.Spec.Describes
import Verif.Props.Utils

/-!
The constructor accepts every description of a DPP and gives a coherent object.
-/

set_option linter.unusedSectionVars false

namespace Verif.Model
open Verif Verif.Spec Verif.Props Matrix Relation

variable {N : ℕ} {Info : Type}

theorem eigDec_val {E : (M : ℕ) × (Fin M → ℝ) × (Fin N → Fin M → ℝ)} {A : Mat N} (h : EigDecOf E A)
    (a : Fin E.1) : ∑ i, ∑ j, E.2.2 i a * A i j * E.2.2 j a = E.2.1 a := by
  obtain ⟨h1, h2⟩ := h
  have e : ∀ i j, E.2.2 i a * A i j * E.2.2 j a
      = ∑ b, E.2.1 b * ((E.2.2 i a * E.2.2 i b) * (E.2.2 j b * E.2.2 j a)) := by
    intro i j
    rw [h2 i j, Finset.mul_sum, Finset.sum_mul]
    exact Finset.sum_congr rfl (fun b _ => by ring)
  simp only [e]
  rw [show ∑ i, ∑ j, ∑ b, E.2.1 b * ((E.2.2 i a * E.2.2 i b) * (E.2.2 j b * E.2.2 j a))
      = ∑ b, E.2.1 b * ((∑ i, E.2.2 i a * E.2.2 i b) * (∑ j, E.2.2 j b * E.2.2 j a)) from ?_]
  · rw [Finset.sum_eq_single a]
    · rw [h1 a a]; simp
    · intro b _ hb
      rw [h1 a b, if_neg (Ne.symm hb)]; simp
    · simp
  · have : ∀ i, ∑ j, ∑ b, E.2.1 b * ((E.2.2 i a * E.2.2 i b) * (E.2.2 j b * E.2.2 j a))
        = ∑ b, ∑ j, E.2.1 b * ((E.2.2 i a * E.2.2 i b) * (E.2.2 j b * E.2.2 j a)) :=
      fun i => Finset.sum_comm
    simp only [this]
    rw [Finset.sum_comm]
    apply Finset.sum_congr rfl
    intro b _
    rw [Finset.sum_mul_sum, Finset.mul_sum]
    apply Finset.sum_congr rfl
    intro i _
    rw [Finset.mul_sum]

theorem eigDec_nonneg {E : (M : ℕ) × (Fin M → ℝ) × (Fin N → Fin M → ℝ)} {A : Mat N} (h : EigDecOf E A)
    (hA : ∀ x : Fin N → ℝ, 0 ≤ ∑ i, ∑ j, x i * A i j * x j) (a : Fin E.1) : 0 ≤ E.2.1 a := by
  rw [← eigDec_val h a]; exact hA _

theorem eigDec_le_one {E : (M : ℕ) × (Fin M → ℝ) × (Fin N → Fin M → ℝ)} {A : Mat N} (h : EigDecOf E A)
    (hA : ∀ x : Fin N → ℝ, ∑ i, ∑ j, x i * A i j * x j ≤ ∑ i, x i * x i) (a : Fin E.1) :
    E.2.1 a ≤ 1 := by
  rw [← eigDec_val h a]
  refine (hA _).trans ?_
  rw [h.1 a a, if_pos rfl]

theorem eigDec_ok {E : (M : ℕ) × (Fin M → ℝ) × (Fin N → Fin M → ℝ)} {A : Mat N} (h : EigDecOf E A) :
    EigOK (eigOfParam E).2 (eigOfParam E).1 ∧ kerOf (eigOfParam E).2 (eigOfParam E).1 = A := by
  refine ⟨⟨orth_orthOn h.1 _, fun a ha => by simp [eigOfParam] at ha⟩, ?_⟩
  ext i j
  refine Eq.trans ?_ (h.2 i j).symm
  simp only [ker, Matrix.of_apply, vecNat_val, eigOfParam]

theorem eigDec_01 {E : (M : ℕ) × (Fin M → ℝ) × (Fin N → Fin M → ℝ)} {A : Mat N} (h : EigDecOf E A)
    (hA : IsProjection A) (a : Fin E.1) : E.2.1 a = 0 ∨ E.2.1 a = 1 := by
  obtain ⟨h1, h2⟩ := eigDec_ok h
  have := eigval_idem h1.orth (by
    have := hA.2
    rw [← h2] at this; exact this) a
  simpa only [eigOfParam, vecNat_val] using this

theorem orth_check {c : ℕ} {U : Fin N → Fin c → ℝ}
    (h : ∀ a b, ∑ i, U i a * U i b = if a = b then 1 else 0) : isOrthonormalColumns U = .ok U := by
  unfold isOrthonormalColumns
  rw [if_pos]
  intro a b _ _
  rw [h a b]; exact isClose_self _

theorem check01 {c : ℕ} {v : Fin c → ℝ} (h : ∀ a, v a = 0 ∨ v a = 1) : isEqualTo01 tol8 v = .ok v := by
  rw [(C47_equal_0_or_1 v).1]
  intro a
  have := tol8_nonneg
  rcases h a with h | h
  · left; rw [h]; simpa using this
  · right; rw [h]; simpa using this

theorem checkIn {c : ℕ} {v : Fin c → ℝ} (h : ∀ a, 0 ≤ v a ∧ v a ≤ 1) : isIn01 tol8 v = .ok v := by
  rw [(C47_in_01 tol8 v).1]
  intro a
  have := tol8_nonneg
  exact ⟨by linarith [(h a).1], by linarith [(h a).2]⟩

theorem checkGeq {c : ℕ} {v : Fin c → ℝ} (h : ∀ a, 0 ≤ v a) : isGeq0 tol8 v = .ok v := by
  rw [(C47_geq_0 tol8 v).1]
  intro a
  have := tol8_nonneg
  linarith [h a]

theorem checkKernel_ok {proj : Bool} {A : Mat N} {x : Option (Mat N)} (hx : ∀ B, x = some B → B = A)
    (hs : ∀ i j, A i j = A j i) (hp : proj = true → IsProjection A) : checkKernel proj x = .ok x := by
  cases x with
  | none => rfl
  | some B =>
    rw [hx B rfl, checkKernel, C46_symmetric_complete A hs]
    simp only [Outcome.bind']
    split
    · rename_i h; rw [(C46_projection_complete A (hp h)).2]; rfl
    · rfl

/-- The object built from a description by the correlation kernel. -/
theorem init_correlation {proj : Bool} {p : Params N} {K0 : Mat N} (h : DescribesCorrelation proj p K0) :
    ∃ o : Obj N Info, Obj.init "correlation" (.bool proj) p = .ok o ∧ Coh o K0 ∧ o.Epoly = none ∧
      o.samples = [] ∧ o.info = none ∧ o.mode = "GS" ∧ o.corr = true ∧
      o.projection = (proj || p.AZono.isSome) ∧ o.K = p.K.join.map .num ∧
      o.zono = p.AZono.join ∧ o.gram = none ∧ o.dual = none ∧ o.evalL = none ∧
      o.Kvals = p.KEigDec.join.map (fun E => (eigOfParam E).1) ∧ o.Lvals = none ∧ o.L = none := by
  have hck : checkArgsCoherence "correlation" (.bool proj) p = .ok (proj || p.AZono.isSome) := by
    unfold checkArgsCoherence
    simp only [if_true]
    rw [if_pos]
    · cases proj <;> cases hz : p.AZono <;> simp
    · rcases h.some_given with h1 | h1 | h1
      · left; cases hK : p.K <;> simp_all
      · right; left; cases hK : p.KEigDec <;> simp_all
      · right; right; cases hK : p.AZono <;> simp_all
  have hproj : (proj || p.AZono.isSome) = true → IsProjection K0 := by
    intro hp
    apply h.proj
    rw [Bool.or_eq_true] at hp
    rcases hp with hp | hp
    · exact Or.inl hp
    · right; intro h0; simp [h0] at hp
  have hK : checkKernel (proj || p.AZono.isSome) p.K.join = .ok p.K.join :=
    checkKernel_ok h.kernel h.valid.symm hproj
  have hE : checkKEig (proj || p.AZono.isSome) p.KEigDec.join = .ok (p.KEigDec.join.map eigOfParam) := by
    cases hE : p.KEigDec.join with
    | none => rfl
    | some E =>
      have h1 := h.eig E hE
      have h2 : (if (proj || p.AZono.isSome) = true then isEqualTo01 tol8 E.2.1
        else isIn01 tol8 E.2.1) = .ok E.2.1 := by
        split
        · rename_i hp; exact check01 (eigDec_01 h1 (hproj hp))
        · exact checkIn fun a => ⟨eigDec_nonneg h1 h.valid.nonneg a, eigDec_le_one h1 h.valid.le_one a⟩
      simp only [checkKEig, h2, orth_check h1.1, Outcome.bind', Option.map_some]
  have hZ : checkZono p.AZono.join = .ok p.AZono.join := by
    cases hZ : p.AZono.join with
    | none => rfl
    | some A =>
      simp only [checkZono, (C47_full_row_rank A.a).1.2 (h.zono A hZ).1]; rfl
  obtain ⟨n1, n2, n3, n4⟩ := h.noL
  refine ⟨{
      corr := true, projection := proj || p.AZono.isSome, mode := "GS", samples := [], sizeK := 0
      Epoly := none, K := p.K.join.map .num, Kvals := (p.KEigDec.join.map eigOfParam).map Prod.fst
      vecs := (p.KEigDec.join.map eigOfParam).map Prod.snd, zono := p.AZono.join
      L := none, Lvals := none, gram := none, dual := none, evalL := none, info := none }, ?_, ?_, ?_⟩
  · unfold Obj.init
    have hL : checkKernel (proj || p.AZono.isSome) (none : Option (Mat N)) = .ok none := rfl
    simp only [hck, Outcome.bind', hK, hE, hZ, n1, n2, n3, n4, Option.join_none, hL,
      Option.map_none, checkLEig]
    cases p.KEigDec.join <;> rfl
  · exact {
      ic := h.valid
      K := by
        intro A hA
        left
        cases hK : p.K.join with
        | none => simp [hK] at hA
        | some B =>
          simp only [hK, Option.map_some, Option.some.injEq] at hA
          rw [← hA, h.kernel B hK]
      L := by intro A hA; cases hA
      Kv := by
        intro v hv
        cases hE : p.KEigDec.join with
        | none => simp [hE] at hv
        | some E =>
          have h1 := h.eig E hE
          simp only [hE, Option.map_some, Option.some.injEq] at hv
          subst hv
          refine ⟨(eigOfParam E).2, by simp [hE], (eigDec_ok h1).1, fun a => ?_, (eigDec_ok h1).2.symm⟩
          have e : (eigOfParam E).1 a.val = E.2.1 a := vecNat_val E.2.1 a
          rw [e]
          exact ⟨eigDec_nonneg h1 h.valid.nonneg a, eigDec_le_one h1 h.valid.le_one a⟩
      Lv := by intro v hv; cases hv
      bad := by
        intro E hE ⟨a, ha⟩
        cases hE' : p.KEigDec.join with
        | none => simp [hE'] at hE
        | some E' =>
          simp only [hE', Option.map_some, Option.some.injEq] at hE
          subst hE
          simp [eigOfParam] at ha
      zono := by
        intro A hA
        refine ⟨rfl, ?_, h.zono A hA⟩
        cases hz : p.AZono with
        | none => simp [hz] at hA
        | some B => simp
      gram := by intro v hv; cases hv
      dual := by intro v hv; cases hv
      evalL := by intro v hv; cases hv
      corrK := by
        intro _
        rcases h.some_given with h1 | h1 | h1
        · left; simpa using h1
        · right; left; simpa using h1
        · right; right; exact h1
      corrL := fun _ => ⟨rfl, rfl⟩
      likL := fun hc => by cases hc
      likK := fun hc => by cases hc
      gramL := by intro v hv; cases hv
      likV := fun hc => by cases hc
      corrV := fun _ hc => absurd rfl hc
      corrLV := fun _ hc => absurd rfl hc
      cp := fun _ hp => ⟨hproj hp, rfl, rfl⟩
      lp := fun hc => by cases hc }
  · refine ⟨rfl, rfl, rfl, rfl, rfl, rfl, rfl, rfl, rfl, rfl, rfl, ?_, rfl, rfl⟩
    simp only [Option.map_map]; rfl

/-- The object built from a description by the likelihood kernel. -/
theorem init_likelihood {proj : Bool} {p : Params N} {K0 L0 : Mat N} (h : DescribesLikelihood proj p L0)
    (hK0 : IsCorrelation K0) (hLK : LikelihoodOf L0 K0) :
    ∃ o : Obj N Info, Obj.init "likelihood" (.bool proj) p = .ok o ∧ Coh o K0 ∧ o.Epoly = none ∧
      o.samples = [] ∧ o.info = none ∧ o.mode = "GS" ∧ o.corr = false ∧ o.projection = proj ∧
      o.K = none ∧ o.zono = none ∧ o.gram = p.LGramFactor.join ∧
      o.dual = p.LGramFactor.join.filter (fun Phi => decide (Phi.d < N)) ∧ o.evalL = p.LEvalXData.join ∧
      o.Kvals = none ∧ o.Lvals = p.LEigDec.join.map (fun E => (eigOfParam E).1) ∧
      (∀ A, p.L.join = some A → o.L = some (.num A)) ∧
      (p.L.join = none → (∀ Phi, p.LGramFactor.join = some Phi → Phi.d < N) → o.L = none) := by
  have hck : checkArgsCoherence "likelihood" (.bool proj) p = .ok proj := by
    unfold checkArgsCoherence
    simp only [show ("likelihood" = "correlation") = False from by decide, if_false, if_true]
    rw [if_pos]
    rcases h.some_given with h1 | h1 | h1 | h1
    · left; cases hK : p.L <;> simp_all
    · right; left; cases hK : p.LEigDec <;> simp_all
    · right; right; left; cases hK : p.LGramFactor <;> simp_all
    · right; right; right; cases hK : p.LEvalXData <;> simp_all
  have hL : checkKernel proj p.L.join = .ok p.L.join :=
    checkKernel_ok h.kernel h.valid.symm h.proj
  have hE : checkLEig proj true p.LEigDec.join = .ok (p.LEigDec.join.map eigOfParam) := by
    cases hE : p.LEigDec.join with
    | none => rfl
    | some E =>
      have h1 := h.eig E hE
      have h2 : (if proj = true then isEqualTo01 tol8 E.2.1
        else isGeq0 tol8 E.2.1) = .ok E.2.1 := by
        split
        · rename_i hp; exact check01 (eigDec_01 h1 (h.proj hp))
        · exact checkGeq fun a => eigDec_nonneg h1 h.valid.nonneg a
      simp only [checkLEig, h2, orth_check h1.1, Outcome.bind', Option.map_some, if_true]
  obtain ⟨n1, n2, n3⟩ := h.noK
  have hgramL : ∀ Phi, p.LGramFactor.join = some Phi → gramMat Phi = L0 := by
    intro Phi hP; ext i j; exact (h.gram Phi hP i j).symm
  refine ⟨{
      corr := false, projection := proj, mode := "GS", samples := [], sizeK := 0
      Epoly := none, K := none, Kvals := none
      vecs := (p.LEigDec.join.map eigOfParam).map Prod.snd, zono := none
      L := match p.L.join, p.LGramFactor.join with
        | none, some Phi => if Phi.d < N then none else some (.num (gramMat Phi))
        | L, _ => L.map .num
      Lvals := (p.LEigDec.join.map eigOfParam).map Prod.fst, gram := p.LGramFactor.join
      dual := match p.LGramFactor.join with
        | some Phi => if Phi.d < N then some Phi else none
        | none => none
      evalL := p.LEvalXData.join, info := none }, ?_, ?_, ?_⟩
  · unfold Obj.init
    have hK : checkKernel proj (none : Option (Mat N)) = .ok none := rfl
    simp only [hck, Outcome.bind', n1, n2, n3, Option.join_none, hK, hL, checkKEig, checkZono,
      Option.isNone_none, hE]
    rfl
  · exact {
      ic := hK0
      K := by intro A hA; cases hA
      L := by
        intro A hA
        left
        cases hL' : p.L.join with
        | some B =>
          simp only [hL', Option.map_some, Option.some.injEq] at hA
          exact ⟨B, hA.symm, by rw [h.kernel B hL']; exact hLK⟩
        | none =>
          cases hg : p.LGramFactor.join with
          | none => simp [hL', hg] at hA
          | some Phi =>
            simp only [hL', hg] at hA
            split at hA
            · cases hA
            · simp only [Option.some.injEq] at hA
              exact ⟨_, hA.symm, by rw [hgramL Phi hg]; exact hLK⟩
      Kv := by intro v hv; cases hv
      Lv := by
        intro v hv
        cases hE : p.LEigDec.join with
        | none => simp [hE] at hv
        | some E =>
          have h1 := h.eig E hE
          simp only [hE, Option.map_some, Option.some.injEq] at hv
          subst hv
          refine ⟨(eigOfParam E).2, by simp [hE], (eigDec_ok h1).1, fun a => ?_, by
            rw [(eigDec_ok h1).2]; exact hLK⟩
          have e : (eigOfParam E).1 a.val = E.2.1 a := vecNat_val E.2.1 a
          rw [e]
          exact eigDec_nonneg h1 h.valid.nonneg a
      bad := by
        intro E hE ⟨a, ha⟩
        cases hE' : p.LEigDec.join with
        | none => simp [hE'] at hE
        | some E' =>
          simp only [hE', Option.map_some, Option.some.injEq] at hE
          subst hE
          simp [eigOfParam] at ha
      zono := by intro A hA; cases hA
      gram := fun Phi hP => by rw [hgramL Phi hP]; exact hLK
      dual := by
        intro Phi hP
        cases hg : p.LGramFactor.join with
        | none => simp [hg] at hP
        | some Psi =>
          simp only [hg] at hP
          split at hP
          · exact hP
          · cases hP
      evalL := fun A hA => by rw [h.eval A hA]; exact hLK
      corrK := fun hc => by cases hc
      corrL := fun hc => by cases hc
      likL := by
        intro _
        rcases h.some_given with h1 | h1 | h1 | h1
        · left
          obtain ⟨A, hA⟩ := Option.ne_none_iff_exists'.1 h1
          simp [hA]
        · right; left; simpa using h1
        · right; right; left; exact h1
        · right; right; right; exact h1
      likK := fun _ hc => absurd rfl hc
      gramL := by
        intro Phi hP hd
        left
        have hP' : p.LGramFactor.join = some Phi := hP
        simp only [hP'] at hd
        have hd' : ¬ Phi.d < N := by
          intro hd'; rw [if_pos hd'] at hd; cases hd
        cases hL' : p.L.join with
        | some A => simp
        | none => simp [hP', hd']
      likV := fun _ hc => absurd rfl hc
      corrV := fun hc => by cases hc
      corrLV := fun hc => by cases hc
      cp := fun hc => by cases hc
      lp := fun _ hp => ⟨L0, hLK, h.proj hp⟩ }
  · refine ⟨rfl, rfl, rfl, rfl, rfl, rfl, rfl, rfl, rfl, ?_, rfl, rfl, ?_, ?_, ?_⟩
    · cases hg : p.LGramFactor.join with
      | none => rfl
      | some Phi =>
        simp only [Option.filter]
        by_cases hd : Phi.d < N <;> simp [hd]
    · simp only [Option.map_map]; rfl
    · intro A hA; simp only [hA, Option.map_some]
    · intro hA hP
      cases hg : p.LGramFactor.join with
      | none => simp [hA]
      | some Phi => simp [hA, hP Phi hg]

end Verif.Model
