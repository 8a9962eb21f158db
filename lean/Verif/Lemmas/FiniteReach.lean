import Verif.Lemmas.NumRank
import Verif.Lemmas.FiniteInit
import Verif.Lemmas.FiniteRec

set_option linter.unusedSectionVars false

namespace Verif.Model
open Verif Verif.Spec Matrix Relation

variable {N : ℕ} {Info : Type} {env : Env N Info}

theorem GoodCall.samples {c : Call N Info} {P} (h : GoodCall c P) : Samples c P := ⟨h.law, h.out⟩

/-- The constructor on parameters that describe a DPP. -/
theorem init_describes {kt : String} {proj : Bool} {p : Params N} {K0 : Mat N}
    (h : Describes kt proj p K0) :
    ∃ o : Obj N Info, Obj.init kt (.bool proj) p = .ok o ∧ Coh o K0 ∧ o.Epoly = none ∧ o.samples = [] ∧
      o.info = none ∧ o.corr = decide (kt = "correlation") ∧
      o.projection = (proj || p.AZono.isSome) ∧ o.K = p.K.join.map .num ∧
      o.zono = p.AZono.join ∧ o.gram = p.LGramFactor.join ∧
      o.dual = p.LGramFactor.join.filter (fun Phi => decide (Phi.d < N)) ∧ o.evalL = p.LEvalXData.join ∧
      o.Kvals = p.KEigDec.join.map (fun E => (eigOfParam E).1) ∧
      o.Lvals = p.LEigDec.join.map (fun E => (eigOfParam E).1) ∧
      (∀ A, p.L.join = some A → o.L = some (.num A)) ∧
      (p.L.join = none → (∀ Phi, p.LGramFactor.join = some Phi → Phi.d < N) → o.L = none) := by
  rcases h with ⟨rfl, h⟩ | ⟨rfl, L, h, hK, hL⟩
  · obtain ⟨o, h1, h2, h3, h4, h5, h6, h7, h8, h9, h10, h11, h12, h13, h14, h15, h16⟩ :=
      init_correlation (Info := Info) h
    obtain ⟨n1, n2, n3, n4⟩ := h.noL
    refine ⟨o, h1, h2, h3, h4, h5, by simpa using h7, h8, h9, h10, ?_, ?_, ?_, h14, ?_, ?_, fun _ _ => h16⟩
    · rw [h11, n3]; rfl
    · rw [h12, n3]; rfl
    · rw [h13, n4]; rfl
    · rw [h15, n2]; rfl
    · intro A hA; rw [n1] at hA; cases hA
  · obtain ⟨o, h1, h2, h3, h4, h5, h6, h7, h8, h9, h10, h11, h12, h13, h14, h15, h16⟩ :=
      init_likelihood (Info := Info) h hK hL
    obtain ⟨n1, n2, n3⟩ := h.noK
    refine ⟨o, h1, h2, h3, h4, h5, by simpa using h7, ?_, ?_, ?_, h11, h12, h13, ?_, h15, h16⟩
    · rw [h8, n3]; simp
    · rw [h9, n1]; rfl
    · rw [h10, n3]; rfl
    · rw [h14, n2]; rfl

/-- quantities computed once are kept -/
structure Ext (o o' : Obj N Info) : Prop where
  K : ∀ A, o.K = some A → o'.K = some A
  L : ∀ A, o.L = some A → o'.L = some A
  Kv : ∀ v, o.Kvals = some v → o'.Kvals = some v
  Lv : ∀ v, o.Lvals = some v → o'.Lvals = some v
  vecs : o.Kvals ≠ none ∨ o.Lvals ≠ none → o'.vecs = o.vecs
  ep : ∀ T, o.Epoly = some T → o'.Epoly = some T

theorem Ext.refl (o : Obj N Info) : Ext o o :=
  ⟨fun _ h => h, fun _ h => h, fun _ h => h, fun _ h => h, fun _ => rfl, fun _ h => h⟩

theorem Ext.trans {a b c : Obj N Info} (h1 : Ext a b) (h2 : Ext b c) : Ext a c where
  K A h := h2.K A (h1.K A h)
  L A h := h2.L A (h1.L A h)
  Kv A h := h2.Kv A (h1.Kv A h)
  Lv A h := h2.Lv A (h1.Lv A h)
  ep A h := h2.ep A (h1.ep A h)
  vecs h := by
    rw [← h1.vecs h]
    apply h2.vecs
    rcases h with h | h
    · obtain ⟨v, hv⟩ := Option.ne_none_iff_exists'.1 h
      left; rw [h1.Kv v hv]; simp
    · obtain ⟨v, hv⟩ := Option.ne_none_iff_exists'.1 h
      right; rw [h1.Lv v hv]; simp

section
variable (hqr : QRSpec env.qr) (heigh : EighSpec env.eigh)
include hqr heigh

theorem Coh.ext {o o' : Obj N Info} {K0 : Mat N} (h : Coh o K0) (hu : Upd env o o') : Ext o o' := by
  cases hu with
  | book m s k i => exact { Ext.refl o with }
  | epoly v E k hp hc hv hE => exact { Ext.refl o with ep := by intro T hT; rw [hp] at hT; cases hT }
  | setK v E hK hv hE => exact { Ext.refl o with K := by intro T hT; rw [hK] at hT; cases hT }
  | setL v E hK _ hv hE => exact { Ext.refl o with L := by intro T hT; rw [hK] at hT; cases hT }
  | gram v hK hv hE => exact { Ext.refl o with L := by intro T hT; rw [hK] at hT; cases hT }
  | evalL v hK hv hE => exact { Ext.refl o with L := by intro T hT; rw [hK] at hT; cases hT }
  | kOfL v hk hv => exact { Ext.refl o with Kv := by intro T hT; rw [hk] at hT; cases hT }
  | lOfK v hc hl hv h1 => exact { Ext.refl o with Lv := by intro T hT; rw [hl] at hT; cases hT }
  | zono A hv hA =>
    refine { Ext.refl o with
      Kv := by intro T hT; rw [hv] at hT; cases hT
      vecs := ?_ }
    rintro (h1 | h1)
    · exact absurd hv h1
    · exact absurd hv (h.corrV (h.zono A hA).1 h1)
  | eighL A hk hl hL =>
    refine { Ext.refl o with
      Lv := by intro T hT; rw [hl] at hT; cases hT
      vecs := ?_ }
    rintro (h1 | h1)
    · exact absurd hk h1
    · exact absurd hl h1
  | eighK A hk hl hL =>
    refine { Ext.refl o with
      Kv := by intro T hT; rw [hk] at hT; cases hT
      vecs := ?_ }
    rintro (h1 | h1)
    · exact absurd hk h1
    · exact absurd hl h1
  | dual Phi clip hk hl hP =>
    refine { Ext.refl o with
      Lv := by intro T hT; rw [hl] at hT; cases hT
      vecs := ?_ }
    rintro (h1 | h1)
    · exact absurd hk h1
    · exact absurd hl h1
  | dualNeg Phi hP hn =>
    rw [(dualEig_spec hqr heigh Phi false).1] at hn; cases hn

theorem Coh.ext_rtg {o o' : Obj N Info} {K0 : Mat N} (h : Coh o K0)
    (hu : ReflTransGen (Upd env) o o') : Ext o o' := by
  induction hu with
  | refl => exact Ext.refl o
  | tail h1 h2 ih => exact ih.trans ((h.rtg hqr heigh h1).ext hqr heigh h2)

theorem reach {kt : String} {proj : Bool} {p : Params N} {K0 : Mat N} (h : Describes kt proj p K0)
    {o : Obj N Info} (hr : Reachable env kt proj p o) :
    ∃ o0 : Obj N Info, Obj.init kt (.bool proj) p = .ok o0 ∧ Coh o0 K0 ∧ Coh o K0 ∧
      ReflTransGen (Upd env) o0 o ∧ Ext o0 o := by
  obtain ⟨o0, h1, cs, rs, h2⟩ := hr
  obtain ⟨o0', h3, hc, -⟩ := init_describes (Info := Info) h
  rw [h1] at h3; cases h3
  have h4 := runHist_upd env cs o0 (o, rs) h2
  exact ⟨o0, h1, hc, hc.rtg hqr heigh h4, h4, hc.ext_rtg hqr heigh h4⟩

/-- constant attributes in terms of the parameters -/
theorem reach_const {kt : String} {proj : Bool} {p : Params N} {K0 : Mat N} (h : Describes kt proj p K0)
    {o : Obj N Info} (hr : Reachable env kt proj p o) :
    o.corr = decide (kt = "correlation") ∧ o.projection = (proj || p.AZono.isSome) ∧
      o.zono = p.AZono.join ∧
      o.dual = p.LGramFactor.join.filter (fun Phi => decide (Phi.d < N)) ∧ o.evalL = p.LEvalXData.join := by
  obtain ⟨o0, h1, _, _, h4, _⟩ := reach hqr heigh h hr
  obtain ⟨o0', h3, hc, _, _, _, a1, a2, a3, a4, a5, a6, a7, -⟩ := init_describes (Info := Info) h
  rw [h1] at h3; cases h3
  obtain ⟨b1, b2, b3, b4, b5, b6⟩ := upd_const hqr heigh h4
  exact ⟨b1.trans a1, b2.trans a2, b3.trans a4, b5.trans a6, b6.trans a7⟩

theorem reach_rankDef {kt : String} {proj : Bool} {p : Params N} {K0 : Mat N} (h : Describes kt proj p K0)
    {o : Obj N Info} (hr : Reachable env kt proj p o) : RankDef o ↔ SingularDual p := by
  have hd := (reach_const hqr heigh h hr).2.2.2.1
  unfold RankDef SingularDual
  rw [hd]
  constructor
  · rintro ⟨Phi, h1, h2⟩
    rw [Option.filter_eq_some_iff] at h1
    exact ⟨Phi, h1.1, by simpa using h1.2, h2⟩
  · rintro ⟨Phi, h1, h2, h3⟩
    exact ⟨Phi, by rw [Option.filter_eq_some_iff]; exact ⟨h1, by simpa using h2⟩, h3⟩

omit hqr heigh in
theorem kk_upd {o o' : Obj N Info} (h : o.K = none ∨ o.Kvals ≠ none)
    (hu : Upd env o o') : o'.K = none ∨ o'.Kvals ≠ none := by
  cases hu with
  | setK v E hK hv hE => exact Or.inr (show o.Kvals ≠ none by rw [hv]; simp)
  | zono A hv hA => exact Or.inr (Option.some_ne_none _)
  | kOfL v hk hv => exact Or.inr (Option.some_ne_none _)
  | eighK A hk hl hL => exact Or.inr (Option.some_ne_none _)
  | book m s k i => exact h
  | epoly v E k hp hc hv hE => exact h
  | setL v E hK _ hv hE => exact h
  | gram v hK hv hE => exact h
  | evalL v hK hv hE => exact h
  | lOfK v hc hl hv h1 => exact h
  | eighL A hk hl hL => exact h
  | dual Phi clip hk hl hP => exact h
  | dualNeg Phi hP hn => exact h

omit hqr heigh in
theorem kk_rtg {o o' : Obj N Info} (h : o.K = none ∨ o.Kvals ≠ none)
    (hu : ReflTransGen (Upd env) o o') : o'.K = none ∨ o'.Kvals ≠ none := by
  induction hu with
  | refl => exact h
  | tail _ h2 ih => exact kk_upd ih h2

theorem reach_needs {kt : String} {proj : Bool} {p : Params N} {K0 : Mat N} (h : Describes kt proj p K0)
    {o : Obj N Info} (hr : Reachable env kt proj p o)
    (hp : (proj = true ∨ p.AZono ≠ none) → p.K.join ≠ none → p.KEigDec.join ≠ none) : ¬ NeedsEig o := by
  rintro ⟨h1, h2, h3⟩
  obtain ⟨c1, c2, c3, c4, c5⟩ := reach_const hqr heigh h hr
  obtain ⟨o0, g1, _, _, g4, g5⟩ := reach hqr heigh h hr
  obtain ⟨o0', k1, hc, _, _, _, a1, a2, a3, a4, a5, a6, a7, a8, a9⟩ := init_describes (Info := Info) h
  rw [g1] at k1; cases k1
  have hk : o0.K = none ∨ o0.Kvals ≠ none := by
    by_cases hK : p.K.join = none
    · left; rw [a3, hK]; rfl
    · right
      have hh := hp ?_ hK
      · rw [a8]; simpa using hh
      · rw [c2] at h1
        rcases Bool.or_eq_true_iff.1 h1 with h1 | h1
        · exact Or.inl h1
        · exact Or.inr (by intro hn; rw [hn] at h1; simp at h1)
  rcases kk_rtg hk g4 with h5 | h5
  · exact h2 h5
  · exact h5 h3

end

end Verif.Model
