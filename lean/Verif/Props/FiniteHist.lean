import Verif.Lemmas.FiniteEpoly
import Verif.Props.FiniteDPP

/-!
Properties of `FiniteDPP` objects over histories: recording of samples (C29), k-DPPs of varying sizes
(C30), laws, termination and coherence of lazily computed quantities (C31).
-/

namespace Verif.Props
open Verif Verif.Spec Verif.Model Matrix Relation

variable {N : ℕ} {Info : Type} {env : Env N Info}
variable {kt : String} {proj : Bool} {p : Params N} {K : Mat N} {o : Obj N Info}

/-! ### C29 -/

/-- The calls since the last `flush_samples` that returned a sample, with that sample. -/
def sinceFlush : List (Cmd × Outcome (Option (List (Fin N)))) → List (Cmd × List (Fin N)) →
    List (Cmd × List (Fin N))
  | [], acc => acc
  | (.flush, _) :: t, _ => sinceFlush t []
  | (c, .ok (some s)) :: t, acc => sinceFlush t (acc ++ [(c, s)])
  | _ :: t, acc => sinceFlush t acc

/-- What a call that returned `s` must have recorded: the sample itself for exact methods, a whole chain
ending with `s` for MCMC methods. -/
def RecordOf : Cmd × List (Fin N) → Record N → Prop
  | (.exact _, s), r => r = .exact s
  | (.exactK _ _, s), r => r = .exact s
  | (.mcmc _ _, s), r => ∃ c, r = .chain c ∧ c.getLast? = some s
  | (.mcmcK _ _, s), r => ∃ c, r = .chain c ∧ c.getLast? = some s
  | _, _ => False

theorem forall₂_snoc {α β : Type*} {R : α → β → Prop} {l : List α} {m : List β} {a b}
    (h : List.Forall₂ R l m) (hab : R a b) : List.Forall₂ R (l ++ [a]) (m ++ [b]) := by
  induction h with
  | nil => exact .cons hab .nil
  | cons h1 _ ih => exact .cons h1 ih

theorem step_record (hne : ChainsNonempty env) (c : Cmd) (o : Obj N Info) (x)
    (h : Mem (step env c o) x) (cs rs) (acc : List (Cmd × List (Fin N)))
    (hacc : List.Forall₂ RecordOf acc o.samples) :
    ∃ acc', List.Forall₂ RecordOf acc' x.1.samples ∧
      sinceFlush ((c, x.2) :: List.zip cs rs) acc = sinceFlush (List.zip cs rs) acc' := by
  cases c with
  | exact mode =>
    rw [step, mem_map] at h
    obtain ⟨a, ha, rfl⟩ := h
    rcases sampleExactF_rec env _ o mode a ha with ⟨l, h1, h2⟩ | ⟨e, h1, h2⟩
    · refine ⟨acc ++ [(.exact mode, l)], ?_, ?_⟩
      · simp only [h2]; exact forall₂_snoc hacc rfl
      · simp [h1, sinceFlush, Outcome.map]
    · exact ⟨acc, by simpa only [h2] using hacc, by simp [h1, sinceFlush, Outcome.map]⟩
  | exactK size mode =>
    rw [step, mem_map] at h
    obtain ⟨a, ha, rfl⟩ := h
    rcases sampleExactKDppF_rec env _ o size mode a ha with ⟨l, h1, h2⟩ | ⟨e, h1, h2⟩
    · refine ⟨acc ++ [(.exactK size mode, l)], ?_, ?_⟩
      · simp only [h2]; exact forall₂_snoc hacc rfl
      · simp [h1, sinceFlush, Outcome.map]
    · exact ⟨acc, by simpa only [h2] using hacc, by simp [h1, sinceFlush, Outcome.map]⟩
  | mcmc mode size =>
    rw [step, mem_map] at h
    obtain ⟨a, ha, rfl⟩ := h
    obtain ⟨h0, hn⟩ := sampleMcmc_rec env o mode size a ha
    rcases h0 with ⟨c, l, hl, h1, h2⟩ | ⟨h1, h2⟩ | ⟨e, h1, h2⟩
    · refine ⟨acc ++ [(.mcmc mode size, l)], ?_, ?_⟩
      · simp only [h2]; exact forall₂_snoc hacc ⟨c, rfl, hl⟩
      · simp [h1, sinceFlush, Outcome.map]
    · exact absurd h2 (hn hne)
    · exact ⟨acc, by simpa only [h2] using hacc, by simp [h1, sinceFlush, Outcome.map]⟩
  | mcmcK size mode =>
    rw [step, mem_map] at h
    obtain ⟨a, ha, rfl⟩ := h
    obtain ⟨h0, hn⟩ := sampleMcmc_rec env { o with mode := "E", sizeK := size } "E" (some size) a ha
    rcases h0 with ⟨c, l, hl, h1, h2⟩ | ⟨h1, h2⟩ | ⟨e, h1, h2⟩
    · refine ⟨acc ++ [(.mcmcK size mode, l)], ?_, ?_⟩
      · simp only [h2]; exact forall₂_snoc hacc ⟨c, rfl, hl⟩
      · simp [h1, sinceFlush, Outcome.map]
    · exact absurd h2 (hn hne)
    · exact ⟨acc, by simpa only [h2] using hacc, by simp [h1, sinceFlush, Outcome.map]⟩
  | computeK =>
    rw [step, mem_ret] at h; subst h
    refine ⟨acc, by simpa only [computeK_samples] using hacc, ?_⟩
    cases (computeK env o).2 <;> simp [sinceFlush, Outcome.map]
  | computeL =>
    rw [step, mem_ret] at h; subst h
    refine ⟨acc, by simpa only [computeL_samples] using hacc, ?_⟩
    cases (computeL env o).2 <;> simp [sinceFlush, Outcome.map]
  | flush =>
    rw [step, mem_ret] at h; subst h
    exact ⟨[], .nil, by simp [sinceFlush]⟩

theorem hist_record (hne : ChainsNonempty env) (cs : List Cmd) : ∀ (o : Obj N Info) (x)
    (acc : List (Cmd × List (Fin N))), Mem (runHist env cs o) x → List.Forall₂ RecordOf acc o.samples →
    List.Forall₂ RecordOf (sinceFlush (List.zip cs x.2) acc) x.1.samples := by
  induction cs with
  | nil => intro o x acc h hacc; rw [runHist, mem_ret] at h; subst h; simpa [sinceFlush] using hacc
  | cons c cs ih =>
    intro o x acc h hacc
    rw [runHist, mem_bind] at h
    obtain ⟨r, h1, h2⟩ := h
    rw [mem_map] at h2
    obtain ⟨q, h3, rfl⟩ := h2
    obtain ⟨acc', g1, g2⟩ := step_record hne c o r h1 cs q.2 acc hacc
    simp only [List.zip_cons_cons]
    rw [g2]
    exact ih _ q acc' h3 g1

theorem bind'_ok {α β : Type*} {x : Outcome α} {f : α → Outcome β} {b : β}
    (h : Outcome.bind' x f = .ok b) : ∃ a, x = .ok a ∧ f a = .ok b := by
  cases x with
  | ok a => exact ⟨a, rfl, h⟩
  | raise e => cases h

/-- C29: over every history of calls on an object fresh from the constructor, `list_of_samples` holds,
in order, exactly one record for each call that returned a sample since the last flush: that sample for
exact methods, the chain ending with it for MCMC methods.  Failing calls record nothing.
`ChainsNonempty`: an MCMC sampler that returns gives at least the initial state (C36). -/
theorem C29_list_of_samples (hne : ChainsNonempty env) (kt : String) (pa : ProjArg) (p : Params N)
    (o0 : Obj N Info) (h0 : Obj.init kt pa p = .ok o0) (cs : List Cmd) (o : Obj N Info) (rs)
    (h : Outcomes (runHist env cs o0) (o, rs)) :
    List.Forall₂ RecordOf (sinceFlush (List.zip cs rs) []) o.samples := by
  have hs : o0.samples = [] := by
    unfold Obj.init at h0
    obtain ⟨_, _, h0⟩ := bind'_ok h0
    obtain ⟨_, _, h0⟩ := bind'_ok h0
    obtain ⟨_, _, h0⟩ := bind'_ok h0
    obtain ⟨_, _, h0⟩ := bind'_ok h0
    obtain ⟨_, _, h0⟩ := bind'_ok h0
    obtain ⟨_, _, h0⟩ := bind'_ok h0
    simp only [Outcome.ok.injEq] at h0
    rw [← h0]
  exact hist_record hne cs o0 (o, rs) [] h (by rw [hs]; exact .nil)

/-- C29: every call gives exactly one result. -/
theorem C29_one_result_per_call (cs : List Cmd) : ∀ (o : Obj N Info) (x),
    Outcomes (runHist env cs o) x → x.2.length = cs.length := by
  induction cs with
  | nil =>
    intro o x h
    have h' : Mem (runHist env [] o) x := h
    rw [runHist, mem_ret] at h'; subst h'; rfl
  | cons c cs ih =>
    intro o x h
    have h' : Mem (runHist env (c :: cs) o) x := h
    rw [runHist, mem_bind] at h'
    obtain ⟨r, _, h2⟩ := h'
    rw [mem_map] at h2
    obtain ⟨q, h3, rfl⟩ := h2
    simp [ih _ q h3]

/-! ### C30 -/

section
variable (hqr : QRSpec env.qr) (heigh : EighSpec env.eigh)

/-- What `sample_exact_k_dpp(k)` should do on the DPP with correlation kernel `K`: raise
`FloatingPointError` when there is no likelihood kernel, otherwise sample the `k`-DPP of the likelihood
kernel `L`, or raise `ValueError` when `k` exceeds the numerical rank of `L`. -/
def KDppCall (eps : ℝ) (K : Mat N) (k : ℕ) (c : Call N Info) : Prop :=
  ((1 - K).det = 0 → AlwaysRaises c .floatingPointError) ∧
  ∀ L, LikelihoodOf L K →
    (k ≤ numRank eps L → Samples c (kDppProb L k)) ∧ (numRank eps L < k → AlwaysRaises c .valueError)

theorem kres_call (heps : 0 ≤ env.eps) {k s : ℕ} {c : Call N Info} (h : KRes env K k s c) :
    KDppCall env.eps K k c := by
  rcases h with ⟨h1, h2⟩ | ⟨E, v, hE, h0, hL, h3, _⟩
  · exact ⟨fun _ => h2, fun L hL => absurd h1 hL.det_ne⟩
  · refine ⟨fun h => absurd h hL.det_ne, fun L hL' => ?_⟩
    have := hL.unique hL'
    subst this
    rw [← rankOf_numRank heps hE]
    rcases h3 with ⟨h4, h5⟩ | ⟨h4, h5⟩
    · exact ⟨fun _ => h5.samples, fun h => absurd h4 (not_le.2 h)⟩
    · exact ⟨fun h => absurd h4 (not_lt.2 h), fun _ => h5⟩

include hqr heigh in
/-- C30: the first eigendecomposition-based k-DPP call on an object, whatever was called before, samples
the k-DPP. -/
theorem C30_first_call (heps : 0 ≤ env.eps) (hd : Describes kt false p K) (hz : p.AZono = none)
    {o0 : Obj N Info} (h0 : Obj.init kt (.bool false) p = .ok o0) (cs : List Cmd)
    (hcs : ∀ k m, Cmd.exactK k m ∈ cs → m = "vfx" ∨ m = "alpha") (o1 : Obj N Info) (rs)
    (h1 : Outcomes (runHist env cs o0) (o1, rs))
    (mode : String) (hmode : mode = "GS" ∨ mode = "GS_bis" ∨ mode = "KuTa12") (k : ℕ) (hk : 1 ≤ k) :
    KDppCall env.eps K k (sampleExactKDpp env o1 k mode) := by
  have hr : Reachable env kt false p o1 := ⟨o0, h0, cs, rs, h1⟩
  obtain ⟨_, _, _, hc, _, _⟩ := reach hqr heigh hd hr
  have hp : o1.projection = false := by rw [(reach_const hqr heigh hd hr).2.1, hz]; rfl
  obtain ⟨o0', g1, _, g2, -⟩ := init_describes (Info := Info) hd
  rw [h0] at g1; cases g1
  have he : o1.Epoly = none := by
    rw [← g2]
    refine runHist_ep env cs (fun c hc => ?_) o0 (o1, rs) h1
    cases c with
    | exactK k m => exact hcs k m hc
    | _ => trivial
  exact kres_call heps (sampleKDpp_good hqr heigh hmode heps hc hp hk (Or.inl ⟨he, rfl⟩))

include hqr heigh in
/-- C30 (sizes not exceeding that of the first call): after a first k-DPP call of size `k1`, and
any history, a call of size `k2 ≤ k1` samples the k-DPP exactly as a fresh object would.  Missing for
the full property: sizes `k2 > k1`, see `C30_larger_size_refuted`. -/
theorem C30_smaller_size_partial (heps : 0 ≤ env.eps) (hd : Describes kt false p K) (hz : p.AZono = none)
    {o0 : Obj N Info} (h0 : Obj.init kt (.bool false) p = .ok o0) (cs : List Cmd)
    (hcs : ∀ k m, Cmd.exactK k m ∈ cs → m = "vfx" ∨ m = "alpha") (o1 : Obj N Info) (rs)
    (h1 : Outcomes (runHist env cs o0) (o1, rs))
    (m1 : String) (hm1 : m1 = "GS" ∨ m1 = "GS_bis" ∨ m1 = "KuTa12") (k1 : ℕ)
    (r : Obj N Info × Outcome (List (Fin N))) (h2 : (sampleExactKDpp env o1 k1 m1).Possible r)
    (cs' : List Cmd) (o2 : Obj N Info) (rs') (h3 : Outcomes (runHist env cs' r.1) (o2, rs'))
    (mode : String) (hmode : mode = "GS" ∨ mode = "GS_bis" ∨ mode = "KuTa12") (k2 : ℕ) (hk : 1 ≤ k2)
    (hle : k2 ≤ k1) (hdet : (1 - K).det ≠ 0) :
    KDppCall env.eps K k2 (sampleExactKDpp env o2 k2 mode) := by
  have hr : Reachable env kt false p o1 := ⟨o0, h0, cs, rs, h1⟩
  obtain ⟨_, _, _, hc, _, _⟩ := reach hqr heigh hd hr
  have hp : o1.projection = false := by rw [(reach_const hqr heigh hd hr).2.1, hz]; rfl
  obtain ⟨o0', g1, _, g2, -⟩ := init_describes (Info := Info) hd
  rw [h0] at g1; cases g1
  have he : o1.Epoly = none := by
    rw [← g2]
    refine runHist_ep env cs (fun c hc => ?_) o0 (o1, rs) h1
    cases c with
    | exactK k m => exact hcs k m hc
    | _ => trivial
  have hT : TableAt r.1 k1 := by
    rcases sampleKDpp_good hqr heigh hm1 heps hc hp (hk.trans hle) (Or.inl ⟨he, rfl⟩) with ⟨h, _⟩ | ⟨_, _, _, _, _, _, h⟩
    · exact absurd h hdet
    · exact h r h2
  have hu := sampleExactKDpp_upd env _ o1 k1 m1 r (mem_of_possible h2)
  have hc1 := hc.rtg hqr heigh hu
  have hp1 : r.1.projection = false := (upd_const hqr heigh hu).2.1.trans hp
  have hu2 := runHist_upd env cs' r.1 (o2, rs') h3
  have hT2 := TableAt.rtg hqr heigh hc1 hp1 hT hu2
  exact kres_call heps (sampleKDpp_good hqr heigh hmode heps (hc1.rtg hqr heigh hu2)
    ((upd_const hqr heigh hu2).2.1.trans hp1) hk (Or.inr ⟨hT2, hle⟩))

include hqr heigh in
/-- C30 (finding): after a first k-DPP call of size `k1`, every later call of a larger size `k2` up to
the rank of `L`, which a fresh object would answer, raises `IndexError`: the table computed for `k1` is
reused. -/
theorem C30_larger_size_refuted (heps : 0 ≤ env.eps) (hd : Describes kt false p K) (hz : p.AZono = none)
    {o0 : Obj N Info} (h0 : Obj.init kt (.bool false) p = .ok o0) (cs : List Cmd)
    (hcs : ∀ k m, Cmd.exactK k m ∈ cs → m = "vfx" ∨ m = "alpha") (o1 : Obj N Info) (rs)
    (h1 : Outcomes (runHist env cs o0) (o1, rs))
    (m1 : String) (hm1 : m1 = "GS" ∨ m1 = "GS_bis" ∨ m1 = "KuTa12") (k1 : ℕ) (hk1 : 1 ≤ k1)
    (r : Obj N Info × Outcome (List (Fin N))) (h2 : (sampleExactKDpp env o1 k1 m1).Possible r)
    (cs' : List Cmd) (o2 : Obj N Info) (rs') (h3 : Outcomes (runHist env cs' r.1) (o2, rs'))
    (mode : String) (hmode : mode = "GS" ∨ mode = "GS_bis" ∨ mode = "KuTa12") (k2 : ℕ) (hlt : k1 < k2)
    (L : Mat N) (hL : LikelihoodOf L K) (hk2 : k2 ≤ numRank env.eps L) :
    AlwaysRaises (sampleExactKDpp env o2 k2 mode) .indexError := by
  have hr : Reachable env kt false p o1 := ⟨o0, h0, cs, rs, h1⟩
  obtain ⟨_, _, _, hc, _, _⟩ := reach hqr heigh hd hr
  have hp : o1.projection = false := by rw [(reach_const hqr heigh hd hr).2.1, hz]; rfl
  obtain ⟨o0', g1, _, g2, -⟩ := init_describes (Info := Info) hd
  rw [h0] at g1; cases g1
  have he : o1.Epoly = none := by
    rw [← g2]
    refine runHist_ep env cs (fun c hc => ?_) o0 (o1, rs) h1
    cases c with
    | exactK k m => exact hcs k m hc
    | _ => trivial
  have hT : TableAt r.1 k1 := by
    rcases sampleKDpp_good hqr heigh hm1 heps hc hp hk1 (Or.inl ⟨he, rfl⟩) with ⟨h, _⟩ | ⟨_, _, _, _, _, _, h⟩
    · exact absurd h hL.det_ne
    · exact h r h2
  have hu := sampleExactKDpp_upd env _ o1 k1 m1 r (mem_of_possible h2)
  have hc1 := hc.rtg hqr heigh hu
  have hp1 : r.1.projection = false := (upd_const hqr heigh hu).2.1.trans hp
  have hu2 := runHist_upd env cs' r.1 (o2, rs') h3
  have hT2 := TableAt.rtg hqr heigh hc1 hp1 hT hu2
  have hc2 := hc1.rtg hqr heigh hu2
  obtain ⟨E, v, e1, e2, e3⟩ := sampleKDpp_small hqr heigh hmode heps hc2
    ((upd_const hqr heigh hu2).2.1.trans hp1) hT2 hlt
  obtain ⟨E', e4, hE, _, hLv⟩ := hc2.Lv v e2
  rw [e1] at e4; cases e4
  have := hLv.unique hL
  subst this
  rw [← rankOf_numRank heps hE] at hk2
  rcases e3 with ⟨_, h⟩ | ⟨h, _⟩
  · exact h
  · exact absurd hk2 (not_le.2 h)

/-! ### C31 -/

include hqr heigh in
/-- C31: on every reachable object `sample_exact('GS')` terminates without raising, returns distinct
items, and the set has the law of the DPP described by the constructor arguments: the history of calls
does not matter. The variants `GS_bis` and `KuTa12` as well, except for a projection kernel given by its
matrix only. -/
theorem C31_sample_exact_law (hd : Describes kt proj p K) (hr : Reachable env kt proj p o)
    (mode : String) (hmode : mode = "GS" ∨ mode = "GS_bis" ∨ mode = "KuTa12")
    (hm : mode ≠ "GS" → (proj = true ∨ p.AZono ≠ none) → p.K.join ≠ none → p.KEigDec.join ≠ none) :
    Samples (sampleExact env o mode) (exactProb K) := by
  obtain ⟨_, _, _, hc, _, _⟩ := reach hqr heigh hd hr
  refine (sampleExact_good hqr heigh hmode hc fun hn => ?_).samples
  by_contra hne
  exact reach_needs hqr heigh hd hr (hm hne) hn

include hqr heigh in
/-- C31: `sample_exact('Chol')` has the law of the DPP on every reachable object (unless the dual kernel
is singular, see C27). -/
theorem C31_sample_exact_chol_law (hd : Describes kt proj p K) (hr : Reachable env kt proj p o)
    (hs : ¬ SingularDual p) : Samples (sampleExact env o "Chol") (exactProb K) := by
  obtain ⟨_, _, _, hc, _, _⟩ := reach hqr heigh hd hr
  exact (sampleExact_chol hqr heigh hc fun h => hs ((reach_rankDef hqr heigh hd hr).1 h)).samples

include hqr heigh in
/-- C31: `sample_exact('Schur')` has the law of the DPP on every reachable projection correlation
object. -/
theorem C31_sample_exact_schur_law (hd : Describes "correlation" proj p K)
    (hr : Reachable env "correlation" proj p o) (hp : proj = true ∨ p.AZono ≠ none) :
    Samples (sampleExact env o "Schur") (exactProb K) := by
  obtain ⟨_, _, _, hc, _, _⟩ := reach hqr heigh hd hr
  obtain ⟨c1, c2, _⟩ := reach_const hqr heigh hd hr
  refine (sampleExact_schur hqr heigh hc (by simpa using c1) ?_).samples
  rw [c2]
  rcases hp with hp | hp
  · simp [hp]
  · obtain ⟨A, hA⟩ := Option.ne_none_iff_exists'.1 hp
    simp [hA]

include hqr heigh in
/-- C31: `sample_exact_k_dpp` on every reachable object defined by a projection correlation kernel: the
size must be the rank, and then the sample is that of the DPP. -/
theorem C31_k_dpp_projection_correlation (hd : Describes "correlation" proj p K)
    (hr : Reachable env "correlation" proj p o) (hp : proj = true ∨ p.AZono ≠ none) {rank : ℕ}
    (ht : K.trace = (rank : ℝ)) (k : ℕ) (mode : String)
    (hmode : mode = "GS" ∨ mode = "GS_bis" ∨ mode = "KuTa12")
    (hm : mode ≠ "GS" → p.KEigDec.join ≠ none ∨ p.AZono.join ≠ none) :
    (k = rank → Samples (sampleExactKDpp env o k mode) (exactProb K)) ∧
    (k ≠ rank → AlwaysRaises (sampleExactKDpp env o k mode) .valueError) := by
  obtain ⟨o0, h0, _, hc, _, hx⟩ := reach hqr heigh hd hr
  obtain ⟨o0', g1, _, _, _, _, _, _, _, _, _, _, _, g2, -⟩ := init_describes (Info := Info) hd
  rw [h0] at g1; cases g1
  obtain ⟨c1, c2, c3, _⟩ := reach_const hqr heigh hd hr
  have hproj : o.projection = true := by
    rw [c2]
    rcases hp with hp | hp
    · simp [hp]
    · obtain ⟨A, hA⟩ := Option.ne_none_iff_exists'.1 hp
      simp [hA]
  have := sampleKDpp_corr_proj hqr heigh hmode hc (by simpa using c1) hproj ht k (by
    intro e1 e2
    by_contra hne
    rcases hm hne with h | h
    · obtain ⟨E, hE⟩ := Option.ne_none_iff_exists'.1 h
      rw [hE] at g2
      rw [hx.Kv _ g2] at e1; cases e1
    · rw [c3] at e2; exact h e2)
  exact ⟨fun h => (this.1 h).samples, this.2⟩

include hqr heigh in
/-- C31: `sample_exact_k_dpp` on every reachable object defined by a projection likelihood kernel `L`:
any size up to the rank gives the k-DPP of `L`. -/
theorem C31_k_dpp_projection_likelihood (hd : Describes "likelihood" true p K)
    (hr : Reachable env "likelihood" true p o) {L : Mat N} (hL : LikelihoodOf L K) {rank : ℕ}
    (ht : L.trace = (rank : ℝ)) (k : ℕ) (hk : k ≤ rank) (mode : String)
    (hmode : mode = "GS" ∨ mode = "GS_bis" ∨ mode = "KuTa12")
    (hm : mode ≠ "GS" → p.LEigDec.join ≠ none) :
    Samples (sampleExactKDpp env o k mode) (kDppProb L k) := by
  obtain ⟨o0, h0, _, hc, _, hx⟩ := reach hqr heigh hd hr
  obtain ⟨o0', g1, _, _, _, _, _, _, _, _, _, _, _, _, g2, -⟩ := init_describes (Info := Info) hd
  rw [h0] at g1; cases g1
  obtain ⟨c1, c2, c3, _⟩ := reach_const hqr heigh hd hr
  refine (sampleKDpp_lik_proj hqr heigh hmode hc (c1.trans rfl) (by rw [c2]; rfl) hL ht hk ?_).samples
  intro e1
  by_contra hne
  obtain ⟨E, hE⟩ := Option.ne_none_iff_exists'.1 (hm hne)
  rw [hE] at g2
  rw [hx.Lv _ g2] at e1; cases e1

include hqr heigh in
/-- C31: quantities computed once are never recomputed nor changed: between two points of any history,
the kernels, eigenvalues, eigenvectors and the table of symmetric polynomials that were set keep their
values. -/
theorem C31_computed_quantities_fixed (hd : Describes kt proj p K) (hr : Reachable env kt proj p o)
    (cs : List Cmd) (o' : Obj N Info) (rs) (h : Outcomes (runHist env cs o) (o', rs)) :
    (∀ A, o.K = some A → o'.K = some A) ∧ (∀ A, o.L = some A → o'.L = some A) ∧
    (∀ v, o.Kvals = some v → o'.Kvals = some v ∧ o'.vecs = o.vecs) ∧
    (∀ v, o.Lvals = some v → o'.Lvals = some v ∧ o'.vecs = o.vecs) ∧
    (∀ T, o.Epoly = some T → o'.Epoly = some T) := by
  obtain ⟨_, _, _, hc, _, _⟩ := reach hqr heigh hd hr
  have hx := hc.ext_rtg hqr heigh (runHist_upd env cs o (o', rs) h)
  exact ⟨hx.K, hx.L, fun v hv => ⟨hx.Kv v hv, hx.vecs (Or.inl (by simp [hv]))⟩,
    fun v hv => ⟨hx.Lv v hv, hx.vecs (Or.inr (by simp [hv]))⟩, hx.ep⟩

include hqr heigh in
/-- C31: `compute_K` and `compute_L` terminate on every reachable object: `compute_K` succeeds and
`compute_L` succeeds or raises `ValueError` or `FloatingPointError` (never `RecursionError`). -/
theorem C31_compute_terminates (hd : Describes kt proj p K) (hr : Reachable env kt proj p o) :
    (computeK env o).2 = .ok () ∧ ((computeL env o).2 = .ok () ∨
      (computeL env o).2 = .valueError ∨ (computeL env o).2 = .raise .floatingPointError) := by
  obtain ⟨_, _, _, hc, _, _⟩ := reach hqr heigh hd hr
  refine ⟨(computeK_ok hqr heigh hc).1, ?_⟩
  by_cases h : o.corr = true ∧ o.projection = true
  · right; left; rw [computeL_proj hqr heigh hc h.1 h.2]
  · have : (o.corr && o.projection) = false := by
      cases h1 : o.corr <;> cases h2 : o.projection <;> simp_all
    rcases computeL_res hqr heigh hc this with ⟨_, h1, _⟩ | ⟨_, h1⟩
    · left; exact h1
    · right; right; exact h1

end

/-- C31 (finding, all parameters `None`): the constructor accepts a key given with value `None`, and
`compute_K` on the object then never finds anything to compute from: `RecursionError`. -/
theorem C31_none_parameter_refuted :
    ∃ o : Obj N Info, Obj.init "correlation" (.bool false) { K := some none } = .ok o ∧
      (computeK env o).2 = .raise .recursionError ∧ (computeL env o).2 = .raise .recursionError := by
  have key : ∀ (o : Obj N Info), o.K = none → o.Kvals = none → o.zono = none → o.Lvals = none →
      o.L = none → o.gram = none → o.evalL = none → o.projection = false → ∀ f,
      computeKF env f o = (o, .raise .recursionError) ∧ computeLF env f o = (o, .raise .recursionError) := by
    intro o h1 h2 h3 h4 h5 h6 h7 h8 f
    induction f with
    | zero => exact ⟨by rw [computeKF], by rw [computeLF]⟩
    | succ f ih =>
      constructor
      · rw [computeKF]; simp only [h1, h2, h3, h4, h5, ih.2]
      · rw [computeLF]; simp only [h1, h2, h4, h5, h6, h7, h8, Bool.and_false, Bool.false_eq_true, if_false, ih.1]
  refine ⟨_, rfl, ?_, ?_⟩
  · rw [computeK, (key _ rfl rfl rfl rfl rfl rfl rfl rfl _).1]
  · rw [computeL, (key _ rfl rfl rfl rfl rfl rfl rfl rfl _).2]

/-- the `1 × 1` matrix `(-1/2)`, not a likelihood kernel -/
noncomputable def negHalf : Mat 1 := fun _ _ => -1 / 2

/-- C31 (finding): a matrix `L` that is not positive semi-definite passes the constructor; the first
`sample_exact('GS')` raises `ValueError`, but it has already stored the negative eigenvalue, and the
second identical call does not check again: it returns the empty sample. -/
theorem C31_invalid_kernel_second_call_refuted {env : Env 1 Info} (heigh : EighSpec env.eigh) :
    ∃ o0 o1 : Obj 1 Info, Obj.init "likelihood" (.bool false) { L := some (some negHalf) } = .ok o0 ∧
      sampleExact env o0 "GS" = Dist.ret (o1, .valueError) ∧
      (sampleExact env o1 "GS").prob (fun r => r.2 = .ok []) = 1 := by
  have hsym : isSymmetric negHalf = .ok negHalf := by
    unfold isSymmetric
    rw [if_pos]
    intro i j _ _
    simp [negHalf, isClose]; positivity
  have hchk : checkKernel false (some negHalf) = .ok (some negHalf) := by
    simp only [checkKernel, hsym, Outcome.bind', Bool.false_eq_true, if_false]
  obtain ⟨hW, hG⟩ := heigh 1 negHalf (fun _ _ => rfl)
  have hv : (env.eigh 1 negHalf).1 0 = -1 / 2 := by
    have h1 := hW 0 0
    have h2 := hG 0 0
    simp only [Fin.sum_univ_one, if_true] at h1 h2
    rw [mul_assoc, h1, mul_one] at h2
    rw [← h2]; rfl
  let o0 : Obj 1 Info :=
    { corr := false
      projection := false
      mode := "GS"
      samples := []
      sizeK := 0
      Epoly := none
      K := none
      Kvals := none
      vecs := none
      zono := none
      L := some (.num negHalf)
      Lvals := none
      gram := none
      dual := none
      evalL := none
      info := none }
  let E : EigVecs 1 := { M := 1, u := (env.eigh 1 negHalf).2, bad := fun _ => false }
  let o1 : Obj 1 Info := { o0 with Lvals := some (vecNat (env.eigh 1 negHalf).1), vecs := some E }
  refine ⟨o0, o1, ?_, ?_, ?_⟩
  · unfold Obj.init
    have hca : checkArgsCoherence "likelihood" (.bool false) { L := some (some negHalf) } = .ok false := by
      simp [checkArgsCoherence]
    simp only [hca, Outcome.bind', checkKernel, checkKEig, checkZono, checkLEig, Option.join_none,
      Option.join_some, hsym, Bool.false_eq_true, if_false]
    rfl
  · have hneg : someNeg (vecNat (env.eigh 1 negHalf).1) 1 = true := by
      simp only [someNeg, decide_eq_true_eq]
      refine ⟨0, by decide, ?_⟩
      have : vecNat (env.eigh 1 negHalf).1 0 = -1 / 2 := hv
      rw [this, tol8]; norm_num
    unfold sampleExact
    generalize hf : recLimit = f
    cases f with
    | zero => simp [recLimit] at hf
    | succ f =>
      rw [sampleExactF, sampleExactBody]
      simp only [show ("GS" = "Schur") = False by decide, show ("GS" = "Chol") = False by decide,
        show ("GS" = "vfx") = False by decide, show ("GS" = "alpha") = False by decide, if_false, o0,
        eighMat, hneg, if_true]
      rfl
  · unfold sampleExact
    generalize hf : recLimit = f
    obtain _ | _ | f := f
    · simp [recLimit] at hf
    · simp [recLimit] at hf
    · rw [sampleExactF, sampleExactBody]
      simp only [show ("GS" = "Schur") = False by decide, show ("GS" = "Chol") = False by decide,
        show ("GS" = "vfx") = False by decide, show ("GS" = "alpha") = False by decide, if_false, o1, o0]
      rw [sampleExactF, sampleExactBody]
      simp only [show ("GS" = "Schur") = False by decide, show ("GS" = "Chol") = False by decide,
        show ("GS" = "vfx") = False by decide, show ("GS" = "alpha") = False by decide, if_false,
        Bool.false_and, Bool.false_eq_true]
      have hk : toK (vecNat (env.eigh 1 negHalf).1) 0 = -1 := by
        have : vecNat (env.eigh 1 negHalf).1 0 = -1 / 2 := hv
        rw [toK, this]; norm_num
      rw [Dist.prob_eq, recordExact, Dist.E_map, Dist.E_bind]
      simp only [E, dppEigVecsSelector, Dist.E_bind, Dist.E_ret, hk, Dist.bern, Dist.E_cons, Dist.E_nil]
      simp [projEig, projDppSamplerEig, cols]

/-! ### the hypotheses are met -/

/-- external routines meeting their contracts exist -/
theorem exists_env (N : ℕ) : ∃ env : Env N Unit, QRSpec env.qr ∧ EighSpec env.eigh ∧ 0 ≤ env.eps ∧
    env.eps < 1 / 2 ∧ ChainsNonempty env := by
  obtain ⟨qr, hqr⟩ := exists_QRSpec N
  obtain ⟨eigh, he⟩ := exists_EighSpec
  refine ⟨{ qr := qr, eigh := eigh, eps := 0, vfx := fun _ => Dist.ret .valueError, alpha := fun _ => Dist.ret .valueError, vfxK := fun _ _ => Dist.ret .valueError, alphaK := fun _ _ => Dist.ret .valueError, mcmc := fun _ _ _ => Dist.ret .valueError, zono := fun _ => Dist.ret .valueError }, hqr, he, le_rfl, by norm_num, ?_, ?_⟩
  · intro A m s h; rw [mem_ret] at h; cases h
  · intro A h; rw [mem_ret] at h; cases h

/-- the likelihood kernel `I` on two items, correlation kernel `I/2` -/
noncomputable def pId : Params 2 := { L := some (some 1) }

theorem pId_likelihood : LikelihoodOf (1 : Mat 2) ((1 / 2 : ℝ) • 1) := by
  refine ⟨⟨fun i j => by simp [Matrix.one_apply, eq_comm], fun x => ?_⟩, ?_⟩
  · simp only [Fin.sum_univ_two, Matrix.one_apply]
    simp
    nlinarith [sq_nonneg (x 0), sq_nonneg (x 1)]
  · ext i j; fin_cases i <;> fin_cases j <;> simp [Matrix.mul_apply, Matrix.one_apply] <;> norm_num

theorem pId_describes : Describes "likelihood" false pId ((1 / 2 : ℝ) • 1) := by
  refine Or.inr ⟨rfl, 1, ?_, ?_, pId_likelihood⟩
  · exact {
      valid := pId_likelihood.toIsLikelihood
      some_given := by left; simp [pId]
      kernel := by intro A h; simp [pId] at h; exact h.symm
      eig := by intro A h; simp [pId] at h
      gram := by intro A h; simp [pId] at h
      eval := by intro A h; simp [pId] at h
      proj := by intro h; cases h
      noK := ⟨rfl, rfl, rfl⟩ }
  · refine ⟨fun i j => by simp [Matrix.one_apply, eq_comm], fun x => ?_, fun x => ?_⟩
    · simp only [Fin.sum_univ_two, Matrix.one_apply, Matrix.smul_apply]
      simp
      nlinarith [sq_nonneg (x 0), sq_nonneg (x 1)]
    · simp only [Fin.sum_univ_two, Matrix.one_apply, Matrix.smul_apply]
      simp
      nlinarith [sq_nonneg (x 0), sq_nonneg (x 1)]

theorem pId_rank {eps : ℝ} (h : eps < 1 / 2) : 2 ≤ numRank eps (1 : Mat 2) := by
  have hr : (1 : Mat 2).charpoly.roots = {1, 1} := by
    rw [Matrix.charpoly_one, Polynomial.roots_pow, ← Polynomial.C_1, Polynomial.roots_X_sub_C]
    rfl
  rw [numRank, hr]
  have hf : (({1, 1} : Multiset ℝ)).fold max 0 = 1 := by
    rw [Multiset.insert_eq_cons, Multiset.fold_cons_left, Multiset.fold_singleton]; norm_num
  rw [hf]
  have : ∀ x ∈ ({1, 1} : Multiset ℝ), 1 * (2 : ℕ) * eps < x := by
    intro x hx
    have : x = 1 := by simpa [Multiset.insert_eq_cons] using hx
    subst this
    push_cast
    linarith
  rw [Multiset.filter_eq_self.2 this]
  simp

/-- On `L = I` (two items): a first k-DPP call of size 1, then `flush_samples`, then size 2 raises
`IndexError`; size 2 first samples `{0, 1}`. -/
example (env : Env 2 Unit) (hqr : QRSpec env.qr) (heigh : EighSpec env.eigh) (h0 : 0 ≤ env.eps)
    (h1 : env.eps < 1 / 2) : ∃ o0 : Obj 2 Unit, Obj.init "likelihood" (.bool false) pId = .ok o0 ∧
      Samples (sampleExactKDpp env o0 2 "GS") (kDppProb 1 2) ∧
      ∀ r, (sampleExactKDpp env o0 1 "GS").Possible r →
        AlwaysRaises (sampleExactKDpp env (flushSamples r.1) 2 "GS") .indexError := by
  obtain ⟨o0, ho, -⟩ := init_describes (Info := Unit) pId_describes
  have hh : Outcomes (runHist env [] o0) (o0, []) := ⟨1, by simp [runHist, Dist.ret]⟩
  refine ⟨o0, ho, ?_, fun r hr => ?_⟩
  · exact ((C30_first_call hqr heigh h0 pId_describes rfl ho [] (by simp) o0 [] hh "GS" (by simp) 2
      (by decide)).2 1 pId_likelihood).1 (pId_rank h1)
  · refine C30_larger_size_refuted hqr heigh h0 pId_describes rfl ho [] (by simp) o0 [] hh "GS" (by simp)
      1 le_rfl r hr [.flush] _ [.ok none] ⟨1, ?_⟩ "GS" (by simp) 2 (by decide) 1 pId_likelihood (pId_rank h1)
    simp [runHist, step, Dist.ret, Dist.bind, Dist.map]

/-- `K32` after three calls: the law is still that of the DPP -/
example (env : Env 3 Unit) (hqr : QRSpec env.qr) (heigh : EighSpec env.eigh) (o : Obj 3 Unit)
    (o0 : Obj 3 Unit) (ho : Obj.init "correlation" (.bool true) { K := some (some K32) } = .ok o0) (rs)
    (h : Outcomes (runHist env [.computeL, .exact "Schur", .flush] o0) (o, rs)) :
    Samples (sampleExact env o "GS") (exactProb K32) :=
  C31_sample_exact_law hqr heigh K32_describes ⟨o0, ho, _, rs, h⟩ "GS" (by simp) (by simp)

end Verif.Props
