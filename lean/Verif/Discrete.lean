import Verif.Outcome
import Mathlib.Probability.ProbabilityMassFunction.Constructions
import Mathlib.Analysis.SpecialFunctions.Exponential
import Mathlib.Analysis.SpecialFunctions.Log.Basic
import Mathlib.Data.Nat.Factorial.BigOperators
import Mathlib.Algebra.BigOperators.Fin

/-!
Random programs with countably many outcomes (Mathlib's `PMF`) and the random sources of numpy used by the
intermediate samplers: Poisson draws, coins, categorical draws, binomial draws.
-/

namespace Verif
open scoped ENNReal NNReal

variable {α β γ : Type*}

/-- Expectation of a non-negative function of the outcome. -/
noncomputable def PE (p : PMF α) (f : α → ℝ≥0∞) : ℝ≥0∞ := ∑' a, p a * f a

open Classical in
/-- Probability of an event. -/
noncomputable def PP (p : PMF α) (ev : α → Prop) : ℝ≥0∞ := PE p fun a => if ev a then 1 else 0

theorem PE_pure (a : α) (f : α → ℝ≥0∞) : PE (PMF.pure a) f = f a := by
  unfold PE
  rw [tsum_eq_single a]
  · simp
  · intro b hb; simp [PMF.pure_apply, hb]

theorem PE_bind (p : PMF α) (k : α → PMF β) (f : β → ℝ≥0∞) : PE (p.bind k) f = PE p fun a => PE (k a) f := by
  unfold PE
  simp_rw [PMF.bind_apply, ← ENNReal.tsum_mul_right, ← ENNReal.tsum_mul_left]
  rw [ENNReal.tsum_comm]
  simp_rw [mul_assoc]

theorem PE_map (p : PMF α) (g : α → β) (f : β → ℝ≥0∞) : PE (p.map g) f = PE p fun a => f (g a) := by
  rw [PMF.map, PE_bind]
  simp only [Function.comp_apply, PE_pure]

theorem PE_const (p : PMF α) (c : ℝ≥0∞) : PE p (fun _ => c) = c := by
  unfold PE; rw [ENNReal.tsum_mul_right, p.tsum_coe, one_mul]

theorem PE_mul_left (p : PMF α) (c : ℝ≥0∞) (f : α → ℝ≥0∞) : PE p (fun a => c * f a) = c * PE p f := by
  unfold PE; rw [← ENNReal.tsum_mul_left]
  exact tsum_congr fun a => by ring

theorem PE_mul_right (p : PMF α) (c : ℝ≥0∞) (f : α → ℝ≥0∞) : PE p (fun a => f a * c) = PE p f * c := by
  simp_rw [mul_comm _ c]; exact PE_mul_left p c f

theorem PE_add (p : PMF α) (f g : α → ℝ≥0∞) : PE p (fun a => f a + g a) = PE p f + PE p g := by
  unfold PE; simp_rw [mul_add]; exact ENNReal.tsum_add

theorem PE_sum {ι : Type*} (p : PMF α) (s : Finset ι) (f : ι → α → ℝ≥0∞) :
    PE p (fun a => ∑ i ∈ s, f i a) = ∑ i ∈ s, PE p (f i) := by
  classical
  induction s using Finset.induction_on with
  | empty => simp [PE]
  | insert i s hi ih => simp_rw [Finset.sum_insert hi, PE_add, ih]

/-- two functions that agree on the outcomes of positive probability have the same expectation -/
theorem PE_congr {p : PMF α} {f g : α → ℝ≥0∞} (h : ∀ a ∈ p.support, f a = g a) : PE p f = PE p g := by
  unfold PE
  refine tsum_congr fun a => ?_
  by_cases ha : p a = 0
  · simp [ha]
  · rw [h a ((PMF.mem_support_iff _ _).2 ha)]

theorem PE_mono {p : PMF α} {f g : α → ℝ≥0∞} (h : ∀ a ∈ p.support, f a ≤ g a) : PE p f ≤ PE p g := by
  unfold PE
  refine ENNReal.tsum_le_tsum fun a => ?_
  by_cases ha : p a = 0
  · simp [ha]
  · exact mul_le_mul_right (h a ((PMF.mem_support_iff _ _).2 ha)) _

theorem PE_eq_zero {p : PMF α} {f : α → ℝ≥0∞} : PE p f = 0 ↔ ∀ a ∈ p.support, f a = 0 := by
  unfold PE
  rw [ENNReal.tsum_eq_zero]
  refine forall_congr' fun a => ?_
  rw [mul_eq_zero, PMF.mem_support_iff]
  tauto

theorem PP_le_one (p : PMF α) (ev : α → Prop) : PP p ev ≤ 1 := by
  classical
  unfold PP
  calc _ ≤ PE p (fun _ => 1) := PE_mono fun a _ => by split <;> simp
    _ = 1 := PE_const p 1

/-- sequencing of programs that may raise -/
noncomputable def PMF.andThen (p : PMF (Outcome α)) (k : α → PMF (Outcome β)) : PMF (Outcome β) :=
  p.bind fun o => match o with
    | .ok a => k a
    | .raise e => PMF.pure (.raise e)

/-! ### coins -/

/-- `rng.rand() <= p`: true with probability `p` (`1` if `p > 1`, `0` if `p < 0`). -/
noncomputable def coin (p : ℝ) : PMF Bool := PMF.bernoulli (min 1 p.toNNReal) (min_le_left _ _)

theorem PE_coin {p : ℝ} (h0 : 0 ≤ p) (h1 : p ≤ 1) (f : Bool → ℝ≥0∞) :
    PE (coin p) f = ENNReal.ofReal p * f true + ENNReal.ofReal (1 - p) * f false := by
  have hm : min 1 p.toNNReal = p.toNNReal := min_eq_right (by rw [← Real.toNNReal_one]; exact Real.toNNReal_mono h1)
  unfold PE coin
  rw [tsum_bool, PMF.bernoulli_apply, PMF.bernoulli_apply]
  simp only [cond_false, cond_true, hm]
  rw [add_comm]
  congr 2
  rw [ENNReal.ofReal, ENNReal.coe_inj]
  apply NNReal.coe_injective
  have h3 : p.toNNReal ≤ 1 := by rw [← Real.toNNReal_one]; exact Real.toNNReal_mono h1
  rw [NNReal.coe_sub h3, Real.coe_toNNReal _ h0, Real.coe_toNNReal _ (by linarith), NNReal.coe_one]

/-! ### Poisson -/

/-- weights of the Poisson distribution -/
noncomputable def poissonW (lam : ℝ) (k : ℕ) : ℝ := Real.exp (-lam) * lam ^ k / k.factorial

theorem poissonW_nonneg {lam : ℝ} (h : 0 ≤ lam) (k : ℕ) : 0 ≤ poissonW lam k := by unfold poissonW; positivity

theorem hasSum_poissonW (lam : ℝ) : HasSum (poissonW lam) 1 := by
  have h := (NormedSpace.expSeries_div_hasSum_exp (𝔸 := ℝ) lam).mul_left (Real.exp (-lam))
  rw [← Real.exp_eq_exp_ℝ, ← Real.exp_add] at h
  simp only [neg_add_cancel, Real.exp_zero] at h
  refine h.congr_fun ?_ |> fun x => x
  intro k; unfold poissonW; ring

/-- `rng.poisson(lam)`, `lam ≥ 0` -/
noncomputable def poisson (lam : ℝ≥0) : PMF ℕ :=
  ⟨fun k => ENNReal.ofReal (poissonW lam k), by
    have h : ∑' k, ENNReal.ofReal (poissonW lam k) = 1 := by
      rw [← ENNReal.ofReal_tsum_of_nonneg (fun k => poissonW_nonneg lam.coe_nonneg k) (hasSum_poissonW lam).summable,
        (hasSum_poissonW lam).tsum_eq, ENNReal.ofReal_one]
    rw [← h]; exact ENNReal.summable.hasSum⟩

theorem PE_poisson (lam : ℝ≥0) (f : ℕ → ℝ≥0∞) :
    PE (poisson lam) f = ∑' k, ENNReal.ofReal (poissonW lam k) * f k := rfl

/-- factorial moments of a tilted Poisson variable -/
theorem PE_poisson_descFactorial (lam : ℝ≥0) {x : ℝ} (hx : 0 ≤ x) (k : ℕ) :
    PE (poisson lam) (fun t => ENNReal.ofReal (x ^ t) * (t.descFactorial k : ℝ≥0∞))
      = ENNReal.ofReal ((lam * x) ^ k * Real.exp (lam * x - lam)) := by
  rw [PE_poisson]
  have hf : ∀ t, ENNReal.ofReal (poissonW lam t) * (ENNReal.ofReal (x ^ t) * (t.descFactorial k : ℝ≥0∞))
      = ENNReal.ofReal (poissonW lam t * (x ^ t * t.descFactorial k)) := by
    intro t
    rw [ENNReal.ofReal_mul (poissonW_nonneg lam.coe_nonneg t), ENNReal.ofReal_mul (pow_nonneg hx t), ENNReal.ofReal_natCast]
  simp_rw [hf]
  have hs : HasSum (fun t => poissonW lam t * (x ^ t * t.descFactorial k))
      ((lam * x) ^ k * Real.exp (lam * x - lam)) := by
    rw [← hasSum_nat_add_iff' k]
    have hz : ∑ i ∈ Finset.range k, poissonW lam i * (x ^ i * (i.descFactorial k : ℝ)) = 0 := by
      apply Finset.sum_eq_zero
      intro i hi
      rw [Nat.descFactorial_eq_zero_iff_lt.2 (Finset.mem_range.1 hi)]; simp
    rw [hz, sub_zero]
    have h := (hasSum_poissonW ((lam : ℝ) * x)).mul_left (((lam : ℝ) * x) ^ k * Real.exp (lam * x - lam))
    rw [mul_one] at h
    refine h.congr_fun ?_ |> fun y => y
    intro i
    unfold poissonW
    have h1 : ((i + k).factorial : ℝ) = i.factorial * (i + k).descFactorial k := by
      have := Nat.factorial_mul_descFactorial (n := i + k) (k := k) (by omega)
      rw [Nat.add_sub_cancel] at this
      exact_mod_cast this.symm
    have h2 : ((i + k).descFactorial k : ℝ) ≠ 0 := by
      have : (i + k).descFactorial k ≠ 0 := by rw [Ne, Nat.descFactorial_eq_zero_iff_lt]; omega
      exact_mod_cast this
    have h3 : Real.exp (lam * x - lam) * Real.exp (-(lam * x)) = Real.exp (-lam) := by rw [← Real.exp_add]; ring_nf
    rw [h1, mul_pow, mul_pow, ← h3, pow_add, pow_add]
    field_simp
  rw [← ENNReal.ofReal_tsum_of_nonneg _ hs.summable, hs.tsum_eq]
  intro t
  exact mul_nonneg (poissonW_nonneg lam.coe_nonneg t) (mul_nonneg (pow_nonneg hx t) (Nat.cast_nonneg _))

/-! ### independent draws -/

/-- `t` independent draws -/
noncomputable def iid (p : PMF α) : ℕ → PMF (List α)
  | 0 => PMF.pure []
  | t + 1 => p.bind fun a => (iid p t).map (a :: ·)

/-- `rng.choice(n, p=w)` for valid weights -/
noncomputable def cat {n : ℕ} (w : Fin n → ℝ) (h : (∀ i, 0 ≤ w i) ∧ ∑ i, w i = 1) : PMF (Fin n) :=
  PMF.ofFintype (fun i => ENNReal.ofReal (w i)) (by
    rw [← ENNReal.ofReal_sum_of_nonneg fun i _ => h.1 i, h.2, ENNReal.ofReal_one])

theorem PE_cat {n : ℕ} (w : Fin n → ℝ) (h : (∀ i, 0 ≤ w i) ∧ ∑ i, w i = 1) (f : Fin n → ℝ≥0∞) :
    PE (cat w h) f = ∑ i, ENNReal.ofReal (w i) * f i := by
  unfold PE cat
  rw [tsum_fintype]
  rfl

/-- joint factorial moments of the counts of independent categorical draws -/
theorem PE_iid_counts {n : ℕ} (p : PMF (Fin n)) (S : Finset (Fin n)) (t : ℕ) :
    PE (iid p t) (fun l => ∏ i ∈ S, (l.count i : ℝ≥0∞)) = (t.descFactorial S.card : ℝ≥0∞) * ∏ i ∈ S, p i := by
  induction t generalizing S with
  | zero =>
    rw [iid, PE_pure]
    rcases S.eq_empty_or_nonempty with rfl | ⟨a, ha⟩
    · simp
    · rw [Finset.prod_eq_zero ha (by simp)]
      have : S.card ≠ 0 := Finset.card_ne_zero.2 ⟨a, ha⟩
      obtain ⟨k, hk⟩ := Nat.exists_eq_succ_of_ne_zero this
      rw [hk]; simp
  | succ t ih =>
    rw [iid, PE_bind]
    have h1 : ∀ a, PE ((iid p t).map (a :: ·)) (fun l => ∏ i ∈ S, (l.count i : ℝ≥0∞))
        = (t.descFactorial S.card : ℝ≥0∞) * ∏ i ∈ S, p i
          + if a ∈ S then (t.descFactorial (S.card - 1) : ℝ≥0∞) * ∏ i ∈ S.erase a, p i else 0 := by
      intro a
      rw [PE_map]
      by_cases ha : a ∈ S
      · rw [if_pos ha]
        have h2 : ∀ l : List (Fin n), ∏ i ∈ S, ((a :: l).count i : ℝ≥0∞)
            = ∏ i ∈ S, (l.count i : ℝ≥0∞) + ∏ i ∈ S.erase a, (l.count i : ℝ≥0∞) := by
          intro l
          rw [← Finset.mul_prod_erase S _ ha, ← Finset.mul_prod_erase S (fun i => (l.count i : ℝ≥0∞)) ha]
          have h3 : ∏ i ∈ S.erase a, ((a :: l).count i : ℝ≥0∞) = ∏ i ∈ S.erase a, (l.count i : ℝ≥0∞) := by
            refine Finset.prod_congr rfl fun i hi => ?_
            rw [List.count_cons_of_ne (Finset.ne_of_mem_erase hi).symm]
          rw [h3, List.count_cons_self]
          push_cast
          ring
        simp_rw [h2]
        rw [PE_add, ih, ih, Finset.card_erase_of_mem ha]
      · rw [if_neg ha, add_zero, ← ih]
        congr 1
        funext l
        refine Finset.prod_congr rfl fun i hi => ?_
        rw [List.count_cons_of_ne (fun h : a = i => ha (h ▸ hi))]
    simp_rw [h1]
    rw [PE_add, PE_const]
    have h4 : PE p (fun a => if a ∈ S then (t.descFactorial (S.card - 1) : ℝ≥0∞) * ∏ i ∈ S.erase a, p i else 0)
        = S.card * ((t.descFactorial (S.card - 1) : ℝ≥0∞) * ∏ i ∈ S, p i) := by
      unfold PE
      rw [tsum_fintype]
      simp_rw [mul_ite, mul_zero]
      rw [Finset.sum_ite_mem, Finset.univ_inter]
      rw [Finset.sum_congr rfl (g := fun _ => (t.descFactorial (S.card - 1) : ℝ≥0∞) * ∏ i ∈ S, p i)]
      · rw [Finset.sum_const, nsmul_eq_mul]
      · intro a ha
        rw [← Finset.mul_prod_erase S _ ha]; ring
    rw [h4]
    rcases Nat.eq_zero_or_pos S.card with h0 | h0
    · rw [h0]; simp
    · obtain ⟨k, hk⟩ := Nat.exists_eq_succ_of_ne_zero h0.ne'
      rw [hk, Nat.succ_sub_one, ← mul_assoc, ← add_mul]
      congr 1
      have : (t + 1).descFactorial (k + 1) = t.descFactorial (k + 1) + (k + 1) * t.descFactorial k := by
        rw [Nat.succ_descFactorial_succ, Nat.descFactorial_succ, ← Nat.add_mul]
        rcases Nat.lt_or_ge t k with h | h
        · rw [Nat.descFactorial_eq_zero_iff_lt.2 h]; simp
        · congr 1; omega
      rw [Nat.succ_eq_add_one, this]; push_cast; ring

/-- independent draws, one per index -/
noncomputable def indep : {n : ℕ} → (Fin n → PMF α) → PMF (Fin n → α)
  | 0, _ => PMF.pure Fin.elim0
  | _ + 1, f => (f 0).bind fun a => (indep fun i => f i.succ).map (Fin.cons a)

theorem PE_indep_prod : ∀ {n : ℕ} (f : Fin n → PMF α) (g : Fin n → α → ℝ≥0∞),
    PE (indep f) (fun c => ∏ i, g i (c i)) = ∏ i, PE (f i) (g i) := by
  intro n
  induction n with
  | zero => intro f g; rw [indep, PE_pure]; simp
  | succ n ih =>
    intro f g
    rw [indep, PE_bind, Fin.prod_univ_succ, ← ih, ← PE_mul_right]
    congr 1
    funext a
    rw [PE_map, ← PE_mul_left]
    congr 1
    funext c
    rw [Fin.prod_univ_succ]
    simp

/-- support of independent draws -/
theorem mem_support_indep : ∀ {n : ℕ} (f : Fin n → PMF α) (c : Fin n → α),
    c ∈ (indep f).support → ∀ i, c i ∈ (f i).support := by
  intro n
  induction n with
  | zero => intro f c _ i; exact i.elim0
  | succ n ih =>
    intro f c hc i
    rw [indep, PMF.mem_support_bind_iff] at hc
    obtain ⟨a, ha, hc⟩ := hc
    rw [PMF.mem_support_map_iff] at hc
    obtain ⟨c', hc', rfl⟩ := hc
    refine Fin.cases ?_ (fun j => ?_) i
    · simpa using ha
    · simpa using ih _ c' hc' j

/-- `rng.binomial(s, p)`: number of successes of `s` coins -/
noncomputable def binom (p : ℝ) : ℕ → PMF ℕ
  | 0 => PMF.pure 0
  | s + 1 => (coin p).bind fun b => (binom p s).map fun c => if b then c + 1 else c

theorem PE_binom_pow {p x : ℝ} (h0 : 0 ≤ p) (h1 : p ≤ 1) (hx : 0 ≤ x) (s : ℕ) :
    PE (binom p s) (fun c => ENNReal.ofReal (x ^ c)) = ENNReal.ofReal ((1 - p + p * x) ^ s) := by
  have hq : 0 ≤ 1 - p := by linarith
  have hy : 0 ≤ 1 - p + p * x := by positivity
  induction s with
  | zero => rw [binom, PE_pure]; simp
  | succ s ih =>
    rw [binom, PE_bind, PE_coin h0 h1, PE_map, PE_map]
    simp only [if_true, Bool.false_eq_true, if_false, pow_succ']
    simp_rw [ENNReal.ofReal_mul hx]
    rw [PE_mul_left, ih, ENNReal.ofReal_mul hy, ENNReal.ofReal_add hq (by positivity), ENNReal.ofReal_mul h0]
    ring

theorem PE_binom_mul_pow {p x : ℝ} (h0 : 0 ≤ p) (h1 : p ≤ 1) (hx : 0 ≤ x) (s : ℕ) :
    PE (binom p s) (fun c => ENNReal.ofReal (c * x ^ c)) = ENNReal.ofReal (s * (p * x) * (1 - p + p * x) ^ (s - 1)) := by
  have hq : 0 ≤ 1 - p := by linarith
  have hy : 0 ≤ 1 - p + p * x := by positivity
  induction s with
  | zero => rw [binom, PE_pure]; simp
  | succ s ih =>
    rw [binom, PE_bind, PE_coin h0 h1, PE_map, PE_map]
    simp only [if_true, Bool.false_eq_true, if_false]
    have h2 : ∀ c : ℕ, ENNReal.ofReal (((c + 1 : ℕ) : ℝ) * x ^ (c + 1))
        = ENNReal.ofReal x * ENNReal.ofReal (c * x ^ c) + ENNReal.ofReal x * ENNReal.ofReal (x ^ c) := by
      intro c
      rw [← ENNReal.ofReal_mul hx, ← ENNReal.ofReal_mul hx, ← ENNReal.ofReal_add (by positivity) (by positivity)]
      congr 1; push_cast; ring
    simp_rw [h2]
    rw [PE_add, PE_mul_left, PE_mul_left, ih, PE_binom_pow h0 h1 hx, ← ENNReal.ofReal_mul hx, ← ENNReal.ofReal_mul hx,
      ← ENNReal.ofReal_add (by positivity) (by positivity), ← ENNReal.ofReal_mul h0, ← ENNReal.ofReal_mul hq,
      ← ENNReal.ofReal_add (by positivity) (by positivity)]
    congr 1
    rw [Nat.add_sub_cancel]
    rcases Nat.eq_zero_or_pos s with rfl | hs
    · simp
    · obtain ⟨s, rfl⟩ := Nat.exists_eq_succ_of_ne_zero hs.ne'
      rw [Nat.succ_sub_one]
      push_cast
      rw [pow_succ]
      ring

theorem binom_support {p : ℝ} {s c : ℕ} (h : c ∈ (binom p s).support) : c ≤ s := by
  induction s generalizing c with
  | zero => rw [binom, PMF.support_pure] at h; simp at h; omega
  | succ s ih =>
    rw [binom, PMF.mem_support_bind_iff] at h
    obtain ⟨b, -, h⟩ := h
    rw [PMF.mem_support_map_iff] at h
    obtain ⟨c', hc', rfl⟩ := h
    have := ih hc'
    split <;> omega

/-- thinning a tilted Poisson variable -/
theorem PE_thin_pow (lam : ℝ≥0) {p x : ℝ} (h0 : 0 ≤ p) (h1 : p ≤ 1) (hx : 0 ≤ x) :
    PE (poisson lam) (fun s => PE (binom p s) fun c => ENNReal.ofReal (x ^ c))
      = ENNReal.ofReal (Real.exp (lam * p * x - lam * p)) := by
  have hq : 0 ≤ 1 - p := by linarith
  have hy : 0 ≤ 1 - p + p * x := by positivity
  simp_rw [PE_binom_pow h0 h1 hx]
  have := PE_poisson_descFactorial lam hy 0
  simp only [Nat.descFactorial_zero, Nat.cast_one, mul_one, pow_zero, one_mul] at this
  rw [this]
  congr 2; ring

theorem PE_thin_mul_pow (lam : ℝ≥0) {p x : ℝ} (h0 : 0 ≤ p) (h1 : p ≤ 1) (hx : 0 < x) :
    PE (poisson lam) (fun s => PE (binom p s) fun c => ENNReal.ofReal (c * x ^ c))
      = ENNReal.ofReal (lam * p * x * Real.exp (lam * p * x - lam * p)) := by
  have hq : 0 ≤ 1 - p := by linarith
  have hy : 0 < 1 - p + p * x := by
    rcases h0.eq_or_lt with rfl | h
    · simp
    · positivity
  simp_rw [PE_binom_mul_pow h0 h1 hx.le]
  have h2 : ∀ s : ℕ, ENNReal.ofReal (s * (p * x) * (1 - p + p * x) ^ (s - 1))
      = ENNReal.ofReal (p * x / (1 - p + p * x)) *
        (ENNReal.ofReal ((1 - p + p * x) ^ s) * (s.descFactorial 1 : ℝ≥0∞)) := by
    intro s
    rw [Nat.descFactorial_one, ← ENNReal.ofReal_natCast, ← ENNReal.ofReal_mul (by positivity),
      ← ENNReal.ofReal_mul (by positivity)]
    congr 1
    rcases Nat.eq_zero_or_pos s with rfl | hs
    · simp
    · obtain ⟨s, rfl⟩ := Nat.exists_eq_succ_of_ne_zero hs.ne'
      rw [Nat.succ_sub_one, Nat.succ_eq_add_one, pow_succ]
      field_simp
  simp_rw [h2]
  rw [PE_mul_left, PE_poisson_descFactorial lam hy.le 1, ← ENNReal.ofReal_mul (by positivity)]
  congr 1
  rw [show (lam : ℝ) * (1 - p + p * x) - lam = lam * p * x - lam * p by ring]
  field_simp

end Verif
