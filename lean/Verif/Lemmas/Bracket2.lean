import Verif.Lemmas.Bracket

/-!
Ten orthogonal points and `k = 2`: a pre-computation of alpha-dpp in which BLESS makes one iteration.
-/

namespace Verif.TenPoints
open Verif Verif.Spec Verif.Model Matrix

variable {n : ℕ} {num : Numerics}

/-- the dictionary with the first point only -/
def oneDict (p lam over : ℝ) : Centers 10 where
  items := [(0, p)]
  lam := lam
  over := over

theorem coin_true_support {p : ℝ} (h : 0 < p) : true ∈ (coin p).support := by
  unfold coin
  rw [PMF.mem_support_iff, PMF.bernoulli_apply]
  simp [h]

theorem blessMat_one (x p lam lam0 over : ℝ) (e f : Fin (oneDict p lam0 over).items.length) :
    blessMat (scal 10 x) (oneDict p lam0 over) lam e f = if e = f then x + lam * p else 0 := by
  have he : e = ⟨0, by simp [oneDict]⟩ := Fin.ext (by have := e.isLt; simp [oneDict] at this; omega)
  have hf : f = ⟨0, by simp [oneDict]⟩ := Fin.ext (by have := f.isLt; simp [oneDict] at this; omega)
  subst he hf
  unfold blessMat
  rw [scal_apply, if_pos rfl, if_pos rfl, if_pos rfl]
  rfl

theorem blessRls_one (hn : NumericsSpec num) {x p lam lam0 over : ℝ} (hx : 0 < x) (hp : 0 < p) (hlam : 0 < lam) (i : Fin 10) :
    (x - x ^ 2 / (x + lam * p)) / lam ≤ blessRls num (scal 10 x) (oneDict p lam0 over) lam (List.finRange _) i := by
  have hA := blessMat_one x p lam lam0 over
  have hc : 0 < x + lam * p := by positivity
  have hU := (hn.svd _ _ (psd_of_scal hc.le hA)).2.1
  obtain ⟨z, hz⟩ : ∃ z : Fin (oneDict p lam0 over).items.length, z = ⟨0, by simp [oneDict]⟩ := ⟨_, rfl⟩
  have hall : ∀ e, e = z := fun e => by
    rw [hz]; exact Fin.ext (by have := e.isLt; simp [oneDict] at this; omega)
  have huniv : (Finset.univ : Finset (Fin (oneDict p lam0 over).items.length)) = {z} := by
    ext e; simp [hall e]
  have h1 := hU z z
  rw [huniv, Finset.sum_singleton, if_pos rfl] at h1
  unfold blessRls blessPrecond
  simp_rw [svd_scal hn hc.le hA]
  rw [← Fin.sum_univ_def, huniv, Finset.sum_singleton, Finset.sum_singleton, scal_apply, if_pos rfl]
  refine div_le_div_of_nonneg_right ?_ hlam.le
  refine sub_le_sub_left ?_ x
  have hle : scal 10 x ((oneDict p lam0 over).idx z) i ^ 2 ≤ x ^ 2 := by
    rw [scal_apply]; split
    · exact le_rfl
    · nlinarith
  rw [mul_pow, div_pow, Real.sq_sqrt hc.le, mul_pow, sq ((num.svd _ _).1 z z), h1]
  rw [one_pow, one_mul, div_mul_eq_mul_div, one_mul]
  exact div_le_div_of_nonneg_right hle hc.le

/-- with the forced point only, all the points can be kept with the same probability -/
theorem reduceLambda_one (hn : NumericsSpec num) (heps : num.eps < 1) {x p lam lam0 : ℝ} (hx : 0 < x) (hlam : 0 < lam) (hl : lam ≤ lam0)
    (hp : min (4 * x / (x + lam)) 1 = p) (hp0 : 0 < p) (hp1 : p ≤ 1) (hr : p ≤ 4 * ((x - x ^ 2 / (x + lam * 4)) / lam)) :
    .ok { subDict (fun _ : Fin 10 => true) p 4 with lam := lam } ∈
      (reduceLambda num (scal 10 x) (oneDict 4 lam0 4) lam (some 4)).support := by
  classical
  have hucb : ∀ i, ucb (scal 10 x) 4 lam i = p := by
    intro i
    unfold ucb
    rw [scal_apply, if_pos rfl, hp]
  have hlen : ((oneDict 4 lam0 4).items.length : ℝ) * num.eps < 1 := by simpa [oneDict] using heps
  have hpp : ∀ e, 0 < (oneDict 4 lam0 4).probs e := fun e => by
    have he : e = ⟨0, by simp [oneDict]⟩ := Fin.ext (by have := e.isLt; simp [oneDict] at this; omega)
    subst he
    change (0:ℝ) < 4
    norm_num
  have hkeep := stableKeep_const (eps := num.eps) (c := x + lam * 4) (by positivity) hlen
    (svd_scal hn (by positivity) (blessMat_one x 4 lam lam0 4))
  have hrls := estimateRls_ok hn (scal_psd (n := 10) hx.le) (D := oneDict 4 lam0 4) (by simp [oneDict]) hpp hlam (fun _ => true)
  rw [hkeep] at hrls
  have hred : ∀ i, redProbs (scal 10 x) 4 lam (blessRls num (scal 10 x) (oneDict 4 lam0 4) lam (List.finRange _)) i = p := by
    intro i
    unfold redProbs
    rw [hucb]
    refine min_eq_right (hr.trans ?_)
    exact mul_le_mul_of_nonneg_left (blessRls_one hn hx (p := 4) (over := 4) (by norm_num) hlam i) (by norm_num)
  have hrej : ∀ i, redReject (scal 10 x) 4 lam (blessRls num (scal 10 x) (oneDict 4 lam0 4) lam (List.finRange _)) i = 1 := by
    intro i
    unfold redReject
    rw [hred, hucb, div_self hp0.ne']
  have hsel : selOnes (fun _ : Fin 10 => true) = List.finRange 10 := by unfold selOnes; simp
  unfold reduceLambda
  simp only [Option.getD_some]
  rw [if_neg (by rw [not_lt]; exact (one_le_div hlam).2 hl)]
  rw [PMF.mem_support_bind_iff]
  refine ⟨fun _ => true, indep_support _ _ fun i => by rw [hucb]; exact coin_true_support hp0, ?_⟩
  rw [hsel, if_neg (by simp), hrls]
  simp only
  simp_rw [hred, hrej]
  rw [if_neg (by push Not; intro i _; exact hp0.le), if_neg]
  · simp_rw [coin_one le_rfl]
    rw [indep_pure fun _ => true, PMF.pure_map]
    simp only [List.filter_true]
    rw [if_neg (by simp)]
    simp only [PMF.support_pure, Set.mem_singleton_iff, Outcome.ok.injEq, subDict, hsel]
  · rw [List.map_const', List.sum_replicate, List.length_finRange]
    norm_num

/-- `bless_size` for `k = 2`: one iteration, and the forced point may be the only one -/
theorem blessSize_ten : .ok
      { lamMax := 2
        lamMin := 1
        lamNew := 1
        deff := 1
        dict := oneDict 4 2 4 } ∈ (blessSize num (scal 10 (1 / 5)) ((2:ℕ):ℝ) 4 none).support ∧
    sizeLamInit (scal 10 (1 / 5)) ((2:ℕ):ℝ) = 2 ∧ sizeIters (sizeLamInit (scal 10 (1 / 5)) ((2:ℕ):ℝ)) none = 1 := by
  have h1 : sizeLamInit (scal 10 (1 / 5)) ((2:ℕ):ℝ) = 2 := by
    unfold sizeLamInit
    simp_rw [scal_apply]
    simp
    norm_num
  have h2 : sizeIters (sizeLamInit (scal 10 (1 / 5)) ((2:ℕ):ℝ)) none = 1 := by
    rw [h1]
    unfold sizeIters
    simp only
    rw [Real.logb_self_eq_one (by norm_num)]
    simp
  refine ⟨?_, h1, h2⟩
  unfold blessSize
  rw [if_neg (by norm_num), h2, if_neg (by norm_num), mem_support_andThen]
  have hg : (geomspace 1 (sizeLamInit (scal 10 (1 / 5)) ((2:ℕ):ℝ)) (1:ℤ).toNat).reverse = [1] := by
    simp [geomspace]
  rw [hg, h1]
  refine Or.inl ⟨oneDict 4 2 4, ?_, ?_⟩
  · unfold blessInit
    rw [if_neg (by norm_num), PMF.mem_support_map_iff]
    have hu : ∀ i, ucbInit (scal 10 (1 / 5)) 4 2 i = 4 / 11 := by
      intro i
      unfold ucbInit
      rw [scal_apply, if_pos rfl]
      norm_num
    refine ⟨fun _ => false, indep_support _ _ fun i => by rw [hu]; exact coin_support (by norm_num) (by norm_num) _, ?_⟩
    have hs : (selOnes fun i : Fin 10 => (false || decide (i.val = 0))) = [0] := by decide
    rw [hs]
    simp [oneDict]
  · simp only [sizeLoop, PMF.support_pure, Set.mem_singleton_iff, Outcome.ok.injEq]
    norm_num

theorem nysDeff_ten (hn : NumericsSpec num) {x p a : ℝ} (hp : 0 < p) :
    nysDeff (subNys num x p 4 fun _ : Fin 10 => true) a = 10 * (1 - 1 / (a * (x / p) + 1)) := by
  unfold nysDeff subNys nysOf
  simp_rw [eigh_scal hn (lHat_sub (n := 10) (x := x) (p := p) hp (fun _ => true) 4)]
  rw [Finset.sum_const, Finset.card_univ, Fintype.card_fin, List.length_finRange, subDict_length, nsmul_eq_mul]
  have : (selOnes fun _ : Fin 10 => true).length = 10 := by decide
  rw [this]
  norm_num

theorem discard_ten (hn : NumericsSpec num) {x p : ℝ} (hp : 0 < p) :
    ∑ j, (subNys num x p 4 fun _ : Fin 10 => true).eigvals j
      = ∑ e, scal 10 x ((subNys num x p 4 fun _ : Fin 10 => true).idx e)
          ((subNys num x p 4 fun _ : Fin 10 => true).idx e) / (subNys num x p 4 fun _ : Fin 10 => true).probs e := by
  have h1 : ∀ j, (subNys num x p 4 fun _ : Fin 10 => true).eigvals j = x / p := fun j =>
    eigh_scal hn (lHat_sub (n := 10) hp (fun _ => true) 4) _
  have h2 : ∀ e, (subNys num x p 4 fun _ : Fin 10 => true).probs e = p := fun e =>
    subDict_probs (n := 10) _ _ _ e
  simp_rw [h1, h2, scal_apply, if_true]
  rw [Finset.sum_const, Finset.sum_const, Finset.card_univ, Finset.card_univ, Fintype.card_fin, Fintype.card_fin]
  have : (subNys num x p 4 fun _ : Fin 10 => true).m' = (subNys num x p 4 fun _ : Fin 10 => true).m := by
    change (List.finRange _).length = _
    rw [List.length_finRange]; rfl
  rw [this]

/-- the pre-computation for `k = 2` -/
theorem alphaPrecompute_ten (hn : NumericsSpec num) (heps : 10 * num.eps < 1 / 4)
    (hb : ∀ f a b, (∃ x, a ≤ x ∧ x ≤ b ∧ f x = 0) → ∃ x, num.brentq f a b = some x) {x p lam lamMax lamMin : ℝ} (hx : 0 < x) (hp : 0 < p)
    (hlam : 0 < lam) (h1 : 1 / 4 ≤ x / p) (h2 : x / p ≤ 1) (h3 : 1 / 4 < 1 / lam * (x / p)) :
    ∃ a, nysDeff (subNys num x p 4 fun _ : Fin 10 => true) a = 2 ∧ 0 < a ∧
      alphaPrecompute num (scal 10 x) { subDict (fun _ : Fin 10 => true) p 4 with lam := lam } (some (2, lamMax, lamMin))
      = .ok (alphaInfoOf (scal 10 x) (subNys num x p 4 fun _ => true) (some (2, lamMax, lamMin)) a) := by
  have hA := lHat_sub (n := 10) (x := x) (p := p) hp (fun _ => true) 4
  have hxp : 0 < x / p := by positivity
  have hlen : (subDict (fun _ : Fin 10 => true) p 4).items.length = 10 := by
    rw [subDict_length]; decide
  have h0 := hn.eps
  have hkeep := stableKeep_const (eps := num.eps) (c := x / p) hxp (by rw [hlen]; push_cast; linarith) (eigh_scal hn hA)
  have hf : stableFilter num.eps (num.eigh _ (lHat (scal 10 x) { subDict (fun _ : Fin 10 => true) p 4 with lam := lam })).1
      = .ok (List.finRange _) := by
    change stableFilter num.eps (num.eigh _ (lHat (scal 10 x) (subDict (fun _ : Fin 10 => true) p 4))).1 = _
    refine Eq.trans ?_ (congrArg _ hkeep)
    have : 0 < (subDict (fun _ : Fin 10 => true) p 4).items.length := by rw [hlen]; norm_num
    exact stableFilter_ok hn.eps (i := ⟨0, this⟩) (fun j => by rw [eigh_scal hn hA]; exact hxp.le) (by rw [eigh_scal hn hA]; exact hxp)
  have hN := subNys_ok hn hx p 4 (fun _ : Fin 10 => true)
  have hpos : ∀ i, 0 ≤ nysRls (scal 10 x) (subNys num x p 4 fun _ : Fin 10 => true) (1 / lam) i :=
    nysRls_nonneg hN (scal_psd hx.le) (by positivity)
  have hprob : ∀ e, 0 < (subDict (fun _ : Fin 10 => true) p 4).probs e := fun e => by rw [subDict_probs]; exact hp
  have hnat : alphaNatural (scal 10 x) (subNys num x p 4 fun _ : Fin 10 => true) lam = 10 * (1 - 1 / (1 / lam * (x / p) + 1)) := by
    refine (alphaNatural_eq hn (scal_psd hx.le) hprob (List.nodup_finRange _) hlam (discard_ten hn hp)).trans ?_
    exact nysDeff_ten hn hp
  have hnat2 : 2 < 10 * (1 - 1 / (1 / lam * (x / p) + 1)) := by
    have : 1 / (1 / lam * (x / p) + 1) < 1 / (5 / 4) := one_div_lt_one_div_of_lt (by norm_num) (by linarith)
    norm_num at this ⊢
    linarith
  obtain ⟨a, ha⟩ := hb (fun y => nysDeff (subNys num x p 4 fun _ : Fin 10 => true) y - ((2:ℤ):ℝ)) (10 * num.eps) 4
    ⟨1 / 4 / (x / p), heps.le.trans ((le_div_iff₀ hxp).2 (by linarith)), (div_le_iff₀ hxp).2 (by linarith), by
      rw [nysDeff_ten hn hp, div_mul_cancel₀ _ hxp.ne']; norm_num⟩
  obtain ⟨b1, b2, b3⟩ := hn.brentq _ _ _ _ ha
  have ha0 : 0 < a := by linarith
  have ha1 : a ≤ 1 := by
    rw [nysDeff_ten hn hp] at b3
    have hd : 0 < a * (x / p) + 1 := by positivity
    push_cast at b3
    have : 1 / (a * (x / p) + 1) = 4 / 5 := by linarith
    rw [div_eq_iff hd.ne'] at this
    by_contra hgt
    have hgt := not_le.1 hgt
    nlinarith
  refine ⟨a, by push_cast at b3; linarith, ha0, ?_⟩
  have e1 : alphaNatural (scal 10 x) (nysOf num (scal 10 x) { subDict (fun _ : Fin 10 => true) p 4 with lam := lam }
        (List.finRange _)) lam = 10 * (1 - 1 / (1 / lam * (x / p) + 1)) := hnat
  have e2 : num.brentq (fun y => nysDeff (nysOf num (scal 10 x) { subDict (fun _ : Fin 10 => true) p 4 with lam := lam }
        (List.finRange _)) y - ((2:ℤ):ℝ)) (10 * num.eps) 4 = some a := ha
  unfold alphaPrecompute
  rw [hf]
  simp only
  rw [if_neg, if_neg]
  · simp only [Option.map_some, alphaHatOf]
    rw [e1, if_neg (by push_cast; linarith), e2]
    simp only
    rw [if_neg (not_lt.2 ha1)]
    rfl
  · rw [e1]; linarith
  · push Not
    exact fun e => hpos _

/-- a pre-computation that succeeds, with one iteration of BLESS -/
theorem alphaKPre_ten (hn : NumericsSpec num) (heps : 10 * num.eps < 1 / 4)
    (hb : ∀ f a b, (∃ x, a ≤ x ∧ x ≤ b ∧ f x = 0) → ∃ x, num.brentq f a b = some x) :
    ∃ pc, .ok pc ∈ (alphaKPre num (scal 10 (1 / 5)) 4 (blessSize num (scal 10 (1 / 5)) ((2:ℕ):ℝ) 4 none) 2).support ∧
      ∑ j, pc.dict.eigvals j = ∑ e, scal 10 (1 / 5) (pc.dict.idx e) (pc.dict.idx e) / pc.dict.probs e := by
  obtain ⟨a, -, -, ha⟩ := alphaPrecompute_ten hn heps hb (x := 1 / 5) (p := 4 / 11) (lam := 2) (lamMax := 2) (lamMin := 1) (by norm_num)
    (by norm_num) (by norm_num) (by norm_num) (by norm_num) (by norm_num)
  have h0 := hn.eps
  refine ⟨alphaInfoOf (scal 10 (1 / 5)) (subNys num (1 / 5) (4 / 11) 4 fun _ => true) (some (2, 2, 1)) a, ?_, discard_ten hn (by norm_num)⟩
  · unfold alphaKPre
    rw [mem_support_andThen]
    refine Or.inl ⟨_, blessSize_ten.1, ?_⟩
    rw [mem_support_andThen]
    refine Or.inl ⟨_, reduceLambda_one hn (by linarith) (x := 1 / 5) (p := 4 / 11) (lam := 2) (lam0 := 2) (by norm_num) (by norm_num) le_rfl
      (by norm_num) (by norm_num) (by norm_num) (by norm_num), ?_⟩
    rw [liftOut, PMF.support_pure, Set.mem_singleton_iff]
    exact ha.symm

theorem subDict_all : { subDict (fun _ : Fin 10 => true) 1 4 with lam := 1 } = fullDict 10 4 := by
  unfold subDict fullDict
  simp [selOnes]

/-- `bless_size` with two iterations -/
theorem blessSize_two (hn : NumericsSpec num) (heps : num.eps < 1) : .ok
      { lamMax := 4
        lamMin := 1
        lamNew := 1
        deff := 10 / 4
        dict := fullDict 10 4 } ∈ (blessSize num (scal 10 (2 / 5)) ((2:ℕ):ℝ) 4 none).support ∧
    sizeLamInit (scal 10 (2 / 5)) ((2:ℕ):ℝ) = 4 ∧ sizeIters (sizeLamInit (scal 10 (2 / 5)) ((2:ℕ):ℝ)) none = 2 := by
  have h1 : sizeLamInit (scal 10 (2 / 5)) ((2:ℕ):ℝ) = 4 := by
    unfold sizeLamInit
    simp_rw [scal_apply]
    simp
    norm_num
  have h2 : sizeIters (sizeLamInit (scal 10 (2 / 5)) ((2:ℕ):ℝ)) none = 2 := by
    rw [h1]
    unfold sizeIters
    simp only
    have : Real.logb 2 4 = 2 := by
      rw [show (4:ℝ) = 2 ^ (2:ℕ) by norm_num, Real.logb_pow, Real.logb_self_eq_one (by norm_num)]; norm_num
    rw [this]
    norm_num
  refine ⟨?_, h1, h2⟩
  unfold blessSize
  rw [if_neg (by norm_num), h2, if_neg (by norm_num), mem_support_andThen]
  have hg : (geomspace 1 (sizeLamInit (scal 10 (2 / 5)) ((2:ℕ):ℝ)) (2:ℤ).toNat).reverse = [4, 1] := by
    rw [h1]
    simp [geomspace, List.range_succ]
  rw [hg, h1]
  refine Or.inl ⟨oneDict 4 4 4, ?_, ?_⟩
  · unfold blessInit
    rw [if_neg (by norm_num), PMF.mem_support_map_iff]
    have hu : ∀ i, ucbInit (scal 10 (2 / 5)) 4 4 i = 4 / 11 := by
      intro i
      unfold ucbInit
      rw [scal_apply, if_pos rfl]
      norm_num
    refine ⟨fun _ => false, indep_support _ _ fun i => by rw [hu]; exact coin_support (by norm_num) (by norm_num) _, ?_⟩
    have hs : (selOnes fun i : Fin 10 => (false || decide (i.val = 0))) = [0] := by decide
    rw [hs]
    simp [oneDict]
  · have hr := reduceLambda_one hn heps (x := 2 / 5) (p := 1) (lam := 1) (lam0 := 4) (by norm_num) (by norm_num) (by norm_num)
      (by norm_num) (by norm_num) (by norm_num) (by norm_num)
    rw [subDict_all] at hr
    simp only [sizeLoop]
    rw [mem_support_andThen]
    refine Or.inl ⟨fullDict 10 4, hr, ?_⟩
    have hl : ((fullDict 10 4).items.length : ℝ) / (fullDict 10 4).over = 10 / 4 := by
      rw [fullDict_length]; simp [fullDict]
    rw [hl, if_neg (by norm_num)]
    simp only [PMF.support_pure, Set.mem_singleton_iff, Outcome.ok.injEq, sizeLamMax]
    rw [if_neg (by norm_num)]

/-- a pre-computation that succeeds, with two iterations of BLESS -/
theorem alphaKPre_two (hn : NumericsSpec num) (heps : 10 * num.eps < 1 / 4)
    (hb : ∀ f a b, (∃ x, a ≤ x ∧ x ≤ b ∧ f x = 0) → ∃ x, num.brentq f a b = some x) :
    ∃ pc, .ok pc ∈ (alphaKPre num (scal 10 (2 / 5)) 4 (blessSize num (scal 10 (2 / 5)) ((2:ℕ):ℝ) 4 none) 2).support ∧
      ∑ j, pc.dict.eigvals j = ∑ e, scal 10 (2 / 5) (pc.dict.idx e) (pc.dict.idx e) / pc.dict.probs e := by
  obtain ⟨a, -, -, ha⟩ := alphaPrecompute_ten hn heps hb (x := 2 / 5) (p := 1) (lam := 1) (lamMax := 4) (lamMin := 1) (by norm_num)
    (by norm_num) (by norm_num) (by norm_num) (by norm_num) (by norm_num)
  rw [subDict_all] at ha
  have h0 := hn.eps
  refine ⟨alphaInfoOf (scal 10 (2 / 5)) (subNys num (2 / 5) 1 4 fun _ => true) (some (2, 4, 1)) a, ?_, discard_ten hn (by norm_num)⟩
  · unfold alphaKPre
    rw [mem_support_andThen]
    refine Or.inl ⟨_, (blessSize_two hn (by linarith)).1, ?_⟩
    rw [mem_support_andThen]
    refine Or.inl ⟨fullDict 10 4, ?_, ?_⟩
    · change _ ∈ (reduceLambda num (scal 10 (2 / 5)) (fullDict 10 4) 1 (some 4)).support
      rw [reduceLambda_scal hn (by norm_num) (by norm_num) (by push_cast; linarith) 4 4 (by norm_num)]
      simp
    · rw [liftOut, PMF.support_pure, Set.mem_singleton_iff]
      exact ha.symm

end Verif.TenPoints
