import Verif.Lemmas.ProjChain
import Mathlib.Data.List.GetD

/-!
Every mode of the projection samplers has the law of the chain rule on residual matrices.
-/

set_option linter.unusedSectionVars false

namespace Verif
namespace Dist
variable {α β γ δ : Type*}

theorem Valid.of_perm {l : List α} {l' : List β} {w : α → ℝ} {w' : β → ℝ} (g : α → β)
    (hp : (l.map g).Perm l') (hw : ∀ a ∈ l, w a = w' (g a)) (hv : Valid l' w') : Valid l w := by
  have hm : l.map w = (l.map g).map w' := by
    rw [List.map_map]; exact List.map_congr_left hw
  refine ⟨?_, ?_, ?_⟩
  · rintro rfl
    exact hv.1 (by simpa using hp.symm)
  · intro a ha
    rw [hw a ha]
    exact hv.2.1 _ (hp.subset (List.mem_map_of_mem ha))
  · rw [hm, (hp.map w').sum_eq, hv.2.2]

theorem E_step_eq {l : List α} {l' : List β} {w : α → ℝ} {w' : β → ℝ} (g : α → β)
    (hp : (l.map g).Perm l') (hw : ∀ a ∈ l, w a = w' (g a)) (hv : Valid l' w')
    {k : α → Dist ℝ (Outcome γ)} {k' : β → Dist ℝ (Outcome δ)} {f : Outcome γ → ℝ}
    {f' : Outcome δ → ℝ}
    (hk : ∀ a ∈ l, w' (g a) ≠ 0 → (k a).E f = (k' (g a)).E f') :
    ((npChoice l w).andThen k).E f = ((npChoice l' w').andThen k').E f' := by
  rw [E_npChoice_andThen (hv.of_perm g hp hw), E_npChoice_andThen hv,
    ← (hp.map fun b => w' b * (k' b).E f').sum_eq, List.map_map]
  congr 1
  apply List.map_congr_left
  intro a ha
  simp only [Function.comp_apply, hw a ha]
  by_cases h0 : w' (g a) = 0
  · rw [h0, zero_mul, zero_mul]
  · rw [hk a ha h0]

theorem E_step_eq' {l : List α} {w w' : α → ℝ} (hw : ∀ a ∈ l, w a = w' a) (hv : Valid l w')
    {k : α → Dist ℝ (Outcome γ)} {k' : α → Dist ℝ (Outcome δ)} {f : Outcome γ → ℝ}
    {f' : Outcome δ → ℝ} (hk : ∀ a ∈ l, w' a ≠ 0 → (k a).E f = (k' a).E f') :
    ((npChoice l w).andThen k).E f = ((npChoice l w').andThen k').E f' :=
  E_step_eq id (by simp) hw hv hk

end Dist

namespace Model
open Spec
variable {N r : ℕ}

theorem re_ne_of_weight {rank : ℤ} {it t : ℕ} {avail : Fin N → Bool} {𝕜 : Type*} [RCLike 𝕜]
    {A : Matrix (Fin N) (Fin N) 𝕜} (_h : ChainInv rank it avail A t) {j : Fin N}
    (hw : |RCLike.re (A j j)| / ((rank : ℝ) - it) ≠ 0) : A j j ≠ 0 := by
  intro hc
  rw [hc] at hw; simp at hw

theorem real_symm {A : Matrix (Fin N) (Fin N) ℝ} (h : IsProjection A) (i k : Fin N) :
    A i k = A k i := by
  have := h.herm i k
  simpa using this

/-! ### GS -/

theorem gsLoop_E (K : Matrix (Fin N) (Fin N) ℝ) (rank : ℤ) (m it t : ℕ) (st : GSState N)
    (A : Matrix (Fin N) (Fin N) ℝ) (h : ChainInv rank it st.avail A t) (hm : m ≤ t)
    (hA : ∀ i k, st.avail i = true → st.avail k = true →
      A i k = K i k - ∑ s ∈ Finset.range it, st.c i s * st.c k s)
    (hn : ∀ i, st.avail i = true → st.norm2 i = A i i) (f : Outcome (List (Fin N)) → ℝ) :
    (gsLoop K rank m it st).E f = (projChain rank m it st.avail A).E f := by
  induction m generalizing it t st A f with
  | zero => rw [gsLoop, projChain]
  | succ m ih =>
    obtain ⟨t', rfl⟩ : ∃ t', t = t' + 1 := ⟨t - 1, by omega⟩
    rw [gsLoop, projChain]
    apply Dist.E_step_eq' _ (h.valid (by omega))
    · intro j hj hw
      have hjj : A j j ≠ 0 := re_ne_of_weight h hw
      have hj' := mem_availList.1 hj
      by_cases hm0 : m = 0
      · subst hm0
        simp [projChain, Dist.E_map, Outcome.map]
      · rw [if_neg hm0, Dist.E_map, Dist.E_map]
        have hpos : 0 ≤ A j j := by simpa using h.proj.diag_nonneg j
        have hsq : Real.sqrt (A j j) * Real.sqrt (A j j) = A j j := Real.mul_self_sqrt hpos
        have hc : ∀ i, Function.update st.avail j false i = true →
            (gsUpdate K it j st).c i it = A i j / Real.sqrt (A j j) := by
          intro i hi
          have hi' : st.avail i = true := by
            by_cases hij : i = j
            · subst hij; simp at hi
            · rwa [Function.update_of_ne hij] at hi
          simp only [gsUpdate]
          rw [if_pos ⟨trivial, hi⟩, ← hA i j hi' hj', hn j hj']
        have hc2 : ∀ i s, s < it → (gsUpdate K it j st).c i s = st.c i s := by
          intro i s hs
          simp only [gsUpdate]
          rw [if_neg]
          rintro ⟨h1, -⟩
          omega
        have key := ih (it+1) t' (gsUpdate K it j st) (elim A j) (h.step hjj) (by omega)
        refine key ?_ ?_ (fun a => f (Outcome.map (fun x => j :: x) a))
        · intro i k hi hk
          have hi' : st.avail i = true := by
            by_cases hij : i = j
            · subst hij; simp [gsUpdate] at hi
            · simpa [gsUpdate, Function.update_of_ne hij] using hi
          have hk' : st.avail k = true := by
            by_cases hij : k = j
            · subst hij; simp [gsUpdate] at hk
            · simpa [gsUpdate, Function.update_of_ne hij] using hk
          rw [Finset.sum_range_succ, hc i hi, hc k hk, elim_apply, hA i k hi' hk']
          have hcs : ∀ s ∈ Finset.range it,
              (gsUpdate K it j st).c i s * (gsUpdate K it j st).c k s = st.c i s * st.c k s := by
            intro s hs
            rw [hc2 i s (Finset.mem_range.1 hs), hc2 k s (Finset.mem_range.1 hs)]
          rw [Finset.sum_congr rfl hcs]
          have e : A i j / Real.sqrt (A j j) * (A k j / Real.sqrt (A j j))
              = A i j * A j k / A j j := by
            rw [div_mul_div_comm, hsq, real_symm h.proj k j]
          rw [e]; ring
        · intro i hi
          have hi2 : Function.update st.avail j false i = true := hi
          have hi' : st.avail i = true := by
            by_cases hij : i = j
            · subst hij; simp [gsUpdate] at hi
            · simpa [gsUpdate, Function.update_of_ne hij] using hi
          have e0 : (gsUpdate K it j st).norm2 i
              = st.norm2 i - (gsUpdate K it j st).c i it ^ 2 := by
            simp only [gsUpdate]
            rw [if_pos hi2]
          rw [e0, hc i hi2, hn i hi', elim_apply, real_symm h.proj j i, div_pow, Real.sq_sqrt hpos]
          ring
    · intro i hi
      rw [hn i (mem_availList.1 hi)]
      simp

/-! ### Schur -/

theorem getD_append_lt {α : Type*} {l : List α} {j : α} {a : ℕ} (h : a < l.length) (d d' : α) :
    (l ++ [j]).getD a d = l.getD a d' := by
  rw [List.getD_eq_getElem _ _ (by simp; omega), List.getD_eq_getElem _ _ h,
    List.getElem_append_left h]

theorem getD_append_len {α : Type*} {l : List α} {j : α} (d : α) :
    (l ++ [j]).getD l.length d = j := by
  rw [List.getD_eq_getElem _ _ (by simp)]
  simp

/-- bilinear form `K_iY K_inv K_Yk` -/
noncomputable def schurQ (K : Matrix (Fin N) (Fin N) ℝ) (it : ℕ) (y : ℕ → Fin N)
    (Kinv : ℕ → ℕ → ℝ) (i k : Fin N) : ℝ :=
  ∑ b ∈ Finset.range it, (∑ a ∈ Finset.range it, K i (y a) * Kinv a b) * K k (y b)

theorem schurQ_congr {K : Matrix (Fin N) (Fin N) ℝ} {it : ℕ} {y y' : ℕ → Fin N}
    {Kinv Kinv' : ℕ → ℕ → ℝ} (hy : ∀ a < it, y a = y' a)
    (hK : ∀ a < it, ∀ b < it, Kinv a b = Kinv' a b) (i k : Fin N) :
    schurQ K it y Kinv i k = schurQ K it y' Kinv' i k := by
  unfold schurQ
  apply Finset.sum_congr rfl
  intro b hb
  have hb' := Finset.mem_range.1 hb
  rw [hy b hb']
  congr 1
  apply Finset.sum_congr rfl
  intro a ha
  have ha' := Finset.mem_range.1 ha
  rw [hy a ha', hK a ha' b hb']

theorem schurQ_symm {K : Matrix (Fin N) (Fin N) ℝ} {it : ℕ} {y : ℕ → Fin N}
    {Kinv : ℕ → ℕ → ℝ} (hs : ∀ a < it, ∀ b < it, Kinv a b = Kinv b a) (i k : Fin N) :
    schurQ K it y Kinv i k = schurQ K it y Kinv k i := by
  unfold schurQ
  simp only [Finset.sum_mul]
  rw [Finset.sum_comm]
  apply Finset.sum_congr rfl
  intro a ha
  apply Finset.sum_congr rfl
  intro b hb
  rw [hs a (Finset.mem_range.1 ha) b (Finset.mem_range.1 hb)]
  ring

/-- the Woodbury update conditions the residual on `j` -/
theorem schurWoodbury_Q {K : Matrix (Fin N) (Fin N) ℝ} (hK : ∀ i k, K i k = K k i) {it : ℕ}
    {j : Fin N} {y : ℕ → Fin N} (hy : y it = j) {Kinv : ℕ → ℕ → ℝ}
    (hs : ∀ a < it, ∀ b < it, Kinv a b = Kinv b a)
    (hne : K j j - schurQ K it y Kinv j j ≠ 0) (i k : Fin N) :
    schurQ K (it+1) y (schurWoodbury K it j y Kinv) i k
      = schurQ K it y Kinv i k
        + (K i j - schurQ K it y Kinv i j) * (K j k - schurQ K it y Kinv j k)
          / (K j j - schurQ K it y Kinv j j) := by
  set temp : ℕ → ℝ := fun a => ∑ b ∈ Finset.range it, Kinv a b * K (y b) j with htemp
  have hq1 : ∀ i, ∑ a ∈ Finset.range it, K i (y a) * temp a = schurQ K it y Kinv i j := by
    intro i
    unfold schurQ
    simp only [htemp, Finset.mul_sum, Finset.sum_mul]
    rw [Finset.sum_comm]
    apply Finset.sum_congr rfl
    intro b _
    apply Finset.sum_congr rfl
    intro a _
    rw [hK (y b) j]; ring
  set s : ℝ := K j j - ∑ a ∈ Finset.range it, K j (y a) * temp a with hsdef
  have hs2 : s = K j j - schurQ K it y Kinv j j := by rw [hsdef, hq1]
  have hs0 : s ≠ 0 := by rw [hs2]; exact hne
  have e1 : ∀ a < it, ∀ b < it,
      schurWoodbury K it j y Kinv a b = Kinv a b + temp a * (temp b / s) := by
    intro a ha b hb; simp only [schurWoodbury]; rw [if_pos ⟨ha, hb⟩]
  have e2 : ∀ a < it, schurWoodbury K it j y Kinv a it = - temp a / s := by
    intro a ha; unfold schurWoodbury; dsimp only; rw [if_neg (by omega), if_pos ⟨ha, rfl⟩]
  have e3 : ∀ b < it, schurWoodbury K it j y Kinv it b = - temp b / s := by
    intro b hb; unfold schurWoodbury; dsimp only
    rw [if_neg (by omega), if_neg (by omega), if_pos ⟨rfl, hb⟩]
  have e4 : schurWoodbury K it j y Kinv it it = 1 / s := by
    unfold schurWoodbury; dsimp only
    rw [if_neg (by omega), if_neg (by omega), if_neg (by omega), if_pos ⟨rfl, rfl⟩]
  rw [schurQ, Finset.sum_range_succ]
  have f1 : ∀ b < it, ∑ a ∈ Finset.range (it+1), K i (y a) * schurWoodbury K it j y Kinv a b
      = (∑ a ∈ Finset.range it, K i (y a) * Kinv a b)
        + (schurQ K it y Kinv i j - K i j) * (temp b / s) := by
    intro b hb
    rw [Finset.sum_range_succ, e3 b hb, hy]
    rw [Finset.sum_congr rfl (fun a ha => by rw [e1 a (Finset.mem_range.1 ha) b hb])]
    rw [← hq1 i]
    simp only [mul_add, Finset.sum_add_distrib]
    rw [sub_mul, Finset.sum_mul, add_assoc]
    congr 1
    have : ∑ x ∈ Finset.range it, K i (y x) * (temp x * (temp b / s))
        = ∑ x ∈ Finset.range it, K i (y x) * temp x * (temp b / s) :=
      Finset.sum_congr rfl (fun x _ => by ring)
    rw [this]; ring
  have f2 : ∑ a ∈ Finset.range (it+1), K i (y a) * schurWoodbury K it j y Kinv a it
      = (K i j - schurQ K it y Kinv i j) / s := by
    rw [Finset.sum_range_succ, e4, hy,
      Finset.sum_congr rfl (fun a ha => by rw [e2 a (Finset.mem_range.1 ha)]), ← hq1 i, sub_div,
      Finset.sum_div]
    have : ∑ x ∈ Finset.range it, K i (y x) * (-temp x / s)
        = - ∑ x ∈ Finset.range it, K i (y x) * temp x / s := by
      rw [← Finset.sum_neg_distrib]
      exact Finset.sum_congr rfl (fun x _ => by ring)
    rw [this]; ring
  rw [f2, hy, Finset.sum_congr rfl (fun b hb => by rw [f1 b (Finset.mem_range.1 hb)])]
  simp only [add_mul, Finset.sum_add_distrib]
  have f3 : ∑ x ∈ Finset.range it, (schurQ K it y Kinv i j - K i j) * (temp x / s) * K k (y x)
      = (schurQ K it y Kinv i j - K i j) * schurQ K it y Kinv k j / s := by
    rw [← hq1 k, mul_div_assoc, Finset.sum_div, Finset.mul_sum]
    exact Finset.sum_congr rfl (fun x _ => by ring)
  rw [f3, schurQ_symm hs k j, ← hs2, hK k j]
  change schurQ K it y Kinv i k + _ + _ = _
  ring

theorem schurWoodbury_symm {K : Matrix (Fin N) (Fin N) ℝ} {it : ℕ}
    {j : Fin N} {y : ℕ → Fin N} {Kinv : ℕ → ℕ → ℝ}
    (hs : ∀ a < it, ∀ b < it, Kinv a b = Kinv b a) :
    ∀ a < it + 1, ∀ b < it + 1,
      schurWoodbury K it j y Kinv a b = schurWoodbury K it j y Kinv b a := by
  intro a ha b hb
  simp only [schurWoodbury]
  rcases Nat.lt_succ_iff_lt_or_eq.1 ha with h1 | rfl <;>
    rcases Nat.lt_succ_iff_lt_or_eq.1 hb with h2 | rfl
  · rw [if_pos ⟨h1, h2⟩, if_pos ⟨h2, h1⟩, hs a h1 b h2]; ring
  · rw [if_neg (by omega), if_pos ⟨h1, rfl⟩, if_neg (by omega), if_neg (by omega),
      if_pos ⟨rfl, h1⟩]
  · rw [if_neg (by omega), if_neg (by omega), if_pos ⟨rfl, h2⟩, if_neg (by omega),
      if_pos ⟨h2, rfl⟩]
  · rfl

/-- the three formulas for `K_inv` coincide on the states that are reached -/
theorem schurInv_eq {K : Matrix (Fin N) (Fin N) ℝ} (hK : ∀ i k, K i k = K k i) {it : ℕ}
    {j : Fin N} {y : ℕ → Fin N} {Kinv : ℕ → ℕ → ℝ}
    (hprev : it = 1 → K (y 0) (y 0) ≠ 0 ∧ Kinv 0 0 = 1 / K (y 0) (y 0))
    (hne : K j j - schurQ K it y Kinv j j ≠ 0) :
    ∀ a < it + 1, ∀ b < it + 1, schurInv K it j y Kinv a b = schurWoodbury K it j y Kinv a b := by
  intro a ha b hb
  unfold schurInv
  by_cases h0 : it = 0
  · subst h0
    have h1 : a = 0 := by omega
    have h2 : b = 0 := by omega
    subst h1; subst h2
    simp [schurWoodbury]
  · rw [if_neg h0]
    by_cases h1 : it = 1
    · obtain ⟨hp, hk⟩ := hprev h1
      subst h1
      rw [if_pos rfl]
      have hq : schurQ K 1 y Kinv j j = K j (y 0) ^ 2 / K (y 0) (y 0) := by
        simp [schurQ, hk]; ring
      rw [hq] at hne
      set p := K (y 0) (y 0) with hpdef
      have hdet : p * K j j - K j (y 0) ^ 2 ≠ 0 := by
        intro hc
        apply hne
        field_simp
        linarith
      have hs : K j j - K j (y 0) * (1 / p * K (y 0) j) ≠ 0 := by
        rw [hK (y 0) j]
        intro hc
        apply hne
        rw [← hc]; ring
      have hrel : K j j - K j (y 0) * (1 / p * K (y 0) j) = (p * K j j - K j (y 0) ^ 2) / p := by
        rw [hK (y 0) j]; field_simp
      have hdet' : K j j * p - K j (y 0) ^ 2 ≠ 0 := by rw [mul_comm]; exact hdet
      have ha' : a = 0 ∨ a = 1 := by omega
      have hb' : b = 0 ∨ b = 1 := by omega
      rcases ha' with rfl | rfl <;> rcases hb' with rfl | rfl <;>
        simp only [schurWoodbury, Finset.sum_range_one, hk] <;> simp <;>
        rw [show K j j - K j (y 0) * (p⁻¹ * K (y 0) j) = (p * K j j - K j (y 0) ^ 2) / p by
          rw [hK (y 0) j]; field_simp] <;> (try rw [hK (y 0) j]) <;> field_simp <;> ring
    · rw [if_neg h1]

theorem schurLoop_E (K : Matrix (Fin N) (Fin N) ℝ) (hK : ∀ i k, K i k = K k i) (rank : ℤ)
    (m it t : ℕ) (st : SchurState N)
    (A : Matrix (Fin N) (Fin N) ℝ) (h : ChainInv rank it st.avail A t) (hm : m ≤ t)
    (hlen : st.sampl.length = it) (hs : ∀ a < it, ∀ b < it, st.Kinv a b = st.Kinv b a)
    (h1 : it = 1 → ∀ d, K (st.sampl.getD 0 d) (st.sampl.getD 0 d) ≠ 0 ∧
      st.Kinv 0 0 = 1 / K (st.sampl.getD 0 d) (st.sampl.getD 0 d))
    (hA : ∀ i k d, st.avail i = true → st.avail k = true →
      A i k = K i k - schurQ K it (fun a => st.sampl.getD a d) st.Kinv i k)
    (hn : ∀ i, st.avail i = true → st.schur i = A i i) (f : Outcome (List (Fin N)) → ℝ) :
    (schurLoop K rank m it st).E f = (projChain rank m it st.avail A).E f := by
  induction m generalizing it t st A f with
  | zero => rw [schurLoop, projChain]
  | succ m ih =>
    obtain ⟨t', rfl⟩ : ∃ t', t = t' + 1 := ⟨t - 1, by omega⟩
    rw [schurLoop, projChain]
    apply Dist.E_step_eq' _ (h.valid (by omega))
    · intro j hj hw
      have hjj : A j j ≠ 0 := re_ne_of_weight h hw
      have hj' := mem_availList.1 hj
      by_cases hm0 : m = 0
      · subst hm0
        simp [projChain, Dist.E_map, Outcome.map]
      · rw [if_neg hm0, Dist.E_map, Dist.E_map]
        set y : ℕ → Fin N := fun a => (st.sampl ++ [j]).getD a j with hy
        have hyit : y it = j := by rw [hy, ← hlen]; exact getD_append_len j
        have hylt : ∀ a < it, ∀ d, y a = st.sampl.getD a d :=
          fun a ha d => getD_append_lt (by omega) _ _
        have hQ : ∀ d i k, schurQ K it (fun a => st.sampl.getD a d) st.Kinv i k
            = schurQ K it y st.Kinv i k := fun d i k =>
          schurQ_congr (fun a ha => (hylt a ha d).symm) (fun _ _ _ _ => rfl) i k
        have hA' : ∀ i k, st.avail i = true → st.avail k = true →
            A i k = K i k - schurQ K it y st.Kinv i k := by
          intro i k hi hk; rw [hA i k j hi hk, hQ]
        have hne : K j j - schurQ K it y st.Kinv j j ≠ 0 := by
          rw [← hA' j j hj' hj']; exact hjj
        have hinv := schurInv_eq hK (j := j) (y := y) (Kinv := st.Kinv) (it := it)
          (by
            intro h1'
            have h0 := hylt 0 (by omega) j
            obtain ⟨ha, hb⟩ := h1 h1' j
            rw [h0]
            exact ⟨ha, hb⟩) hne
        have hstep : ∀ i k, schurQ K (it+1) y (schurInv K it j y st.Kinv) i k
            = schurQ K it y st.Kinv i k
              + (K i j - schurQ K it y st.Kinv i j) * (K j k - schurQ K it y st.Kinv j k)
                / (K j j - schurQ K it y st.Kinv j j) := by
          intro i k
          rw [schurQ_congr (fun _ _ => rfl) hinv, schurWoodbury_Q hK hyit hs hne]
        have hA2 : ∀ i k, st.avail i = true → st.avail k = true →
            elim A j i k = K i k - schurQ K (it+1) y (schurInv K it j y st.Kinv) i k := by
          intro i k hi hk
          rw [hstep, elim_apply, ← hA' i j hi hj', ← hA' j k hj' hk, ← hA' j j hj' hj',
            hA' i k hi hk]
          ring
        have hav : ∀ i, Function.update st.avail j false i = true → st.avail i = true := by
          intro i hi
          by_cases hij : i = j
          · subst hij; simp at hi
          · rwa [Function.update_of_ne hij] at hi
        have hyall : ∀ d a, a < it + 1 → (st.sampl ++ [j]).getD a d = y a := by
          intro d a ha
          rw [hy]
          simp only
          rw [List.getD_eq_getElem _ _ (by simp; omega), List.getD_eq_getElem _ _ (by simp; omega)]
        refine ih (it+1) t' (schurUpdate K it j st) (elim A j) (h.step hjj) (by omega) ?_ ?_ ?_ ?_ ?_
          (fun a => f (Outcome.map (fun x => j :: x) a))
        · simp [schurUpdate, hlen]
        · intro a ha b hb
          change schurInv K it j y st.Kinv a b = schurInv K it j y st.Kinv b a
          rw [hinv a ha b hb, hinv b hb a ha]
          exact schurWoodbury_symm hs a ha b hb
        · intro hit d
          have hit0 : it = 0 := by omega
          have e0 : (schurUpdate K it j st).sampl.getD 0 d = j := by
            change (st.sampl ++ [j]).getD 0 d = j
            rw [hyall d 0 (by omega), ← hyit, hit0]
          rw [e0]
          have hKjj : K j j ≠ 0 := by
            have := hA' j j hj' hj'
            rw [hit0] at this
            simp only [schurQ, Finset.range_zero, Finset.sum_empty, sub_zero] at this
            rw [← this]; exact hjj
          refine ⟨hKjj, ?_⟩
          change schurInv K it j y st.Kinv 0 0 = _
          unfold schurInv
          rw [if_pos hit0]
          simp
        · intro i k d hi hk
          change elim A j i k = K i k - schurQ K (it+1) (fun a => (st.sampl ++ [j]).getD a d)
            (schurInv K it j y st.Kinv) i k
          rw [schurQ_congr (fun a ha => hyall d a ha) (fun _ _ _ _ => rfl)]
          exact hA2 i k (hav i hi) (hav k hk)
        · intro i hi
          have hi2 : Function.update st.avail j false i = true := hi
          rw [hA2 i i (hav i hi2) (hav i hi2)]
          change (if Function.update st.avail j false i = true then _ else _) = _
          rw [if_pos hi2]
          rfl
    · intro i hi
      rw [hn i (mem_availList.1 hi)]
      simp

/-! ### eigenvector based GS -/

theorem eigGsUpdate_eq (V : Fin N → Fin r → ℝ) (K : Matrix (Fin N) (Fin N) ℝ)
    (hK : ∀ i j, K i j = ∑ k, V i k * V j k) (it : ℕ) (j : Fin N) (st : GSState N) :
    eigGsUpdate V it j st = gsUpdate K it j st := by
  unfold eigGsUpdate gsUpdate
  simp only [hK]

theorem eigGsLoop_eq (V : Fin N → Fin r → ℝ) (K : Matrix (Fin N) (Fin N) ℝ)
    (hK : ∀ i j, K i j = ∑ k, V i k * V j k) (m it : ℕ) (st : GSState N) :
    eigGsLoop V m it st = gsLoop K (r : ℤ) m it st := by
  induction m generalizing it st with
  | zero => rw [eigGsLoop, gsLoop]
  | succ m ih =>
    rw [eigGsLoop, gsLoop]
    simp only [ih, eigGsUpdate_eq V K hK]
    push_cast
    rfl

/-! ### GS_bis -/

theorem gsBisLoop_E (K : Matrix (Fin N) (Fin N) ℝ) (m it t : ℕ)
    (st : GSBisState N r)
    (A : Matrix (Fin N) (Fin N) ℝ) (h : ChainInv (r : ℤ) it st.avail A t) (hm : m ≤ t)
    (hlen : st.sampl.length = it)
    (hV : ∀ i k, st.avail i = true → st.avail k = true → ∑ l, st.V i l * st.V k l = K i k)
    (hav : ∀ y ∈ st.sampl, st.avail y = false)
    (hA : ∀ i k d, st.avail i = true → st.avail k = true →
      A i k = K i k - ∑ s ∈ Finset.range it,
        st.contrib k s * ∑ l, st.V i l * st.V (st.sampl.getD s d) l)
    (hn : ∀ i, st.avail i = true → st.norms2 i = A i i) (f : Outcome (List (Fin N)) → ℝ) :
    (gsBisLoop m it st).E f = (projChain (r : ℤ) m it st.avail A).E f := by
  induction m generalizing it t st A f with
  | zero => rw [gsBisLoop, projChain]
  | succ m ih =>
    obtain ⟨t', rfl⟩ : ∃ t', t = t' + 1 := ⟨t - 1, by omega⟩
    rw [gsBisLoop, projChain]
    apply Dist.E_step_eq' _ (h.valid (by omega))
    · intro j hj hw
      have hjj : A j j ≠ 0 := re_ne_of_weight h hw
      have hj' := mem_availList.1 hj
      by_cases hm0 : m = 0
      · subst hm0
        simp [projChain, Dist.E_map, Outcome.map]
      · rw [if_neg hm0, Dist.E_map, Dist.E_map]
        set y : ℕ → Fin N := fun a => (st.sampl ++ [j]).getD a j with hy
        have hyit : y it = j := by rw [hy, ← hlen]; exact getD_append_len j
        have hylt : ∀ a < it, ∀ d, y a = st.sampl.getD a d :=
          fun a ha d => getD_append_lt (by omega) _ _
        have hyall : ∀ d a, a < it + 1 → (st.sampl ++ [j]).getD a d = y a := by
          intro d a ha
          rw [hy]
          simp only
          rw [List.getD_eq_getElem _ _ (by simp; omega), List.getD_eq_getElem _ _ (by simp; omega)]
        have hymem : ∀ a < it, y a ∈ st.sampl := by
          intro a ha
          rw [hylt a ha j, List.getD_eq_getElem _ _ (by omega)]
          exact List.getElem_mem _
        set Vj : Fin r → ℝ := fun k =>
          st.V j k - ∑ s ∈ Finset.range it, st.contrib j s * st.V (y s) k with hVj
        have hav' : ∀ i, Function.update st.avail j false i = true → st.avail i = true ∧ i ≠ j := by
          intro i hi
          by_cases hij : i = j
          · subst hij; simp at hi
          · rw [Function.update_of_ne hij] at hi; exact ⟨hi, hij⟩
        have hdot : ∀ i, st.avail i = true → ∑ k, st.V i k * Vj k = A i j := by
          intro i hi
          rw [hA i j j hi hj', ← hV i j hi hj']
          simp only [hVj, mul_sub, Finset.sum_sub_distrib]
          congr 1
          simp only [Finset.mul_sum]
          rw [Finset.sum_comm]
          apply Finset.sum_congr rfl
          intro s hs
          rw [← hylt s (Finset.mem_range.1 hs) j]
          exact Finset.sum_congr rfl (fun l _ => by ring)
        have hc : ∀ i, Function.update st.avail j false i = true →
            (gsBisUpdate it j st).contrib i it = A i j := by
          intro i hi
          change (if it = it ∧ Function.update st.avail j false i = true then _ else _) = _
          rw [if_pos ⟨rfl, hi⟩]
          exact hdot i (hav' i hi).1
        have hc2 : ∀ i s, s < it → (gsBisUpdate it j st).contrib i s = st.contrib i s := by
          intro i s hs
          change (if s = it ∧ Function.update st.avail j false i = true then _ else _) = _
          rw [if_neg (by omega)]
        have hVne : ∀ i, i ≠ j → (gsBisUpdate it j st).V i = st.V i := by
          intro i hij
          change Function.update st.V j _ i = _
          rw [Function.update_of_ne hij]
        have hVeq : (gsBisUpdate it j st).V j = fun k => Vj k / A j j := by
          change Function.update st.V j _ j = _
          rw [Function.update_self, hn j hj']
        refine ih (it+1) t' (gsBisUpdate it j st) (elim A j) (h.step hjj) (by omega) ?_ ?_ ?_ ?_ ?_
          (fun a => f (Outcome.map (fun x => j :: x) a))
        · simp [gsBisUpdate, hlen]
        · intro i k hi hk
          obtain ⟨hi1, hi2⟩ := hav' i hi
          obtain ⟨hk1, hk2⟩ := hav' k hk
          rw [hVne i hi2, hVne k hk2, hV i k hi1 hk1]
        · intro z hz
          change Function.update st.avail j false z = false
          by_cases hzj : z = j
          · subst hzj; simp
          · rw [Function.update_of_ne hzj]
            apply hav
            change z ∈ st.sampl ++ [j] at hz
            simpa [hzj] using hz
        · intro i k d hi hk
          obtain ⟨hi1, hi2⟩ := hav' i hi
          obtain ⟨hk1, hk2⟩ := hav' k hk
          rw [Finset.sum_range_succ, hc k hk, elim_apply, hA i k d hi1 hk1]
          have hs1 : ∀ s ∈ Finset.range it, (gsBisUpdate it j st).contrib k s *
              ∑ l, (gsBisUpdate it j st).V i l *
                (gsBisUpdate it j st).V ((gsBisUpdate it j st).sampl.getD s d) l
              = st.contrib k s * ∑ l, st.V i l * st.V (st.sampl.getD s d) l := by
            intro s hs
            have hs' := Finset.mem_range.1 hs
            have e1 : (gsBisUpdate it j st).sampl.getD s d = y s := hyall d s (by omega)
            rw [e1, hc2 k s hs', hVne i hi2, ← hylt s hs' d, hVne (y s)]
            intro hcon
            have := hav (y s) (hymem s hs')
            rw [hcon, hj'] at this
            simp at this
          rw [Finset.sum_congr rfl hs1]
          have e1 : (gsBisUpdate it j st).sampl.getD it d = j := by
            rw [show (gsBisUpdate it j st).sampl.getD it d = y it from hyall d it (by omega), hyit]
          rw [e1, hVeq, hVne i hi2]
          have e2 : ∑ l, st.V i l * (Vj l / A j j) = A i j / A j j := by
            rw [← hdot i hi1, Finset.sum_div]
            exact Finset.sum_congr rfl (fun l _ => by ring)
          rw [e2, real_symm h.proj k j]
          ring
        · intro i hi
          have hi2 : Function.update st.avail j false i = true := hi
          have e0 : (gsBisUpdate it j st).norms2 i
              = st.norms2 i - (gsBisUpdate it j st).contrib i it ^ 2 / st.norms2 j := by
            change (if Function.update st.avail j false i = true then _ else _) = _
            rw [if_pos hi2]
            rfl
          rw [e0, hc i hi2, hn i (hav' i hi2).1, hn j hj', elim_apply, real_symm h.proj j i]
          ring
    · intro i hi
      rw [hn i (mem_availList.1 hi)]
      simp

end Model
end Verif
