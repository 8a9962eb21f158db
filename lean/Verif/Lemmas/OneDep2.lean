import Verif.Lemmas.OneDep1
import Verif.Lemmas.Descent
import Mathlib.Data.Fin.Tuple.Sort
import Mathlib.Data.Fintype.Perm
import Mathlib.GroupTheory.Perm.ViaEmbedding
import Mathlib.Data.Nat.Choose.Sum
import Mathlib.Data.List.GetD
import Mathlib.Order.Interval.Finset.Nat

/-!
# Monotone blocks of uniform permutations and of independent digits
-/

namespace Verif.Lemmas
open Finset Verif Verif.Model

variable {R : Type*}

/-! ### permutations -/

theorem ofFn_perm_mem {N : ℕ} (σ : Equiv.Perm (Fin N)) : (List.ofFn fun i => ((σ i : Fin N) : ℕ)) ∈ (List.range N).permutations.toFinset := by
  rw [List.mem_toFinset, List.mem_permutations]
  have h := Equiv.Perm.ofFn_comp_perm σ (fun i : Fin N => (i : ℕ))
  have h2 : List.ofFn (fun i : Fin N => (i : ℕ)) = List.range N := by
    refine List.ext_getElem (by simp) fun i h1 h2 => by simp
  rw [h2] at h
  exact h

theorem E_unif_perm [Field R] [CharZero R] (N : ℕ) (f : List ℕ → R) :
    (uniformPermutation R N).E f = 1 / (N.factorial : R) * ∑ σ : Equiv.Perm (Fin N), f (List.ofFn fun i => ((σ i : Fin N) : ℕ)) := by
  classical
  rw [E_uniformPermutation]
  congr 1
  have hinj : Function.Injective fun σ : Equiv.Perm (Fin N) => List.ofFn fun i => ((σ i : Fin N) : ℕ) := fun σ τ h => by
    have := List.ofFn_injective h
    exact Equiv.ext fun i => Fin.ext (congrFun this i)
  have himg : (List.range N).permutations.toFinset = univ.image fun σ : Equiv.Perm (Fin N) => List.ofFn fun i => ((σ i : Fin N) : ℕ) := by
    refine (eq_of_subset_of_card_le (image_subset_iff.2 fun σ _ => ofFn_perm_mem σ) ?_).symm
    rw [card_image_of_injective _ hinj, List.toFinset_card_of_nodup (List.nodup_permutations _ List.nodup_range), List.length_permutations,
      List.length_range, card_univ, Fintype.card_perm, Fintype.card_fin]
  rw [himg, sum_image fun a _ b _ h => hinj h]

theorem exists_unique_anti {m : ℕ} {α : Type*} [LinearOrder α] {f : Fin m → α} (hf : Function.Injective f) :
    ∃! τ : Equiv.Perm (Fin m), StrictAnti (f ∘ τ) := by
  refine ⟨Tuple.sort (OrderDual.toDual ∘ f), ?_, fun τ hτ => ?_⟩
  · have h := Tuple.monotone_sort (OrderDual.toDual ∘ f)
    intro i j hij
    exact lt_of_le_of_ne (h hij.le) fun h2 => hij.ne' ((Tuple.sort (OrderDual.toDual ∘ f)).injective (hf h2))
  · have h1 : Monotone ((OrderDual.toDual ∘ f) ∘ τ) := fun i j hij => hτ.antitone hij
    have h := Tuple.unique_monotone h1 (Tuple.monotone_sort (OrderDual.toDual ∘ f))
    exact Equiv.ext fun i => hf (congrFun h i)

open Classical in
theorem perm_block [CommSemiring R] {N m : ℕ} (e : Fin m ↪ Fin N) (Q : Equiv.Perm (Fin N) → R)
    (hQ : ∀ σ (τ : Equiv.Perm (Fin m)), Q (σ * τ.viaEmbedding e) = Q σ) :
    ∑ σ, Q σ = (m.factorial : R) * ∑ σ : Equiv.Perm (Fin N), Q σ * if StrictAnti (σ ∘ e) then 1 else 0 := by
  have h1 : ∀ σ : Equiv.Perm (Fin N), ∑ τ : Equiv.Perm (Fin m), (if StrictAnti ((σ ∘ e) ∘ τ) then (1 : R) else 0) = 1 := fun σ => by
    obtain ⟨τ, hτ, hu⟩ := exists_unique_anti (f := σ ∘ e) (σ.injective.comp e.injective)
    rw [sum_eq_single τ (fun b _ hb => if_neg fun h => hb (hu b h)) (fun h => absurd (mem_univ τ) h), if_pos hτ]
  calc ∑ σ, Q σ = ∑ σ : Equiv.Perm (Fin N), ∑ τ : Equiv.Perm (Fin m), Q σ * (if StrictAnti ((σ ∘ e) ∘ τ) then (1 : R) else 0) := by
        refine sum_congr rfl fun σ _ => ?_
        rw [← mul_sum, h1, mul_one]
    _ = ∑ τ : Equiv.Perm (Fin m), ∑ σ : Equiv.Perm (Fin N), Q σ * (if StrictAnti ((σ ∘ e) ∘ τ) then (1 : R) else 0) := sum_comm
    _ = ∑ _τ : Equiv.Perm (Fin m), ∑ σ : Equiv.Perm (Fin N), Q σ * (if StrictAnti (σ ∘ e) then (1 : R) else 0) := by
        refine sum_congr rfl fun τ _ => ?_
        refine (Equiv.sum_comp (Equiv.mulRight (τ.viaEmbedding e)) fun σ => Q σ * (if StrictAnti (σ ∘ e) then (1 : R) else 0)).symm.trans ?_ |>.symm
        refine sum_congr rfl fun σ _ => ?_
        simp only [Equiv.coe_mulRight, hQ]
        have : (σ * τ.viaEmbedding e : Equiv.Perm (Fin N)) ∘ e = (σ ∘ e) ∘ τ := by
          funext j
          simp [Equiv.Perm.viaEmbedding_apply]
        refine congrArg (Q σ * ·) (if_congr ?_ rfl rfl)
        exact Iff.of_eq (congrArg StrictAnti this)
    _ = _ := by
        rw [sum_const, card_univ, Fintype.card_perm, Fintype.card_fin, nsmul_eq_mul]

theorem ofFn_getD {N : ℕ} (f : Fin N → ℕ) {i : ℕ} (h : i < N) : (List.ofFn f).getD i 0 = f ⟨i, h⟩ := by
  rw [List.getD_eq_getElem _ _ (by simpa using h)]
  simp

open Classical in
/-- a block of `m` consecutive positions of a uniform permutation is decreasing with probability `1 / m!`, independently of the other positions -/
theorem E_perm_block [Field R] [CharZero R] {N s m : ℕ} (hN : s + m ≤ N) (Q : List ℕ → R)
    (hQ : ∀ t t' : List ℕ, t.length = t'.length → (∀ i, i < s ∨ s + m ≤ i → t.getD i 0 = t'.getD i 0) → Q t = Q t') :
    (uniformPermutation R N).E (fun t => Q t * if ∀ j, j + 1 < m → t.getD (s + j + 1) 0 < t.getD (s + j) 0 then 1 else 0)
      = 1 / (m.factorial : R) * (uniformPermutation R N).E Q := by
  have hm : (m.factorial : R) ≠ 0 := by exact_mod_cast m.factorial_ne_zero
  let e : Fin m ↪ Fin N := ⟨fun j => ⟨s + j, by omega⟩, fun i j h => by
    simp only [Fin.mk.injEq] at h; exact Fin.ext (by omega)⟩
  rw [E_unif_perm, E_unif_perm, perm_block e fun σ => Q (List.ofFn fun i => ((σ i : Fin N) : ℕ))]
  · have : ∀ σ : Equiv.Perm (Fin N), (if ∀ j, j + 1 < m → (List.ofFn fun i => ((σ i : Fin N) : ℕ)).getD (s + j + 1) 0 <
        (List.ofFn fun i => ((σ i : Fin N) : ℕ)).getD (s + j) 0 then (1 : R) else 0) = if StrictAnti (σ ∘ e) then 1 else 0 := fun σ => by
      refine if_congr ?_ rfl rfl
      constructor
      · intro h
        cases m with
        | zero => exact fun i => i.elim0
        | succ m =>
          refine Fin.strictAnti_iff_succ_lt.2 fun j => ?_
          have h2 := h j (by have := j.2; omega)
          have := j.2
          rw [ofFn_getD _ (show s + (j : ℕ) + 1 < N by omega), ofFn_getD _ (show s + (j : ℕ) < N by omega)] at h2
          exact h2
      · intro h j hj
        rw [ofFn_getD _ (show s + j + 1 < N by omega), ofFn_getD _ (show s + j < N by omega)]
        exact h (show (⟨j, by omega⟩ : Fin m) < ⟨j + 1, hj⟩ from Nat.lt_succ_self j)
    simp only [this]
    field_simp
  · intro σ τ
    refine hQ _ _ (by simp) fun i hi => ?_
    by_cases h : i < N
    · rw [ofFn_getD _ h, ofFn_getD _ h, Equiv.Perm.mul_apply, Equiv.Perm.viaEmbedding_apply_of_notMem]
      rintro ⟨j, hj⟩
      have := congrArg Fin.val hj
      have h1 : s + (j : ℕ) = i := this
      have := j.2
      omega
    · rw [List.getD_eq_default _ _ (by simpa using h), List.getD_eq_default _ _ (by simpa using h)]

/-! ### independent draws -/

theorem E_iid_add [Semiring R] {α : Type*} (d : Dist R α) (m n : ℕ) (f : List α → R) :
    (iid d (m + n)).E f = (iid d m).E fun u => (iid d n).E fun v => f (u ++ v) := by
  induction m generalizing f with
  | zero => simp [iid]
  | succ m ih =>
    rw [show m + 1 + n = m + n + 1 by omega, E_iid_succ, E_iid_succ]
    refine Dist.E_congr fun a w _ => ?_
    rw [ih]
    rfl

theorem E_iid_block [CommSemiring R] {α : Type*} {d : Dist R α} (hd : d.E (fun _ => 1) = 1) (s m r : ℕ) (f h : List α → R) :
    (iid d (s + m + r)).E (fun y => f ((y.drop s).take m) * h (y.drop (s + m))) = (iid d m).E f * (iid d r).E h := by
  rw [E_iid_add, E_iid_add]
  have : ∀ u w, (u, w) ∈ iid d s → ((iid d m).E fun v => (iid d r).E fun z => f (((u ++ v ++ z).drop s).take m) * h ((u ++ v ++ z).drop (s + m)))
      = (iid d m).E f * (iid d r).E h := fun u w hu => by
    have hl := iid_length _ _ _ hu
    rw [← Dist.E_mul_right]
    refine Dist.E_congr fun v w' hv => ?_
    have hl' := iid_length _ _ _ hv
    rw [← Dist.E_const_mul]
    refine Dist.E_congr fun z _ _ => ?_
    have e1 : ((u ++ v ++ z).drop s).take m = v := by
      rw [List.append_assoc, ← hl, List.drop_left, ← hl', List.take_left]
    have e2 : (u ++ v ++ z).drop (s + m) = z := by
      rw [← hl, ← hl', ← List.length_append, List.drop_left]
    rw [e1, e2]
  rw [Dist.E_congr this]
  exact Dist.E_const (iid_mass hd s) _

theorem E_iid_tail [CommSemiring R] {α : Type*} {d : Dist R α} (hd : d.E (fun _ => 1) = 1) (s r : ℕ) (h : List α → R) :
    (iid d (s + r)).E (fun y => h (y.drop s)) = (iid d r).E h := by
  have := E_iid_block hd s 0 r (fun _ => 1) h
  simpa [iid] using this

theorem sum_mod_shift {M : Type*} [AddCommMonoid M] {b : ℕ} (s : ℕ) (g : ℕ → M) :
    ∑ a ∈ range b, g ((s + a) % b) = ∑ a ∈ range b, g a := by
  have himg := Nat.image_Ico_mod s b
  have hinj : Set.InjOn (fun x => x % b) (Ico s (s + b)) := by
    refine card_image_iff.1 ?_
    rw [himg, card_range, Nat.card_Ico]
    omega
  refine Eq.trans ?_ ((congrArg (fun S => ∑ a ∈ S, g a) himg).symm.trans (sum_image hinj)).symm
  rw [Finset.sum_Ico_eq_sum_range, show s + b - s = b by omega]

/-- the cumulative sums modulo the base of uniform independent digits are uniform independent digits -/
theorem E_cumsum [Field R] {b : ℕ} (n s : ℕ) (f : List ℕ → R) :
    (iid (Dist.randint (R := R) b) n).E (fun A => f ((cumsum s A).map (· % b))) = (iid (Dist.randint b) n).E f := by
  induction n generalizing s f with
  | zero => simp [iid, cumsum]
  | succ n ih =>
    rw [E_iid_succ, E_iid_succ]
    simp only [cumsum, List.map_cons]
    have : ∀ a : ℕ, ((iid (Dist.randint (R := R) b) n).E fun l => f (((s + a) % b) :: (cumsum (s + a) l).map (· % b)))
        = (iid (Dist.randint b) n).E fun l => f (((s + a) % b) :: l) := fun a => ih (s + a) fun l => f (((s + a) % b) :: l)
    simp only [this]
    rw [Dist.E_randint, Dist.E_randint]
    congr 1
    have h := sum_mod_shift (b := b) s fun x => (iid (Dist.randint (R := R) b) n).E fun l => f (x :: l)
    exact h

end Verif.Lemmas
