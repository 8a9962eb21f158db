import Verif.Lemmas.OneDep4

/-!
# C92, C93, C94: the descent, carries and virtual descent processes are determinantal
-/

namespace Verif.Lemmas
open Finset Verif Verif.Model Verif.Spec

variable {R : Type*}

theorem descent_series [Field R] [CharZero R] :
    PowerSeries.X * PowerSeries.mk (fun l : ℕ => 1 / ((l + 1).factorial : R)) = -(1 - PowerSeries.exp R) := by
  ext n
  cases n with
  | zero => simp
  | succ n => rw [PowerSeries.coeff_succ_X_mul, PowerSeries.coeff_mk]; simp [PowerSeries.coeff_exp, PowerSeries.coeff_one]

theorem carries_series [Field R] [CharZero R] {b : ℕ} (hb : 0 < b) :
    PowerSeries.X * PowerSeries.mk (fun l : ℕ => (b.choose (l + 1) : R) / (b : R) ^ (l + 1))
      = -(1 - (1 + PowerSeries.C (1 / (b : R)) * PowerSeries.X) ^ b) := by
  ext n
  have h : (1 + PowerSeries.C (1 / (b : R)) * PowerSeries.X) ^ b = (((1 + Polynomial.C (1 / (b : R)) * Polynomial.X) ^ b : Polynomial R) : PowerSeries R) := by
    push_cast
    simp
  have hc : ∀ n, PowerSeries.coeff n ((1 + PowerSeries.C (1 / (b : R)) * PowerSeries.X) ^ b) = (b.choose n : R) / (b : R) ^ n := fun n => by
    rw [h, Polynomial.coeff_coe]
    have h2 : (1 + Polynomial.C (1 / (b : R)) * Polynomial.X) ^ b = ((1 + Polynomial.X) ^ b : Polynomial R).comp (Polynomial.C (1 / (b : R)) * Polynomial.X) := by
      simp
    rw [h2, Polynomial.comp_C_mul_X_coeff, Polynomial.coeff_one_add_X_pow]
    ring
  cases n with
  | zero =>
    rw [map_neg, map_sub, hc 0]
    simp
  | succ n => rw [PowerSeries.coeff_succ_X_mul, PowerSeries.coeff_mk, map_neg, map_sub, hc (n + 1)]; simp [PowerSeries.coeff_one]

theorem virtual_series [Field R] [CharZero R] (p : R) :
    PowerSeries.X * PowerSeries.mk (virtD p)
      = -(1 - PowerSeries.rescale p (PowerSeries.exp R) * (1 + PowerSeries.C (1 - p) * PowerSeries.X)) := by
  ext n
  have e : PowerSeries.rescale p (PowerSeries.exp R) * (1 + PowerSeries.C (1 - p) * PowerSeries.X)
      = PowerSeries.rescale p (PowerSeries.exp R) + PowerSeries.C (1 - p) * (PowerSeries.X * PowerSeries.rescale p (PowerSeries.exp R)) := by ring
  rw [e]
  cases n with
  | zero =>
    have h0 : PowerSeries.coeff 0 (PowerSeries.rescale p (PowerSeries.exp R)) = 1 := by rw [PowerSeries.coeff_rescale]; simp
    rw [PowerSeries.coeff_zero_X_mul, map_neg, map_sub, map_add, h0]
    simp
  | succ n =>
    rw [PowerSeries.coeff_succ_X_mul, PowerSeries.coeff_mk, map_neg, map_sub, map_add, PowerSeries.coeff_C_mul, PowerSeries.coeff_succ_X_mul,
      PowerSeries.coeff_rescale, PowerSeries.coeff_rescale, PowerSeries.coeff_exp, PowerSeries.coeff_exp, PowerSeries.coeff_one, if_neg (Nat.succ_ne_zero n), virtD]
    simp
    ring

end Verif.Lemmas

namespace Verif.Props
open Finset Verif Verif.Model Verif.Spec Verif.Lemmas

variable {R : Type*}

/-- **C92**. `DescentProcess().sample(N)` is a determinantal point process on `{1, ..., N-1}`, with the translation invariant kernel
`K(i, j) = k(j - i)` whose generating series `sum_m k(m) z^m` is `1 / (1 - e^z)`. -/
theorem C92_descent_is_dpp [Field R] [CharZero R] (N : ℕ) {k : ℤ → R} (hk : HasInverseSeries k (1 - PowerSeries.exp R)) :
    IsDPP (descentSample R N) (Ico 1 N) (shiftKernel k) := by
  refine isDPP_of_factor (d := fun l => 1 / ((l + 1).factorial : R)) (by simp) descent_series ?_ (descent_support N) (fun a l B => descent_factor N a l B) hk
  rw [Dist.mass, descentSample, Dist.E_map, uniformPermutation_mass]

/-- **C92**. The kernel is explicit: `k(m) = - B_(m+1) / (m+1)!` with the Bernoulli numbers, `k(-1) = -1`, and zero below. -/
theorem C92_descent_kernel [Field R] [CharZero R] :
    HasInverseSeries (fun m : ℤ => if m < -1 then (0 : R) else -((bernoulli (m + 1).toNat / ((m + 1).toNat.factorial : ℚ) : ℚ) : R))
      (1 - PowerSeries.exp R) := by
  refine ⟨fun m hm => if_pos hm, ?_⟩
  have h : (PowerSeries.mk fun n : ℕ => if (n : ℤ) - 1 < -1 then (0 : R)
      else -((bernoulli ((n : ℤ) - 1 + 1).toNat / (((n : ℤ) - 1 + 1).toNat.factorial : ℚ) : ℚ) : R)) = -bernoulliPowerSeries R := by
    ext n
    rw [PowerSeries.coeff_mk, if_neg (by omega), map_neg, bernoulliPowerSeries, PowerSeries.coeff_mk]
    simp
  rw [h, ← bernoulliPowerSeries_mul_exp_sub_one R]
  ring

/-- **C92**. Consequences: the process is stationary and one-dependent, and `l` consecutive descents at given places have probability
`1 / (l+1)!`. -/
theorem C92_descent_runs [Field R] [CharZero R] (N a l : ℕ) (ha : 1 ≤ a) (hal : a + l ≤ N) :
    (descentSample R N).prob (fun t => ∀ x ∈ Ico a (a + l), x ∈ t) = 1 / ((l + 1).factorial : R) := by
  have h0 : (descentSample R N).prob (fun t => ∀ x ∈ (∅ : Finset ℕ), x ∈ t) = 1 := by
    simp only [notMem_empty, false_imp_iff, implies_true, Dist.prob, if_true]
    rw [descentSample, Dist.E_map, uniformPermutation_mass]
  rcases Nat.eq_zero_or_pos l with rfl | hl
  · simpa using h0
  · have := descent_factor (R := R) N a l ∅ hl (fun x hx => by have := mem_Ico.1 hx; exact mem_Ico.2 ⟨by omega, by omega⟩) (by simp) (by simp)
    rw [union_empty, h0, mul_one] at this
    exact this

/-- **C93**. `CarriesProcess(b).sample(N)` is a determinantal point process on `{1, ..., N-1}`, with the translation invariant kernel
`K(i, j) = k(j - i)` whose generating series `sum_m k(m) z^m` is `1 / (1 - (1 + z/b)^b)`. -/
theorem C93_carries_is_dpp [Field R] [CharZero R] {b : ℕ} (hb : 0 < b) (N : ℕ) {k : ℤ → R}
    (hk : HasInverseSeries k (1 - (1 + PowerSeries.C (1 / (b : R)) * PowerSeries.X) ^ b)) :
    IsDPP (carriesSample R b N) (Ico 1 N) (shiftKernel k) := by
  have hb' : (b : R) ≠ 0 := by exact_mod_cast hb.ne'
  refine isDPP_of_factor (d := fun l => (b.choose (l + 1) : R) / (b : R) ^ (l + 1)) (by simp [hb']) (carries_series hb) ?_ (carries_support b N)
    (fun a l B => carries_factor hb N a l B) hk
  rw [Dist.mass, carriesSample, Dist.E_map, iid_mass (randint_mass hb)]

/-- **C93**. Such a kernel exists. -/
theorem C93_carries_kernel [Field R] [CharZero R] {b : ℕ} (hb : 0 < b) :
    ∃ k : ℤ → R, HasInverseSeries k (1 - (1 + PowerSeries.C (1 / (b : R)) * PowerSeries.X) ^ b) := by
  have hb' : (b : R) ≠ 0 := by exact_mod_cast hb.ne'
  exact exists_kernel (d := fun l => (b.choose (l + 1) : R) / (b : R) ^ (l + 1)) (by simp [hb']) (carries_series hb)

/-- **C94**. `VirtualDescentProcess(x_0).sample(N)` is a determinantal point process on `{0, ..., N-1}`, with the translation invariant
kernel `K(i, j) = k(j - i)` whose generating series `sum_m k(m) z^m` is `1 / (1 - e^{pz} (1 + (1-p) z))` with `p = 2 x_0 (1 - x_0)`. -/
theorem C94_virtual_is_dpp [Field R] [LinearOrder R] [CharZero R] {x : R} (h0 : 0 ≤ x) (h1 : x ≤ 1) (N : ℕ) {k : ℤ → R}
    (hk : HasInverseSeries k (1 - PowerSeries.rescale (2 * x * (1 - x)) (PowerSeries.exp R)
      * (1 + PowerSeries.C (1 - 2 * x * (1 - x)) * PowerSeries.X))) :
    IsDPP (virtualSample x N) (range N) (shiftKernel k) := by
  refine isDPP_of_factor (d := virtD (2 * x * (1 - x))) (by simp [virtD]) (virtual_series _) ?_ (virtual_support x N)
    (fun a l B => virtual_factor h0 h1 N a l B) hk
  rw [Dist.mass, virtualSample]
  simp only [Dist.E_bind, Dist.E_ret]
  rw [Dist.E_const (uniformPermutation_mass (N + 1)), iid_mass (coin_mass h0 h1)]

/-- **C94**. Such a kernel exists. -/
theorem C94_virtual_kernel [Field R] [CharZero R] (x : R) :
    ∃ k : ℤ → R, HasInverseSeries k (1 - PowerSeries.rescale (2 * x * (1 - x)) (PowerSeries.exp R)
      * (1 + PowerSeries.C (1 - 2 * x * (1 - x)) * PowerSeries.X)) :=
  exists_kernel (d := virtD (2 * x * (1 - x))) (by simp [virtD]) (virtual_series _)

/-- **C92**-**C94**. A determinantal process of this kind is stationary: the inclusion probabilities do not change under translation. -/
theorem C92_stationary [Field R] {d : Dist R (List ℕ)} {G : Finset ℕ} {k : ℤ → R} (h : IsDPP d G (shiftKernel k)) (A : Finset ℕ) (c : ℕ)
    (hA : A ⊆ G) (hA' : A.map (addRightEmbedding c) ⊆ G) :
    d.prob (fun l => ∀ a ∈ A.map (addRightEmbedding c), a ∈ l) = d.prob (fun l => ∀ a ∈ A, a ∈ l) := by
  rw [h.2.2 _ hA, h.2.2 _ hA']
  let e : A ≃ A.map (addRightEmbedding c) :=
    { toFun := fun x => ⟨x.1 + c, mem_map.2 ⟨x.1, x.2, rfl⟩⟩
      invFun := fun x => ⟨x.1 - c, by
        obtain ⟨y, hy, hxy⟩ := mem_map.1 x.2
        have h2 : y + c = x.1 := hxy
        rwa [show x.1 - c = y by omega]⟩
      left_inv := fun x => Subtype.ext (by simp)
      right_inv := fun x => Subtype.ext (by
        obtain ⟨y, hy, hxy⟩ := mem_map.1 x.2
        have h2 : y + c = x.1 := hxy
        change x.1 - c + c = x.1
        omega) }
  rw [← Matrix.det_submatrix_equiv_self e]
  congr 1
  ext i j
  simp [shiftKernel, e]

/-- **C92**-**C94**. It is one-dependent: for `A` entirely on the left of `B` with a gap, the events are independent. -/
theorem C92_one_dependent [Field R] {d : Dist R (List ℕ)} {G : Finset ℕ} {k : ℤ → R} (hk : ∀ m : ℤ, m < -1 → k m = 0)
    (h : IsDPP d G (shiftKernel k)) (A B : Finset ℕ) (hA : A ⊆ G) (hB : B ⊆ G) (hAB : ∀ x ∈ A, ∀ y ∈ B, x + 1 < y) :
    d.prob (fun l => ∀ a ∈ A ∪ B, a ∈ l) = d.prob (fun l => ∀ a ∈ A, a ∈ l) * d.prob (fun l => ∀ a ∈ B, a ∈ l) := by
  rw [h.2.2 _ hA, h.2.2 _ hB, h.2.2 _ (union_subset hA hB)]
  exact bdet_union hk hAB

/-- the hypotheses can be met, and the kernel gives the expected numbers: descents at 1 and 2 of a permutation of four elements -/
example : IsDPP (descentSample ℚ 4) (Ico 1 4)
      (shiftKernel fun m : ℤ => if m < -1 then (0 : ℚ) else -((bernoulli (m + 1).toNat / ((m + 1).toNat.factorial : ℚ) : ℚ) : ℚ)) ∧
    (descentSample ℚ 4).prob (fun t => ∀ x ∈ Ico 1 (1 + 2), x ∈ t) = 1 / 6 :=
  ⟨C92_descent_is_dpp 4 C92_descent_kernel, (C92_descent_runs 4 1 2 (by norm_num) (by norm_num)).trans (by norm_num [Nat.factorial])⟩

example : ∃ k : ℤ → ℚ, IsDPP (carriesSample ℚ 10 5) (Ico 1 5) (shiftKernel k) := by
  obtain ⟨k, hk⟩ := C93_carries_kernel (R := ℚ) (b := 10) (by norm_num)
  exact ⟨k, C93_carries_is_dpp (by norm_num) 5 hk⟩

example : ∃ k : ℤ → ℚ, IsDPP (virtualSample (1 / 3 : ℚ) 5) (range 5) (shiftKernel k) := by
  obtain ⟨k, hk⟩ := C94_virtual_kernel (1 / 3 : ℚ)
  exact ⟨k, C94_virtual_is_dpp (by norm_num) (by norm_num) 5 hk⟩

end Verif.Props
