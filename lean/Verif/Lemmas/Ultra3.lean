import Verif.Lemmas.Ultra1
import Verif.Lemmas.Ultra2
import Verif.Props.JacobiNorms

/-!
The bound of the rejection table for ultraspherical coordinates.
-/

namespace Verif.Lemmas
open Verif.Spec Verif.Model Verif.Props Real

theorem gamma_half (m : ℕ) : π * ((2 * m).factorial : ℝ) ^ 2 = (Gamma (m + 1 / 2) * (4 ^ m * (m.factorial : ℝ))) ^ 2 := by
  have h := Real.Gamma_mul_Gamma_add_half ((m : ℝ) + 1 / 2)
  rw [show (m : ℝ) + 1 / 2 + 1 / 2 = m + 1 by ring, Gamma_nat_eq_factorial, show 2 * ((m : ℝ) + 1 / 2) = (2 * m : ℕ) + 1 by push_cast; ring,
    Gamma_nat_eq_factorial, show 1 - (((2 * m : ℕ) : ℝ) + 1) = -((2 * m : ℕ) : ℝ) by ring, rpow_neg (by norm_num), rpow_natCast, pow_mul] at h
  have h4 : ((2 : ℝ) ^ 2) ^ m = 4 ^ m := by norm_num
  rw [h4] at h
  have h5 : Gamma (m + 1 / 2) * (4 ^ m * (m.factorial : ℝ)) = ((2 * m).factorial : ℝ) * √π := by
    have : (4 : ℝ) ^ m ≠ 0 := by positivity
    calc _ = (Gamma (m + 1 / 2) * (m.factorial : ℝ)) * 4 ^ m := by ring
      _ = _ := by rw [h]; field_simp
  rw [h5, mul_pow, sq_sqrt pi_pos.le]
  ring

theorem rpow_scale {z l : ℝ} (hz : 0 < z) : (2 * z) ^ (2 * l) = 2 ^ (2 * l) * (z ^ l) ^ 2 := by
  rw [mul_rpow (by norm_num) hz.le, ← rpow_natCast (z ^ l), ← rpow_mul hz.le]
  congr 2
  push_cast; ring

theorem main_even (m : ℕ) {l : ℝ} (h0 : 0 < l) (h1 : l ≤ 1) :
    π * ((2 * m).factorial : ℝ) ^ 2 * (2 * m + l) ^ (2 * l)
      ≤ 2 ^ (2 * l) * (Gamma (m + l + 1 / 2) * (4 ^ m * (m.factorial : ℝ))) ^ 2 := by
  have hm : (0 : ℝ) ≤ m := m.cast_nonneg
  have hk := kershaw (x := m + 1 / 2) (l := l) (by linarith) h0 h1
  rw [show (m : ℝ) + 1 / 2 - 1 / 2 + l / 2 = m + l / 2 by ring, show (m : ℝ) + 1 / 2 + l = m + l + 1 / 2 by ring] at hk
  have hz : 0 < (m : ℝ) + l / 2 := by positivity
  have g1 := Gamma_pos_of_pos (show 0 < (m : ℝ) + 1 / 2 by positivity)
  have hp := rpow_pos_of_pos hz l
  have hk2 := pow_le_pow_left₀ (by positivity) hk 2
  rw [gamma_half, show (2 * m : ℝ) + l = 2 * (m + l / 2) by ring, rpow_scale hz]
  have h2 : (0 : ℝ) < 2 ^ (2 * l) := by positivity
  calc _ = 2 ^ (2 * l) * (4 ^ m * (m.factorial : ℝ)) ^ 2 * (((m : ℝ) + l / 2) ^ l * Gamma (m + 1 / 2)) ^ 2 := by ring
    _ ≤ 2 ^ (2 * l) * (4 ^ m * (m.factorial : ℝ)) ^ 2 * Gamma (m + l + 1 / 2) ^ 2 := mul_le_mul_of_nonneg_left hk2 (by positivity)
    _ = _ := by ring

theorem main_odd (m : ℕ) {l : ℝ} (h0 : 0 < l) (h1 : l ≤ 1) :
    π * ((2 * m + 1).factorial : ℝ) ^ 2 * (2 * m + 1 + l) ^ (2 * l)
      ≤ 2 ^ (2 * l) * ((Gamma (m + l + 1 / 2) * (4 ^ m * (m.factorial : ℝ))) ^ 2 * ((2 * m + 1 + l) ^ 2 + l * (1 - l))) := by
  have hm : (0 : ℝ) ≤ m := m.cast_nonneg
  have hk := kershaw_odd (x := m + 1 / 2) (l := l) (by linarith) h0 h1
  rw [Gamma_add_one (by positivity), show (m : ℝ) + 1 / 2 + l = m + l + 1 / 2 by ring] at hk
  have hz : 0 < (m : ℝ) + 1 / 2 + l / 2 := by positivity
  have h2 : (0 : ℝ) < 2 ^ (2 * l) := by positivity
  rw [Nat.factorial_succ, show (2 * m + 1 : ℝ) + l = 2 * (m + 1 / 2 + l / 2) by ring, rpow_scale hz]
  push_cast
  calc _ = (2 * (m : ℝ) + 1) ^ 2 * (π * ((2 * m).factorial : ℝ) ^ 2) * (2 ^ (2 * l) * (((m : ℝ) + 1 / 2 + l / 2) ^ l) ^ 2) := by ring
    _ = 4 * 2 ^ (2 * l) * (4 ^ m * (m.factorial : ℝ)) ^ 2 * (((m : ℝ) + 1 / 2 + l / 2) ^ l * ((m + 1 / 2) * Gamma (m + 1 / 2))) ^ 2 := by
        rw [gamma_half]; ring
    _ ≤ 4 * 2 ^ (2 * l) * (4 ^ m * (m.factorial : ℝ)) ^ 2 * (Gamma (m + l + 1 / 2) ^ 2 * (((m : ℝ) + 1 / 2 + l / 2) ^ 2 + (l - l ^ 2) / 4)) :=
        mul_le_mul_of_nonneg_left hk (by positivity)
    _ = _ := by ring

theorem final_alg {V S G H F B2 X l s : ℝ} (hV : V * B2 = G ^ 2) (hB : 0 < B2) (hG : 0 < G) (hH : 0 < H) (hF : 0 < F) (hX : 0 < X) (hs : 0 < s)
    (hS : S = 2 ^ (2 * l) / (2 * s) * (G ^ 2 / (F * H))) (hm : π * F ^ 2 * X ≤ 2 ^ (2 * l) * B2) :
    π * V / S ≤ 2 * H / (F * (X / s)) := by
  have h2 : (0 : ℝ) < 2 ^ (2 * l) := by positivity
  generalize (2 : ℝ) ^ (2 * l) = A at *
  have hVe : V = G ^ 2 / B2 := by rw [eq_div_iff hB.ne', hV]
  rw [hS, hVe, div_le_div_iff₀ (by positivity) (by positivity)]
  have : π * (G ^ 2 / B2) * (F * (X / s)) = (π * F ^ 2 * X) * (G ^ 2 / (B2 * F * s)) := by field_simp
  rw [this]
  have e2 : 2 * H * (A / (2 * s) * (G ^ 2 / (F * H))) = A * B2 * (G ^ 2 / (B2 * F * s)) := by field_simp
  rw [e2]
  exact mul_le_mul_of_nonneg_right hm (by positivity)

theorem ultra_value_bound {a : ℝ} (h0 : -1 / 2 < a) (h1 : a ≤ 1 / 2) {n : ℕ} (hn : 1 ≤ n) :
    π * ((jpX n a a).coeff 0 ^ 2 + (jpX n a a).coeff 1 ^ 2 / ((n + (a + 1 / 2)) ^ 2 + (a + 1 / 2) * (1 - (a + 1 / 2))))
        / squareNorm1D a a n
      ≤ 2 * Gamma (n + a + a + 1) / (n.factorial * ((n + (a + 1 / 2)) ^ (2 * (a + 1 / 2)) / (n + (a + 1 / 2)))) := by
  have hnp : (1 : ℝ) ≤ n := by exact_mod_cast hn
  have hG := Gamma_pos_of_pos (show 0 < (n : ℝ) + a + 1 by linarith)
  have hH := Gamma_pos_of_pos (show 0 < (n : ℝ) + a + a + 1 by linarith)
  have hs : 0 < (n : ℝ) + (a + 1 / 2) := by linarith
  have hX := rpow_pos_of_pos hs (2 * (a + 1 / 2))
  have hl0 : 0 < a + 1 / 2 := by linarith
  have hl1 : a + 1 / 2 ≤ 1 := by linarith
  have hS : squareNorm1D a a n = 2 ^ (2 * (a + 1 / 2)) / (2 * (n + (a + 1 / 2))) * (Gamma (n + a + 1) ^ 2 / (n.factorial * Gamma (n + a + a + 1))) := by
    rw [(C73_square_norm (by linarith) (by linarith) hn).1]
    have e1 : (2 : ℝ) ^ (a + a + 1) / (2 * (n : ℝ) + a + a + 1) = 2 ^ (2 * (a + 1 / 2)) / (2 * (n + (a + 1 / 2))) := by
      congr 1
      · congr 1; ring
      · ring
    rw [docSquareNorm, e1, mul_comm (Gamma (n + a + a + 1)), sq]
  have hE : 0 < (n + (a + 1 / 2)) ^ 2 + (a + 1 / 2) * (1 - (a + 1 / 2)) := by
    have : 0 ≤ (a + 1 / 2) * (1 - (a + 1 / 2)) := mul_nonneg hl0.le (by linarith)
    positivity
  rcases Nat.even_or_odd' n with ⟨m, rfl | rfl⟩
  · have hc := coeff_parity (2 * m) h0 1 (by omega)
    have hB := Gamma_pos_of_pos (show 0 < (m : ℝ) + (a + 1 / 2) + 1 / 2 by positivity)
    rw [hc]
    refine final_alg (l := a + 1 / 2) (B2 := (Gamma (m + (a + 1 / 2) + 1 / 2) * (4 ^ m * (m.factorial : ℝ))) ^ 2) ?_ (by positivity) hG hH
      (by positivity) hX hs hS ?_
    · have := value_even m h0
      rw [show (2 * m : ℝ) + (a + 1 / 2) + 1 / 2 = ((2 * m : ℕ) : ℝ) + a + 1 by push_cast; ring] at this
      rw [← this]; ring
    · have := main_even m hl0 hl1
      push_cast
      exact this
  · have hc := coeff_parity (2 * m + 1) h0 0 (by omega)
    have hB := Gamma_pos_of_pos (show 0 < (m : ℝ) + (a + 1 / 2) + 1 / 2 by positivity)
    rw [hc]
    refine final_alg (l := a + 1 / 2) (B2 := (Gamma (m + (a + 1 / 2) + 1 / 2) * (4 ^ m * (m.factorial : ℝ))) ^ 2
      * ((((2 * m + 1 : ℕ) : ℝ) + (a + 1 / 2)) ^ 2 + (a + 1 / 2) * (1 - (a + 1 / 2)))) ?_ (mul_pos (by positivity) hE) hG hH
      (by positivity) hX hs hS ?_
    · have := value_odd m h0
      rw [show (2 * m + 1 : ℝ) + (a + 1 / 2) + 1 / 2 = ((2 * m + 1 : ℕ) : ℝ) + a + 1 by push_cast; ring] at this
      rw [← this]
      generalize (((2 * m + 1 : ℕ) : ℝ) + (a + 1 / 2)) ^ 2 + (a + 1 / 2) * (1 - (a + 1 / 2)) = E at *
      field_simp
      ring
    · have := main_odd m hl0 hl1
      push_cast
      exact this

theorem ultra_bound {a : ℝ} (h0 : -1 / 2 < a) (h1 : a ≤ 1 / 2) {n : ℕ} (hn : 1 ≤ n) {u : ℝ} (hu : u ∈ Set.Ioo (-1 : ℝ) 1) :
    π * (1 - u) ^ (a + 1 / 2) * (1 + u) ^ (a + 1 / 2) * jacobiPoly n a a u ^ 2 / squareNorm1D a a n
      ≤ 2 * Gamma (n + a + a + 1) * Gamma (n + a + 1) / (n.factorial * (n + (a + a + 1) / 2) ^ (2 * a) * Gamma (n + a + 1)) := by
  have hnp : (1 : ℝ) ≤ n := by exact_mod_cast hn
  have hG := Gamma_pos_of_pos (show 0 < (n : ℝ) + a + 1 by linarith)
  have hs : 0 < (n : ℝ) + (a + 1 / 2) := by linarith
  have hS := squareNorm1D_pos (show -1 < a by linarith) (show -1 < a by linarith) n
  have hw : (1 - u) ^ (a + 1 / 2) * (1 + u) ^ (a + 1 / 2) = (1 - u ^ 2) ^ (a + 1 / 2) := by
    rw [← mul_rpow (by linarith [hu.2]) (by linarith [hu.1])]; congr 1; ring
  rw [mul_div_mul_right _ _ hG.ne', show (n : ℝ) + (a + a + 1) / 2 = n + (a + 1 / 2) by ring]
  have hpow : ((n : ℝ) + (a + 1 / 2)) ^ (2 * a) = (n + (a + 1 / 2)) ^ (2 * (a + 1 / 2)) / (n + (a + 1 / 2)) := by
    rw [show 2 * a = 2 * (a + 1 / 2) - 1 by ring, rpow_sub_one hs.ne']
  rw [hpow]
  refine le_trans ?_ (ultra_value_bound h0 h1 hn)
  refine div_le_div_of_nonneg_right ?_ hS.le
  rw [mul_assoc π, hw, mul_assoc]
  exact mul_le_mul_of_nonneg_left (ultra_le h0 h1 n hu) pi_pos.le

end Verif.Lemmas
