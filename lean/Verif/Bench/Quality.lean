import Verif.Bench.Iqft
import Mathlib.Analysis.SpecialFunctions.Trigonometric.Bounds
/-!
# How often order finding reads a multiple of 2^m / r
-/
set_option linter.unusedVariables false
set_option linter.unusedSimpArgs false

namespace QDD.Bench
open Finset

theorem sum_abs (M : Nat) : ∑ j ∈ range M, |2 * (j : ℝ) - (M - 1)| ≤ (M : ℝ) ^ 2 / 2 := by
  induction M using Nat.twoStepInduction with
  | zero => simp
  | one => simp
  | more M ih _ =>
    have h : ∑ j ∈ range (M + 2), |2 * (j : ℝ) - ((M + 2 : ℕ) - 1)| = ∑ j ∈ range M, |2 * (j : ℝ) - (M - 1)| + 2 * (M + 1) := by
      rw [Finset.sum_range_succ, Finset.sum_range_succ']
      have e1 : |2 * ((0 : ℕ) : ℝ) - ((M + 2 : ℕ) - 1)| = M + 1 := by
        push_cast; rw [show (2 * 0 - ((M : ℝ) + 2 - 1)) = -(M + 1) by ring, abs_neg, abs_of_nonneg (by positivity)]
      have e2 : |2 * ((M + 1 : ℕ) : ℝ) - ((M + 2 : ℕ) - 1)| = M + 1 := by
        push_cast; rw [show (2 * ((M : ℝ) + 1) - (M + 2 - 1)) = M + 1 by ring, abs_of_nonneg (by positivity)]
      rw [e1, e2]
      have : ∀ j ∈ range M, |2 * ((j + 1 : ℕ) : ℝ) - ((M + 2 : ℕ) - 1)| = |2 * (j : ℝ) - (M - 1)| := by
        intro j _; congr 1; push_cast; ring
      rw [Finset.sum_congr rfl this]; ring
    rw [h]; push_cast; nlinarith

/-- A sum of phases that turn by at most half a turn in all. -/
theorem phases (M : Nat) (θ : ℝ) (h : |θ| * (M - 1) ≤ Real.pi) :
    M * (1 - |θ| * M / (2 * Real.pi)) ≤ ‖∑ j ∈ range M, Complex.exp ((θ * j : ℝ) * Complex.I)‖ := by
  have hpi := Real.pi_pos
  have hrot : ‖∑ j ∈ range M, Complex.exp ((θ * j : ℝ) * Complex.I)‖ =
      ‖∑ j ∈ range M, Complex.exp ((θ * (2 * j - (M - 1)) / 2 : ℝ) * Complex.I)‖ := by
    have : ∑ j ∈ range M, Complex.exp ((θ * (2 * j - (M - 1)) / 2 : ℝ) * Complex.I) =
        Complex.exp ((-(θ * (M - 1) / 2) : ℝ) * Complex.I) * ∑ j ∈ range M, Complex.exp ((θ * j : ℝ) * Complex.I) := by
      rw [Finset.mul_sum]
      refine Finset.sum_congr rfl fun j _ => ?_
      rw [← Complex.exp_add]; congr 1; push_cast; ring
    rw [this, norm_mul, Complex.norm_exp_ofReal_mul_I, one_mul]
  rw [hrot]
  refine le_trans ?_ (Complex.re_le_norm _)
  rw [Complex.re_sum]
  have hc : ∀ j ∈ range M, 1 - |θ| / Real.pi * |2 * (j : ℝ) - (M - 1)| ≤ (Complex.exp ((θ * (2 * j - (M - 1)) / 2 : ℝ) * Complex.I)).re := by
    intro j hj
    rw [mem_range] at hj
    rw [Complex.exp_ofReal_mul_I_re]
    set x := θ * (2 * j - (M - 1)) / 2
    have hx : |x| = |θ| * |2 * (j : ℝ) - (M - 1)| / 2 := by
      rw [show x = θ * (2 * j - (M - 1)) / 2 from rfl, abs_div, abs_mul, abs_two]
    have hj1 : (j : ℝ) + 1 ≤ M := by exact_mod_cast hj
    have hb : |2 * (j : ℝ) - (M - 1)| ≤ M - 1 := by
      rw [abs_le]; constructor <;> linarith [Nat.cast_nonneg (α := ℝ) j]
    have hle : |x| ≤ Real.pi / 2 := by
      rw [hx]
      have := mul_le_mul_of_nonneg_left hb (abs_nonneg θ)
      linarith
    have := Real.one_sub_mul_le_cos (abs_nonneg x) hle
    rw [Real.cos_abs] at this
    refine le_trans (le_of_eq ?_) this
    rw [hx]; field_simp
  refine le_trans ?_ (Finset.sum_le_sum hc)
  rw [Finset.sum_sub_distrib, ← Finset.mul_sum]
  have hs := mul_le_mul_of_nonneg_left (sum_abs M) (show 0 ≤ |θ| / Real.pi by positivity)
  simp only [Finset.sum_const, card_range, nsmul_eq_mul, mul_one]
  refine le_trans (le_of_eq ?_) (sub_le_sub_left hs _)
  field_simp

/-- The numbers below `Q` in a residue class. -/
def cls (Q r s : Nat) : Finset Nat := (range Q).filter fun x => x % r = s

theorem cls_eq {Q r s : Nat} (hs : s < r) : cls Q r s = (range ((Q + r - 1 - s) / r)).image fun j => s + r * j := by
  ext x
  simp only [cls, mem_filter, mem_range, mem_image]
  have hr : 0 < r := by omega
  constructor
  · rintro ⟨h1, h2⟩
    refine ⟨x / r, ?_, by rw [← h2]; exact Nat.mod_add_div x r⟩
    rw [Nat.lt_iff_add_one_le, Nat.le_div_iff_mul_le hr, Nat.succ_mul]
    have := Nat.mod_add_div x r
    rw [Nat.mul_comm] at this
    omega
  · rintro ⟨j, h1, rfl⟩
    rw [Nat.lt_iff_add_one_le, Nat.le_div_iff_mul_le hr, Nat.succ_mul, Nat.mul_comm] at h1
    refine ⟨by omega, ?_⟩
    rw [Nat.add_mul_mod_self_left, Nat.mod_eq_of_lt hs]

theorem cls_card {Q r s : Nat} (hs : s < r) : (cls Q r s).card = (Q + r - 1 - s) / r := by
  rw [cls_eq hs, Finset.card_image_of_injective, card_range]
  intro i j h
  have : r * i = r * j := Nat.add_left_cancel h
  exact Nat.eq_of_mul_eq_mul_left (by omega) this

theorem cls_total {Q r : Nat} (hr : 0 < r) : ∑ s ∈ range r, (cls Q r s).card = Q := by
  have := Finset.card_eq_sum_card_fiberwise (s := range Q) (t := range r) (f := fun x => x % r)
    (fun x _ => by simpa using Nat.mod_lt x hr)
  rw [card_range] at this
  exact this.symm

/-- **The amplitude of a residue class** at a multiple of `Q / r`. -/
theorem cls_amp {Q r s N : Nat} (hs : s < r) (hN : 0 < N) (hQ : N * r ≤ Q) {z k : Nat} {d : Int} (hd : (z * r : Int) = k * Q + d) (hd2 : 2 * |d| ≤ r) :
    ((cls Q r s).card : ℝ) * ((1 - 1 / N) / 2) ≤ ‖∑ x ∈ cls Q r s, Complex.exp (-(2 * Real.pi * ((z * x : ℕ) : ℂ) / Q) * Complex.I)‖ := by
  have hr : 0 < r := by omega
  have hQ0 : 0 < Q := lt_of_lt_of_le (Nat.mul_pos hN hr) hQ
  have hpi := Real.pi_pos
  have hQR : (0 : ℝ) < Q := by exact_mod_cast hQ0
  have hcard := cls_card (Q := Q) hs
  set M := (cls Q r s).card with hM
  have hrM : r * M ≤ Q + r - 1 - s := by rw [hcard]; exact Nat.mul_div_le _ _
  have hrM' : (r : ℝ) * M ≤ Q + r - 1 := by
    have : r * M + 1 ≤ Q + r := by omega
    have : (r : ℝ) * M + 1 ≤ Q + r := by exact_mod_cast this
    linarith
  have hsum : ∑ x ∈ cls Q r s, Complex.exp (-(2 * Real.pi * ((z * x : ℕ) : ℂ) / Q) * Complex.I) =
      Complex.exp ((-(2 * Real.pi * (z * s) / Q) : ℝ) * Complex.I) * ∑ j ∈ range M, Complex.exp ((-(2 * Real.pi * d / Q) * j : ℝ) * Complex.I) := by
    rw [cls_eq hs, Finset.sum_image, ← hcard, Finset.mul_sum]
    · refine Finset.sum_congr rfl fun j _ => ?_
      rw [← Complex.exp_add]
      have hdC : (z : ℂ) * r = k * Q + d := by exact_mod_cast hd
      have hQC : (Q : ℂ) ≠ 0 := by exact_mod_cast hQ0.ne'
      have : -(2 * Real.pi * ((z * (s + r * j) : ℕ) : ℂ) / Q) * Complex.I =
          ((-(2 * Real.pi * (z * s) / Q) : ℝ) * Complex.I + (-(2 * Real.pi * d / Q) * j : ℝ) * Complex.I) + ((-(k * j) : Int) : ℂ) * (2 * Real.pi * Complex.I) := by
        push_cast
        have e : (z : ℂ) * (s + r * j) = z * s + (k * Q + d) * j := by rw [← hdC]; ring
        rw [e]
        field_simp
        ring
      rw [this, Complex.exp_add, Complex.exp_int_mul_two_pi_mul_I, mul_one]
    · intro i _ j _ h
      have : r * i = r * j := Nat.add_left_cancel h
      exact Nat.eq_of_mul_eq_mul_left hr this
  rw [hsum, norm_mul, Complex.norm_exp_ofReal_mul_I, one_mul]
  have hdR : 2 * |(d : ℝ)| ≤ r := by
    have : ((2 * |d| : Int) : ℝ) ≤ ((r : Int) : ℝ) := by exact_mod_cast hd2
    push_cast at this
    exact this
  have hθ : |-(2 * Real.pi * (d : ℝ) / Q)| = Real.pi * (2 * |(d : ℝ)|) / Q := by
    rw [abs_neg, abs_div, abs_mul, abs_of_pos (by positivity : (0 : ℝ) < 2 * Real.pi), abs_of_pos hQR]; ring
  have hθ' : |-(2 * Real.pi * (d : ℝ) / Q)| ≤ Real.pi * r / Q := by
    rw [hθ]
    gcongr
  rcases Nat.eq_zero_or_pos M with h0 | hMp
  · rw [h0]; simp
  have hM1 : (1 : ℝ) ≤ M := by exact_mod_cast hMp
  refine le_trans ?_ (phases M (-(2 * Real.pi * d / Q)) ?_)
  · refine mul_le_mul_of_nonneg_left ?_ (by positivity)
    have h1 : |-(2 * Real.pi * (d : ℝ) / Q)| * M / (2 * Real.pi) ≤ (r * M / Q) / 2 := by
      calc |-(2 * Real.pi * (d : ℝ) / Q)| * M / (2 * Real.pi) ≤ (Real.pi * r / Q) * M / (2 * Real.pi) := by gcongr
        _ = (r * M / Q) / 2 := by field_simp
    have h2 : (r : ℝ) * M / Q ≤ 1 + 1 / N := by
      have hNR : (0 : ℝ) < N := by exact_mod_cast hN
      rw [div_le_iff₀ hQR]
      have : (r : ℝ) ≤ 1 / N * Q := by
        rw [div_mul_eq_mul_div, one_mul, le_div_iff₀ hNR, mul_comm]
        exact_mod_cast hQ
      linarith
    linarith
  · calc |-(2 * Real.pi * (d : ℝ) / Q)| * (M - 1) ≤ (Real.pi * r / Q) * (M - 1) := by
          apply mul_le_mul_of_nonneg_right hθ'; linarith
      _ = Real.pi * ((r * M - r) / Q) := by ring
      _ ≤ Real.pi * 1 := by
          apply mul_le_mul_of_nonneg_left _ hpi.le
          rw [div_le_one hQR]; linarith
      _ = Real.pi := mul_one _

end QDD.Bench
