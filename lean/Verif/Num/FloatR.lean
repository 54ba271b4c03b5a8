import Verif.Num.Float
import Verif.Num.MeasR
/-!
# `double` arithmetic satisfies the laws of `NumR`

`AccurateR` is `Accurate` with the underflow error of `double` (`2^-1000` is above the smallest subnormal).
-/

set_option linter.unusedSectionVars false
set_option linter.unusedVariables false
set_option linter.unusedSimpArgs false

namespace QDD.Num
open Rounding

/-- The error of rounding to `double`: a relative error of `2^-52` and an underflow error of `2^-1000`. -/
def AccurateR (ρ : Rounding ℝ) : Prop := ∀ x, |ρ.rd x - x| ≤ 1 / 2 ^ 52 * |x| + 1 / 2 ^ 1000

/-- `std::sqrt` is as accurate as the other operations. -/
def AccurateSqrt (ρ : Rounding ℝ) (sqrt : ρ.Num → ρ.Num) : Prop :=
  ∀ x : ρ.Num, 0 ≤ x.1 → |(sqrt x).1 - √x.1| ≤ 1 / 2 ^ 52 * √x.1 + 1 / 2 ^ 1000

theorem tinyR {n : Nat} (hn : n ≤ 1000) : (1 / 2 ^ 1000 : ℝ) ≤ 1 / 2 ^ n :=
  one_div_le_one_div_of_le (by positivity) (pow_le_pow_right₀ (by norm_num) hn)

theorem AccurateR.accurate {ρ : Rounding ℝ} (h : AccurateR ρ) : Accurate ρ := fun x => by
  have h1 := h x
  have h2 := tinyR (n := 200) (by norm_num)
  linarith

/-- The correctly rounded square root. -/
noncomputable def fsqrt (ρ : Rounding ℝ) (x : ρ.Num) : ρ.Num := ρ.rnd √x.1

theorem fsqrt_accurate {ρ : Rounding ℝ} (h : AccurateR ρ) : AccurateSqrt ρ (fsqrt ρ) := fun x _ => by
  have h1 := h √x.1
  rw [abs_of_nonneg (Real.sqrt_nonneg _)] at h1
  exact h1

/-- 53-bit significands, toward zero. -/
theorem toZero_accurateR : AccurateR (toZero 52) := by
  intro x
  have hη : (0 : ℝ) ≤ 1 / 2 ^ 1000 := by positivity
  rcases lt_trichotomy x 0 with h | h | h
  · have h1 : ¬ 0 < x := not_lt.2 h.le
    have := tr_err 52 (neg_pos.2 h)
    simp only [toZero, h, h1, if_false, if_true]
    rw [abs_of_neg h, show -tr 52 (-x) - x = -(tr 52 (-x) - -x) by ring, abs_neg]
    linarith
  · subst h
    simp only [toZero, lt_self_iff_false, if_false, sub_self, abs_zero, mul_zero, zero_add]
    exact hη
  · have := tr_err 52 h
    simp only [toZero, h, if_true]
    rw [abs_of_pos h]
    linarith

section
variable {ρ : Rounding ℝ} (hρ : AccurateR ρ)

theorem rd_nn {x : ℝ} (h : 0 ≤ x) : 0 ≤ ρ.rd x := by
  have := ρ.mono h
  rwa [ρ.zero] at this

include hρ in
theorem rd_err (x : ℝ) : |ρ.rd x - x| ≤ 1 / 2 ^ 50 * |x| + 1 / 2 ^ 998 := by
  have h1 := hρ x
  have h2 := abs_nonneg x
  have h3 := one_div_le_one_div_of_le (show (0 : ℝ) < 2 ^ 998 by positivity) (pow_le_pow_right₀ (show (1 : ℝ) ≤ 2 by norm_num) (show 998 ≤ 1000 by norm_num))
  have h4 : (1 / 2 ^ 52 : ℝ) * |x| ≤ 1 / 2 ^ 50 * |x| := mul_le_mul_of_nonneg_right (by norm_num) h2
  linarith

theorem pow_1000 : (1 / 2 ^ 998 : ℝ) = 4 * (1 / 2 ^ 1000) := by
  rw [show (1000 : Nat) = 998 + 2 from rfl, pow_add]
  have : (0 : ℝ) < 2 ^ 998 := by positivity
  field_simp
  norm_num

include hρ in
theorem mag2_errR (a : FCx ρ dblTol) : |(fmag2 a).1 - ‖fval a‖ ^ 2| ≤ 1 / 2 ^ 50 * ‖fval a‖ ^ 2 + 1 / 2 ^ 998 := by
  rw [fval_sq, pow_1000]
  have hp := hρ (a.r.1 * a.r.1)
  have hq := hρ (a.i.1 * a.i.1)
  have hs := hρ (ρ.rd (a.r.1 * a.r.1) + ρ.rd (a.i.1 * a.i.1))
  have e : (fmag2 a).1 = ρ.rd (ρ.rd (a.r.1 * a.r.1) + ρ.rd (a.i.1 * a.i.1)) := rfl
  rw [e]
  generalize ρ.rd (ρ.rd (a.r.1 * a.r.1) + ρ.rd (a.i.1 * a.i.1)) = s at *
  generalize ρ.rd (a.r.1 * a.r.1) = p at *
  generalize ρ.rd (a.i.1 * a.i.1) = q at *
  have hx : 0 ≤ a.r.1 * a.r.1 := mul_self_nonneg _
  have hy : 0 ≤ a.i.1 * a.i.1 := mul_self_nonneg _
  rw [abs_of_nonneg hx] at hp
  rw [abs_of_nonneg hy] at hq
  rw [sq, sq]
  generalize a.r.1 * a.r.1 = x at *
  generalize a.i.1 * a.i.1 = y at *
  have h1 : |p + q| ≤ |p - x| + |q - y| + (x + y) := by
    have : p + q = (p - x) + (q - y) + (x + y) := by ring
    rw [this]
    refine (abs_add_le _ _).trans (add_le_add (abs_add_le _ _) ?_)
    rw [abs_of_nonneg (add_nonneg hx hy)]
  have h2 : |s - (x + y)| ≤ |s - (p + q)| + (|p - x| + |q - y|) := by
    have : s - (x + y) = (s - (p + q)) + ((p - x) + (q - y)) := by ring
    rw [this]
    exact (abs_add_le _ _).trans (add_le_add le_rfl (abs_add_le _ _))
  have hη : (0 : ℝ) ≤ 1 / 2 ^ 1000 := by positivity
  generalize (1 / 2 ^ 1000 : ℝ) = η at *
  norm_num at hp hq hs h1 h2 ⊢
  linarith

/-- The instance for `double`: relative error `2^-50`, underflow error `2^-998`. -/
@[reducible] noncomputable def numR (ρ : Rounding ℝ) (hρ : AccurateR ρ) (sqrt : ρ.Num → ρ.Num) (hs : AccurateSqrt ρ sqrt) :
    letI := roundW ρ dblTol_nn dblTol_lt; letI := numW ρ hρ.accurate; letI := measOps ρ dblTol sqrt; NumR ρ.Num (FCx ρ dblTol) :=
  letI := roundW ρ dblTol_nn dblTol_lt
  letI := numW ρ hρ.accurate
  letI := measOps ρ dblTol sqrt
  { rv := fun x => x.1
    u := 1 / 2 ^ 50
    eta := 1 / 2 ^ 998
    u_nn := by positivity
    u_le := by norm_num
    u_ge := by norm_num
    eta_nn := by positivity
    eta_le := by
      rw [div_div, ← pow_add]
      exact one_div_le_one_div_of_le (by positivity) (pow_le_pow_right₀ (by norm_num) (by norm_num))
    u_eps := by
      show (1 / 2 ^ 50 : ℝ) ≤ 1 / 2 ^ 41
      norm_num
    rv_zero := rfl
    rv_one := rfl
    add_err := fun x y => rd_err hρ _
    sub_err := fun x y => rd_err hρ _
    mul_err := fun x y => rd_err hρ _
    div_err := fun x y _ => rd_err hρ _
    sqrt_err := fun x hx => by
      have h1 := hs x hx
      have h2 := Real.sqrt_nonneg x.1
      have h3 := one_div_le_one_div_of_le (show (0 : ℝ) < 2 ^ 998 by positivity) (pow_le_pow_right₀ (show (1 : ℝ) ≤ 2 by norm_num) (show 998 ≤ 1000 by norm_num))
      have h4 : (1 / 2 ^ 52 : ℝ) * √x.1 ≤ 1 / 2 ^ 50 * √x.1 := mul_le_mul_of_nonneg_right (by norm_num) h2
      show |(sqrt x).1 - √x.1| ≤ _
      linarith
    add_nn := fun hx hy => rd_nn (add_nonneg hx hy)
    mul_nn := fun hx hy => rd_nn (mul_nonneg hx hy)
    div_nn := fun hx hy => rd_nn (div_nonneg hx (le_of_lt hy))
    mag2_nn := fun w => rd_nn (add_nonneg (rd_nn (mul_self_nonneg _)) (rd_nn (mul_self_nonneg _)))
    lt_iff := fun x y => by
      show decide (x.1 < y.1) = true ↔ _
      rw [decide_eq_true_eq]
    eq0_iff := fun x => by
      show decide (x.1 = 0) = true ↔ _
      rw [decide_eq_true_eq]
    far_imp := fun s e h => by
      have h : decide (e.1 < |(fsub s f1).1|) = true := h
      rw [decide_eq_true_eq] at h
      have h1 := rd_err hρ (s.1 - 1)
      have h2 : |(fsub s f1).1| ≤ |ρ.rd (s.1 - 1) - (s.1 - 1)| + |s.1 - 1| := by
        have : (fsub s f1).1 = (ρ.rd (s.1 - 1) - (s.1 - 1)) + (s.1 - 1) := by
          show ρ.rd (s.1 - 1) = _
          ring
        rw [this]
        exact abs_add_le _ _
      show e.1 ≤ |s.1 - 1| * (1 + 1 / 2 ^ 50) + 1 / 2 ^ 998
      linarith
    mag2_err := fun w => mag2_errR hρ w
    val_ofReal := fun x => by
      show (⟨x.1, 0⟩ : ℂ) = (x.1 : ℂ)
      rfl
    az_big := fun {w} h => by
      have h1 := not_az_norm h
      have h2 := norm_nonneg (fval w)
      show 1 / 2 ^ 50 ≤ ‖fval w‖
      have h3 : dblTol < ‖fval w‖ := lt_of_pow_lt_pow_left₀ 2 h2 h1
      unfold dblTol at h3
      norm_num at h3 ⊢
      linarith }

end
end QDD.Num
