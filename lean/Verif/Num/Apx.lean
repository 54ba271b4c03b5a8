import Mathlib.Analysis.SpecialFunctions.Pow.NNReal
import Mathlib.Tactic.Linarith
import Mathlib.Tactic.Positivity
import Mathlib.Tactic.Ring
/-!
# Relative error with an underflow term

`Ap v n a x y`: the nonnegative numbers `x` and `y` agree up to a factor `(1 + v)^n` and an absolute error `a`.
-/

set_option linter.unusedSectionVars false
set_option linter.unusedVariables false

namespace QDD.Num

/-- `x` and `y` agree up to a factor `(1 + v) ^ n` after adding `a`. -/
def Ap (v : ℝ) (n : Nat) (a x y : ℝ) : Prop := x ≤ (y + a) * (1 + v) ^ n ∧ y ≤ (x + a) * (1 + v) ^ n

variable {v : ℝ} {n m : Nat} {a b x y z x' y' : ℝ}

theorem one_le_pw (hv : 0 ≤ v) (n : Nat) : 1 ≤ (1 + v) ^ n := one_le_pow₀ (by linarith)

theorem pw_mono (hv : 0 ≤ v) (h : n ≤ m) : (1 + v) ^ n ≤ (1 + v) ^ m := pow_le_pow_right₀ (by linarith) h

theorem Ap.refl (hv : 0 ≤ v) (hx : 0 ≤ x) : Ap v 0 0 x x := by simp [Ap]

theorem Ap.symm (h : Ap v n a x y) : Ap v n a y x := ⟨h.2, h.1⟩

theorem Ap.mono (hv : 0 ≤ v) (hx : 0 ≤ x) (hy : 0 ≤ y) (ha : 0 ≤ a) (hnm : n ≤ m) (hab : a ≤ b) (h : Ap v n a x y) :
    Ap v m b x y := by
  have h1 := pw_mono hv hnm
  have h2 := one_le_pw hv n
  exact ⟨h.1.trans (mul_le_mul (by linarith) h1 (by linarith) (by linarith)),
    h.2.trans (mul_le_mul (by linarith) h1 (by linarith) (by linarith))⟩

theorem Ap.trans (hv : 0 ≤ v) (ha : 0 ≤ a) (hb : 0 ≤ b) (h : Ap v n a x y) (h' : Ap v m b y z) : Ap v (n + m) (a + b) x z := by
  have h1 := one_le_pw hv n
  have h2 := one_le_pw hv m
  constructor
  · calc x ≤ (y + a) * (1 + v) ^ n := h.1
      _ ≤ ((z + b) * (1 + v) ^ m + a * (1 + v) ^ m) * (1 + v) ^ n := by
        refine mul_le_mul_of_nonneg_right (add_le_add h'.1 ?_) (by linarith)
        nlinarith
      _ = _ := by rw [pow_add]; ring
  · calc z ≤ (y + b) * (1 + v) ^ m := h'.2
      _ ≤ ((x + a) * (1 + v) ^ n + b * (1 + v) ^ n) * (1 + v) ^ m := by
        refine mul_le_mul_of_nonneg_right (add_le_add h.2 ?_) (by linarith)
        nlinarith
      _ = _ := by rw [pow_add]; ring

theorem Ap.add (h : Ap v n a x y) (h' : Ap v n b x' y') : Ap v n (a + b) (x + x') (y + y') :=
  ⟨by have := add_le_add h.1 h'.1; nlinarith, by have := add_le_add h.2 h'.2; nlinarith⟩

theorem Ap.addLeft (hv : 0 ≤ v) (hx : 0 ≤ z) (h : Ap v n a x y) : Ap v n a (z + x) (z + y) := by
  have h1 := one_le_pw hv n
  exact ⟨by nlinarith [h.1], by nlinarith [h.2]⟩

theorem Ap.addRight (hv : 0 ≤ v) (hx : 0 ≤ z) (h : Ap v n a x y) : Ap v n a (x + z) (y + z) := by
  rw [add_comm x, add_comm y]; exact h.addLeft hv hx

theorem Ap.smul {c : ℝ} (hc : 0 ≤ c) (h : Ap v n a x y) : Ap v n (c * a) (c * x) (c * y) :=
  ⟨by have := mul_le_mul_of_nonneg_left h.1 hc; nlinarith, by have := mul_le_mul_of_nonneg_left h.2 hc; nlinarith⟩

theorem Ap.mulR {c : ℝ} (hc : 0 ≤ c) (h : Ap v n a x y) : Ap v n (a * c) (x * c) (y * c) := by
  rw [mul_comm a, mul_comm x, mul_comm y]; exact h.smul hc

/-- Products, one factor with a purely relative error. -/
theorem Ap.mul {c d B : ℝ} (hv : 0 ≤ v) (hx : 0 ≤ x) (hy : 0 ≤ y) (ha : 0 ≤ a) (hc : 0 ≤ c) (hd : 0 ≤ d) (hcB : c ≤ B) (hdB : d ≤ B)
    (h : Ap v n a x y) (h' : Ap v m 0 c d) : Ap v (n + m) (a * B) (x * c) (y * d) := by
  have h1 := one_le_pw hv n
  have h2 := one_le_pw hv m
  have h3 := h'.1
  have h4 := h'.2
  rw [add_zero] at h3 h4
  constructor
  · calc x * c ≤ ((y + a) * (1 + v) ^ n) * (d * (1 + v) ^ m) := mul_le_mul h.1 h3 hc (by positivity)
      _ = (y * d + a * d) * (1 + v) ^ (n + m) := by rw [pow_add]; ring
      _ ≤ _ := mul_le_mul_of_nonneg_right (by nlinarith) (by positivity)
  · calc y * d ≤ ((x + a) * (1 + v) ^ n) * (c * (1 + v) ^ m) := mul_le_mul h.2 h4 hd (by positivity)
      _ = (x * c + a * c) * (1 + v) ^ (n + m) := by rw [pow_add]; ring
      _ ≤ _ := mul_le_mul_of_nonneg_right (by nlinarith) (by positivity)

theorem Ap.inv {c d : ℝ} (hc : 0 < c) (hd : 0 < d) (hv : 0 ≤ v) (h : Ap v m 0 c d) : Ap v m 0 c⁻¹ d⁻¹ := by
  have h2 : 0 < (1 + v) ^ m := lt_of_lt_of_le one_pos (one_le_pw hv m)
  have h3 := h.1
  have h4 := h.2
  rw [add_zero] at h3 h4
  constructor
  · rw [add_zero, inv_mul_eq_div, le_div_iff₀ hd, inv_mul_le_iff₀ hc]
    linarith
  · rw [add_zero, inv_mul_eq_div, le_div_iff₀ hc, inv_mul_le_iff₀ hd]
    linarith

/-- Quotients. -/
theorem Ap.div {c d B : ℝ} (hv : 0 ≤ v) (hx : 0 ≤ x) (hy : 0 ≤ y) (ha : 0 ≤ a) (hc : 0 < c) (hd : 0 < d) (hcB : c⁻¹ ≤ B) (hdB : d⁻¹ ≤ B)
    (h : Ap v n a x y) (h' : Ap v m 0 c d) : Ap v (n + m) (a * B) (x / c) (y / d) := by
  rw [div_eq_mul_inv, div_eq_mul_inv]
  exact h.mul hv hx hy ha (by positivity) (by positivity) hcB hdB (h'.inv hc hd hv)

/-- An absolute error far below both numbers is a relative error. -/
theorem Ap.absorb (hv : 0 ≤ v) (hx : a ≤ v * x) (hy : a ≤ v * y) (h : Ap v n a x y) : Ap v (n + 1) 0 x y := by
  have h1 := one_le_pw hv n
  constructor
  · refine h.1.trans ?_
    rw [pow_succ']
    nlinarith
  · refine h.2.trans ?_
    rw [pow_succ']
    nlinarith

/-- One rounding. -/
theorem Ap.of_err {u : ℝ} (hu : 0 ≤ u) (hu' : u ≤ 1 / 8) (hx : 0 ≤ x) (hy : 0 ≤ y) (ha : 0 ≤ a) (h : |x - y| ≤ u * y + a) :
    Ap (4 * u) 1 a x y := by
  have h := abs_le.1 h
  rw [Ap, pow_one]
  constructor
  · nlinarith [mul_nonneg hu hy, mul_nonneg hu ha]
  · have h1 : y * (1 - u) ≤ x + a := by linarith [h.1]
    have h2 : 1 ≤ (1 - u) * (1 + 4 * u) := by nlinarith
    calc y ≤ y * ((1 - u) * (1 + 4 * u)) := by nlinarith
      _ = (y * (1 - u)) * (1 + 4 * u) := by ring
      _ ≤ _ := mul_le_mul_of_nonneg_right h1 (by linarith)

/-- One rounding of a number well above the underflow threshold. -/
theorem Ap.of_err' {u : ℝ} (hu : 0 ≤ u) (hu' : u ≤ 1 / 8) (hx : 0 ≤ x) (hy : 0 ≤ y) (ha : a ≤ u * y) (h : |x - y| ≤ u * y + a) :
    Ap (4 * u) 1 0 x y := by
  have h := abs_le.1 h
  rw [Ap, pow_one, add_zero, add_zero]
  constructor
  · nlinarith [mul_nonneg hu hy]
  · have h1 : y * (1 - 2 * u) ≤ x := by linarith [h.1]
    have h2 : 1 ≤ (1 - 2 * u) * (1 + 4 * u) := by nlinarith
    calc y ≤ y * ((1 - 2 * u) * (1 + 4 * u)) := by nlinarith
      _ = (y * (1 - 2 * u)) * (1 + 4 * u) := by ring
      _ ≤ _ := mul_le_mul_of_nonneg_right h1 (by linarith)

theorem pw_le (hv : 0 ≤ v) : ∀ n : Nat, 2 * n * v ≤ 1 → (1 + v) ^ n ≤ 1 + 2 * n * v
  | 0, _ => by simp
  | n + 1, h => by
    push_cast at h ⊢
    have h0 : (0 : ℝ) ≤ n := Nat.cast_nonneg n
    have ih := pw_le hv n (by nlinarith)
    rw [pow_succ]
    have h1 : 0 ≤ 1 + 2 * n * v := by positivity
    calc (1 + v) ^ n * (1 + v) ≤ (1 + 2 * n * v) * (1 + v) := mul_le_mul_of_nonneg_right ih (by linarith)
      _ = 1 + 2 * n * v + v + 2 * n * v * v := by ring
      _ ≤ _ := by nlinarith

/-- The absolute error. -/
theorem Ap.abs (hv : 0 ≤ v) (hn : 2 * n * v ≤ 1) (hx : 0 ≤ x) (hy : 0 ≤ y) (ha : 0 ≤ a) (h : Ap v n a x y) :
    |x - y| ≤ 4 * n * v * y + 4 * a := by
  have h1 := pw_le hv n hn
  have h0 : (0 : ℝ) ≤ n := Nat.cast_nonneg n
  have hs : 0 ≤ n * v := by positivity
  have h2 : x ≤ (y + a) * (1 + 2 * n * v) := h.1.trans (mul_le_mul_of_nonneg_left h1 (by linarith))
  have h3 : y ≤ (x + a) * (1 + 2 * n * v) := h.2.trans (mul_le_mul_of_nonneg_left h1 (by linarith))
  have ht : 2 * (n * v) ≤ 1 := by linarith
  generalize hτ : (n : ℝ) * v = τ at *
  have e2 : x ≤ (y + a) * (1 + 2 * τ) := by rw [← hτ]; linarith
  have e3 : y ≤ (x + a) * (1 + 2 * τ) := by rw [← hτ]; linarith
  have e4 : 4 * (n : ℝ) * v * y = 4 * τ * y := by rw [← hτ]; ring
  rw [e4, abs_le]
  have p1 : 0 ≤ τ * y := by positivity
  have p2 : 0 ≤ τ * a := by positivity
  have p3 : 0 ≤ τ * x := by positivity
  have q1 : τ * a ≤ a := by nlinarith
  have q2 : τ * x ≤ τ * ((y + a) * (1 + 2 * τ)) := mul_le_mul_of_nonneg_left e2 hs
  have q3 : τ * ((y + a) * (1 + 2 * τ)) ≤ τ * ((y + a) * 2) := by
    refine mul_le_mul_of_nonneg_left ?_ hs
    nlinarith
  constructor
  · nlinarith
  · nlinarith

end QDD.Num
