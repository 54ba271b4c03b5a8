import Verif.Num.Inv
import Verif.Safe.Round
/-!
# `double` arithmetic satisfies the laws of `NumW`

`Accurate ρ` bounds the error of a rounding function as IEEE 754 `double` does: relative error at most `2^-52`, plus an
absolute error far below the smallest number the engine tells from zero (underflow).  With `TOLERANCE = 2^-42` (dd.h 23)
every law holds with `eps = 2^-41`.
-/

set_option linter.unusedSectionVars false
set_option linter.unusedVariables false
set_option linter.unusedSimpArgs false

namespace QDD.Num
open Rounding

/-- `TOLERANCE` (dd.h 23): `std::numeric_limits<double>::epsilon() * 1024`. -/
noncomputable def dblTol : ℝ := 1 / 2 ^ 42

/-- The error of rounding to `double` (any IEEE mode): a relative error of `2^-52` and an underflow error. -/
def Accurate (ρ : Rounding ℝ) : Prop := ∀ x, |ρ.rd x - x| ≤ 1 / 2 ^ 52 * |x| + 1 / 2 ^ 200

theorem dblTol_nn : 0 ≤ dblTol := by unfold dblTol; positivity
theorem dblTol_lt : dblTol < 1 := by unfold dblTol; norm_num

section
variable {ρ : Rounding ℝ} (hρ : Accurate ρ)

local notation "u" => (1 / 2 ^ 52 : ℝ)
local notation "η" => (1 / 2 ^ 200 : ℝ)

/-- The complex number a pair of doubles stands for. -/
def fval (a : FCx ρ dblTol) : ℂ := ⟨a.r.1, a.i.1⟩

theorem fval_sq (a : FCx ρ dblTol) : ‖fval a‖ ^ 2 = a.r.1 ^ 2 + a.i.1 ^ 2 := by
  rw [← Complex.normSq_eq_norm_sq, Complex.normSq_apply]
  simp [fval, sq]

theorem norm_le_sum (z : ℂ) : ‖z‖ ≤ |z.re| + |z.im| := Complex.norm_le_abs_re_add_abs_im z

/-- Two roundings of a sum of two products. -/
theorem two_prod {x y p q s P : ℝ} (hx : |x| ≤ P) (hy : |y| ≤ P) (hp : |p - x| ≤ u * |x| + η) (hq : |q - y| ≤ u * |y| + η)
    (hs : |s - (p + q)| ≤ u * |p + q| + η) : |s - (x + y)| ≤ 5 * u * P + 4 * η := by
  have h1 : |p + q| ≤ |p - x| + |q - y| + (|x| + |y|) := by
    have : p + q = (p - x) + (q - y) + (x + y) := by ring
    rw [this]
    exact (abs_add_le _ _).trans (add_le_add (abs_add_le _ _) (abs_add_le _ _))
  have h2 : |s - (x + y)| ≤ |s - (p + q)| + (|p - x| + |q - y|) := by
    have : s - (x + y) = (s - (p + q)) + ((p - x) + (q - y)) := by ring
    rw [this]
    exact (abs_add_le _ _).trans (add_le_add le_rfl (abs_add_le _ _))
  have h3 : (0 : ℝ) ≤ P := (abs_nonneg x).trans hx
  norm_num at hp hq hs h1 h2 ⊢
  linarith

include hρ in
theorem fmag2_err (a : FCx ρ dblTol) : |(fmag2 a).1 - ‖fval a‖ ^ 2| ≤ 3 * u * ‖fval a‖ ^ 2 + 4 * η := by
  rw [fval_sq]
  have hp := hρ (a.r.1 * a.r.1)
  have hq := hρ (a.i.1 * a.i.1)
  have hs := hρ (ρ.rd (a.r.1 * a.r.1) + ρ.rd (a.i.1 * a.i.1))
  have e : (fmag2 a).1 = ρ.rd (ρ.rd (a.r.1 * a.r.1) + ρ.rd (a.i.1 * a.i.1)) := rfl
  rw [e]
  generalize ρ.rd (ρ.rd (a.r.1 * a.r.1) + ρ.rd (a.i.1 * a.i.1)) = s at *
  generalize ρ.rd (a.r.1 * a.r.1) = p at *
  generalize ρ.rd (a.i.1 * a.i.1) = q at *
  have hx : 0 ≤ a.r.1 * a.r.1 := mul_self_nonneg _
  have hy : 0 ≤ a.i.1 * a.i.1 := mul_self_nonneg _
  rw [abs_of_nonneg hx] at hp
  rw [abs_of_nonneg hy] at hq
  rw [sq, sq]
  generalize a.r.1 * a.r.1 = x at *
  generalize a.i.1 * a.i.1 = y at *
  have h1 : |p + q| ≤ |p - x| + |q - y| + (x + y) := by
    have : p + q = (p - x) + (q - y) + (x + y) := by ring
    rw [this]
    refine (abs_add_le _ _).trans (add_le_add (abs_add_le _ _) ?_)
    rw [abs_of_nonneg (add_nonneg hx hy)]
  have h2 : |s - (x + y)| ≤ |s - (p + q)| + (|p - x| + |q - y|) := by
    have : s - (x + y) = (s - (p + q)) + ((p - x) + (q - y)) := by ring
    rw [this]
    exact (abs_add_le _ _).trans (add_le_add le_rfl (abs_add_le _ _))
  norm_num at hp hq hs h1 h2 ⊢
  linarith

theorem comp_le (a : FCx ρ dblTol) : |a.r.1| ≤ ‖fval a‖ ∧ |a.i.1| ≤ ‖fval a‖ :=
  ⟨Complex.abs_re_le_norm (fval a), Complex.abs_im_le_norm (fval a)⟩

theorem az_norm {a : FCx ρ dblTol} (h : WOps.az a = true) : ‖fval a‖ ^ 2 ≤ 2 * dblTol ^ 2 := by
  have h : decide (|a.r.1| ≤ dblTol ∧ |a.i.1| ≤ dblTol) = true := h
  rw [decide_eq_true_eq] at h
  rw [fval_sq, ← sq_abs a.r.1, ← sq_abs a.i.1]
  have := dblTol_nn
  nlinarith [h.1, h.2, abs_nonneg a.r.1, abs_nonneg a.i.1]

theorem not_az_norm {a : FCx ρ dblTol} (h : WOps.az a = false) : dblTol ^ 2 < ‖fval a‖ ^ 2 := by
  have h : decide (|a.r.1| ≤ dblTol ∧ |a.i.1| ≤ dblTol) = false := h
  rw [decide_eq_false_iff_not] at h
  rw [fval_sq, ← sq_abs a.r.1, ← sq_abs a.i.1]
  have h0 := dblTol_nn
  by_cases h1 : |a.r.1| ≤ dblTol
  · have h2 : ¬ |a.i.1| ≤ dblTol := fun g => h ⟨h1, g⟩
    rw [not_le] at h2
    nlinarith [sq_nonneg |a.r.1|]
  · rw [not_le] at h1
    nlinarith [sq_nonneg |a.i.1|]

include hρ in
/-- Comparing computed magnitudes compares moduli. -/
theorem mag_sq {a b : FCx ρ dblTol} (h : (fmag2 a).1 ≤ (fmag2 b).1) :
    ‖fval a‖ ^ 2 ≤ (1 + 10 * u) * ‖fval b‖ ^ 2 + 16 * η := by
  have h1 := abs_le.1 (fmag2_err hρ a)
  have h2 := abs_le.1 (fmag2_err hρ b)
  have h3 := sq_nonneg ‖fval a‖
  have h4 := sq_nonneg ‖fval b‖
  generalize ‖fval a‖ ^ 2 = A at *
  generalize ‖fval b‖ ^ 2 = B at *
  norm_num at h1 h2 ⊢
  linarith

include hρ in
theorem fdiv_comp {n0 num den B : ℝ} (hB : dblTol ^ 2 < B) (hn0 : |n0| ≤ 101 / 100 * B) (hnum : |num - n0| ≤ 6 * u * B + 4 * η)
    (hden : |den - B| ≤ 3 * u * B + 4 * η) : |ρ.rd (num / den) - n0 / B| ≤ 20 * u := by
  have hB0 : 0 < B := lt_of_le_of_lt (sq_nonneg _) hB
  have hη : η ≤ 1 / 2 ^ 60 * B := by
    unfold dblTol at hB
    norm_num at hB ⊢
    linarith
  have hd := abs_le.1 hden
  have hden1 : 99 / 100 * B ≤ den := by
    norm_num at hd hη ⊢
    linarith
  have hden0 : 0 < den := by linarith
  have hq : |num / den - n0 / B| ≤ 15 * u := by
    have e : num / den - n0 / B = ((num - n0) * B - n0 * (den - B)) / (den * B) := by
      field_simp
      ring
    rw [e, abs_div, abs_of_pos (mul_pos hden0 hB0), div_le_iff₀ (mul_pos hden0 hB0)]
    have h1 : |(num - n0) * B - n0 * (den - B)| ≤ |num - n0| * B + |n0| * |den - B| := by
      refine (abs_sub _ _).trans ?_
      rw [abs_mul, abs_mul, abs_of_pos hB0]
    have h2 : |num - n0| * B ≤ (7 * u * B) * B := by
      refine mul_le_mul_of_nonneg_right (hnum.trans ?_) hB0.le
      norm_num at hη ⊢
      linarith
    have h3 : |n0| * |den - B| ≤ (101 / 100 * B) * (4 * u * B) := by
      refine mul_le_mul hn0 (hden.trans ?_) (abs_nonneg _) (by positivity)
      norm_num at hη ⊢
      linarith
    have h4 : 15 * u * (99 / 100 * B * B) ≤ 15 * u * (den * B) :=
      mul_le_mul_of_nonneg_left (mul_le_mul_of_nonneg_right hden1 hB0.le) (by positivity)
    have h5 : 0 < B * B := mul_pos hB0 hB0
    norm_num at h2 h3 h4 ⊢
    linarith
  have hn : |n0 / B| ≤ 101 / 100 := by
    rw [abs_div, abs_of_pos hB0, div_le_iff₀ hB0]
    exact hn0
  have hr := hρ (num / den)
  have h6 : |num / den| ≤ |num / den - n0 / B| + |n0 / B| := by
    have := abs_add_le (num / den - n0 / B) (n0 / B)
    simpa using this
  have h7 : |ρ.rd (num / den) - n0 / B| ≤ |ρ.rd (num / den) - num / den| + |num / den - n0 / B| := abs_sub_le _ _ _
  norm_num at hr hq h6 h7 hn ⊢
  linarith

include hρ in
/-- A weight divided by itself compares equal to one. -/
theorem fdiv_self {b : FCx ρ dblTol} (hz : WOps.az b = false) :
    |ρ.rd (ρ.rd (ρ.rd (ρ.rd (b.r.1 * b.r.1) + ρ.rd (b.i.1 * b.i.1)) / (fmag2 b).1) - 1)| ≤ dblTol ∧
    |ρ.rd (ρ.rd (ρ.rd (ρ.rd (b.i.1 * b.r.1) - ρ.rd (b.r.1 * b.i.1)) / (fmag2 b).1) - 0)| ≤ dblTol := by
  have h2 := not_az_norm hz
  have hB0 : 0 < ‖fval b‖ ^ 2 := lt_of_le_of_lt (sq_nonneg _) h2
  have hden := fmag2_err hρ b
  have hP : ∀ {x y : ℝ}, |x| ≤ ‖fval b‖ → |y| ≤ ‖fval b‖ → |x * y| ≤ ‖fval b‖ * ‖fval b‖ := fun hx hy => by
    rw [abs_mul]; exact mul_le_mul hx hy (abs_nonneg _) (norm_nonneg _)
  have nre := two_prod (x := b.r.1 * b.r.1) (y := b.i.1 * b.i.1) (p := ρ.rd (b.r.1 * b.r.1)) (q := ρ.rd (b.i.1 * b.i.1))
    (s := ρ.rd (ρ.rd (b.r.1 * b.r.1) + ρ.rd (b.i.1 * b.i.1))) (P := ‖fval b‖ * ‖fval b‖)
    (hP (comp_le b).1 (comp_le b).1) (hP (comp_le b).2 (comp_le b).2) (hρ _) (hρ _) (hρ _)
  have nim := two_prod (x := b.i.1 * b.r.1) (y := -(b.r.1 * b.i.1)) (p := ρ.rd (b.i.1 * b.r.1)) (q := -ρ.rd (b.r.1 * b.i.1))
    (s := ρ.rd (ρ.rd (b.i.1 * b.r.1) - ρ.rd (b.r.1 * b.i.1))) (P := ‖fval b‖ * ‖fval b‖)
    (hP (comp_le b).2 (comp_le b).1) (by rw [abs_neg]; exact hP (comp_le b).1 (comp_le b).2) (hρ _)
    (by rw [← ρ.neg]; exact hρ _) (by rw [← sub_eq_add_neg]; exact hρ _)
  rw [← sub_eq_add_neg] at nim
  have hnum : 5 * u * (‖fval b‖ * ‖fval b‖) + 4 * η ≤ 6 * u * ‖fval b‖ ^ 2 + 4 * η := by
    rw [sq] at hB0 ⊢
    norm_num
    linarith
  have e1 : b.r.1 * b.r.1 + b.i.1 * b.i.1 = ‖fval b‖ ^ 2 := by rw [fval_sq, sq, sq]
  have e2 : b.i.1 * b.r.1 - b.r.1 * b.i.1 = 0 := by ring
  rw [e1] at nre
  rw [e2] at nim
  have qre := fdiv_comp hρ h2 (by rw [abs_of_pos hB0]; linarith) (nre.trans hnum) hden
  have qim := fdiv_comp hρ h2 (n0 := 0) (by rw [abs_zero]; linarith) (nim.trans hnum) hden
  rw [div_self hB0.ne'] at qre
  rw [zero_div] at qim
  have hsm : ∀ x : ℝ, |x| ≤ 20 * u → |ρ.rd x| ≤ dblTol := by
    intro x hx
    have h1 := hρ x
    have h3 : |ρ.rd x| ≤ |ρ.rd x - x| + |x| := by
      have := abs_add_le (ρ.rd x - x) x
      rwa [sub_add_cancel] at this
    unfold dblTol
    norm_num at hx h1 h3 ⊢
    linarith
  exact ⟨hsm _ qre, hsm _ qim⟩

/-- The laws, for every accurate rounding. -/
@[reducible] noncomputable def numW (ρ : Rounding ℝ) (hρ : Accurate ρ) :
    letI := roundW ρ dblTol_nn dblTol_lt; NumW (FCx ρ dblTol) :=
  letI := roundW ρ dblTol_nn dblTol_lt
  { val := fval
    eps := 1 / 2 ^ 41
    mag := fun a => (fmag2 a).1
    eps_nn := by positivity
    eps_le := by norm_num
    val_z := by
      intro a h
      have h : a = ⟨f0, f0⟩ := h
      subst h; rfl
    val_one := rfl
    add_err := by
      intro a b
      have hr := hρ (a.r.1 + b.r.1)
      have hi := hρ (a.i.1 + b.i.1)
      have e : fval (WOps.add a b) - (fval a + fval b) =
          ⟨ρ.rd (a.r.1 + b.r.1) - (a.r.1 + b.r.1), ρ.rd (a.i.1 + b.i.1) - (a.i.1 + b.i.1)⟩ := rfl
      rw [e]
      refine (norm_le_sum _).trans ?_
      dsimp only
      have h1 := abs_add_le a.r.1 b.r.1
      have h2 := abs_add_le a.i.1 b.i.1
      have h3 := comp_le a
      have h4 := comp_le b
      norm_num at hr hi ⊢
      linarith [h3.1, h3.2, h4.1, h4.2, norm_nonneg (fval a), norm_nonneg (fval b)]
    mul_err := by
      intro a b
      have P0 : 0 ≤ ‖fval a‖ * ‖fval b‖ := by positivity
      have hP : ∀ {x y : ℝ}, |x| ≤ ‖fval a‖ → |y| ≤ ‖fval b‖ → |x * y| ≤ ‖fval a‖ * ‖fval b‖ := fun hx hy => by
        rw [abs_mul]; exact mul_le_mul hx hy (abs_nonneg _) (norm_nonneg _)
      have e : fval (WOps.mul a b) - fval a * fval b =
          ⟨ρ.rd (ρ.rd (a.r.1 * b.r.1) - ρ.rd (a.i.1 * b.i.1)) - (a.r.1 * b.r.1 - a.i.1 * b.i.1),
            ρ.rd (ρ.rd (a.r.1 * b.i.1) + ρ.rd (a.i.1 * b.r.1)) - (a.r.1 * b.i.1 + a.i.1 * b.r.1)⟩ := by
        apply Complex.ext
        · simp only [Complex.sub_re, Complex.mul_re]; rfl
        · simp only [Complex.sub_im, Complex.mul_im]; rfl
      rw [e]
      refine (norm_le_sum _).trans ?_
      dsimp only
      have hre := two_prod (x := a.r.1 * b.r.1) (y := -(a.i.1 * b.i.1)) (p := ρ.rd (a.r.1 * b.r.1)) (q := -ρ.rd (a.i.1 * b.i.1))
        (s := ρ.rd (ρ.rd (a.r.1 * b.r.1) - ρ.rd (a.i.1 * b.i.1))) (P := ‖fval a‖ * ‖fval b‖)
        (hP (comp_le a).1 (comp_le b).1) (by rw [abs_neg]; exact hP (comp_le a).2 (comp_le b).2) (hρ _)
        (by rw [← ρ.neg]; exact hρ _) (by rw [← sub_eq_add_neg]; exact hρ _)
      have him := two_prod (x := a.r.1 * b.i.1) (y := a.i.1 * b.r.1) (p := ρ.rd (a.r.1 * b.i.1)) (q := ρ.rd (a.i.1 * b.r.1))
        (s := ρ.rd (ρ.rd (a.r.1 * b.i.1) + ρ.rd (a.i.1 * b.r.1))) (P := ‖fval a‖ * ‖fval b‖)
        (hP (comp_le a).1 (comp_le b).2) (hP (comp_le a).2 (comp_le b).1) (hρ _) (hρ _) (hρ _)
      rw [← sub_eq_add_neg] at hre
      norm_num at hre him ⊢
      linarith
    lt_iff := fun a b => by
      show decide ((fmag2 a).1 < (fmag2 b).1) = true ↔ _
      rw [decide_eq_true_eq]
    mag_le := by
      intro a b hz h
      have h1 := mag_sq hρ h
      have h2 := not_az_norm hz
      have h3 : 16 * η ≤ u * ‖fval b‖ ^ 2 := by
        unfold dblTol at h2
        norm_num at h2 ⊢
        linarith
      have h4 : ‖fval a‖ ^ 2 ≤ ((1 + 1 / 2 ^ 41) * ‖fval b‖) ^ 2 := by
        rw [mul_pow]
        have := sq_nonneg ‖fval b‖
        norm_num at h1 h3 ⊢
        linarith
      exact le_of_sq_le_sq h4 (by positivity)
    mag_le0 := by
      intro a b hz h
      have h1 := mag_sq hρ h
      have h2 := az_norm hz
      have h4 : ‖fval a‖ ^ 2 ≤ (2 * (1 / 2 ^ 41)) ^ 2 := by
        unfold dblTol at h2
        norm_num at h1 h2 ⊢
        linarith
      exact le_of_sq_le_sq h4 (by positivity)
    div_err := by
      intro a b hz h
      have h1 := mag_sq hρ h
      have h2 := not_az_norm hz
      have hB0 : 0 < ‖fval b‖ ^ 2 := lt_of_le_of_lt (sq_nonneg _) h2
      have h3 : 16 * η ≤ u * ‖fval b‖ ^ 2 := by
        unfold dblTol at h2
        norm_num at h2 ⊢
        linarith
      have hab : ‖fval a‖ ≤ 1001 / 1000 * ‖fval b‖ := by
        refine le_of_sq_le_sq ?_ (by positivity)
        rw [mul_pow]
        norm_num at h1 h3 ⊢
        linarith
      have hPB : ‖fval a‖ * ‖fval b‖ ≤ 1001 / 1000 * ‖fval b‖ ^ 2 := by
        rw [sq, ← mul_assoc]
        exact mul_le_mul_of_nonneg_right hab (norm_nonneg _)
      have hP : ∀ {x y : ℝ}, |x| ≤ ‖fval a‖ → |y| ≤ ‖fval b‖ → |x * y| ≤ ‖fval a‖ * ‖fval b‖ := fun hx hy => by
        rw [abs_mul]; exact mul_le_mul hx hy (abs_nonneg _) (norm_nonneg _)
      have hden := fmag2_err hρ b
      -- the exact quotient
      have hquo : fval a / fval b = ⟨(a.r.1 * b.r.1 + a.i.1 * b.i.1) / ‖fval b‖ ^ 2,
          (a.i.1 * b.r.1 - a.r.1 * b.i.1) / ‖fval b‖ ^ 2⟩ := by
        have hn : Complex.normSq (fval b) = ‖fval b‖ ^ 2 := Complex.normSq_eq_norm_sq _
        apply Complex.ext
        · rw [Complex.div_re, hn]; show a.r.1 * b.r.1 / _ + a.i.1 * b.i.1 / _ = _; ring
        · rw [Complex.div_im, hn]; show a.i.1 * b.r.1 / _ - a.r.1 * b.i.1 / _ = _; ring
      -- exact numerators
      have hre0 : |a.r.1 * b.r.1 + a.i.1 * b.i.1| ≤ 101 / 100 * ‖fval b‖ ^ 2 := by
        have h5 : |(fval a * (starRingEnd ℂ) (fval b)).re| ≤ ‖fval a * (starRingEnd ℂ) (fval b)‖ := Complex.abs_re_le_norm _
        rw [norm_mul, Complex.norm_conj] at h5
        have h6 : (fval a * (starRingEnd ℂ) (fval b)).re = a.r.1 * b.r.1 + a.i.1 * b.i.1 := by
          simp [fval]
        rw [h6] at h5
        linarith
      have him0 : |a.i.1 * b.r.1 - a.r.1 * b.i.1| ≤ 101 / 100 * ‖fval b‖ ^ 2 := by
        have h5 : |(fval a * (starRingEnd ℂ) (fval b)).im| ≤ ‖fval a * (starRingEnd ℂ) (fval b)‖ := Complex.abs_im_le_norm _
        rw [norm_mul, Complex.norm_conj] at h5
        have h6 : (fval a * (starRingEnd ℂ) (fval b)).im = a.i.1 * b.r.1 - a.r.1 * b.i.1 := by
          simp [fval]; ring
        rw [h6] at h5
        linarith
      have e : fval (WOps.div a b) - fval a / fval b =
          ⟨ρ.rd (ρ.rd (ρ.rd (a.r.1 * b.r.1) + ρ.rd (a.i.1 * b.i.1)) / (fmag2 b).1) -
              (a.r.1 * b.r.1 + a.i.1 * b.i.1) / ‖fval b‖ ^ 2,
            ρ.rd (ρ.rd (ρ.rd (a.i.1 * b.r.1) - ρ.rd (a.r.1 * b.i.1)) / (fmag2 b).1) -
              (a.i.1 * b.r.1 - a.r.1 * b.i.1) / ‖fval b‖ ^ 2⟩ := by
        rw [hquo]; rfl
      rw [e]
      refine (norm_le_sum _).trans ?_
      dsimp only
      have nre := two_prod (x := a.r.1 * b.r.1) (y := a.i.1 * b.i.1) (p := ρ.rd (a.r.1 * b.r.1)) (q := ρ.rd (a.i.1 * b.i.1))
        (s := ρ.rd (ρ.rd (a.r.1 * b.r.1) + ρ.rd (a.i.1 * b.i.1))) (P := ‖fval a‖ * ‖fval b‖)
        (hP (comp_le a).1 (comp_le b).1) (hP (comp_le a).2 (comp_le b).2) (hρ _) (hρ _) (hρ _)
      have nim := two_prod (x := a.i.1 * b.r.1) (y := -(a.r.1 * b.i.1)) (p := ρ.rd (a.i.1 * b.r.1)) (q := -ρ.rd (a.r.1 * b.i.1))
        (s := ρ.rd (ρ.rd (a.i.1 * b.r.1) - ρ.rd (a.r.1 * b.i.1))) (P := ‖fval a‖ * ‖fval b‖)
        (hP (comp_le a).2 (comp_le b).1) (by rw [abs_neg]; exact hP (comp_le a).1 (comp_le b).2) (hρ _)
        (by rw [← ρ.neg]; exact hρ _) (by rw [← sub_eq_add_neg]; exact hρ _)
      rw [← sub_eq_add_neg] at nim
      have hnum : 5 * u * (‖fval a‖ * ‖fval b‖) + 4 * η ≤ 6 * u * ‖fval b‖ ^ 2 + 4 * η := by
        norm_num at hPB ⊢
        linarith
      have qre := fdiv_comp hρ h2 hre0 (nre.trans hnum) hden
      have qim := fdiv_comp hρ h2 him0 (nim.trans hnum) hden
      norm_num at qre qim ⊢
      linarith
    az_small := by
      intro a h
      have h2 := az_norm h
      refine le_of_sq_le_sq ?_ (by positivity)
      unfold dblTol at h2
      norm_num at h2 ⊢
      linarith
    az_ne := by
      intro a h hz
      have h2 := not_az_norm h
      rw [hz, norm_zero] at h2
      have := sq_nonneg dblTol
      norm_num at h2
      linarith
    ae_close := by
      intro a b h
      have h : (decide (a.r.1 = b.r.1 ∧ a.i.1 = b.i.1) ||
        decide (|(fsub a.r b.r).1| ≤ dblTol ∧ |(fsub a.i b.i).1| ≤ dblTol)) = true := h
      rw [Bool.or_eq_true, decide_eq_true_eq, decide_eq_true_eq] at h
      have e : fval a - fval b = ⟨a.r.1 - b.r.1, a.i.1 - b.i.1⟩ := rfl
      rw [e]
      have hsm : ∀ x : ℝ, |ρ.rd x| ≤ dblTol → |x| ≤ 101 / 100 * dblTol := by
        intro x hx
        have h1 := hρ x
        have h2 : |x| ≤ |ρ.rd x| + |ρ.rd x - x| := by
          have := abs_sub (ρ.rd x) (ρ.rd x - x)
          rwa [sub_sub_cancel] at this
        unfold dblTol at hx ⊢
        norm_num at hx h1 h2 ⊢
        linarith
      have hb : |a.r.1 - b.r.1| ≤ 101 / 100 * dblTol ∧ |a.i.1 - b.i.1| ≤ 101 / 100 * dblTol := by
        rcases h with h | h
        · rw [h.1, h.2, sub_self, sub_self, abs_zero]
          have := dblTol_nn
          constructor <;> linarith
        · exact ⟨hsm _ h.1, hsm _ h.2⟩
      refine le_of_sq_le_sq ?_ (by positivity)
      rw [← Complex.normSq_eq_norm_sq, Complex.normSq_apply]
      dsimp only
      have h3 : (a.r.1 - b.r.1) * (a.r.1 - b.r.1) ≤ (101 / 100 * dblTol) * (101 / 100 * dblTol) := by
        rw [← abs_mul_abs_self]; exact mul_le_mul hb.1 hb.1 (abs_nonneg _) ((abs_nonneg _).trans hb.1)
      have h4 : (a.i.1 - b.i.1) * (a.i.1 - b.i.1) ≤ (101 / 100 * dblTol) * (101 / 100 * dblTol) := by
        rw [← abs_mul_abs_self]; exact mul_le_mul hb.2 hb.2 (abs_nonneg _) ((abs_nonneg _).trans hb.2)
      unfold dblTol at h3 h4
      norm_num at h3 h4 ⊢
      linarith
    div_self_one := by
      intro a hz
      have h := fdiv_self hρ hz
      show (decide _ || decide _) = true
      rw [Bool.or_eq_true, decide_eq_true_eq, decide_eq_true_eq]
      exact Or.inr h
    nz_small := by
      intro a h
      have h : decide ((fmag2 a).1 = 0) = true := h
      rw [decide_eq_true_eq] at h
      have h1 := abs_le.1 (fmag2_err hρ a)
      rw [h] at h1
      refine le_of_sq_le_sq ?_ (by positivity)
      have := sq_nonneg ‖fval a‖
      norm_num at h1 ⊢
      linarith }

end

/-! ## Truncation to 53 bits is accurate -/

theorem tr_err (b : Nat) {x : ℝ} (hx : 0 < x) : |tr b x - x| ≤ 1 / 2 ^ b * x := by
  have h1 := tr_le b x
  have h2 : x < tr b x + ulp b x := by
    unfold tr
    have := Int.lt_floor_add_one (x / ulp b x)
    rw [div_lt_iff₀ (ulp_pos b x)] at this
    linarith
  have h3 : ulp b x ≤ 1 / 2 ^ b * x := by
    have h4 : (2 : ℝ) ^ Int.log 2 x ≤ x := by
      have := Int.zpow_log_le_self (R := ℝ) (b := 2) (by norm_num) hx
      exact_mod_cast this
    rw [pow_split b x] at h4
    rw [one_div, ← div_eq_inv_mul, le_div_iff₀ (by positivity)]
    linarith
  rw [abs_le]
  constructor <;> linarith

/-- 53-bit significands, toward zero. -/
theorem toZero_accurate : Accurate (toZero 52) := by
  intro x
  have hη : (0 : ℝ) ≤ 1 / 2 ^ 200 := by positivity
  rcases lt_trichotomy x 0 with h | h | h
  · have h1 : ¬ 0 < x := not_lt.2 h.le
    have := tr_err 52 (neg_pos.2 h)
    simp only [toZero, h, h1, if_false, if_true]
    rw [abs_of_neg h, show -tr 52 (-x) - x = -(tr 52 (-x) - -x) by ring, abs_neg]
    linarith
  · subst h
    simp [toZero]
  · have := tr_err 52 h
    simp only [toZero, h, if_true]
    rw [abs_of_pos h]
    linarith

end QDD.Num
