import Verif.Core.Arith
import Mathlib.Algebra.Order.Field.Basic
import Mathlib.Algebra.Order.Ring.Abs
import Mathlib.Tactic.Linarith
import Mathlib.Tactic.LinearCombination
/-!
# `Complex` of include/dd.h over an ordered field

`Cx K tol` is the struct `Complex` (dd.h 22-110) with component type `K` instead of `double` and
`TOLERANCE = tol`.  The operations are the formulas of dd.h.  With `tol = 0` the weights are exact.
-/

set_option linter.unusedSectionVars false

namespace QDD

/-- `struct Complex` (dd.h 33-34). -/
@[ext] structure Cx (K : Type) (tol : K) where
  r : K
  i : K

namespace Cx
variable {K : Type} [Field K] [LinearOrder K] [IsStrictOrderedRing K] {tol : K}

instance [DecidableEq K] : DecidableEq (Cx K tol) := fun a b =>
  decidable_of_iff (a.r = b.r ∧ a.i = b.i) ⟨fun h => Cx.ext h.1 h.2, fun h => by subst h; exact ⟨rfl, rfl⟩⟩

/-- `mag2` (dd.h 72) and `norm2` (dd.h 138-140). -/
def mag2 (a : Cx K tol) : K := a.r * a.r + a.i * a.i

/-- `operator+=` (dd.h 43-47). -/
def cadd (a b : Cx K tol) : Cx K tol := ⟨a.r + b.r, a.i + b.i⟩
/-- `operator*=` (dd.h 53-60). -/
def cmul (a b : Cx K tol) : Cx K tol := ⟨a.r * b.r - a.i * b.i, a.r * b.i + a.i * b.r⟩
/-- `operator/=` (dd.h 61-70). -/
def cdiv (a b : Cx K tol) : Cx K tol :=
  ⟨(a.r * b.r + a.i * b.i) / (b.r * b.r + b.i * b.i), (a.i * b.r - a.r * b.i) / (b.r * b.r + b.i * b.i)⟩

/-- The weight operations the engine uses.  `norm(w) == 0.0` (dd.h 134-136) is modelled as `mag2 w = 0`
(the square root of a nonnegative number is 0 iff the number is). -/
instance : WOps (Cx K tol) where
  zero := ⟨0, 0⟩
  one := ⟨1, 0⟩
  add := cadd
  mul := cmul
  div := cdiv
  az a := decide (|a.r| ≤ tol ∧ |a.i| ≤ tol)
  ae a b := decide (a.r = b.r ∧ a.i = b.i) || decide (|a.r - b.r| ≤ tol ∧ |a.i - b.i| ≤ tol)
  nz a := decide (mag2 a = 0)
  lt a b := decide (mag2 a < mag2 b)

instance : Zero (Cx K tol) := ⟨⟨0, 0⟩⟩
instance : One (Cx K tol) := ⟨⟨1, 0⟩⟩
instance : Add (Cx K tol) := ⟨cadd⟩
instance : Mul (Cx K tol) := ⟨cmul⟩
instance : Neg (Cx K tol) := ⟨fun a => ⟨-a.r, -a.i⟩⟩
instance : Sub (Cx K tol) := ⟨fun a b => ⟨a.r - b.r, a.i - b.i⟩⟩
instance : _root_.Inv (Cx K tol) := ⟨fun a => ⟨a.r / mag2 a, -a.i / mag2 a⟩⟩

@[simp] theorem zero_r : (0 : Cx K tol).r = 0 := rfl
@[simp] theorem zero_i : (0 : Cx K tol).i = 0 := rfl
@[simp] theorem one_r : (1 : Cx K tol).r = 1 := rfl
@[simp] theorem one_i : (1 : Cx K tol).i = 0 := rfl
@[simp] theorem add_r (a b : Cx K tol) : (a + b).r = a.r + b.r := rfl
@[simp] theorem add_i (a b : Cx K tol) : (a + b).i = a.i + b.i := rfl
@[simp] theorem mul_r (a b : Cx K tol) : (a * b).r = a.r * b.r - a.i * b.i := rfl
@[simp] theorem mul_i (a b : Cx K tol) : (a * b).i = a.r * b.i + a.i * b.r := rfl
@[simp] theorem neg_r (a : Cx K tol) : (-a).r = -a.r := rfl
@[simp] theorem neg_i (a : Cx K tol) : (-a).i = -a.i := rfl
@[simp] theorem sub_r (a b : Cx K tol) : (a - b).r = a.r - b.r := rfl
@[simp] theorem sub_i (a b : Cx K tol) : (a - b).i = a.i - b.i := rfl
@[simp] theorem inv_r (a : Cx K tol) : (a⁻¹).r = a.r / mag2 a := rfl
@[simp] theorem inv_i (a : Cx K tol) : (a⁻¹).i = -a.i / mag2 a := rfl

theorem mag2_nonneg (a : Cx K tol) : 0 ≤ mag2 a := add_nonneg (mul_self_nonneg _) (mul_self_nonneg _)

theorem mag2_eq_zero {a : Cx K tol} : mag2 a = 0 ↔ a = 0 := by
  constructor
  · intro h
    have h1 := mul_self_nonneg a.r
    have h2 := mul_self_nonneg a.i
    unfold mag2 at h
    exact Cx.ext (mul_self_eq_zero.1 (by linarith)) (mul_self_eq_zero.1 (by linarith))
  · rintro rfl; simp [mag2]

theorem mag2_mul (a b : Cx K tol) : mag2 (a * b) = mag2 a * mag2 b := by
  simp only [mag2, mul_r, mul_i]; ring

theorem mag2_one : mag2 (1 : Cx K tol) = 1 := by simp [mag2]

instance : CommRing (Cx K tol) where
  add_assoc a b c := by ext <;> simp [add_assoc]
  zero_add a := by ext <;> simp
  add_zero a := by ext <;> simp
  add_comm a b := by ext <;> simp [add_comm]
  neg_add_cancel a := by ext <;> simp
  sub_eq_add_neg a b := by ext <;> simp [sub_eq_add_neg]
  left_distrib a b c := by ext <;> simp <;> ring
  right_distrib a b c := by ext <;> simp <;> ring
  zero_mul a := by ext <;> simp
  mul_zero a := by ext <;> simp
  mul_assoc a b c := by ext <;> simp <;> ring
  one_mul a := by ext <;> simp
  mul_one a := by ext <;> simp
  mul_comm a b := by ext <;> simp <;> ring
  nsmul := nsmulRec
  zsmul := zsmulRec

instance : Field (Cx K tol) where
  exists_pair_ne := ⟨0, 1, fun h => by simpa using congrArg Cx.r h⟩
  mul_inv_cancel a ha := by
    have h : mag2 a ≠ 0 := fun h => ha (mag2_eq_zero.1 h)
    ext
    · simp only [mul_r, inv_r, inv_i, one_r]; field_simp; unfold mag2; ring
    · simp only [mul_i, inv_r, inv_i, one_i]; field_simp; ring
  inv_zero := by ext <;> simp
  nnqsmul := _
  qsmul := _

/-- Exact arithmetic: tolerance 0. -/
instance : ExactW (Cx K 0) where
  zero_eq := rfl
  one_eq := rfl
  add_eq _ _ := rfl
  mul_eq _ _ := rfl
  div_eq a b hb := by
    have h : mag2 b ≠ 0 := fun h => hb (mag2_eq_zero.1 h)
    rw [div_eq_mul_inv]
    ext
    · simp only [mul_r, inv_r, inv_i]
      show (a.r * b.r + a.i * b.i) / mag2 b = _
      field_simp; ring
    · simp only [mul_i, inv_r, inv_i]
      show (a.i * b.r - a.r * b.i) / mag2 b = _
      field_simp; ring
  az_iff a := by
    show decide _ = true ↔ _
    rw [decide_eq_true_iff]
    constructor
    · rintro ⟨h1, h2⟩
      exact Cx.ext (abs_nonpos_iff.1 h1) (abs_nonpos_iff.1 h2)
    · rintro rfl; simp
  ae_iff a b := by
    show (decide _ || decide _) = true ↔ _
    rw [Bool.or_eq_true, decide_eq_true_iff, decide_eq_true_iff]
    constructor
    · rintro (⟨h1, h2⟩ | ⟨h1, h2⟩)
      · exact Cx.ext h1 h2
      · exact Cx.ext (sub_eq_zero.1 (abs_nonpos_iff.1 h1)) (sub_eq_zero.1 (abs_nonpos_iff.1 h2))
    · rintro rfl; simp
  nz_iff a := by
    show decide _ = true ↔ _
    rw [decide_eq_true_iff]; exact mag2_eq_zero
  lt_zero a := by
    show decide _ = false
    rw [decide_eq_false_iff_not, mag2_eq_zero.2 rfl]; exact not_lt.2 (mag2_nonneg a)
  zero_lt a := by
    show decide _ = true ↔ _
    rw [decide_eq_true_iff, mag2_eq_zero.2 rfl]
    constructor
    · rintro h rfl; simp [mag2] at h
    · intro h; exact lt_of_le_of_ne (mag2_nonneg a) fun h' => h (mag2_eq_zero.1 h'.symm)
  lt_scale c a b hc := by
    show decide _ = decide _
    have h : 0 < mag2 c := lt_of_le_of_ne (mag2_nonneg c) fun h' => hc (mag2_eq_zero.1 h'.symm)
    rw [mag2_mul, mag2_mul, decide_eq_decide]
    exact mul_lt_mul_iff_of_pos_left h
  lt_irrefl a := by
    show decide _ = false
    simp
  lt_cotrans a b c h := by
    have h : mag2 a < mag2 c := by simpa [WOps.lt] using h
    show decide _ = true ∨ decide _ = true
    rw [decide_eq_true_iff, decide_eq_true_iff]
    by_contra hn
    rw [not_or, not_lt, not_lt] at hn
    exact absurd h (not_lt.2 (le_trans hn.2 hn.1))

end Cx
end QDD
