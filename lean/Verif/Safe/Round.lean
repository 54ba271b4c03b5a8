import Verif.Safe.Machine
import Mathlib.Data.Int.Log
import Mathlib.Algebra.Order.Floor.Ring
import Mathlib.Tactic.Linarith
/-!
# Floating-point arithmetic: an ordered field rounded after every operation

`Rounding K` is any rounding function with the properties all IEEE rounding modes that treat signs symmetrically share
(round to nearest, round toward zero); overflow, NaN and signed zeros are left out.  `Fl ρ` are the representable numbers,
`FCx ρ tol` is `struct Complex` (dd.h 22-140) over them, with the formulas of dd.h and a rounding after every operation.
The last section builds a concrete rounding: 53-bit significands, unbounded exponent, toward zero.
-/

set_option linter.unusedSectionVars false
set_option linter.unusedVariables false
set_option linter.unusedSimpArgs false

namespace QDD

/-- A rounding function. -/
structure Rounding (K : Type) [Field K] [LinearOrder K] [IsStrictOrderedRing K] where
  rd : K → K
  idem : ∀ x, rd (rd x) = rd x
  mono : ∀ {x y}, x ≤ y → rd x ≤ rd y
  neg : ∀ x, rd (-x) = -rd x
  one : rd 1 = 1

namespace Rounding
variable {K : Type} [Field K] [LinearOrder K] [IsStrictOrderedRing K]

theorem zero (ρ : Rounding K) : ρ.rd 0 = 0 := by
  have := ρ.neg 0
  rw [neg_zero] at this
  linarith

/-- The representable numbers. -/
def Num (ρ : Rounding K) : Type := { x : K // ρ.rd x = x }

variable {ρ : Rounding K}

/-- Rounding to a representable number. -/
def rnd (ρ : Rounding K) (x : K) : ρ.Num := ⟨ρ.rd x, ρ.idem x⟩

theorem rnd_val (x : ρ.Num) : ρ.rnd x.1 = x := Subtype.ext x.2

/-- `struct Complex` (dd.h 33-34) with rounded components. -/
@[ext] structure FCx (ρ : Rounding K) (tol : K) where
  r : ρ.Num
  i : ρ.Num

variable {tol : K}

/-- `double` addition, subtraction, multiplication, division. -/
def fadd (x y : ρ.Num) : ρ.Num := ρ.rnd (x.1 + y.1)
def fsub (x y : ρ.Num) : ρ.Num := ρ.rnd (x.1 - y.1)
def fmul (x y : ρ.Num) : ρ.Num := ρ.rnd (x.1 * y.1)
def fdiv (x y : ρ.Num) : ρ.Num := ρ.rnd (x.1 / y.1)
def f0 : ρ.Num := ⟨0, ρ.zero⟩
def f1 : ρ.Num := ⟨1, ρ.one⟩

/-- `mag2`, `norm2` (dd.h 72, 138-140). -/
def fmag2 (a : FCx ρ tol) : ρ.Num := fadd (fmul a.r a.r) (fmul a.i a.i)

/-- The formulas of dd.h 43-90, 112-140, one rounding per operation. -/
instance : WOps (FCx ρ tol) where
  zero := ⟨f0, f0⟩
  one := ⟨f1, f0⟩
  add a b := ⟨fadd a.r b.r, fadd a.i b.i⟩
  mul a b := ⟨fsub (fmul a.r b.r) (fmul a.i b.i), fadd (fmul a.r b.i) (fmul a.i b.r)⟩
  div a b := ⟨fdiv (fadd (fmul a.r b.r) (fmul a.i b.i)) (fmag2 b), fdiv (fsub (fmul a.i b.r) (fmul a.r b.i)) (fmag2 b)⟩
  az a := decide (|a.r.1| ≤ tol ∧ |a.i.1| ≤ tol)
  ae a b := decide (a.r.1 = b.r.1 ∧ a.i.1 = b.i.1) ||
    decide (|(fsub a.r b.r).1| ≤ tol ∧ |(fsub a.i b.i).1| ≤ tol)
  nz a := decide ((fmag2 a).1 = 0)
  lt a b := decide ((fmag2 a).1 < (fmag2 b).1)

/-- The real-number operations of the measurement code (dd.cpp 1484-1900).  `sqrt` is any function. -/
@[reducible] def measOps (ρ : Rounding K) (tol : K) (sqrt : ρ.Num → ρ.Num) : ROps ρ.Num (FCx ρ tol) where
  zero := f0
  one := f1
  half := ρ.rnd (1 / 2)
  add := fadd
  sub := fsub
  mul := fmul
  div := fdiv
  lt a b := decide (a.1 < b.1)
  eq0 a := decide (a.1 = 0)
  far s e := decide (e.1 < |(fsub s f1).1|)
  sqrt := sqrt
  mag2 := fmag2
  ofReal x := ⟨x, f0⟩

theorem f0_val : (f0 : ρ.Num).1 = 0 := rfl
theorem f1_val : (f1 : ρ.Num).1 = 1 := rfl

theorem fadd_zero (x : ρ.Num) : fadd x f0 = x := by
  unfold fadd; rw [f0_val, add_zero, rnd_val]
theorem zero_fadd (x : ρ.Num) : fadd f0 x = x := by
  unfold fadd; rw [f0_val, zero_add, rnd_val]
theorem fsub_zero (x : ρ.Num) : fsub x f0 = x := by
  unfold fsub; rw [f0_val, sub_zero, rnd_val]
theorem fmul_zero (x : ρ.Num) : fmul x f0 = f0 := by
  unfold fmul; rw [f0_val, mul_zero]; exact Subtype.ext ρ.zero
theorem zero_fmul (x : ρ.Num) : fmul f0 x = f0 := by
  unfold fmul; rw [f0_val, zero_mul]; exact Subtype.ext ρ.zero
theorem fmul_one (x : ρ.Num) : fmul x f1 = x := by
  unfold fmul; rw [f1_val, mul_one, rnd_val]
theorem one_fmul (x : ρ.Num) : fmul f1 x = x := by
  unfold fmul; rw [f1_val, one_mul, rnd_val]
theorem zero_fdiv (x : ρ.Num) : fdiv f0 x = f0 := by
  unfold fdiv; rw [f0_val, zero_div]; exact Subtype.ext ρ.zero
theorem fdiv_self {x : ρ.Num} (h : x.1 ≠ 0) : fdiv x x = f1 := by
  unfold fdiv; rw [div_self h]; exact Subtype.ext ρ.one
theorem fsub_self (x : ρ.Num) : fsub x x = f0 := by
  unfold fsub; rw [sub_self]; exact Subtype.ext ρ.zero
theorem fadd_nonneg {x y : ρ.Num} (hx : 0 ≤ x.1) (hy : 0 ≤ y.1) : 0 ≤ (fadd x y).1 := by
  have := ρ.mono (add_nonneg hx hy)
  rwa [ρ.zero] at this
theorem fmul_nonneg {x y : ρ.Num} (hx : 0 ≤ x.1 * y.1) : 0 ≤ (fmul x y).1 := by
  have := ρ.mono hx
  rwa [ρ.zero] at this
theorem fmag2_nonneg (a : FCx ρ tol) : 0 ≤ (fmag2 a).1 :=
  fadd_nonneg (fmul_nonneg (mul_self_nonneg _)) (fmul_nonneg (mul_self_nonneg _))
theorem fsub_comm (x y : ρ.Num) : |(fsub x y).1| = |(fsub y x).1| := by
  show |ρ.rd (x.1 - y.1)| = |ρ.rd (y.1 - x.1)|
  rw [← neg_sub, ρ.neg, abs_neg]

/-- Exact zeros. -/
def isZ (a : FCx ρ tol) : Prop := a = ⟨f0, f0⟩

/-- Rounded arithmetic satisfies the laws, for every tolerance in `[0, 1)`. -/
@[reducible] def roundW (ρ : Rounding K) {tol : K} (h0 : 0 ≤ tol) (h1 : tol < 1) : RoundW (FCx ρ tol) where
  Z := isZ
  z_zero := rfl
  z_az := by
    rintro a rfl
    simp [WOps.az, f0_val, h0]
  z_aone := by
    rintro a rfl
    have : |(fsub f0 f1 : ρ.Num).1| = 1 := by rw [fsub_comm, fsub_zero, f1_val, abs_one]
    simp [WOps.aone, WOps.ae, WOps.one, f0_val, f1_val, this, h1]
  z_add := by
    rintro a b rfl rfl
    show (⟨fadd f0 f0, fadd f0 f0⟩ : FCx ρ tol) = ⟨f0, f0⟩
    rw [fadd_zero]
  z_mul_left := by
    rintro a b rfl
    show (⟨fsub (fmul f0 b.r) (fmul f0 b.i), fadd (fmul f0 b.i) (fmul f0 b.r)⟩ : FCx ρ tol) = ⟨f0, f0⟩
    rw [zero_fmul, zero_fmul, fsub_zero, fadd_zero]
  z_mul_right := by
    rintro b a rfl
    show (⟨fsub (fmul a.r f0) (fmul a.i f0), fadd (fmul a.r f0) (fmul a.i f0)⟩ : FCx ρ tol) = ⟨f0, f0⟩
    rw [fmul_zero, fmul_zero, fsub_zero, fadd_zero]
  z_div := by
    rintro a b rfl _
    show (⟨fdiv (fadd (fmul f0 b.r) (fmul f0 b.i)) (fmag2 b), fdiv (fsub (fmul f0 b.r) (fmul f0 b.i)) (fmag2 b)⟩ :
      FCx ρ tol) = ⟨f0, f0⟩
    rw [zero_fmul, zero_fmul, fsub_zero, fadd_zero, zero_fdiv]
  ae_refl a := by simp [WOps.ae]
  ae_symm := by
    intro a b h
    simp only [WOps.ae, Bool.or_eq_true, decide_eq_true_eq] at h ⊢
    rw [fsub_comm b.r, fsub_comm b.i]
    exact h.imp (fun h => ⟨h.1.symm, h.2.symm⟩) id
  ae_zero a := by
    simp only [WOps.ae, WOps.az, WOps.zero, fsub_zero, f0_val]
    by_cases h : a.r.1 = 0 ∧ a.i.1 = 0
    · simp [h, h0]
    · simp [h]
  az_one := by simp [WOps.az, WOps.one, f1_val, h1]
  mul_one a := by
    show (⟨fsub (fmul a.r f1) (fmul a.i f0), fadd (fmul a.r f0) (fmul a.i f1)⟩ : FCx ρ tol) = a
    rw [fmul_one, fmul_zero, fsub_zero, fmul_zero, fmul_one, zero_fadd]

theorem roundR (ρ : Rounding K) {tol : K} (h0 : 0 ≤ tol) (h1 : tol < 1) (sqrt : ρ.Num → ρ.Num) :
    letI := roundW ρ h0 h1; letI := measOps ρ tol sqrt; RoundR ρ.Num (FCx ρ tol) := by
  letI := roundW ρ h0 h1
  letI := measOps ρ tol sqrt
  have hge : ∀ {x y : ρ.Num}, 1 ≤ x.1 + y.1 → 1 ≤ (fadd x y).1 := fun h => by
    have := ρ.mono h
    rwa [ρ.one] at this
  exact
  { mag2_z := by
      intro a ha
      have ha : a = ⟨f0, f0⟩ := ha
      subst ha
      show fadd (fmul f0 f0) (fmul f0 f0) = f0
      rw [fmul_zero, fadd_zero]
    mag2_one := by
      show fadd (fmul f1 f1) (fmul f0 f0) = f1
      rw [fmul_one, fmul_zero, fadd_zero]
    mag2_nn := fun a => by
      show decide ((fmag2 a).1 < (f0 : ρ.Num).1) = false
      rw [f0_val]; simpa using fmag2_nonneg a
    mul_zero := fmul_zero
    zero_mul := zero_fmul
    mul_one := fmul_one
    one_mul := one_fmul
    add_zero := fadd_zero
    zero_add := zero_fadd
    sub_self := fsub_self _
    div_self := fun {x} h => by
      have h : decide ((f0 : ρ.Num).1 < x.1) = true := h
      rw [f0_val, decide_eq_true_eq] at h
      exact fdiv_self h.ne'
    zero_div := fun _ => zero_fdiv _
    eq0_zero := by simp [ROps.eq0, ROps.zero, f0_val]
    eq0_eq := fun {x} h => by
      have h : decide (x.1 = 0) = true := h
      exact Subtype.ext (of_decide_eq_true h)
    eq0_pos := fun {x} h => by
      have h : decide ((f0 : ρ.Num).1 < x.1) = true := h
      rw [f0_val, decide_eq_true_eq] at h
      exact decide_eq_false h.ne'
    ge_one := by simp [ROps.lt]
    pos := fun {x} h => by
      have h : decide (x.1 < (f1 : ρ.Num).1) = false := h
      rw [f1_val, decide_eq_false_iff_not, not_lt] at h
      exact decide_eq_true (lt_of_lt_of_le one_pos h : (0 : K) < x.1)
    mul_nn := fun {x y} hx hy => by
      have hx : decide (x.1 < (f0 : ρ.Num).1) = false := hx
      have hy : decide (y.1 < (f1 : ρ.Num).1) = false := hy
      rw [f0_val, decide_eq_false_iff_not, not_lt] at hx
      rw [f1_val, decide_eq_false_iff_not, not_lt] at hy
      exact decide_eq_false (not_lt.2 (fmul_nonneg (mul_nonneg hx (le_trans zero_le_one hy))))
    add_ge_left := fun {x y} hx hy => by
      have hx : decide (x.1 < (f1 : ρ.Num).1) = false := hx
      have hy : decide (y.1 < (f0 : ρ.Num).1) = false := hy
      rw [f1_val, decide_eq_false_iff_not, not_lt] at hx
      rw [f0_val, decide_eq_false_iff_not, not_lt] at hy
      exact decide_eq_false (not_lt.2 (hge (by linarith)))
    add_ge_right := fun {x y} hx hy => by
      have hx : decide (x.1 < (f0 : ρ.Num).1) = false := hx
      have hy : decide (y.1 < (f1 : ρ.Num).1) = false := hy
      rw [f0_val, decide_eq_false_iff_not, not_lt] at hx
      rw [f1_val, decide_eq_false_iff_not, not_lt] at hy
      exact decide_eq_false (not_lt.2 (hge (by linarith))) }

/-! ## 53-bit significands, toward zero -/

section trunc
variable [FloorRing K]

/-- Unit in the last place of a positive number with a `b + 1`-bit significand. -/
def ulp (b : Nat) (x : K) : K := (2 : K) ^ (Int.log 2 x - (b : Int))

theorem ulp_pos (b : Nat) (x : K) : 0 < ulp b x := zpow_pos (by norm_num) _

/-- Truncation of a positive number. -/
def tr (b : Nat) (x : K) : K := ⌊x / ulp b x⌋ * ulp b x

theorem pow_split (b : Nat) (x : K) : (2 : K) ^ Int.log 2 x = 2 ^ b * ulp b x := by
  unfold ulp
  rw [← zpow_natCast, ← zpow_add₀ (by norm_num)]
  congr 1; omega

theorem tr_le (b : Nat) (x : K) : tr b x ≤ x := by
  unfold tr
  rw [← le_div_iff₀ (ulp_pos b x)]
  exact Int.floor_le _

/-- Powers of two that are at most `x`, with the exponent of `x`, stay below its truncation. -/
theorem le_tr (b : Nat) {x : K} (hx : 0 < x) : (2 : K) ^ Int.log 2 x ≤ tr b x := by
  unfold tr
  rw [pow_split b x]
  refine mul_le_mul_of_nonneg_right ?_ (ulp_pos b x).le
  have h : (2 : K) ^ Int.log 2 x ≤ x := by
    have := Int.zpow_log_le_self (R := K) (b := 2) (by norm_num) hx
    exact_mod_cast this
  rw [pow_split b x, ← le_div_iff₀ (ulp_pos b x)] at h
  have : ((2 ^ b : Int) : K) ≤ x / ulp b x := by push_cast; exact h
  exact_mod_cast Int.le_floor.2 this

theorem tr_pos (b : Nat) {x : K} (hx : 0 < x) : 0 < tr b x :=
  lt_of_lt_of_le (zpow_pos (by norm_num) _) (le_tr b hx)

theorem log_tr (b : Nat) {x : K} (hx : 0 < x) : Int.log 2 (tr b x) = Int.log 2 x := by
  apply le_antisymm
  · exact Int.log_mono_right (tr_pos b hx) (tr_le b x)
  · have := (Int.zpow_le_iff_le_log (R := K) (b := 2) (by norm_num) (tr_pos b hx) (x := Int.log 2 x)).1
      (by exact_mod_cast le_tr b hx)
    exact this

theorem tr_idem (b : Nat) {x : K} (hx : 0 < x) : tr b (tr b x) = tr b x := by
  have hu : ulp b (tr b x) = ulp b x := by unfold ulp; rw [log_tr b hx]
  have : tr b x / ulp b x = ⌊x / ulp b x⌋ := by
    unfold tr; rw [mul_div_assoc, div_self (ulp_pos b x).ne', mul_one]
  conv_lhs => rw [tr, hu, this, Int.floor_intCast]
  rfl

theorem tr_mono (b : Nat) {x y : K} (hx : 0 < x) (hxy : x ≤ y) : tr b x ≤ tr b y := by
  have hy := lt_of_lt_of_le hx hxy
  rcases (Int.log_mono_right (b := 2) hx hxy).lt_or_eq with h | h
  · have h1 : x < (2 : K) ^ (Int.log 2 x + 1) := by
      have := Int.lt_zpow_succ_log_self (R := K) (b := 2) (by norm_num) x
      exact_mod_cast this
    have h2 : (2 : K) ^ (Int.log 2 x + 1) ≤ 2 ^ Int.log 2 y := zpow_le_zpow_right₀ (by norm_num) (by omega)
    exact le_trans (tr_le b x) (le_trans h1.le (le_trans h2 (le_tr b hy)))
  · have hu : ulp b x = ulp b y := by unfold ulp; rw [h]
    unfold tr
    rw [hu]
    refine mul_le_mul_of_nonneg_right ?_ (ulp_pos b y).le
    exact_mod_cast Int.floor_mono (div_le_div_of_nonneg_right hxy (ulp_pos b y).le)

/-- Rounding toward zero to `b + 1` significant bits (`b = 52`: the significand of a `double`). -/
def toZero (b : Nat) : Rounding K where
  rd x := if 0 < x then tr b x else if x < 0 then -tr b (-x) else 0
  idem x := by
    rcases lt_trichotomy x 0 with h | h | h
    · have hp := tr_pos b (neg_pos.2 h)
      have h1 : ¬ 0 < x := not_lt.2 h.le
      have h2 : ¬ 0 < -tr b (-x) := by simpa using hp.le
      simp only [h1, h, if_false, if_true, h2, neg_lt_zero.2 hp, neg_neg, tr_idem b (neg_pos.2 h)]
    · subst h; simp
    · simp only [h, if_true, tr_pos b h, tr_idem b h]
  mono {x y} hxy := by
    rcases lt_trichotomy x 0 with h | h | h
    · have hp := tr_pos b (neg_pos.2 h)
      have h1 : ¬ 0 < x := not_lt.2 h.le
      rcases lt_trichotomy y 0 with g | g | g
      · have h2 : ¬ 0 < y := not_lt.2 g.le
        simp only [h, h1, g, h2, if_false, if_true]
        exact neg_le_neg (tr_mono b (neg_pos.2 g) (neg_le_neg hxy))
      · subst g; simp only [h, h1, if_false, if_true, lt_self_iff_false]; linarith
      · simp only [h, h1, g, if_false, if_true]
        have := tr_pos b g
        linarith
    · subst h
      rcases lt_trichotomy y 0 with g | g | g
      · linarith
      · subst g; simp
      · simp only [g, if_true, lt_self_iff_false, if_false]
        exact (tr_pos b g).le
    · have g := lt_of_lt_of_le h hxy
      simp only [h, g, if_true]
      exact tr_mono b h hxy
  neg x := by
    rcases lt_trichotomy x 0 with h | h | h
    · have h1 : ¬ 0 < x := not_lt.2 h.le
      simp [h, h1]
    · subst h; simp
    · have h1 : ¬ x < 0 := not_lt.2 h.le
      simp [h, h1]
  one := by
    have hl : Int.log 2 (1 : K) = 0 := Int.log_one_right 2
    have hu : ulp b (1 : K) = ((2 : K) ^ b)⁻¹ := by unfold ulp; rw [hl, zero_sub, zpow_neg, zpow_natCast]
    simp only [one_pos, if_true]
    unfold tr
    rw [hu, div_inv_eq_mul, one_mul]
    have : ⌊(2 : K) ^ b⌋ = 2 ^ b := by
      have := Int.floor_intCast (R := K) (2 ^ b)
      push_cast at this
      exact this
    rw [this]
    push_cast
    exact mul_inv_cancel₀ (pow_ne_zero _ (by norm_num))

end trunc
end Rounding
end QDD
