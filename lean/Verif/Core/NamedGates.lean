import Verif.Core.Measure
import Mathlib.Analysis.SpecialFunctions.Trigonometric.Basic
import Mathlib.Analysis.SpecialFunctions.Pow.Real
import Mathlib.LinearAlgebra.UnitaryGroup
import Mathlib.LinearAlgebra.Matrix.Kronecker
/-!
# Named gate matrices (include/common.h 77-118, src/dd.cpp 1902-2078)

The component type is `ℝ`; `std::cos`, `std::sin`, `std::sqrt` are the real functions, `std::exp(complex(0, x))` is
`(cos x, sin x)`, the constant `SQRT2` of the code is `√2/2` and `PI` is `π` (IEEE rounding is not modelled).
-/

set_option linter.unusedSectionVars false
set_option linter.unusedVariables false
set_option linter.unusedSimpArgs false

namespace QDD

/-- `std::complex<double>` over the reals. -/
abbrev CR := Cx ℝ (0 : ℝ)

namespace Gate
noncomputable section

/-- `GateMatrix{a, b, c, d}` (common.h 105): entry `(r, c)` is element `2 r + c`. -/
def g4 (a b c d : CR) (r k : Nat) : CR :=
  if r = 0 then (if k = 0 then a else b) else (if k = 0 then c else d)

/-- `TwoQubitGateMatrix` (common.h 120) from its rows. -/
def g16 (rows : List (List CR)) (r c : Nat) : CR := ((rows.getD r []).getD c 0)

/-- `SQRT2` (common.h 74). -/
def SQRT2 : ℝ := √2 / 2

/-- The constants of common.h 86-98. -/
def cOne : CR := ⟨1, 0⟩
def cMone : CR := ⟨-1, 0⟩
def cZero : CR := ⟨0, 0⟩
def cI : CR := ⟨0, 1⟩
def cMi : CR := ⟨0, -1⟩
def cS : CR := ⟨SQRT2, 0⟩
def cMS : CR := ⟨-SQRT2, 0⟩
def cIS : CR := ⟨0, SQRT2⟩
def cMIS : CR := ⟨0, -SQRT2⟩
def c1pi : CR := ⟨SQRT2, SQRT2⟩
def c1mi : CR := ⟨SQRT2, -SQRT2⟩
def c1pi2 : CR := ⟨1 / 2, 1 / 2⟩
def c1mi2 : CR := ⟨1 / 2, -(1 / 2)⟩

/-- common.h 106. -/
def Imat := g4 cOne cZero cZero cOne
/-- common.h 107. -/
def Hmat := g4 cS cS cS cMS
/-- common.h 108. -/
def Xmat := g4 cZero cOne cOne cZero
/-- common.h 109. -/
def Ymat := g4 cZero cMi cI cZero
/-- common.h 110. -/
def Zmat := g4 cOne cZero cZero cMone
/-- common.h 111. -/
def Smat := g4 cOne cZero cZero cI
/-- common.h 112. -/
def Sdagmat := g4 cOne cZero cZero cMi
/-- common.h 113. -/
def Tmat := g4 cOne cZero cZero c1pi
/-- common.h 114. -/
def Tdagmat := g4 cOne cZero cZero c1mi
/-- common.h 115. -/
def SXmat := g4 c1pi2 c1mi2 c1mi2 c1pi2
/-- common.h 116. -/
def SXdagmat := g4 c1mi2 c1pi2 c1pi2 c1mi2
/-- common.h 117. -/
def Vmat := g4 cS cMIS cMIS cS
/-- common.h 118. -/
def Vdagmat := g4 cS cIS cIS cS

/-- `std::exp(std::complex<double>(0, x))`. -/
def cexp (x : ℝ) : CR := ⟨Real.cos x, Real.sin x⟩
/-- `complex * double`. -/
def cscale (a : CR) (x : ℝ) : CR := ⟨a.r * x, a.i * x⟩

/-- `rx` (dd.cpp 1974-1978), also the matrix of `RX` (dd.cpp 1902-1906). -/
def rx (a : ℝ) := g4 ⟨Real.cos (a / 2), 0⟩ ⟨0, -Real.sin (a / 2)⟩ ⟨0, -Real.sin (a / 2)⟩ ⟨Real.cos (a / 2), 0⟩
/-- `ry` (dd.cpp 1980-1985), `RY` (dd.cpp 1907-1912). -/
def ry (a : ℝ) := g4 ⟨Real.cos (a / 2), 0⟩ ⟨-Real.sin (a / 2), 0⟩ ⟨Real.sin (a / 2), 0⟩ ⟨Real.cos (a / 2), 0⟩
/-- `rz` (dd.cpp 1987-1991), `RZ` (dd.cpp 1913-1917). -/
def rz (a : ℝ) := g4 ⟨Real.cos (a / 2), -Real.sin (a / 2)⟩ cZero cZero ⟨Real.cos (a / 2), Real.sin (a / 2)⟩
/-- `u` (dd.cpp 2001-2014). -/
def u (θ φ lam γ : ℝ) := g4 (cscale (cexp γ) (Real.cos (θ / 2)))
  (cscale (-(cexp (lam + γ))) (Real.sin (θ / 2)))
  (cscale (cexp (φ + γ)) (Real.sin (θ / 2)))
  (cscale (cexp (lam + φ + γ)) (Real.cos (θ / 2)))
/-- `u3` (dd.cpp 1993-1995). -/
def u3 (θ φ lam : ℝ) := u θ φ lam 0
/-- `u1` (dd.cpp 1997). -/
def u1 (lam : ℝ) := u 0 0 lam 0
/-- `u2` (dd.cpp 1999). -/
def u2 (φ lam : ℝ) := u (Real.pi / 2) φ lam 0
/-- `p` (dd.cpp 2016-2019). -/
def p (a : ℝ) := g4 cOne cZero cZero ⟨Real.cos a, Real.sin a⟩
/-- `r` (dd.cpp 2021-2030). -/
def r (θ φ : ℝ) := g4 ⟨Real.cos (θ / 2), 0⟩ (cscale (cMi * cexp (-φ)) (Real.sin (θ / 2)))
  (cscale (cMi * cexp φ) (Real.sin (θ / 2))) ⟨Real.cos (θ / 2), 0⟩

/-- `rxx_matrix` (dd.cpp 2032-2039). -/
def rxx (a : ℝ) := let i1 : CR := ⟨Real.cos (a / 2), 0⟩; let i2 : CR := ⟨0, -Real.sin (a / 2)⟩
  g16 [[i1, cZero, cZero, i2], [cZero, i1, i2, cZero], [cZero, i2, i1, cZero], [i2, cZero, cZero, i1]]
/-- `ryy_matrix` (dd.cpp 2041-2048). -/
def ryy (a : ℝ) := let i1 : CR := ⟨Real.cos (a / 2), 0⟩; let i2 : CR := ⟨0, Real.sin (a / 2)⟩
  g16 [[i1, cZero, cZero, i2], [cZero, i1, -i2, cZero], [cZero, -i2, i1, cZero], [i2, cZero, cZero, i1]]
/-- `rzz_matrix` (dd.cpp 2050-2057). -/
def rzz (a : ℝ) := let i1 : CR := ⟨Real.cos (a / 2), -Real.sin (a / 2)⟩
  let i2 : CR := ⟨Real.cos (a / 2), Real.sin (a / 2)⟩
  g16 [[i1, cZero, cZero, cZero], [cZero, i2, cZero, cZero], [cZero, cZero, i2, cZero], [cZero, cZero, cZero, i1]]
/-- `rzx_matrix` (dd.cpp 2059-2066). -/
def rzx (a : ℝ) := let i1 : CR := ⟨Real.cos (a / 2), 0⟩; let i2 : CR := ⟨0, Real.sin (a / 2)⟩
  g16 [[i1, cZero, -i2, cZero], [cZero, i1, cZero, i2], [-i2, cZero, i1, cZero], [cZero, i2, cZero, i1]]
/-- `swap_matrix` (dd.cpp 2068-2073). -/
def swp := g16 [[cOne, cZero, cZero, cZero], [cZero, cZero, cOne, cZero], [cZero, cOne, cZero, cZero],
  [cZero, cZero, cZero, cOne]]
/-- `iswap_matrix` (dd.cpp 2075-2080). -/
def iswp := g16 [[cOne, cZero, cZero, cZero], [cZero, cZero, cI, cZero], [cZero, cI, cZero, cZero],
  [cZero, cZero, cZero, cOne]]

/-! ## Specification: Mathlib matrices over `ℂ` -/

/-- A code complex number as a Mathlib one. -/
def toC (a : CR) : ℂ := ⟨a.r, a.i⟩

@[simp] theorem toC_mul (a b : CR) : toC (a * b) = toC a * toC b := by
  apply Complex.ext <;> simp [toC]
@[simp] theorem toC_neg (a : CR) : toC (-a) = -toC a := by apply Complex.ext <;> simp [toC]
@[simp] theorem toC_add (a b : CR) : toC (a + b) = toC a + toC b := by apply Complex.ext <;> simp [toC]
@[simp] theorem toC_zero : toC 0 = 0 := by apply Complex.ext <;> simp [toC]
@[simp] theorem toC_one : toC 1 = 1 := by apply Complex.ext <;> simp [toC]

/-- A one-qubit gate as a matrix. -/
def M2 (g : Nat → Nat → CR) : Matrix (Fin 2) (Fin 2) ℂ := fun i j => toC (g i j)
/-- A two-qubit gate as a matrix over (high bit, low bit). -/
def M4 (g : Nat → Nat → CR) : Matrix (Fin 2 × Fin 2) (Fin 2 × Fin 2) ℂ :=
  fun i j => toC (g (2 * i.1 + i.2) (2 * j.1 + j.2))

/-- Pauli matrices of the textbook. -/
def σx : Matrix (Fin 2) (Fin 2) ℂ := !![0, 1; 1, 0]
def σy : Matrix (Fin 2) (Fin 2) ℂ := !![0, -Complex.I; Complex.I, 0]
def σz : Matrix (Fin 2) (Fin 2) ℂ := !![1, 0; 0, -1]

theorem sqrt2sq : SQRT2 * SQRT2 = 1 / 2 := by
  unfold SQRT2
  have : √2 * √2 = (2 : ℝ) := Real.mul_self_sqrt (by norm_num)
  linarith [this, show √2 / 2 * (√2 / 2) = (√2 * √2) / 4 by ring]

theorem M2_g4 (a b c d : CR) : M2 (g4 a b c d) = !![toC a, toC b; toC c, toC d] := by
  ext i j; fin_cases i <;> fin_cases j <;> simp [M2, g4]

theorem toC_cexp (x : ℝ) : toC (cexp x) = Complex.exp (x * Complex.I) := by
  rw [Complex.exp_mul_I]
  apply Complex.ext <;> simp [toC, cexp, Complex.cos_ofReal_re, Complex.sin_ofReal_re]

theorem toC_cscale (a : CR) (x : ℝ) : toC (cscale a x) = toC a * x := by
  apply Complex.ext <;> simp [toC, cscale]

/-- `R_P(θ) = cos(θ/2) 1 - i sin(θ/2) P`. -/
def rot {n : Type} [DecidableEq n] [Fintype n] (P : Matrix n n ℂ) (θ : ℝ) : Matrix n n ℂ :=
  (Real.cos (θ / 2) : ℂ) • 1 - (Complex.I * (Real.sin (θ / 2) : ℂ)) • P

theorem cs (x : ℝ) : ((Real.cos x : ℝ) : ℂ) * Real.cos x + Real.sin x * Real.sin x = 1 := by
  have h := Real.cos_sq_add_sin_sq x
  rw [sq, sq] at h
  exact_mod_cast h

theorem rot_add {n : Type} [DecidableEq n] [Fintype n] {P : Matrix n n ℂ} (hP : P * P = 1) (a b : ℝ) :
    rot P a * rot P b = rot P (a + b) := by
  unfold rot
  rw [sub_mul, mul_sub, mul_sub]
  simp only [Matrix.smul_mul, Matrix.mul_smul, Matrix.one_mul, Matrix.mul_one, hP, smul_smul]
  have e : (a + b) / 2 = a / 2 + b / 2 := by ring
  rw [e, Real.cos_add, Real.sin_add]
  push_cast
  have hI : Complex.I * Complex.I = -1 := Complex.I_mul_I
  ext i j
  simp only [Matrix.sub_apply, Matrix.smul_apply, smul_eq_mul]
  linear_combination (1 : Matrix n n ℂ) i j * Complex.sin (a / 2) * Complex.sin (b / 2) * hI

theorem rot_unitary {n : Type} [DecidableEq n] [Fintype n] {P : Matrix n n ℂ} (hP : P * P = 1)
    (hH : P.conjTranspose = P) (a : ℝ) : rot P a ∈ Matrix.unitaryGroup n ℂ := by
  have hs : star (rot P a) = rot P (-a) := by
    rw [Matrix.star_eq_conjTranspose]
    unfold rot
    rw [Matrix.conjTranspose_sub, Matrix.conjTranspose_smul, Matrix.conjTranspose_smul, hH, Matrix.conjTranspose_one]
    rw [neg_div, Real.cos_neg, Real.sin_neg]
    simp [-Complex.ofReal_cos, -Complex.ofReal_sin, -Complex.ofReal_div]
  rw [Matrix.mem_unitaryGroup_iff, hs, rot_add hP, add_neg_cancel]
  simp [rot]

theorem σx_sq : σx * σx = 1 := by ext i j; fin_cases i <;> fin_cases j <;> simp [σx]
theorem σy_sq : σy * σy = 1 := by ext i j; fin_cases i <;> fin_cases j <;> simp [σy]
theorem σz_sq : σz * σz = 1 := by ext i j; fin_cases i <;> fin_cases j <;> simp [σz]
theorem σx_h : σx.conjTranspose = σx := by ext i j; fin_cases i <;> fin_cases j <;> simp [σx]
theorem σy_h : σy.conjTranspose = σy := by ext i j; fin_cases i <;> fin_cases j <;> simp [σy]
theorem σz_h : σz.conjTranspose = σz := by ext i j; fin_cases i <;> fin_cases j <;> simp [σz]

open Kronecker in
theorem kron_sq {A B : Matrix (Fin 2) (Fin 2) ℂ} (hA : A * A = 1) (hB : B * B = 1) : (A ⊗ₖ B) * (A ⊗ₖ B) = 1 := by
  rw [← Matrix.mul_kronecker_mul, hA, hB, Matrix.one_kronecker_one]

open Kronecker in
theorem kron_h {A B : Matrix (Fin 2) (Fin 2) ℂ} (hA : A.conjTranspose = A) (hB : B.conjTranspose = B) :
    (A ⊗ₖ B).conjTranspose = A ⊗ₖ B := by rw [Matrix.conjTranspose_kronecker, hA, hB]

/-! ## What the matrices are -/

theorem X_eq : M2 Xmat = σx := by
  rw [Xmat, M2_g4]; ext i j; fin_cases i <;> fin_cases j <;> apply Complex.ext <;> simp [σx, toC, cZero, cOne]
theorem Y_eq : M2 Ymat = σy := by
  rw [Ymat, M2_g4]; ext i j; fin_cases i <;> fin_cases j <;> apply Complex.ext <;> simp [σy, toC, cZero, cI, cMi]
theorem Z_eq : M2 Zmat = σz := by
  rw [Zmat, M2_g4]; ext i j; fin_cases i <;> fin_cases j <;> apply Complex.ext <;> simp [σz, toC, cZero, cOne, cMone]
theorem I_eq : M2 Imat = 1 := by
  rw [Imat, M2_g4]; ext i j; fin_cases i <;> fin_cases j <;> apply Complex.ext <;> simp [toC, cZero, cOne]

theorem rx_eq (a : ℝ) : M2 (rx a) = rot σx a := by
  rw [rx, M2_g4]; ext i j; fin_cases i <;> fin_cases j <;> apply Complex.ext <;>
    simp [rot, σx, toC, Complex.cos_ofReal_re, Complex.sin_ofReal_re, Complex.cos_ofReal_im, Complex.sin_ofReal_im,
      -Complex.ofReal_cos, -Complex.ofReal_sin, -Complex.ofReal_div]
theorem ry_eq (a : ℝ) : M2 (ry a) = rot σy a := by
  rw [ry, M2_g4]; ext i j; fin_cases i <;> fin_cases j <;> apply Complex.ext <;>
    simp [rot, σy, toC, -Complex.ofReal_cos, -Complex.ofReal_sin, -Complex.ofReal_div]
theorem rz_eq (a : ℝ) : M2 (rz a) = rot σz a := by
  rw [rz, M2_g4]; ext i j; fin_cases i <;> fin_cases j <;> apply Complex.ext <;>
    simp [rot, σz, toC, cZero, -Complex.ofReal_cos, -Complex.ofReal_sin, -Complex.ofReal_div]

open Kronecker
theorem rxx_eq (a : ℝ) : M4 (rxx a) = rot (σx ⊗ₖ σx) a := by
  ext ⟨i, i'⟩ ⟨j, j'⟩
  fin_cases i <;> fin_cases i' <;> fin_cases j <;> fin_cases j' <;> apply Complex.ext <;>
    simp [M4, rxx, g16, rot, σx, toC, cZero, Matrix.one_apply, -Complex.ofReal_cos, -Complex.ofReal_sin,
      -Complex.ofReal_div]
theorem ryy_eq (a : ℝ) : M4 (ryy a) = rot (σy ⊗ₖ σy) a := by
  ext ⟨i, i'⟩ ⟨j, j'⟩
  fin_cases i <;> fin_cases i' <;> fin_cases j <;> fin_cases j' <;> apply Complex.ext <;>
    simp [M4, ryy, g16, rot, σy, toC, cZero, Matrix.one_apply, -Complex.ofReal_cos, -Complex.ofReal_sin,
      -Complex.ofReal_div]
theorem rzz_eq (a : ℝ) : M4 (rzz a) = rot (σz ⊗ₖ σz) a := by
  ext ⟨i, i'⟩ ⟨j, j'⟩
  fin_cases i <;> fin_cases i' <;> fin_cases j <;> fin_cases j' <;> apply Complex.ext <;>
    simp [M4, rzz, g16, rot, σz, toC, cZero, Matrix.one_apply, -Complex.ofReal_cos, -Complex.ofReal_sin,
      -Complex.ofReal_div]
/-- `X` acts on the high index bit (the first target), `Z` on the low one. -/
theorem rzx_eq (a : ℝ) : M4 (rzx a) = rot (σx ⊗ₖ σz) a := by
  ext ⟨i, i'⟩ ⟨j, j'⟩
  fin_cases i <;> fin_cases i' <;> fin_cases j <;> fin_cases j' <;> apply Complex.ext <;>
    simp [M4, rzx, g16, rot, σx, σz, toC, cZero, Matrix.one_apply, -Complex.ofReal_cos, -Complex.ofReal_sin,
      -Complex.ofReal_div]

/-- SWAP exchanges the two factors. -/
theorem swp_eq : M4 swp = fun i j => if i = (j.2, j.1) then 1 else 0 := by
  ext ⟨i, i'⟩ ⟨j, j'⟩
  fin_cases i <;> fin_cases i' <;> fin_cases j <;> fin_cases j' <;> apply Complex.ext <;>
    simp [M4, swp, g16, toC, cZero, cOne]
/-- iSWAP exchanges the two factors, with a phase `i` when they differ. -/
theorem iswp_eq : M4 iswp = fun i j => if i = (j.2, j.1) then (if j.1 = j.2 then 1 else Complex.I) else 0 := by
  ext ⟨i, i'⟩ ⟨j, j'⟩
  fin_cases i <;> fin_cases i' <;> fin_cases j <;> fin_cases j' <;> apply Complex.ext <;>
    simp [M4, iswp, g16, toC, cZero, cOne, cI]

/-! ## Relations -/

theorem exp_mul_conj (x : ℝ) : Complex.exp (x * Complex.I) * star (Complex.exp (x * Complex.I)) = 1 := by
  have : star (Complex.exp (x * Complex.I)) = Complex.exp (-(x * Complex.I)) := by
    show (starRingEnd ℂ) _ = _
    rw [← Complex.exp_conj]; simp
  rw [this, ← Complex.exp_add, add_neg_cancel, Complex.exp_zero]

theorem sc : ((SQRT2 : ℝ) : ℂ) * SQRT2 = 1 / 2 := by
  have := sqrt2sq
  have h : ((SQRT2 * SQRT2 : ℝ) : ℂ) = ((1 / 2 : ℝ) : ℂ) := by rw [this]
  push_cast at h; exact h

theorem H_unitary_invol : M2 Hmat * M2 Hmat = 1 ∧ (M2 Hmat).conjTranspose = M2 Hmat := by
  have h := sqrt2sq
  rw [Hmat, M2_g4]
  constructor <;> ext i j <;> fin_cases i <;> fin_cases j <;> apply Complex.ext <;>
    simp [toC, cS, cMS, h] <;> norm_num

theorem S_sq : M2 Smat * M2 Smat = σz := by
  rw [Smat, M2_g4]; ext i j; fin_cases i <;> fin_cases j <;> apply Complex.ext <;>
    simp [toC, cZero, cOne, cI, σz]
theorem T_sq : M2 Tmat * M2 Tmat = M2 Smat := by
  have h := sqrt2sq
  rw [Tmat, Smat, M2_g4, M2_g4]; ext i j; fin_cases i <;> fin_cases j <;> apply Complex.ext <;>
    simp [toC, cZero, cOne, cI, c1pi, h] <;> norm_num
theorem SX_sq : M2 SXmat * M2 SXmat = σx := by
  rw [SXmat, M2_g4]; ext i j; fin_cases i <;> fin_cases j <;> apply Complex.ext <;>
    simp [toC, c1pi2, c1mi2, σx] <;> norm_num
theorem Sdag_eq : M2 Sdagmat = (M2 Smat).conjTranspose := by
  rw [Smat, Sdagmat, M2_g4, M2_g4]; ext i j; fin_cases i <;> fin_cases j <;> apply Complex.ext <;>
    simp [toC, cZero, cOne, cI, cMi]
theorem Tdag_eq : M2 Tdagmat = (M2 Tmat).conjTranspose := by
  rw [Tmat, Tdagmat, M2_g4, M2_g4]; ext i j; fin_cases i <;> fin_cases j <;> apply Complex.ext <;>
    simp [toC, cZero, cOne, c1pi, c1mi]
theorem SXdag_eq : M2 SXdagmat = (M2 SXmat).conjTranspose := by
  rw [SXmat, SXdagmat, M2_g4, M2_g4]; ext i j; fin_cases i <;> fin_cases j <;> apply Complex.ext <;>
    simp [toC, c1pi2, c1mi2]
theorem Vdag_eq : M2 Vdagmat = (M2 Vmat).conjTranspose := by
  rw [Vmat, Vdagmat, M2_g4, M2_g4]; ext i j; fin_cases i <;> fin_cases j <;> apply Complex.ext <;>
    simp [toC, cS, cMIS, cIS]

/-- Up to the phase `e^{iπ/4}`, `V` is `SX`. -/
theorem V_SX : M2 SXmat = toC c1pi • M2 Vmat := by
  have h := sqrt2sq
  rw [Vmat, SXmat, M2_g4, M2_g4]; ext i j; fin_cases i <;> fin_cases j <;> apply Complex.ext <;>
    simp [toC, c1pi2, c1mi2, c1pi, cS, cMIS, h] <;> norm_num

theorem unitary_of {n : Type} [DecidableEq n] [Fintype n] {A : Matrix n n ℂ} (h : A * A.conjTranspose = 1) :
    A ∈ Matrix.unitaryGroup n ℂ := Matrix.mem_unitaryGroup_iff.2 h

theorem unitary_star {n : Type} [DecidableEq n] [Fintype n] {A B : Matrix n n ℂ} (hA : A ∈ Matrix.unitaryGroup n ℂ)
    (h : B = A.conjTranspose) : B ∈ Matrix.unitaryGroup n ℂ := by
  subst h; exact (Matrix.mem_unitaryGroup_iff.2 (by
    rw [Matrix.star_eq_conjTranspose, Matrix.conjTranspose_conjTranspose]; exact Matrix.mem_unitaryGroup_iff'.1 hA))

theorem S_unitary : M2 Smat ∈ Matrix.unitaryGroup (Fin 2) ℂ := unitary_of (by
  rw [Smat, M2_g4]; ext i j; rw [Matrix.mul_apply, Fin.sum_univ_two]; fin_cases i <;> fin_cases j <;> apply Complex.ext <;>
    simp [toC, cZero, cOne, cI])
theorem T_unitary : M2 Tmat ∈ Matrix.unitaryGroup (Fin 2) ℂ := unitary_of (by
  have h := sqrt2sq
  rw [Tmat, M2_g4]; ext i j; rw [Matrix.mul_apply, Fin.sum_univ_two]; fin_cases i <;> fin_cases j <;> apply Complex.ext <;>
    simp [toC, cZero, cOne, c1pi, h] <;> norm_num)
theorem SX_unitary : M2 SXmat ∈ Matrix.unitaryGroup (Fin 2) ℂ := unitary_of (by
  rw [SXmat, M2_g4]; ext i j; rw [Matrix.mul_apply, Fin.sum_univ_two]; fin_cases i <;> fin_cases j <;> apply Complex.ext <;>
    simp [toC, c1pi2, c1mi2] <;> norm_num)
theorem V_unitary : M2 Vmat ∈ Matrix.unitaryGroup (Fin 2) ℂ := unitary_of (by
  have h := sqrt2sq
  rw [Vmat, M2_g4]; ext i j; rw [Matrix.mul_apply, Fin.sum_univ_two]; fin_cases i <;> fin_cases j <;> apply Complex.ext <;>
    simp [toC, cS, cMIS, h] <;> norm_num)
theorem H_unitary : M2 Hmat ∈ Matrix.unitaryGroup (Fin 2) ℂ := unitary_of (by
  rw [H_unitary_invol.2]; exact H_unitary_invol.1)
theorem σ_unitary {A : Matrix (Fin 2) (Fin 2) ℂ} (h : A * A = 1) (h' : A.conjTranspose = A) :
    A ∈ Matrix.unitaryGroup (Fin 2) ℂ := unitary_of (by rw [h', h])

theorem p_eq (a : ℝ) : M2 (p a) = !![1, 0; 0, Complex.exp (a * Complex.I)] := by
  rw [p, M2_g4]
  rw [show (⟨Real.cos a, Real.sin a⟩ : CR) = cexp a from rfl, toC_cexp]
  ext i j; fin_cases i <;> fin_cases j <;> simp [cZero, cOne] <;> apply Complex.ext <;> simp [toC]

theorem rz_exp (a : ℝ) : M2 (rz a) = !![Complex.exp (-(a / 2 : ℝ) * Complex.I), 0; 0, Complex.exp ((a / 2 : ℝ) * Complex.I)] := by
  rw [rz, M2_g4]
  rw [show (⟨Real.cos (a / 2), Real.sin (a / 2)⟩ : CR) = cexp (a / 2) from rfl, toC_cexp]
  rw [show (⟨Real.cos (a / 2), -Real.sin (a / 2)⟩ : CR) = cexp (-(a / 2)) by simp [cexp], toC_cexp]
  push_cast
  have : toC cZero = 0 := by apply Complex.ext <;> simp [toC, cZero]
  rw [this]

/-- The Euler decomposition of `u`, with its phase. -/
theorem u_euler (θ φ lam γ : ℝ) : M2 (u θ φ lam γ) =
    Complex.exp ((γ + (φ + lam) / 2 : ℝ) * Complex.I) • (M2 (rz φ) * M2 (ry θ) * M2 (rz lam)) := by
  rw [rz_exp, rz_exp, ry, M2_g4, u, M2_g4]
  simp only [toC_cscale, toC_neg, toC_cexp]
  have e1 : toC (⟨Real.cos (θ / 2), 0⟩ : CR) = (Real.cos (θ / 2) : ℝ) := by apply Complex.ext <;> simp [toC, -Complex.ofReal_cos]
  have e2 : toC (⟨Real.sin (θ / 2), 0⟩ : CR) = (Real.sin (θ / 2) : ℝ) := by apply Complex.ext <;> simp [toC, -Complex.ofReal_sin]
  have e3 : toC (⟨-Real.sin (θ / 2), 0⟩ : CR) = -(Real.sin (θ / 2) : ℝ) := by apply Complex.ext <;> simp [toC, -Complex.ofReal_sin]
  rw [e1, e2, e3]
  have key : ∀ x y z t : ℂ, t = x + y + z → Complex.exp t = Complex.exp x * (Complex.exp y * Complex.exp z) := by
    intro x y z t h; rw [h, Complex.exp_add, Complex.exp_add, mul_assoc]
  ext i j
  fin_cases i <;> fin_cases j
  · simp only [Matrix.of_apply, Matrix.smul_of, Fin.zero_eta, Fin.mk_one, Matrix.cons_val_zero, Matrix.cons_val_one,
      Matrix.mul_apply, Fin.sum_univ_two, Matrix.smul_apply, smul_eq_mul, mul_zero, zero_mul, add_zero, zero_add]
    rw [key ((γ + (φ + lam) / 2 : ℝ) * Complex.I) (-(φ / 2 : ℝ) * Complex.I) (-(lam / 2 : ℝ) * Complex.I) _ (by push_cast; ring)]
    ring
  · simp only [Matrix.of_apply, Matrix.smul_of, Fin.zero_eta, Fin.mk_one, Matrix.cons_val_zero, Matrix.cons_val_one,
      Matrix.mul_apply, Fin.sum_univ_two, Matrix.smul_apply, smul_eq_mul, mul_zero, zero_mul, add_zero, zero_add]
    rw [key ((γ + (φ + lam) / 2 : ℝ) * Complex.I) (-(φ / 2 : ℝ) * Complex.I) ((lam / 2 : ℝ) * Complex.I) _ (by push_cast; ring)]
    ring
  · simp only [Matrix.of_apply, Matrix.smul_of, Fin.zero_eta, Fin.mk_one, Matrix.cons_val_zero, Matrix.cons_val_one,
      Matrix.mul_apply, Fin.sum_univ_two, Matrix.smul_apply, smul_eq_mul, mul_zero, zero_mul, add_zero, zero_add]
    rw [key ((γ + (φ + lam) / 2 : ℝ) * Complex.I) ((φ / 2 : ℝ) * Complex.I) (-(lam / 2 : ℝ) * Complex.I) _ (by push_cast; ring)]
    ring
  · simp only [Matrix.of_apply, Matrix.smul_of, Fin.zero_eta, Fin.mk_one, Matrix.cons_val_zero, Matrix.cons_val_one,
      Matrix.mul_apply, Fin.sum_univ_two, Matrix.smul_apply, smul_eq_mul, mul_zero, zero_mul, add_zero, zero_add]
    rw [key ((γ + (φ + lam) / 2 : ℝ) * Complex.I) ((φ / 2 : ℝ) * Complex.I) ((lam / 2 : ℝ) * Complex.I) _ (by push_cast; ring)]
    ring

theorem smul_unitary {n : Type} [DecidableEq n] [Fintype n] {A : Matrix n n ℂ} (hA : A ∈ Matrix.unitaryGroup n ℂ)
    (x : ℝ) : Complex.exp (x * Complex.I) • A ∈ Matrix.unitaryGroup n ℂ := by
  rw [Matrix.mem_unitaryGroup_iff, Matrix.star_eq_conjTranspose, Matrix.conjTranspose_smul, Matrix.smul_mul,
    Matrix.mul_smul, smul_smul, exp_mul_conj, one_smul]
  exact Matrix.mem_unitaryGroup_iff.1 hA

theorem u_unitary (θ φ lam γ : ℝ) : M2 (u θ φ lam γ) ∈ Matrix.unitaryGroup (Fin 2) ℂ := by
  rw [u_euler]
  refine smul_unitary (Submonoid.mul_mem _ (Submonoid.mul_mem _ ?_ ?_) ?_) _
  · rw [rz_eq]; exact rot_unitary σz_sq σz_h φ
  · rw [ry_eq]; exact rot_unitary σy_sq σy_h θ
  · rw [rz_eq]; exact rot_unitary σz_sq σz_h lam

theorem u1_eq_p (lam : ℝ) : M2 (u1 lam) = M2 (p lam) := by
  rw [p_eq, u1, u, M2_g4]
  simp only [toC_cscale, toC_neg, toC_cexp]
  ext i j; fin_cases i <;> fin_cases j <;> simp

/-- `r(θ, φ)` rotates by `θ` about the axis at angle `φ` in the xy plane. -/
theorem r_eq (θ φ : ℝ) : M2 (r θ φ) = M2 (rz φ) * M2 (rx θ) * M2 (rz (-φ)) := by
  rw [rz_exp, rz_exp, rx, M2_g4, r, M2_g4]
  simp only [toC_cscale, toC_mul, toC_cexp]
  have e1 : toC (⟨Real.cos (θ / 2), 0⟩ : CR) = (Real.cos (θ / 2) : ℝ) := by apply Complex.ext <;> simp [toC, -Complex.ofReal_cos]
  have e2 : toC (⟨0, -Real.sin (θ / 2)⟩ : CR) = -Complex.I * (Real.sin (θ / 2) : ℝ) := by
    apply Complex.ext <;> simp [toC, -Complex.ofReal_sin]
  have e3 : toC cMi = -Complex.I := by apply Complex.ext <;> simp [toC, cMi]
  rw [e1, e2, e3]
  have key : ∀ y z t : ℂ, t = y + z → Complex.exp t = Complex.exp y * Complex.exp z := by
    intro y z t h; rw [h, Complex.exp_add]
  ext i j
  fin_cases i <;> fin_cases j
  · simp only [Matrix.of_apply, Fin.zero_eta, Fin.mk_one, Matrix.cons_val_zero, Matrix.cons_val_one,
      Matrix.mul_apply, Fin.sum_univ_two, mul_zero, zero_mul, add_zero, zero_add]
    have := key (-(φ / 2 : ℝ) * Complex.I) (-((-φ) / 2 : ℝ) * Complex.I) 0 (by push_cast; ring)
    rw [Complex.exp_zero] at this
    linear_combination (Real.cos (θ / 2) : ℂ) * this
  · simp only [Matrix.of_apply, Fin.zero_eta, Fin.mk_one, Matrix.cons_val_zero, Matrix.cons_val_one,
      Matrix.mul_apply, Fin.sum_univ_two, mul_zero, zero_mul, add_zero, zero_add]
    rw [key (-(φ / 2 : ℝ) * Complex.I) (((-φ) / 2 : ℝ) * Complex.I) _ (by push_cast; ring)]
    ring
  · simp only [Matrix.of_apply, Fin.zero_eta, Fin.mk_one, Matrix.cons_val_zero, Matrix.cons_val_one,
      Matrix.mul_apply, Fin.sum_univ_two, mul_zero, zero_mul, add_zero, zero_add]
    rw [key ((φ / 2 : ℝ) * Complex.I) (-((-φ) / 2 : ℝ) * Complex.I) _ (by push_cast; ring)]
    ring
  · simp only [Matrix.of_apply, Fin.zero_eta, Fin.mk_one, Matrix.cons_val_zero, Matrix.cons_val_one,
      Matrix.mul_apply, Fin.sum_univ_two, mul_zero, zero_mul, add_zero, zero_add]
    have := key ((φ / 2 : ℝ) * Complex.I) (((-φ) / 2 : ℝ) * Complex.I) 0 (by push_cast; ring)
    rw [Complex.exp_zero] at this
    linear_combination (Real.cos (θ / 2) : ℂ) * this

end
end Gate
end QDD
