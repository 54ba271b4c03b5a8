import Verif.Num.State
import Verif.Py.Iso
import Mathlib.Analysis.InnerProductSpace.PiL2
/-!
# Numerical accuracy: the 2-norm, exact complex numbers, isometries
-/

set_option linter.unusedSectionVars false
set_option linter.unusedVariables false
set_option linter.unusedSimpArgs false

namespace QDD.Num
open Finset Spec

/-- The exact complex number of the specification (Api/Spec.lean) as an element of `ℂ`. -/
def toC (a : C ℝ) : ℂ := ⟨a.r, a.i⟩

/-- The 2-norm of the first `2 ^ k` entries. -/
noncomputable def n2 (k : Nat) (f : Nat → ℂ) : ℝ := √(∑ i ∈ range (2 ^ k), ‖f i‖ ^ 2)

theorem n2_eq (k : Nat) (f : Nat → ℂ) : n2 k f = ‖(WithLp.toLp 2 (fun i : Fin (2 ^ k) => f i) : EuclideanSpace ℂ (Fin (2 ^ k)))‖ := by
  rw [EuclideanSpace.norm_eq]
  unfold n2
  rw [Finset.sum_range]

theorem n2_add (k : Nat) (f g : Nat → ℂ) : n2 k (fun i => f i + g i) ≤ n2 k f + n2 k g := by
  rw [n2_eq, n2_eq, n2_eq]
  exact norm_add_le (WithLp.toLp 2 (fun i : Fin (2 ^ k) => f i) : EuclideanSpace ℂ (Fin (2 ^ k))) (WithLp.toLp 2 (fun i : Fin (2 ^ k) => g i))

theorem n2_congr {k : Nat} {f g : Nat → ℂ} (h : ∀ i < 2 ^ k, f i = g i) : n2 k f = n2 k g := by
  unfold n2
  rw [Finset.sum_congr rfl fun i hi => by rw [h i (mem_range.1 hi)]]

theorem n2_nn (k : Nat) (f : Nat → ℂ) : 0 ≤ n2 k f := Real.sqrt_nonneg _

theorem n2_sq (k : Nat) (f : Nat → ℂ) : n2 k f ^ 2 = ∑ i ∈ range (2 ^ k), ‖f i‖ ^ 2 :=
  Real.sq_sqrt (Finset.sum_nonneg fun i _ => by positivity)

/-- Every entry is bounded by the 2-norm. -/
theorem le_n2 {k : Nat} {f : Nat → ℂ} {i : Nat} (hi : i < 2 ^ k) : ‖f i‖ ≤ n2 k f := by
  apply Real.le_sqrt_of_sq_le
  exact Finset.single_le_sum (f := fun i => ‖f i‖ ^ 2) (fun i _ => by positivity) (mem_range.2 hi)

/-- A bound on every entry bounds the 2-norm. -/
theorem n2_le {k : Nat} {f : Nat → ℂ} {β : ℝ} (hβ : 0 ≤ β) (h : ∀ i < 2 ^ k, ‖f i‖ ≤ β) : n2 k f ≤ √(2 ^ k) * β := by
  unfold n2
  have h1 : ∑ i ∈ range (2 ^ k), ‖f i‖ ^ 2 ≤ 2 ^ k * β ^ 2 := by
    calc _ ≤ ∑ i ∈ range (2 ^ k), β ^ 2 := Finset.sum_le_sum fun i hi =>
            pow_le_pow_left₀ (norm_nonneg _) (h i (mem_range.1 hi)) 2
      _ = _ := by simp
  refine (Real.sqrt_le_sqrt h1).trans ?_
  rw [Real.sqrt_mul (by positivity), Real.sqrt_sq hβ]

/-- The 2-norm of a difference, through a third point. -/
theorem n2_tri (k : Nat) (f g h : Nat → ℂ) : n2 k (fun i => f i - h i) ≤ n2 k (fun i => f i - g i) + n2 k (fun i => g i - h i) := by
  refine le_trans (le_of_eq ?_) (n2_add k (fun i => f i - g i) (fun i => g i - h i))
  exact n2_congr fun i _ => by ring

theorem n2_le_add (k : Nat) (f g : Nat → ℂ) : n2 k f ≤ n2 k (fun i => f i - g i) + n2 k g := by
  refine le_trans (le_of_eq ?_) (n2_add k (fun i => f i - g i) g)
  exact n2_congr fun i _ => by ring

/-! ## Exact complex numbers -/

@[simp] theorem toC_add (a b : C ℝ) : toC (a + b) = toC a + toC b := by
  apply Complex.ext <;> simp [toC]
@[simp] theorem toC_mul (a b : C ℝ) : toC (a * b) = toC a * toC b := by
  apply Complex.ext <;> simp [toC]
@[simp] theorem toC_zero : toC 0 = 0 := by apply Complex.ext <;> simp [toC]
@[simp] theorem toC_one : toC 1 = 1 := by apply Complex.ext <;> simp [toC]

theorem toC_sum {ι : Type} (s : Finset ι) (g : ι → C ℝ) : toC (∑ i ∈ s, g i) = ∑ i ∈ s, toC (g i) := by
  classical
  induction s using Finset.induction_on with
  | empty => simp
  | insert a s ha ih => rw [Finset.sum_insert ha, Finset.sum_insert ha, toC_add, ih]

theorem toC_norm (a : C ℝ) : ‖toC a‖ ^ 2 = a.mag2 := by
  rw [← Complex.normSq_eq_norm_sq, Complex.normSq_apply]
  simp [toC, Cx.mag2]

/-- Any complex number is one. -/
def ofC (z : ℂ) : C ℝ := ⟨z.re, z.im⟩
@[simp] theorem toC_ofC (z : ℂ) : toC (ofC z) = z := rfl

theorem n2_toC (k : Nat) (f : Nat → C ℝ) : n2 k (fun i => toC (f i)) = √(Props.norm2 k f) := by
  unfold n2 Props.norm2
  rw [Finset.sum_congr rfl fun i _ => toC_norm (f i)]

/-- A matrix with orthonormal columns preserves the 2-norm. -/
theorem iso_n2 {k : Nat} {U : Nat → Nat → C ℝ} (hU : Props.Isometry k U) (x : Nat → ℂ) :
    n2 k (fun i => ∑ j ∈ range (2 ^ k), toC (U i j) * x j) = n2 k x := by
  have h1 := hU.norm2 fun j => ofC (x j)
  have h2 : n2 k x = √(Props.norm2 k fun j => ofC (x j)) := by rw [← n2_toC]; simp
  rw [h2, ← h1, ← n2_toC]
  refine n2_congr fun i _ => ?_
  rw [toC_sum]
  simp

/-- Entries of a matrix with orthonormal columns. -/
theorem iso_entry {k : Nat} {U : Nat → Nat → C ℝ} (hU : Props.Isometry k U) {r c : Nat} (hr : r < 2 ^ k) (hc : c < 2 ^ k) :
    ‖toC (U r c)‖ ≤ 1 := by
  have h := congrArg Cx.r (hU c hc c hc)
  simp only [Props.conj_self, if_true] at h
  rw [Props.sum_r] at h
  have h1 : (U r c).mag2 ≤ 1 := by
    have h2 : ∑ i ∈ range (2 ^ k), (U i c).mag2 = 1 := h
    rw [← h2]
    exact Finset.single_le_sum (f := fun i => (U i c).mag2) (fun i _ => by rw [← toC_norm]; positivity) (mem_range.2 hr)
  rw [← toC_norm] at h1
  nlinarith [norm_nonneg (toC (U r c))]

theorem iso1 {n t : Nat} {u : Nat → Nat → C ℝ} {cs : List Ctrl} (ht : t < n) (hcs : ∀ c ∈ cs, c.qubit ≠ t)
    (hu : Props.Isometry 1 u) : Props.Isometry n (Spec.gate1 n u t cs) := by
  refine Props.gate1_isometry ht hcs fun b b' => ?_
  have := hu (bit b) (by cases b <;> decide) (bit b') (by cases b' <;> decide)
  rw [show (2 ^ 1 : Nat) = 2 from rfl, Finset.sum_range_succ, Finset.sum_range_one] at this
  rw [this]
  cases b <;> cases b' <;> simp [bit]

theorem iso2 {n t0 t1 : Nat} {u : Nat → Nat → C ℝ} {cs : List Ctrl} (h0 : t0 < n) (h1 : t1 < n) (hne : t0 ≠ t1)
    (hcs : ∀ c ∈ cs, c.qubit ≠ t0 ∧ c.qubit ≠ t1) (hu : Props.Isometry 2 u) :
    Props.Isometry n (Spec.gate2 n u t0 t1 cs) := by
  refine Py.gate2_isometry h0 h1 hne hcs fun b b' c c' => ?_
  have := hu (2 * bit b + bit b') (by cases b <;> cases b' <;> decide) (2 * bit c + bit c') (by cases c <;> cases c' <;> decide)
  rw [show (2 ^ 2 : Nat) = 4 from rfl] at this
  simp only [Finset.sum_range_succ, Finset.sum_range_zero, zero_add] at this
  rw [Fintype.sum_prod_type]
  simp only [Fintype.sum_bool, bit, if_true, Bool.false_eq_true, if_false]
  have e : (if b = c ∧ b' = c' then (1 : C ℝ) else 0) = if 2 * bit b + bit b' = 2 * bit c + bit c' then 1 else 0 := by
    cases b <;> cases b' <;> cases c <;> cases c' <;> simp [bit]
  rw [e, ← this]
  unfold bit
  norm_num
  ring

theorem toC_gate1 (n : Nat) (u : Nat → Nat → C ℝ) (t : Nat) (cs : List Ctrl) (i j : Nat) :
    toC (Spec.gate1 n u t cs i j) = QDD.gate1 n (fun r c => toC (u r c)) t (Api.ctl cs) i j := by
  rw [← Api.gate1_eq]
  unfold QDD.gate1
  split_ifs <;> simp

theorem toC_gate2 (n : Nat) (u : Nat → Nat → C ℝ) (t0 t1 : Nat) (cs : List Ctrl) (i j : Nat) :
    toC (Spec.gate2 n u t0 t1 cs i j) = QDD.gate2 n (fun r c => toC (u r c)) t0 t1 (Api.ctl cs) i j := by
  rw [← Api.gate2_eq]
  unfold QDD.gate2
  split_ifs <;> simp

theorem xmat_iso : Props.Isometry 1 (xmat : Nat → Nat → C ℝ) := by
  intro j hj k hk
  rw [show (2 ^ 1 : Nat) = 2 from rfl] at hj hk ⊢
  rw [Finset.sum_range_succ, Finset.sum_range_one]
  interval_cases j <;> interval_cases k <;> apply Cx.ext <;> simp [xmat, ExactW.one_eq, ExactW.zero_eq, Props.conj]

theorem swapMat_iso : Props.Isometry 2 (swapMat : Nat → Nat → C ℝ) := by
  intro j hj k hk
  rw [show (2 ^ 2 : Nat) = 4 from rfl] at hj hk ⊢
  simp only [Finset.sum_range_succ, Finset.sum_range_zero, zero_add]
  interval_cases j <;> interval_cases k <;> apply Cx.ext <;> simp [swapMat, ExactW.one_eq, ExactW.zero_eq, Props.conj]

theorem cx_gate {n t c : Nat} (ht : t < n) (hc : c < n) (htc : t ≠ c) {i j : Nat} (hi : i < 2 ^ n) (hj : j < 2 ^ n) :
    (permM n (cnot t c) : Mat ℝ).F i j = Spec.gate1 n xmat t [⟨c, false⟩] i j := by
  rw [← Api.gate1_eq]
  exact (gate1_cx ht hc htc hi hj).symm

theorem cswap_gate {n t0 t1 c : Nat} (h0 : t0 < n) (h1 : t1 < n) (hc : c < n) (h01 : t0 ≠ t1) (hc0 : c ≠ t0)
    (hc1 : c ≠ t1) {i j : Nat} (hi : i < 2 ^ n) (hj : j < 2 ^ n) :
    (permM n (fun j => if j.testBit c then exch t0 t1 j else j) : Mat ℝ).F i j =
      Spec.gate2 n swapMat t0 t1 [⟨c, false⟩] i j := by
  rw [← Api.gate2_eq]
  exact (gate2_cswap h0 h1 hc h01 hc0 hc1 hi hj).symm

theorem iso_congr {k : Nat} {U V : Nat → Nat → C ℝ} (h : ∀ i < 2 ^ k, ∀ j < 2 ^ k, U i j = V i j) (hV : Props.Isometry k V) :
    Props.Isometry k U := by
  intro a ha b hb
  rw [← hV a ha b hb]
  exact Finset.sum_congr rfl fun i hi => by rw [h i (mem_range.1 hi) a ha, h i (mem_range.1 hi) b hb]

end QDD.Num
