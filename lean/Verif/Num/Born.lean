import Verif.Num.Machine
import Verif.Num.MeasOne
import Mathlib.Algebra.Order.Chebyshev
/-!
# Numerical accuracy of measurement: from the state to the probabilities

A state vector within `E` of a unit vector in 2-norm has Born probabilities within `4 E` of the exact ones in total variation.
-/

set_option linter.unusedSectionVars false
set_option linter.unusedVariables false
set_option linter.unusedSimpArgs false

namespace QDD.Num
open RoundW NumW Prog Safe
open Finset (range mem_range)
open Spec (C Vec Mat Heap Cmd Ctrl)

/-! ## Analysis -/

theorem n2_smul (k : Nat) (a : ℂ) (f : Nat → ℂ) : n2 k (fun i => a * f i) = ‖a‖ * n2 k f := by
  unfold n2
  have : ∑ i ∈ range (2 ^ k), ‖a * f i‖ ^ 2 = ‖a‖ ^ 2 * ∑ i ∈ range (2 ^ k), ‖f i‖ ^ 2 := by
    rw [Finset.mul_sum]
    exact Finset.sum_congr rfl fun i _ => by rw [norm_mul, mul_pow]
  rw [this, Real.sqrt_mul (by positivity), Real.sqrt_sq (norm_nonneg _)]

theorem n2_mono {k : Nat} {f g : Nat → ℂ} (h : ∀ i < 2 ^ k, ‖f i‖ ≤ ‖g i‖) : n2 k f ≤ n2 k g := by
  unfold n2
  exact Real.sqrt_le_sqrt (Finset.sum_le_sum fun i hi => pow_le_pow_left₀ (norm_nonneg _) (h i (mem_range.1 hi)) 2)

theorem n2_sub_comm (k : Nat) (f g : Nat → ℂ) : n2 k (fun i => f i - g i) = n2 k (fun i => g i - f i) := by
  unfold n2
  congr 1
  exact Finset.sum_congr rfl fun i _ => by rw [norm_sub_rev]

/-- The difference of the squared moduli, summed. -/
theorem tv_sq (k : Nat) (f g : Nat → ℂ) :
    ∑ i ∈ range (2 ^ k), |‖f i‖ ^ 2 - ‖g i‖ ^ 2| ≤ n2 k (fun i => f i - g i) * (n2 k f + n2 k g) := by
  have cs : ∀ h : Nat → ℂ, ∑ i ∈ range (2 ^ k), ‖f i - g i‖ * ‖h i‖ ≤ n2 k (fun i => f i - g i) * n2 k h := fun h =>
    Real.sum_mul_le_sqrt_mul_sqrt _ _ _
  rw [mul_add]
  refine le_trans ?_ (add_le_add (cs f) (cs g))
  rw [← Finset.sum_add_distrib]
  refine Finset.sum_le_sum fun i _ => ?_
  rw [← mul_add, sq_sub_sq, abs_mul, abs_of_nonneg (add_nonneg (norm_nonneg _) (norm_nonneg _)), mul_comm]
  exact mul_le_mul_of_nonneg_right (abs_norm_sub_norm_le _ _) (add_nonneg (norm_nonneg _) (norm_nonneg _))

/-- Two vectors scaled to unit length. -/
theorem n2_unit_sub {k : Nat} {f g : Nat → ℂ} {A B E : ℝ} (hf : n2 k f = A) (hg : n2 k g = B) (hA : 0 < A) (hB : 0 < B)
    (h : n2 k (fun i => f i - g i) ≤ E) : n2 k (fun i => ((A⁻¹ : ℝ) : ℂ) * f i - ((B⁻¹ : ℝ) : ℂ) * g i) ≤ 2 * E / B := by
  have h1 : n2 k (fun i => ((A⁻¹ : ℝ) : ℂ) * f i - ((B⁻¹ : ℝ) : ℂ) * g i) ≤
      n2 k (fun i => ((A⁻¹ - B⁻¹ : ℝ) : ℂ) * f i) + n2 k (fun i => ((B⁻¹ : ℝ) : ℂ) * (f i - g i)) := by
    refine le_trans (le_of_eq ?_) (n2_add k _ _)
    exact n2_congr fun i _ => by push_cast; ring
  rw [n2_smul, n2_smul, hf, Complex.norm_real, Complex.norm_real, Real.norm_eq_abs, Real.norm_eq_abs,
    abs_of_pos (inv_pos.2 hB)] at h1
  have h2 := n2_le_add k f g
  have h3 := n2_le_add k g f
  rw [n2_sub_comm k g f] at h3
  rw [hf, hg] at h2 h3
  have h4 : |A⁻¹ - B⁻¹| * A ≤ E / B := by
    rw [show A⁻¹ - B⁻¹ = (B - A) / (A * B) by field_simp, abs_div, abs_of_pos (mul_pos hA hB), div_mul_eq_mul_div,
      div_le_div_iff₀ (mul_pos hA hB) hB]
    have : |B - A| ≤ E := by rw [abs_le]; constructor <;> linarith
    have := mul_le_mul_of_nonneg_right this (mul_pos hA hB).le
    nlinarith
  have h5 : B⁻¹ * n2 k (fun i => f i - g i) ≤ E / B := by
    rw [inv_mul_eq_div]
    exact div_le_div_of_nonneg_right h hB.le
  calc _ ≤ _ := h1
    _ ≤ E / B + E / B := add_le_add h4 h5
    _ = _ := by ring

/-- The Born probabilities of a vector near a unit vector. -/
theorem tv_near {k : Nat} {f g : Nat → ℂ} {E : ℝ} (hg : n2 k g = 1) (h : n2 k (fun i => f i - g i) ≤ E) (hE : E < 1) :
    0 < n2 k f ∧ ∑ i ∈ range (2 ^ k), |‖f i‖ ^ 2 / (n2 k f) ^ 2 - ‖g i‖ ^ 2| ≤ 4 * E := by
  have h3 := n2_le_add k g f
  rw [n2_sub_comm k g f, hg] at h3
  have hpos : 0 < n2 k f := by linarith
  refine ⟨hpos, ?_⟩
  have h1 := n2_unit_sub rfl hg hpos one_pos h
  have h2 := tv_sq k (fun i => (((n2 k f)⁻¹ : ℝ) : ℂ) * f i) (fun i => ((((1 : ℝ))⁻¹ : ℝ) : ℂ) * g i)
  rw [n2_smul k _ f, n2_smul k _ g, hg, Complex.norm_real, Complex.norm_real, Real.norm_eq_abs, Real.norm_eq_abs,
    abs_of_pos (inv_pos.2 hpos), inv_mul_cancel₀ hpos.ne', inv_one, abs_one] at h2
  rw [inv_one] at h1
  have e : ∀ i, ‖(((n2 k f)⁻¹ : ℝ) : ℂ) * f i‖ ^ 2 - ‖(((1 : ℝ) : ℝ) : ℂ) * g i‖ ^ 2 = ‖f i‖ ^ 2 / (n2 k f) ^ 2 - ‖g i‖ ^ 2 := by
    intro i
    rw [norm_mul, norm_mul, Complex.norm_real, Complex.norm_real, Real.norm_eq_abs, Real.norm_eq_abs,
      abs_of_pos (inv_pos.2 hpos), abs_one]
    field_simp
  rw [Finset.sum_congr rfl fun i _ => by rw [e i]] at h2
  linarith

variable {R W : Type} [WOps W] [ROps R W] [RoundW W] [NumW W] {env : Env W}

theorem VNear.ptr {s : St W} {V c e} (h : VNear env s V c e) (hb : kap W V.k * c < 1) : VPtr env s V.k e.n := by
  rcases h.lv with h1 | ⟨h1, h2⟩
  · exact h1
  · exact absurd h2 (h.live hb)

theorem nsq_sum (s : St W) (k : Nat) (e : Edge W) : n2 k (vd s k e) ^ 2 = ‖val e.w‖ ^ 2 * nsq s.vt.mem k e.n := by
  rw [n2_sq]
  unfold nsq ws
  rw [bsum_eq, Finset.mul_sum]
  refine Finset.sum_congr rfl fun i _ => ?_
  unfold vd
  rw [norm_mul]; ring

/-- The distribution the node encodes is the Born distribution of the exact state, up to the error of the state. -/
theorem born_near {s : St W} {V c e} (h : VNear env s V c e) (hb : kap W V.k * c < 1) :
    bsum V.k (fun x => |tau s.vt.mem V.k e.n x - (V.f x).mag2|) ≤ 4 * (kap W V.k * c) := by
  obtain ⟨h1, h2⟩ := tv_near h.unit h.err hb
  rw [bsum_eq]
  refine le_trans (le_of_eq (Finset.sum_congr rfl fun i _ => ?_)) h2
  rw [toC_norm, nsq_sum]
  unfold tau
  have h3 : 0 < n2 V.k (vd s V.k e) ^ 2 := by positivity
  rw [nsq_sum] at h3
  have hw : ‖val e.w‖ ^ 2 ≠ 0 := fun h => by rw [h, zero_mul] at h3; exact h3.false
  have : ‖vd s V.k e i‖ ^ 2 = ‖val e.w‖ ^ 2 * ‖vp s.vt.mem V.k e.n i‖ ^ 2 := by unfold vd; rw [norm_mul, mul_pow]
  rw [this, mul_div_mul_left _ _ hw]

/-- The mass of the basis states whose bit `q` is `b`. -/
noncomputable def mass (k : Nat) (f : Nat → ℂ) (q : Nat) (b : Bool) : ℝ := ∑ i ∈ range (2 ^ k), bitR q b i * ‖f i‖ ^ 2

theorem mass_nn (k : Nat) (f : Nat → ℂ) (q : Nat) (b : Bool) : 0 ≤ mass k f q b :=
  Finset.sum_nonneg fun i _ => mul_nonneg (bitR_01 q b i).1 (sq_nonneg _)

theorem mass_sum (k : Nat) (f : Nat → ℂ) (q : Nat) : mass k f q false + mass k f q true = n2 k f ^ 2 := by
  rw [n2_sq]
  unfold mass
  rw [← Finset.sum_add_distrib]
  refine Finset.sum_congr rfl fun i _ => ?_
  unfold bitR
  cases i.testBit q <;> simp

theorem margN_mass (s : St W) (k : Nat) (e : Edge W) (q : Nat) (b : Bool) : margN s k e q b = mass k (vd s k e) q b := by
  unfold margN mass; rw [bsum_eq]

theorem marg_mass (V : Vec ℝ) (q : Nat) (b : Bool) : V.marg q b = mass V.k (fun i => toC (V.f i)) q b := by
  unfold Spec.Vec.marg mass
  refine Finset.sum_congr rfl fun i _ => ?_
  unfold bitR
  rw [toC_norm]
  split <;> simp_all

theorem mass_near {k : Nat} {f g : Nat → ℂ} {E : ℝ} (hg : n2 k g = 1) (h : n2 k (fun i => f i - g i) ≤ E) (hE : E < 1) (q : Nat) (b : Bool) :
    |mass k f q b / n2 k f ^ 2 - mass k g q b| ≤ 4 * E := by
  refine le_trans ?_ (tv_near hg h hE).2
  unfold mass
  rw [Finset.sum_div, ← Finset.sum_sub_distrib]
  refine (Finset.abs_sum_le_sum_abs _ _).trans (Finset.sum_le_sum fun i _ => ?_)
  rw [mul_div_assoc, ← mul_sub, abs_mul]
  have := bitR_01 q b i
  rw [abs_of_nonneg this.1]
  exact mul_le_of_le_one_left (abs_nonneg _) this.2

/-! ## One qubit -/

theorem Ap.abs2 {v : ℝ} {n : Nat} {a x y : ℝ} (hv : 0 ≤ v) (hn : 2 * n * v ≤ 1) (hx : 0 ≤ x) (hy : 0 ≤ y) (ha : 0 ≤ a)
    (h : Ap v n a x y) : |x - y| ≤ 2 * n * v * y + 2 * a := by
  have h1 := pw_le hv n hn
  have h2 : (1 : ℝ) ≤ (1 + v) ^ n := one_le_pw hv n
  have hn0 : (0 : ℝ) ≤ 2 * n * v := by positivity
  generalize 2 * (n : ℝ) * v = t at *
  have h3 : x ≤ (y + a) * (1 + t) := h.1.trans (mul_le_mul_of_nonneg_left h1 (by linarith))
  have h4 : y ≤ (x + a) * (1 + t) := h.2.trans (mul_le_mul_of_nonneg_left h1 (by linarith))
  rw [abs_le]
  constructor
  · by_contra hc
    have hc : x + a ≤ y * (1 - t) - a := by linarith
    have : (x + a) * (1 + t) ≤ (y * (1 - t) - a) * (1 + t) := mul_le_mul_of_nonneg_right hc (by linarith)
    have hc' : x - y < -(t * y + 2 * a) := by linarith
    nlinarith [mul_nonneg hy (mul_nonneg hn0 hn0), mul_nonneg ha hn0]
  · nlinarith [mul_nonneg ha hn0]

/-- The sum of two approximate masses. -/
theorem real_sum {p μ x y z M0 M1 N E : ℝ} (hμ : 0 ≤ μ) (hp0 : 0 ≤ p) (hk1 : μ ≤ p) (hp : p ≤ 1 / 1024) (hμ1 : μ ≤ 1 / 1024)
    (hM0 : 0 ≤ M0) (hM1 : 0 ≤ M1) (hsum : M0 + M1 = N) (hx : 0 ≤ x) (hy : 0 ≤ y) (kx : |x - M0| ≤ 128 * p * M0 + μ / 16)
    (ky : |y - M1| ≤ 128 * p * M1 + μ / 16) (hz : |z - (x + y)| ≤ μ * (x + y) + μ / 16) (hN : |N - 1| ≤ 3 * E) (hE : E ≤ 1 / 8) :
    |z - 1| ≤ 3 * E + 512 * p ∧ |z - N| ≤ (128 * p + 3 * μ) * N + 2 * μ ∧ 3 / 4 * N - 1 / 16 ≤ z ∧ 5 / 8 ≤ N := by
  have b1 := abs_le.1 kx
  have b2 := abs_le.1 ky
  have b3 := abs_le.1 hz
  have b4 := abs_le.1 hN
  have hN0 : 0 ≤ N := by linarith
  have e : 128 * p * M0 + 128 * p * M1 = 128 * p * N := by rw [← hsum]; ring
  have q1 : 128 * p * N ≤ N := by nlinarith
  have q0 : 0 ≤ 128 * p * N := by positivity
  have p1 : μ * (x + y) ≤ μ * (2 * N + 1) := mul_le_mul_of_nonneg_left (by linarith) hμ
  have p2 : μ * (2 * N + 1) = 2 * (μ * N) + μ := by ring
  have p3 : 0 ≤ μ * N := by positivity
  have p4 : μ * N ≤ μ * 2 := mul_le_mul_of_nonneg_left (by linarith) hμ
  have p5 : 128 * p * N ≤ 128 * p * 2 := mul_le_mul_of_nonneg_left (by linarith) (by positivity)
  have p6 : 128 * p * N ≤ 1 / 8 * N := mul_le_mul_of_nonneg_right (by linarith) hN0
  have p7 : μ * N ≤ 1 / 1024 * N := mul_le_mul_of_nonneg_right hμ1 hN0
  have e2 : (128 * p + 3 * μ) * N = 128 * p * N + 3 * (μ * N) := by ring
  rw [e2]
  refine ⟨?_, ?_, ?_, ?_⟩
  · rw [abs_le]; constructor <;> linarith
  · rw [abs_le]; constructor <;> linarith
  · linarith
  · linarith

theorem real_div {p μ x z w M0 M1 N : ℝ} (hμ : 0 ≤ μ) (hp0 : 0 ≤ p) (hk1 : μ ≤ p) (hp : p ≤ 1 / 1024) (hμ1 : μ ≤ 1 / 1024)
    (hM0 : 0 ≤ M0) (hM1 : 0 ≤ M1) (hsum : M0 + M1 = N) (hx : 0 ≤ x) (kx : |x - M0| ≤ 128 * p * M0 + μ / 16)
    (hz : |z - N| ≤ (128 * p + 3 * μ) * N + 2 * μ) (hz4 : 3 / 4 * N - 1 / 16 ≤ z) (hw : |w - x / z| ≤ μ * (x / z) + μ / 16) (hN : 5 / 8 ≤ N) :
    |w - M0 / N| ≤ 1024 * p := by
  have hz0 : 0 < z := by linarith
  have hzN : N / 2 ≤ z := by linarith
  have hN0 : 0 < N := by linarith
  have b1 := abs_le.1 kx
  have p6 : 128 * p * M0 ≤ 1 / 8 * M0 := mul_le_mul_of_nonneg_right (by linarith) hM0
  have h1 : |x / z - M0 / N| ≤ 2 * (256 * p + 8 * μ) := by
    have e : x / z - M0 / N = ((x - M0) * N + M0 * (N - z)) / (z * N) := by field_simp; ring
    rw [e, abs_div, abs_of_pos (mul_pos hz0 hN0), div_le_iff₀ (mul_pos hz0 hN0)]
    refine (abs_add_le _ _).trans ?_
    rw [abs_mul, abs_mul, abs_of_pos hN0, abs_of_nonneg hM0, abs_sub_comm N z]
    have i1 : |x - M0| * N ≤ (128 * p * N + μ) * N := by
      refine mul_le_mul_of_nonneg_right (kx.trans ?_) hN0.le
      have : 128 * p * M0 ≤ 128 * p * N := mul_le_mul_of_nonneg_left (by linarith) (by positivity)
      linarith
    have i2 : M0 * |z - N| ≤ N * ((128 * p + 3 * μ) * N + 2 * μ) := mul_le_mul (by linarith) hz (abs_nonneg _) hN0.le
    have i3 : (128 * p * N + μ) * N + N * ((128 * p + 3 * μ) * N + 2 * μ) = N * ((256 * p + 3 * μ) * N + 3 * μ) := by ring
    have i4 : (256 * p + 3 * μ) * N + 3 * μ ≤ (256 * p + 8 * μ) * N := by nlinarith
    have i5 : (256 * p + 8 * μ) * N ≤ 2 * (256 * p + 8 * μ) * z := by
      have := mul_le_mul_of_nonneg_left hzN (show 0 ≤ 256 * p + 8 * μ by linarith)
      linarith
    calc _ ≤ N * ((256 * p + 3 * μ) * N + 3 * μ) := by linarith
      _ ≤ N * (2 * (256 * p + 8 * μ) * z) := mul_le_mul_of_nonneg_left (i4.trans i5) hN0.le
      _ = _ := by ring
  have h2 : x / z ≤ 4 := by
    rw [div_le_iff₀ hz0]; linarith
  have h3 : μ * (x / z) ≤ μ * 4 := mul_le_mul_of_nonneg_left h2 hμ
  have h4 := abs_sub_le w (x / z) (M0 / N)
  linarith

section one
variable [NumR R W] [RoundR R W]
local notation "ρ" => NumR.rv (R := R) (W := W)
local notation "μ" => NumR.u R W
local notation "η" => NumR.eta R W

/-- The two numbers `determineMeasurementProbabilities` returns, their sum and their ratio. -/
theorem detProbs_near {s : St W} (hi : NInv env s) {m : Memo R} (hm : MemoNum env s m) {V : Vec ℝ} {c : Nat} {e : Edge W}
    (hV : VNear env s V c e) {E : ℝ} (hE : kap W V.k * c = E) (hE8 : E ≤ 1 / 8) {q : Nat} (hq : q < V.k) (hu : 2 ^ (V.k + 10) * μ ≤ 1) :
    ∃ (x : Bool → R) (m' : Memo R), Fl.detProbs s e q m = .ok (x false, x true, m') ∧ MemoNum env s m' ∧
      (∀ b, 0 ≤ ρ (x b)) ∧
      (∀ b, Ap (nu R W) (16 * 2 ^ V.k) (2 ^ 220 * η) (ρ (x b)) (mass V.k (vd s V.k e) q b)) ∧
      |ρ (ROps.add W (x false) (x true)) - 1| ≤ 3 * E + 2 ^ (V.k + 9) * μ ∧
      |ρ (ROps.div W (x false) (ROps.add W (x false) (x true))) - V.marg q false| ≤ 4 * E + 2 ^ (V.k + 10) * μ := by
  obtain ⟨x, y, m', h1, h2, hx, hy, h3, h4⟩ := detProbs_num hi hm hV.le (hV.ptr (by rw [hE]; linarith)) hq
  rw [margN_mass] at h3 h4
  have hμ := NumR.u_nn (R := R) (W := W)
  have hη := NumR.eta_nn (R := R) (W := W)
  have hν := nu_nn R W
  have hp0 : (0 : ℝ) ≤ 2 ^ V.k * μ := by positivity
  have e7 : (2 : ℝ) ^ (V.k + 7) * μ = 128 * (2 ^ V.k * μ) := by rw [pow_add]; ring
  have e9 : (2 : ℝ) ^ (V.k + 9) * μ = 512 * (2 ^ V.k * μ) := by rw [pow_add]; ring
  have e10 : (2 : ℝ) ^ (V.k + 10) * μ = 1024 * (2 ^ V.k * μ) := by rw [pow_add]; ring
  have hk1 : μ ≤ 2 ^ V.k * μ := le_mul_of_one_le_left hμ (one_le_pow₀ (by norm_num))
  rw [e10] at hu
  have et : 2 * ((16 * 2 ^ V.k : Nat) : ℝ) * nu R W = 128 * (2 ^ V.k * μ) := by unfold nu; push_cast; ring
  have ha : 2 ^ 220 * η ≤ μ / 2 ^ 601 := by
    have := NumR.eta_le (R := R) (W := W)
    calc 2 ^ 220 * η ≤ 2 ^ 220 * (μ / 2 ^ 900) := mul_le_mul_of_nonneg_left this (by positivity)
      _ = μ * (1 / 2 ^ 680) := by
        rw [show (900 : Nat) = 220 + 680 by norm_num, pow_add]
        field_simp
      _ ≤ μ * (1 / 2 ^ 601) := mul_le_mul_of_nonneg_left
        (one_div_le_one_div_of_le (by positivity) (pow_le_pow_right₀ (by norm_num) (by norm_num))) hμ
      _ = _ := by rw [mul_one_div]
  have ha2 : 2 * (2 ^ 220 * η) ≤ μ / 2 ^ 600 := by
    have : μ / 2 ^ 600 = 2 * (μ / 2 ^ 601) := by rw [pow_succ]; field_simp
    rw [this]; linarith
  have hM := mass_nn V.k (vd s V.k e) q
  have key : ∀ (z : R) b, 0 ≤ ρ z → Ap (nu R W) (16 * 2 ^ V.k) (2 ^ 220 * η) (ρ z) (mass V.k (vd s V.k e) q b) →
      |ρ z - mass V.k (vd s V.k e) q b| ≤ 128 * (2 ^ V.k * μ) * mass V.k (vd s V.k e) q b + μ / 2 ^ 600 := by
    intro z b hz h
    have := h.abs2 hν (by rw [et]; linarith) hz (hM b) (by positivity)
    rw [et] at this
    linarith
  have kx := key x false hx h3
  have ky := key y true hy h4
  have htiny : μ / 2 ^ 600 ≤ μ / 16 := by
    apply div_le_div_of_nonneg_left hμ (by norm_num)
    calc (16 : ℝ) = 2 ^ 4 := by norm_num
      _ ≤ 2 ^ 600 := pow_le_pow_right₀ (by norm_num) (by norm_num)
  have hη1 : η ≤ μ / 16 := by
    have h := NumR.eta_le (R := R) (W := W)
    refine h.trans (div_le_div_of_nonneg_left hμ (by norm_num) ?_)
    calc (16 : ℝ) = 2 ^ 4 := by norm_num
      _ ≤ 2 ^ 900 := pow_le_pow_right₀ (by norm_num) (by norm_num)
  have hmn := mass_near hV.unit (hV.err.trans (le_of_eq hE)) (by linarith) q false
  have hsum := mass_sum V.k (vd s V.k e) q
  have hN1 : |n2 V.k (vd s V.k e) ^ 2 - 1| ≤ 3 * E := by
    have hE0 : 0 ≤ E := le_trans (n2_nn _ _) (hV.err.trans (le_of_eq hE))
    have a1 := n2_le_add V.k (vd s V.k e) (fun i => toC (V.f i))
    have a2 := n2_le_add V.k (fun i => toC (V.f i)) (vd s V.k e)
    rw [n2_sub_comm V.k (fun i => toC (V.f i)) (vd s V.k e)] at a2
    have a3 := hV.err.trans (le_of_eq hE)
    have a4 := n2_nn V.k (vd s V.k e)
    rw [hV.unit] at a1 a2
    rw [abs_le]; constructor <;> nlinarith
  rw [← marg_mass] at hmn
  rw [e9, e10]
  refine ⟨fun b => if b then y else x, m', h1, h2, fun b => by cases b <;> simp [hx, hy], fun b => ?_, ?_, ?_⟩
  · cases b
    · simpa using h3
    · simpa using h4
  all_goals simp only [if_true, Bool.false_eq_true, if_false]
  all_goals
    have kx := kx.trans (add_le_add le_rfl htiny)
    have ky := ky.trans (add_le_add le_rfl htiny)
    have hadd := NumR.add_err (W := W) x y
    rw [abs_of_nonneg (add_nonneg hx hy)] at hadd
    have hMM := real_sum hμ hp0 hk1 (by linarith) ((NumR.u_le (R := R) (W := W)).trans (by norm_num)) (hM false) (hM true) hsum hx hy kx ky
      (hadd.trans (add_le_add le_rfl hη1)) hN1 hE8
  · exact hMM.1
  · have hz0 : 0 < ρ (ROps.add W x y) := by linarith [hMM.2.2.1, hMM.2.2.2]
    have hdiv := NumR.div_err (W := W) x (ROps.add W x y) hz0.ne'
    rw [abs_of_nonneg (div_nonneg hx hz0.le)] at hdiv
    have h5 := real_div hμ hp0 hk1 (by linarith) ((NumR.u_le (R := R) (W := W)).trans (by norm_num)) (hM false) (hM true) hsum hx kx hMM.2.1 hMM.2.2.1
      (hdiv.trans (add_le_add le_rfl hη1)) hMM.2.2.2
    have h6 := abs_sub_le (ρ (ROps.div W x (ROps.add W x y))) (mass V.k (vd s V.k e) q false / n2 V.k (vd s V.k e) ^ 2) (V.marg q false)
    linarith
end one
end QDD.Num
