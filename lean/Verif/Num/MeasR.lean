import Verif.Num.Apx
import Verif.Num.Norm
import Verif.Safe.Measure
/-!
# Numerical accuracy of measurement: laws of rounded real numbers, squared norms of nodes

`NumR` bounds the relative error of every `double` operation of the measurement code by `u`, plus an underflow error `eta`.
-/

set_option linter.unusedSectionVars false
set_option linter.unusedVariables false
set_option linter.unusedSimpArgs false

namespace QDD

/-- `double`s that stand for real numbers, with operations accurate up to a relative error `u` and an underflow error `eta`.
The last two laws tie them to the complex weights. -/
class NumR (R W : Type) [WOps W] [RoundW W] [NumW W] [ROps R W] where
  rv : R → ℝ
  u : ℝ
  eta : ℝ
  u_nn : 0 ≤ u
  u_le : u ≤ 1 / 2 ^ 40
  u_ge : 1 / 2 ^ 100 ≤ u
  eta_nn : 0 ≤ eta
  eta_le : eta ≤ u / 2 ^ 900
  u_eps : u ≤ NumW.eps W
  rv_zero : rv (ROps.zero W) = 0
  rv_one : rv (ROps.one W) = 1
  add_err : ∀ x y : R, |rv (ROps.add W x y) - (rv x + rv y)| ≤ u * |rv x + rv y| + eta
  sub_err : ∀ x y : R, |rv (ROps.sub W x y) - (rv x - rv y)| ≤ u * |rv x - rv y| + eta
  mul_err : ∀ x y : R, |rv (ROps.mul W x y) - rv x * rv y| ≤ u * |rv x * rv y| + eta
  div_err : ∀ x y : R, rv y ≠ 0 → |rv (ROps.div W x y) - rv x / rv y| ≤ u * |rv x / rv y| + eta
  sqrt_err : ∀ x : R, 0 ≤ rv x → |rv (ROps.sqrt W x) - √(rv x)| ≤ u * √(rv x) + eta
  add_nn : ∀ {x y : R}, 0 ≤ rv x → 0 ≤ rv y → 0 ≤ rv (ROps.add W x y)
  mul_nn : ∀ {x y : R}, 0 ≤ rv x → 0 ≤ rv y → 0 ≤ rv (ROps.mul W x y)
  div_nn : ∀ {x y : R}, 0 ≤ rv x → 0 < rv y → 0 ≤ rv (ROps.div W x y)
  mag2_nn : ∀ w : W, 0 ≤ rv (ROps.mag2 w)
  lt_iff : ∀ x y : R, ROps.lt W x y = true ↔ rv x < rv y
  eq0_iff : ∀ x : R, ROps.eq0 W x = true ↔ rv x = 0
  /-- `std::abs(s - 1) > e` -/
  far_imp : ∀ s e : R, ROps.far W s e = true → rv e ≤ |rv s - 1| * (1 + u) + eta
  mag2_err : ∀ w : W, |rv (ROps.mag2 w) - ‖NumW.val w‖ ^ 2| ≤ u * ‖NumW.val w‖ ^ 2 + eta
  val_ofReal : ∀ x : R, NumW.val (ROps.ofReal x : W) = (rv x : ℂ)
  az_big : ∀ {w : W}, WOps.az w = false → 1 / 2 ^ 50 ≤ ‖NumW.val w‖

namespace Num
open RoundW NumW Prog Safe

/-- An absolute bound from an error factor. -/
theorem Ap.half {v : ℝ} {n : Nat} {x y : ℝ} (hv : 0 ≤ v) (hn : 2 * n * v ≤ 1) (hx : 0 ≤ x) (h : Ap v n 0 x y) : y ≤ 2 * x := by
  have h1 := pw_le hv n hn
  have h2 := h.2
  rw [_root_.add_zero] at h2
  nlinarith

theorem Ap.zero (v : ℝ) (n : Nat) : Ap v n 0 0 0 := by simp [Ap]

section laws
variable (R W : Type) [WOps W] [RoundW W] [NumW W] [ROps R W] [NumR R W]

/-- The base of the error factors. -/
noncomputable def nu : ℝ := 4 * NumR.u R W

theorem nu_nn : 0 ≤ nu R W := by have := NumR.u_nn (R := R) (W := W); unfold nu; linarith
theorem nu_le : nu R W ≤ 1 / 2 ^ 38 := by have := NumR.u_le (R := R) (W := W); unfold nu; norm_num at this ⊢; linarith

theorem nu_small {n : Nat} (hn : n ≤ 10 ^ 6) : 2 * (n : ℝ) * nu R W ≤ 1 := by
  have h1 := nu_le R W
  have h2 := nu_nn R W
  have h3 : (n : ℝ) ≤ 10 ^ 6 := by exact_mod_cast hn
  calc 2 * (n : ℝ) * nu R W ≤ 2 * 10 ^ 6 * nu R W := by nlinarith
    _ ≤ 2 * 10 ^ 6 * (1 / 2 ^ 38) := by nlinarith
    _ ≤ 1 := by norm_num

theorem u_8 : NumR.u R W ≤ 1 / 8 := (NumR.u_le (R := R) (W := W)).trans (by norm_num)

theorem eta_big {y : ℝ} (h : 1 / 2 ^ 900 ≤ y) : NumR.eta R W ≤ NumR.u R W * y := by
  refine (NumR.eta_le (R := R) (W := W)).trans ?_
  have := mul_le_mul_of_nonneg_left h (NumR.u_nn (R := R) (W := W))
  rw [mul_one_div] at this
  exact this

variable {R W}
local notation "ρ" => NumR.rv (R := R) (W := W)

theorem add_ap {x y : R} (hx : 0 ≤ ρ x) (hy : 0 ≤ ρ y) : Ap (nu R W) 1 (NumR.eta R W) (ρ (ROps.add W x y)) (ρ x + ρ y) := by
  have h := NumR.add_err (W := W) x y
  rw [abs_of_nonneg (add_nonneg hx hy)] at h
  exact Ap.of_err (NumR.u_nn) (u_8 R W) (NumR.add_nn hx hy) (add_nonneg hx hy) NumR.eta_nn h

theorem add_ap' {x y : R} (hx : 0 ≤ ρ x) (hy : 0 ≤ ρ y) (hb : 1 / 2 ^ 900 ≤ ρ x + ρ y) :
    Ap (nu R W) 1 0 (ρ (ROps.add W x y)) (ρ x + ρ y) := by
  have h := NumR.add_err (W := W) x y
  rw [abs_of_nonneg (add_nonneg hx hy)] at h
  exact Ap.of_err' (NumR.u_nn) (u_8 R W) (NumR.add_nn hx hy) (add_nonneg hx hy) (eta_big R W hb) h

theorem mul_ap {x y : R} (hx : 0 ≤ ρ x) (hy : 0 ≤ ρ y) : Ap (nu R W) 1 (NumR.eta R W) (ρ (ROps.mul W x y)) (ρ x * ρ y) := by
  have h := NumR.mul_err (W := W) x y
  rw [abs_of_nonneg (mul_nonneg hx hy)] at h
  exact Ap.of_err (NumR.u_nn) (u_8 R W) (NumR.mul_nn hx hy) (mul_nonneg hx hy) NumR.eta_nn h

theorem mul_ap' {x y : R} (hx : 0 ≤ ρ x) (hy : 0 ≤ ρ y) (hb : 1 / 2 ^ 900 ≤ ρ x * ρ y) :
    Ap (nu R W) 1 0 (ρ (ROps.mul W x y)) (ρ x * ρ y) := by
  have h := NumR.mul_err (W := W) x y
  rw [abs_of_nonneg (mul_nonneg hx hy)] at h
  exact Ap.of_err' (NumR.u_nn) (u_8 R W) (NumR.mul_nn hx hy) (mul_nonneg hx hy) (eta_big R W hb) h

theorem div_ap' {x y : R} (hx : 0 ≤ ρ x) (hy : 0 < ρ y) (hb : 1 / 2 ^ 900 ≤ ρ x / ρ y) :
    Ap (nu R W) 1 0 (ρ (ROps.div W x y)) (ρ x / ρ y) := by
  have h := NumR.div_err (W := W) x y hy.ne'
  rw [abs_of_nonneg (div_nonneg hx hy.le)] at h
  exact Ap.of_err' (NumR.u_nn) (u_8 R W) (NumR.div_nn hx hy) (div_nonneg hx hy.le) (eta_big R W hb) h

theorem tiny {n : Nat} (hn : n ≤ 900) : (1 / 2 ^ 900 : ℝ) ≤ 1 / 2 ^ n :=
  one_div_le_one_div_of_le (by positivity) (pow_le_pow_right₀ (by norm_num) hn)

theorem mag_big (R : Type) {W : Type} [WOps W] [RoundW W] [NumW W] [ROps R W] [NumR R W] {w : W} (h : WOps.az w = false) : 1 / 2 ^ 100 ≤ ‖val w‖ ^ 2 := by
  have h1 := NumR.az_big (R := R) h
  have : (1 / 2 ^ 50 : ℝ) ^ 2 ≤ ‖val w‖ ^ 2 := pow_le_pow_left₀ (by positivity) h1 2
  norm_num at this ⊢
  linarith

theorem mag2_ap' {w : W} (h : WOps.az w = false) : Ap (nu R W) 1 0 (ρ (ROps.mag2 w)) (‖val w‖ ^ 2) := by
  have hb := mag_big R h
  exact Ap.of_err' (NumR.u_nn) (u_8 R W) (NumR.mag2_nn w) (sq_nonneg _) (eta_big R W ((tiny (by norm_num)).trans hb)) (NumR.mag2_err w)

/-- Numbers that are not below one. -/
theorem ge_one {x : R} (h : ROps.lt W x (ROps.one W) = false) : 1 ≤ ρ x := by
  by_contra h1
  rw [not_le, ← NumR.rv_one (R := R) (W := W), ← NumR.lt_iff] at h1
  rw [h] at h1; cases h1

theorem lt_rv (x y : R) : ROps.lt W x y = decide (ρ x < ρ y) := by
  rw [Bool.eq_iff_iff, decide_eq_true_eq]; exact NumR.lt_iff x y

theorem eq0_rv (x : R) : ROps.eq0 W x = decide (ρ x = 0) := by
  rw [Bool.eq_iff_iff, decide_eq_true_eq]; exact NumR.eq0_iff x

end laws

/-! ## Squared norms of nodes -/

section norms
variable {W : Type} [WOps W] [RoundW W] [NumW W] {env : Env W}

/-- Weighted sum of the squared moduli of a node's amplitudes. -/
noncomputable def ws (mem : Nat → Option (VNode W)) (k : Nat) (n : Option Nat) (φ : Nat → ℝ) : ℝ :=
  bsum k fun i => φ i * ‖vp mem k n i‖ ^ 2

/-- Squared norm of a node. -/
noncomputable def nsq (mem : Nat → Option (VNode W)) (k : Nat) (n : Option Nat) : ℝ := ws mem k n fun _ => 1

theorem ws_succ {mem : Nat → Option (VNode W)} {k p nd} (hm : mem p = some nd) (φ : Nat → ℝ) :
    ws mem (k + 1) (some p) φ =
      ‖val nd.c0.w‖ ^ 2 * ws mem k nd.c0.n φ + ‖val nd.c1.w‖ ^ 2 * ws mem k nd.c1.n (fun i => φ (2 ^ k + i)) := by
  unfold ws
  rw [bsum, ← bsum_mul, ← bsum_mul]
  congr 1
  · refine bsum_congr fun i hi => ?_
    simp only [vp, hm, testBit_lt hi, VNode.child, Bool.false_eq_true, if_false, norm_mul]
    ring
  · refine bsum_congr fun i hi => ?_
    simp only [vp, hm, testBit_add hi, VNode.child, if_true, norm_mul]
    rw [vp_congr mem k nd.c1.n (lowEq_add k i)]
    ring

theorem nsq_succ {mem : Nat → Option (VNode W)} {k p nd} (hm : mem p = some nd) :
    nsq mem (k + 1) (some p) = ‖val nd.c0.w‖ ^ 2 * nsq mem k nd.c0.n + ‖val nd.c1.w‖ ^ 2 * nsq mem k nd.c1.n :=
  ws_succ hm _

@[simp] theorem nsq_zero (mem : Nat → Option (VNode W)) (n : Option Nat) : nsq mem 0 n = 1 := by
  simp [nsq, ws, bsum, vp]

theorem ws_nonneg {mem : Nat → Option (VNode W)} {k n} {φ : Nat → ℝ} (h : ∀ i, 0 ≤ φ i) : 0 ≤ ws mem k n φ :=
  bsum_nonneg k fun i => mul_nonneg (h i) (sq_nonneg _)

theorem nsq_nonneg (mem : Nat → Option (VNode W)) (k n) : 0 ≤ nsq mem k n := ws_nonneg fun _ => zero_le_one

theorem nsq_one {s : St W} (hi : NInv env s) {k n} (h : VPtr env s k n) : 1 ≤ nsq s.vt.mem k n := by
  obtain ⟨i, h1⟩ := vp_unit hi h
  have hlt : i % 2 ^ k < 2 ^ k := Nat.mod_lt _ (Nat.two_pow_pos k)
  have h2 : vp s.vt.mem k n (i % 2 ^ k) = 1 := by
    rw [← h1]; exact (vp_congr _ _ _ fun b hb => by simp [hb])
  unfold nsq ws
  rw [bsum_eq]
  have := Finset.single_le_sum (f := fun i => 1 * ‖vp s.vt.mem k n i‖ ^ 2) (fun i _ => by positivity) (Finset.mem_range.2 hlt)
  simpa [h2] using this

theorem bsum_const (k : Nat) (c : ℝ) : bsum k (fun _ => c) = 2 ^ k * c := by
  rw [bsum_eq]; simp

theorem nsq_le {s : St W} (hi : NInv env s) {k n} (hk : k ≤ NQUBITS) (h : VPtr env s k n ∨ n = none) :
    nsq s.vt.mem k n ≤ 2 ^ (k + 1) := by
  have : nsq s.vt.mem k n ≤ bsum k (fun _ => (2 : ℝ)) := bsum_le k fun i _ => by
    have := vp_le' hi hk h i
    have h0 := norm_nonneg (vp s.vt.mem k n i)
    nlinarith
  rw [bsum_const] at this
  rw [pow_succ]; exact this

theorem nsq_ext {s s' : St W} (hi : Safe.Inv env s) (he : Grow env s s') {k n} (h : VPtr env s k n) :
    nsq s'.vt.mem k n = nsq s.vt.mem k n := by
  unfold nsq ws
  exact bsum_congr fun i _ => by rw [vp_ext hi he (.inl h)]

end norms

/-! ## The `probs` map -/

section memo
variable {R W : Type} [WOps W] [RoundW W] [NumW W] [ROps R W] [RoundR R W] [NumR R W] {env : Env W}
local notation "ρ" => NumR.rv (R := R) (W := W)
local notation "ν" => nu R W

variable (env) in
/-- The entries of the `probs` map are accurate squared norms. -/
structure MemoNum (s : St W) (m : Memo R) : Prop where
  ok : MemoOk env s m
  acc : ∀ n x k, m n = some x → VPtr env s k n → Ap ν (4 * k) 0 (ρ x) (nsq s.vt.mem k n)

theorem MemoNum.empty (s : St W) : MemoNum env s (fun _ => none : Memo R) := ⟨MemoOk.empty s, fun _ _ _ h => (by cases h)⟩

theorem MemoNum.ge {s : St W} {m : Memo R} (h : MemoNum env s m) {n x} (hx : m n = some x) : 1 ≤ ρ x := ge_one (h.ok.ge _ _ hx)

theorem MemoNum.ext {s s' : St W} (hi : Safe.Inv env s) {m : Memo R} (h : MemoNum env s m) (he : Grow env s s') : MemoNum env s' m := by
  refine ⟨h.ok.ext he, fun n x k hx hp => ?_⟩
  cases n with
  | none =>
    rcases hp with ⟨rfl, _⟩ | ⟨p, nd, h1, _⟩
    · have := h.acc none x 0 hx (.inl ⟨rfl, rfl⟩)
      simpa using this
    · cases h1
  | some p =>
    obtain ⟨nd, hr, _⟩ := h.ok.node p (by rw [hx]; simp)
    obtain ⟨l, hl, hl'⟩ := hi.vlevel hr
    have hp' : VPtr env s (l + 1) (some p) := .inr ⟨p, nd, rfl, hr, by push_cast; omega⟩
    have hk : k = l + 1 := VPtr.back he hp' hp
    subst hk
    rw [nsq_ext hi he hp']
    exact h.acc _ _ _ hx hp'

/-- A child of a registered node is the zero edge or a live one. -/
theorem kid {s : St W} (hi : NInv env s) {p nd} {k : Nat} (hr : UTable.Reg env.hv s.vt p nd) (hv : nd.v = (k : Int)) (b : Bool) :
    (nd.child b = zeroE ∧ val (nd.child b).w = 0 ∧ Z (nd.child b).w) ∨
      (WOps.az (nd.child b).w = false ∧ VPtr env s k (nd.child b).n) := by
  cases h : WOps.az (nd.child b).w with
  | true =>
    left
    have := (hi.vw p nd hr b).2 h
    rw [this]
    exact ⟨rfl, val_zero, z_zero⟩
  | false => exact .inr ⟨rfl, (hi.base.vchild hr b hv).ptr (by rw [h]; simp)⟩

/-- The weight of an edge times the entry of its node. -/
theorem prod_ap {s : St W} (hi : NInv env s) {w : W} {n : Option Nat} {x : R} {k j : Nat} (hk : k ≤ NQUBITS) (hj : j ≤ 1000)
    (hz : WOps.az w = false) (hx1 : 1 ≤ ρ x) (hp : VPtr env s k n) (hx : Ap ν j 0 (ρ x) (nsq s.vt.mem k n)) :
    Ap ν (j + 2) 0 (ρ (ROps.mul W (ROps.mag2 w) x)) (‖val w‖ ^ 2 * nsq s.vt.mem k n) ∧
    Ap ν (j + 2) 0 (ρ (ROps.mul W x (ROps.mag2 w))) (‖val w‖ ^ 2 * nsq s.vt.mem k n) := by
  have h1 := mag2_ap' (R := R) hz
  have hb := mag_big R hz
  have hm := NumR.mag2_nn (R := R) w
  have hn := nsq_one hi hp
  have hv := nu_nn R W
  have h2 := h1.half hv (nu_small R W (by decide)) hm
  have h3 : 1 / 2 ^ 101 ≤ ρ (ROps.mag2 w) := by
    norm_num at hb ⊢; linarith
  have h4 : 1 / 2 ^ 900 ≤ ρ (ROps.mag2 w) * ρ x := by
    calc (1 / 2 ^ 900 : ℝ) ≤ 1 / 2 ^ 101 * 1 := by rw [_root_.mul_one]; exact tiny (by norm_num)
      _ ≤ _ := mul_le_mul h3 hx1 (by norm_num) hm
  have h5 : Ap ν (1 + j) (0 * (ρ x + nsq s.vt.mem k n)) (ρ (ROps.mag2 w) * ρ x) (‖val w‖ ^ 2 * nsq s.vt.mem k n) :=
    h1.mul hv hm (sq_nonneg _) le_rfl (by linarith) (by linarith) (by linarith) (by linarith) hx
  rw [zero_mul] at h5
  constructor
  · have := (mul_ap' hm (by linarith) h4).trans hv le_rfl le_rfl h5
    rw [_root_.add_zero] at this
    rw [show j + 2 = 1 + (1 + j) by omega]; exact this
  · rw [mul_comm (ρ (ROps.mag2 w))] at h4 h5
    have := (mul_ap' (by linarith) hm h4).trans hv le_rfl le_rfl h5
    rw [_root_.add_zero] at this
    rw [show j + 2 = 1 + (1 + j) by omega]; exact this

/-- Both cases of a child. -/
theorem kid_ap {s : St W} (hi : NInv env s) {m : Memo R} (hm : MemoNum env s m) {p nd} {k : Nat} (hk : k < NQUBITS)
    (hr : UTable.Reg env.hv s.vt p nd) (hv : nd.v = (k : Int)) (b : Bool) {x : R} (hx : m (nd.child b).n = some x) :
    Ap ν (4 * k + 2) 0 (ρ (ROps.mul W (ROps.mag2 (nd.child b).w) x)) (‖val (nd.child b).w‖ ^ 2 * nsq s.vt.mem k (nd.child b).n) ∧
    Ap ν (4 * k + 2) 0 (ρ (ROps.mul W x (ROps.mag2 (nd.child b).w))) (‖val (nd.child b).w‖ ^ 2 * nsq s.vt.mem k (nd.child b).n) := by
  rcases kid hi hr hv b with ⟨h1, h2, h3⟩ | ⟨h1, h2⟩
  · rw [h2, RoundR.mag2_z h3, RoundR.mul_zero, RoundR.zero_mul, NumR.rv_zero, norm_zero]
    simp [Ap]
  · exact prod_ap hi hk.le (by unfold NQUBITS at hk; omega) h1 (hm.ge hx) h2 (hm.acc _ _ _ hx h2)

/-- The entry of a node from those of its children. -/
theorem node_ap {s : St W} (hi : NInv env s) {p nd} {k : Nat} (hk : k < NQUBITS)
    (hr : UTable.Reg env.hv s.vt p nd) (hv : nd.v = (k : Int)) {a b : R} (ha : 0 ≤ ρ a) (hb : 0 ≤ ρ b)
    (h0 : Ap ν (4 * k + 2) 0 (ρ a) (‖val nd.c0.w‖ ^ 2 * nsq s.vt.mem k nd.c0.n))
    (h1 : Ap ν (4 * k + 2) 0 (ρ b) (‖val nd.c1.w‖ ^ 2 * nsq s.vt.mem k nd.c1.n)) :
    Ap ν (4 * k + 3) 0 (ρ (ROps.add W a b)) (nsq s.vt.mem (k + 1) (some p)) ∧ 1 / 4 ≤ ρ (ROps.add W a b) := by
  have hn : 1 ≤ nsq s.vt.mem (k + 1) (some p) := nsq_one hi (.inr ⟨p, nd, rfl, hr, by push_cast; omega⟩)
  have h2 := h0.add h1
  rw [← nsq_succ hr.1, _root_.add_zero] at h2
  have hv' := nu_nn R W
  have h3 := h2.half hv' (nu_small R W (by unfold NQUBITS at hk; omega)) (add_nonneg ha hb)
  have h4 := add_ap' ha hb (show (1 / 2 ^ 900 : ℝ) ≤ ρ a + ρ b by
    have : (1 / 2 : ℝ) ≤ ρ a + ρ b := by linarith
    exact (tiny (n := 1) (by norm_num)).trans (by simpa using this))
  have h5 := h4.half hv' (nu_small R W (by decide)) (NumR.add_nn ha hb)
  refine ⟨?_, by linarith⟩
  have h6 := h4.trans hv' le_rfl le_rfl h2
  rw [_root_.add_zero] at h6
  rw [show 4 * k + 3 = 1 + (4 * k + 2) by omega]; exact h6

/-- `assignProbabilities`. -/
theorem assignProbs_num {s : St W} (hi : NInv env s) : ∀ {k : Nat} {e : Edge W} (f : Nat) (m : Memo R), k ≤ f → k ≤ NQUBITS →
    VLv env s k e → MemoNum env s m → ∃ x m' y, Fl.assignProbs s.vt.mem f e m = .ok (x, m') ∧ MemoNum env s m' ∧
      m' e.n = some y ∧ x = Fl.wt e y ∧ ∀ n, m n ≠ none → m' n = m n := by
  intro k
  induction k with
  | zero =>
    intro e f m hf hq he hm
    have hn := he.term hi.base
    cases hy : m none with
    | some y =>
      refine ⟨Fl.wt e y, m, y, ?_, hm, by rw [hn, hy], rfl, fun n h => rfl⟩
      unfold Fl.assignProbs
      rw [hn, hy]
    | none =>
      refine ⟨Fl.wt e (ROps.one W), upd m none (some (ROps.one W)), ROps.one W, ?_, ?_, by rw [hn]; simp, rfl, ?_⟩
      · unfold Fl.assignProbs
        rw [hn, hy]
      · refine ⟨⟨fun n x h => ?_, fun p hp => ?_⟩, fun n x k h hp => ?_⟩
        · by_cases hn : n = none
          · subst hn; simp at h; subst h; exact RoundR.ge_one
          · rw [upd_ne _ _ _ hn] at h; exact hm.ok.ge _ _ h
        · rw [upd_ne _ _ _ (by simp)] at hp
          obtain ⟨nd, h1, h2⟩ := hm.ok.node p hp
          refine ⟨nd, h1, fun b => ?_⟩
          by_cases hb : (nd.child b).n = none
          · rw [hb]; simp
          · rw [upd_ne _ _ _ hb]; exact h2 b
        · by_cases hn : n = none
          · subst hn; simp at h; subst h
            rcases hp with ⟨rfl, _⟩ | ⟨p, nd, h1, _⟩
            · simp [NumR.rv_one, Ap]
            · cases h1
          · rw [upd_ne _ _ _ hn] at h; exact hm.acc _ _ _ h hp
      · intro n h
        by_cases hb : n = none
        · rw [hb] at h; exact absurd hy h
        · rw [upd_ne _ _ _ hb]
  | succ k ih =>
    intro e f m hf hq he hm
    cases hy : m e.n with
    | some y =>
      refine ⟨Fl.wt e y, m, y, ?_, hm, hy, rfl, fun n h => rfl⟩
      unfold Fl.assignProbs
      rw [hy]
    | none =>
      rcases he with hp | ⟨_, hn⟩
      · obtain ⟨p, nd, hn, hr, hv⟩ := hp.node
        obtain ⟨f, rfl⟩ : ∃ g, f = g + 1 := ⟨f - 1, by omega⟩
        obtain ⟨a, m1, y0, h1, h2, h3, h4, h5⟩ := ih f m (by omega) (by omega) (hi.base.vchild hr false hv) hm
        obtain ⟨b, m2, y1, g1, g2, g3, g4, g5⟩ := ih f m1 (by omega) (by omega) (hi.base.vchild hr true hv) h2
        have h3' : m2 (nd.child false).n = some y0 := by rw [g5 _ (by rw [h3]; simp), h3]
        have ka := (kid_ap hi g2 (by omega) hr hv false h3').1
        have kb := (kid_ap hi g2 (by omega) hr hv true g3).1
        have ha : 0 ≤ ρ a := by
          rw [h4]; exact NumR.mul_nn (NumR.mag2_nn _) (le_trans zero_le_one (g2.ge h3'))
        have hb : 0 ≤ ρ b := by
          rw [g4]; exact NumR.mul_nn (NumR.mag2_nn _) (le_trans zero_le_one (g2.ge g3))
        have na : ROps.lt W a (ROps.zero W) = false := by rw [h4]; exact wt_nn _ (h2.ok.ge _ _ h3)
        have nb : ROps.lt W b (ROps.zero W) = false := by rw [g4]; exact wt_nn _ (g2.ok.ge _ _ g3)
        have hacc := (node_ap (R := R) hi (show k < NQUBITS by omega) hr hv ha hb (by rw [h4]; exact ka) (by rw [g4]; exact kb)).1
        simp only [VNode.child, Bool.false_eq_true, if_false, if_true] at h1 h3 h4 g1 g3 g4 h3'
        have big : ROps.lt W (ROps.add W a b) (ROps.one W) = false := by
          obtain ⟨bb, hb, _⟩ := hi.base.un p nd hr
          cases bb
          · refine RoundR.add_ge_left ?_ nb
            rw [h4, wt_one nd.c0 hb]; exact h2.ok.ge _ _ h3
          · refine RoundR.add_ge_right na ?_
            rw [g4, wt_one nd.c1 hb]; exact g2.ok.ge _ _ g3
        have hmp : m (some p) = none := by rw [← hn]; exact hy
        refine ⟨Fl.wt e (ROps.add W a b), upd m2 (some p) (some (ROps.add W a b)), ROps.add W a b, ?_, ?_,
          by rw [hn]; simp, rfl, ?_⟩
        · unfold Fl.assignProbs
          rw [hn] at hy
          simp only [hn, hy, hr.1, h1, g1]
        · refine ⟨⟨fun n x h => ?_, fun q hq => ?_⟩, fun n x l h hp' => ?_⟩
          · by_cases hnp : n = some p
            · subst hnp; simp at h; subst h; exact big
            · rw [upd_ne _ _ _ hnp] at h; exact g2.ok.ge _ _ h
          · have key : ∀ {n : Option Nat}, m2 n ≠ none → upd m2 (some p) (some (ROps.add W a b)) n ≠ none := by
              intro n h
              by_cases hb : n = some p
              · rw [hb]; simp
              · rw [upd_ne _ _ _ hb]; exact h
            by_cases hqp : q = p
            · subst hqp
              refine ⟨nd, hr, fun b => ?_⟩
              cases b
              · exact key (by show m2 nd.c0.n ≠ none; rw [h3']; simp)
              · exact key (by show m2 nd.c1.n ≠ none; rw [g3]; simp)
            · rw [upd_ne _ _ _ (by simpa using hqp)] at hq
              obtain ⟨nd', h6, h7⟩ := g2.ok.node q hq
              exact ⟨nd', h6, fun b => key (h7 b)⟩
          · by_cases hnp : n = some p
            · subst hnp; simp at h; subst h
              have : l = k + 1 := hp'.level (hn ▸ hp)
              subst this
              refine hacc.mono (nu_nn R W) ?_ (nsq_nonneg _ _ _) le_rfl (by omega) le_rfl
              exact NumR.add_nn ha hb
            · rw [upd_ne _ _ _ hnp] at h; exact g2.acc _ _ _ h hp'
        · intro n h
          by_cases hb : n = some p
          · rw [hb] at h; exact absurd hmp h
          · rw [upd_ne _ _ _ hb, g5 _ (by rw [h5 _ h]; exact h), h5 _ h]
      · exact ih (e := e) f m (by omega) (by omega) (.inr ⟨‹_›, hn⟩) hm

theorem ensureProbs_num {s : St W} (hi : NInv env s) {k : Nat} {e : Edge W} (m : Memo R) (hk : k ≤ NQUBITS)
    (he : VLv env s k e) (hm : MemoNum env s m) : ∃ m', Fl.ensureProbs s.vt.mem e m = .ok m' ∧ MemoNum env s m' ∧
      m' e.n ≠ none := by
  unfold Fl.ensureProbs
  cases hy : m e.n with
  | some y => exact ⟨m, rfl, hm, by rw [hy]; simp⟩
  | none =>
    obtain ⟨x, m', y, h1, h2, h3, _⟩ := assignProbs_num hi (NQUBITS + 1) m (by omega) hk he hm
    simp only [h1]
    exact ⟨m', rfl, h2, by rw [h3]; simp⟩

end memo
end Num
end QDD
