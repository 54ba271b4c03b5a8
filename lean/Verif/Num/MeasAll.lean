import Verif.Num.MeasR
import Verif.Core.Sample
/-!
# Numerical accuracy of `measureAll` and `probabilities`
-/

set_option linter.unusedSectionVars false
set_option linter.unusedVariables false
set_option linter.unusedSimpArgs false

namespace QDD.Num
open RoundW NumW Prog Safe

variable {R W : Type} [WOps W] [RoundW W] [NumW W] [ROps R W] [RoundR R W] [NumR R W] {env : Env W}
local notation "ρ" => NumR.rv (R := R) (W := W)
local notation "ν" => nu R W
local notation "μ" => NumR.u R W

/-- Exact probability of branch `b` at a node. -/
noncomputable def brT (mem : Nat → Option (VNode W)) (j p : Nat) (nd : VNode W) (b : Bool) : ℝ :=
  ‖val (nd.child b).w‖ ^ 2 * nsq mem j (nd.child b).n / nsq mem (j + 1) (some p)

theorem brT_nn (mem : Nat → Option (VNode W)) (j p : Nat) (nd : VNode W) (b : Bool) : 0 ≤ brT mem j p nd b :=
  div_nonneg (mul_nonneg (sq_nonneg _) (nsq_nonneg _ _ _)) (nsq_nonneg _ _ _)

theorem brT_sum {s : St W} (hi : NInv env s) {j p : Nat} {nd : VNode W} (hr : UTable.Reg env.hv s.vt p nd) (hv : nd.v = (j : Int)) :
    brT s.vt.mem j p nd false + brT s.vt.mem j p nd true = 1 := by
  have hn : 1 ≤ nsq s.vt.mem (j + 1) (some p) := nsq_one hi (.inr ⟨p, nd, rfl, hr, by push_cast; omega⟩)
  unfold brT
  rw [← add_div, div_eq_one_iff_eq (by linarith), nsq_succ hr.1]
  rfl

/-- The computed probability of branch 0 at a node. -/
theorem branch {s : St W} (hi : NInv env s) {m : Memo R} (hm : MemoNum env s m) {p nd} {j : Nat} (hj : j < NQUBITS)
    (hr : UTable.Reg env.hv s.vt p nd) (hv : nd.v = (j : Int)) {x0 x1 : R} (h0 : m nd.c0.n = some x0) (h1 : m nd.c1.n = some x1) :
    let p0 := ROps.mul W x0 (ROps.mag2 nd.c0.w)
    let tmp := ROps.add W p0 (ROps.mul W x1 (ROps.mag2 nd.c1.w))
    ROps.lt W (ROps.zero W) tmp = true ∧ ROps.eq0 W tmp = false ∧ 0 ≤ ρ (ROps.div W p0 tmp) ∧
    |ρ (ROps.div W p0 tmp) - brT s.vt.mem j p nd false| ≤ 128 * (j + 1) * μ ∧
    (WOps.az nd.c0.w = true → ROps.div W p0 tmp = ROps.zero W ∧ brT s.vt.mem j p nd false = 0) ∧
    (WOps.az nd.c1.w = true → ROps.div W p0 tmp = ROps.one W ∧ brT s.vt.mem j p nd true = 0) := by
  intro p0 tmp
  have hvn := nu_nn R W
  have a0 : 0 ≤ ρ p0 := NumR.mul_nn (le_trans zero_le_one (hm.ge h0)) (NumR.mag2_nn _)
  have a1 : 0 ≤ ρ (ROps.mul W x1 (ROps.mag2 nd.c1.w)) := NumR.mul_nn (le_trans zero_le_one (hm.ge h1)) (NumR.mag2_nn _)
  have k0 := (kid_ap hi hm hj hr hv false h0).2
  have k1 := (kid_ap hi hm hj hr hv true h1).2
  obtain ⟨ht, ht4⟩ := node_ap (R := R) hi hj hr hv a0 a1 k0 k1
  have ht4 : 1 / 4 ≤ ρ tmp := ht4
  have ht : Ap ν (4 * j + 3) 0 (ρ tmp) (nsq s.vt.mem (j + 1) (some p)) := ht
  have k0 : Ap ν (4 * j + 2) 0 (ρ p0) (‖val nd.c0.w‖ ^ 2 * nsq s.vt.mem j nd.c0.n) := k0
  have hn : 1 ≤ nsq s.vt.mem (j + 1) (some p) := nsq_one hi (.inr ⟨p, nd, rfl, hr, by push_cast; omega⟩)
  have hpos : ROps.lt W (ROps.zero W) tmp = true := by
    rw [lt_rv, NumR.rv_zero, decide_eq_true_eq]; linarith
  have hpick := pick hi.base hr hv (hm.ok.ge _ _ h0) (hm.ok.ge _ _ h1)
  dsimp only at hpick
  have dead0 : WOps.az nd.c0.w = true → ROps.div W p0 tmp = ROps.zero W ∧ brT s.vt.mem j p nd false = 0 := by
    intro hz
    rcases kid hi hr hv false with ⟨h2, h3, h4⟩ | ⟨h2, _⟩
    · have h3 : val nd.c0.w = 0 := h3
      have h4 : Z nd.c0.w := h4
      refine ⟨?_, ?_⟩
      · have : p0 = ROps.zero W := by
          show ROps.mul W x0 (ROps.mag2 nd.c0.w) = _
          rw [RoundR.mag2_z h4, RoundR.mul_zero]
        rw [this]; exact RoundR.zero_div hpos
      · unfold brT
        show ‖val nd.c0.w‖ ^ 2 * _ / _ = 0
        rw [h3]; simp
    · have h2 : WOps.az nd.c0.w = false := h2
      rw [hz] at h2; cases h2
  have dead1 : WOps.az nd.c1.w = true → ROps.div W p0 tmp = ROps.one W ∧ brT s.vt.mem j p nd true = 0 := by
    intro hz
    rcases kid hi hr hv true with ⟨h2, h3, h4⟩ | ⟨h2, _⟩
    · have h3 : val nd.c1.w = 0 := h3
      have h4 : Z nd.c1.w := h4
      refine ⟨?_, ?_⟩
      · have e1 : tmp = p0 := by
          show ROps.add W p0 (ROps.mul W x1 (ROps.mag2 nd.c1.w)) = p0
          rw [RoundR.mag2_z h4, RoundR.mul_zero, RoundR.add_zero]
        rw [e1] at hpos ⊢
        exact RoundR.div_self hpos
      · unfold brT
        show ‖val nd.c1.w‖ ^ 2 * _ / _ = 0
        rw [h3]; simp
    · have h2 : WOps.az nd.c1.w = false := h2
      rw [hz] at h2; cases h2
  refine ⟨hpos, ?_, NumR.div_nn a0 (by linarith), ?_, dead0, dead1⟩
  · rw [eq0_rv, decide_eq_false_iff_not]; intro h; rw [h] at ht4; norm_num at ht4
  · by_cases hz : WOps.az nd.c0.w = true
    · obtain ⟨e1, e2⟩ := dead0 hz
      rw [e1, e2, NumR.rv_zero, sub_zero, abs_zero]
      have := NumR.u_nn (R := R) (W := W)
      positivity
    · rw [Bool.not_eq_true] at hz
      have hp0 : VPtr env s j nd.c0.n := by
        rcases kid hi hr hv false with ⟨h2, _⟩ | ⟨_, h2⟩
        · have h2 : nd.c0 = zeroE := h2
          rw [h2] at hz
          have : WOps.az (zeroE : Edge W).w = true := z_az z_zero
          rw [this] at hz; cases hz
        · exact h2
      have hmag := mag_big R hz
      have hn0 := nsq_one hi hp0
      have hq0 : 1 / 2 ^ 100 ≤ ‖val nd.c0.w‖ ^ 2 * nsq s.vt.mem j nd.c0.n := by
        calc (1 / 2 ^ 100 : ℝ) = 1 / 2 ^ 100 * 1 := by ring
          _ ≤ _ := mul_le_mul hmag hn0 (by norm_num) (sq_nonneg _)
      have hsm : ∀ n : Nat, n ≤ 10 ^ 6 → 2 * (n : ℝ) * ν ≤ 1 := fun n hn => nu_small R W hn
      have hjN : j < 100 := by unfold NQUBITS at hj; omega
      have hp01 := k0.half hvn (hsm _ (by omega)) a0
      have ht2 := ht.symm.half hvn (hsm _ (by omega)) (by linarith)
      have hle := nsq_le hi (show j + 1 ≤ NQUBITS by omega) (.inl (.inr ⟨p, nd, rfl, hr, by push_cast; omega⟩))
      have hle2 : ρ tmp ≤ 2 ^ 200 := by
        have : (2 : ℝ) ^ (j + 1 + 1) ≤ 2 ^ 150 := pow_le_pow_right₀ (by norm_num) (by omega)
        calc ρ tmp ≤ 2 * 2 ^ 150 := by linarith
          _ ≤ 2 ^ 200 := by norm_num
      have hdb : 1 / 2 ^ 900 ≤ ρ p0 / ρ tmp := by
        rw [le_div_iff₀ (by linarith)]
        have h6 : (1 / 2 ^ 101 : ℝ) ≤ ρ p0 := by norm_num at hq0 hp01 ⊢; linarith
        calc (1 / 2 ^ 900 : ℝ) * ρ tmp ≤ 1 / 2 ^ 301 * 2 ^ 200 := mul_le_mul (tiny (by norm_num)) hle2 (by linarith) (by positivity)
          _ = 1 / 2 ^ 101 := by
            rw [show (301 : Nat) = 101 + 200 by norm_num, pow_add]
            field_simp
          _ ≤ _ := h6
      have hd := div_ap' a0 (by linarith) hdb
      have hq : Ap ν (4 * j + 2 + (4 * j + 3)) (0 * ((ρ tmp)⁻¹ + (nsq s.vt.mem (j + 1) (some p))⁻¹)) (ρ p0 / ρ tmp)
          (‖val nd.c0.w‖ ^ 2 * nsq s.vt.mem j nd.c0.n / nsq s.vt.mem (j + 1) (some p)) := by
        have i1 : 0 ≤ (ρ tmp)⁻¹ := inv_nonneg.2 (by linarith)
        have i2 : 0 ≤ (nsq s.vt.mem (j + 1) (some p))⁻¹ := inv_nonneg.2 (by linarith)
        exact k0.div hvn a0 (by positivity) le_rfl (by linarith) (by linarith) (by linarith) (by linarith) ht
      rw [zero_mul] at hq
      have hall := hd.trans hvn le_rfl le_rfl hq
      rw [_root_.add_zero] at hall
      have habs := hall.abs hvn (hsm _ (by omega)) (NumR.div_nn a0 (by linarith)) (brT_nn s.vt.mem j p nd false) le_rfl
      have ht1 : brT s.vt.mem j p nd false ≤ 1 := by
        have := brT_sum hi hr hv
        linarith [brT_nn s.vt.mem j p nd true]
      have e : ‖val nd.c0.w‖ ^ 2 * nsq s.vt.mem j nd.c0.n / nsq s.vt.mem (j + 1) (some p) = brT s.vt.mem j p nd false := rfl
      change |_ - ‖val nd.c0.w‖ ^ 2 * nsq s.vt.mem j nd.c0.n / nsq s.vt.mem (j + 1) (some p)| ≤ _ at habs
      refine habs.trans ?_
      have hμ := NumR.u_nn (R := R) (W := W)
      have h0' := brT_nn s.vt.mem j p nd false
      have hjj : (0 : ℝ) ≤ j := Nat.cast_nonneg j
      rw [mul_zero, _root_.add_zero]
      unfold nu
      push_cast
      calc 4 * (1 + (4 * (j : ℝ) + 2 + (4 * j + 3))) * (4 * μ) * brT s.vt.mem j p nd false
          ≤ 4 * (1 + (4 * (j : ℝ) + 2 + (4 * j + 3))) * (4 * μ) * 1 := mul_le_mul_of_nonneg_left ht1 (by positivity)
        _ ≤ _ := by nlinarith

/-! ## `measureAll` -/

theorem bsum_pp (k : Nat) (f g : Nat → ℝ) : bsum k (fun i => f i + g i) = bsum k f + bsum k g := by
  rw [bsum_eq, bsum_eq, bsum_eq, Finset.sum_add_distrib]

theorem tau_sum {s : St W} (hi : NInv env s) {j n} (h : VPtr env s j n) :
    bsum j (fun x => ‖vp s.vt.mem j n x‖ ^ 2 / nsq s.vt.mem j n) = 1 := by
  have hn := nsq_one hi h
  have : bsum j (fun x => ‖vp s.vt.mem j n x‖ ^ 2 / nsq s.vt.mem j n) = nsq s.vt.mem j n / nsq s.vt.mem j n := by
    simp only [nsq, ws, bsum_eq, one_mul, Finset.sum_div]
  rw [this, div_self (by linarith)]

/-- The draws that lead to a basis state form a box; the boxes fill the cube and their volumes are close to the exact
probabilities. -/
theorem sampleLoop_num {s : St W} (hi : NInv env s) {m : Memo R} (hm : MemoNum env s m) {δ : ℝ} {K : Nat} (hK : K ≤ NQUBITS)
    (hδ : 128 * K * μ ≤ δ) :
    ∀ (j : Nat) (n : Option Nat), j ≤ K → VPtr env s j n → m n ≠ none →
    ∃ lo hi' : Nat → Nat → ℝ,
      (∀ x u, 0 ≤ lo x u ∧ lo x u ≤ hi' x u ∧ hi' x u ≤ 1) ∧
      bsum j (fun x => ∏ u ∈ Finset.range j, (hi' x u - lo x u)) = 1 ∧
      bsum j (fun x => |∏ u ∈ Finset.range j, (hi' x u - lo x u) - ‖vp s.vt.mem j n x‖ ^ 2 / nsq s.vt.mem j n|) ≤ 2 * j * δ ∧
      ∀ (t : Nat) (res : List Bool) (draw : Nat → R), j ≤ res.length →
        (∀ q < j, res[q]? = some false) → (∀ u < j, 0 ≤ ρ (draw (t + u)) ∧ ρ (draw (t + u)) < 1) →
        ∃ x r, x < 2 ^ j ∧ Fl.sampleLoop s.vt.mem m draw j t n res = .ok r ∧ BitsOf j x res r ∧
          vp s.vt.mem j n x ≠ 0 ∧
          ∀ y < 2 ^ j, (y = x ↔ ∀ u < j, lo y u ≤ ρ (draw (t + u)) ∧ ρ (draw (t + u)) < hi' y u) := by
  intro j
  induction j with
  | zero =>
    intro n _ _ _
    refine ⟨fun _ _ => 0, fun _ _ => 0, by simp, by simp [bsum], by simp [bsum, vp], ?_⟩
    intro t res draw _ _ _
    refine ⟨0, res, by simp, rfl, ⟨rfl, by simp⟩, by simp [vp], ?_⟩
    intro y hy; simp at hy; simp [hy]
  | succ j ih =>
    intro n hjK hn hmem
    obtain ⟨p, nd, rfl, hr, hv⟩ := hn.node
    obtain ⟨x0, x1, h1, h2, g0, g1⟩ := hm.ok.kids hr hmem
    obtain ⟨b1, b2, b3, b4, b5, b6⟩ := branch hi hm (show j < NQUBITS by omega) hr hv h1 h2
    have hμ := NumR.u_nn (R := R) (W := W)
    have hδ' : |ρ (ROps.div W (ROps.mul W x0 (ROps.mag2 nd.c0.w))
        (ROps.add W (ROps.mul W x0 (ROps.mag2 nd.c0.w)) (ROps.mul W x1 (ROps.mag2 nd.c1.w)))) - brT s.vt.mem j p nd false| ≤ δ := by
      refine b4.trans (le_trans ?_ hδ)
      have : ((j : ℝ) + 1) ≤ K := by exact_mod_cast hjK
      nlinarith
    have hδ0 : 0 ≤ δ := le_trans (abs_nonneg _) hδ'
    generalize hp0 : ROps.div W (ROps.mul W x0 (ROps.mag2 nd.c0.w))
        (ROps.add W (ROps.mul W x0 (ROps.mag2 nd.c0.w)) (ROps.mul W x1 (ROps.mag2 nd.c1.w))) = p0 at *
    have hsum1 := brT_sum hi hr hv
    have hT := brT_nn s.vt.mem j p nd
    generalize hr0 : min 1 (ρ p0) = r0 at *
    have r00 : 0 ≤ r0 := by rw [← hr0]; exact le_min zero_le_one b3
    have r01 : r0 ≤ 1 := by rw [← hr0]; exact min_le_left _ _
    have hlt : ∀ d : ℝ, d < 1 → (d < ρ p0 ↔ d < r0) := fun d hd => by rw [← hr0, lt_min_iff]; exact ⟨fun h => ⟨hd, h⟩, fun h => h.2⟩
    -- sides and exact probabilities
    let side : Bool → ℝ := fun b => if b then 1 - r0 else r0
    have hsideT : ∀ b, |side b - brT s.vt.mem j p nd b| ≤ δ := by
      have h0 : |r0 - brT s.vt.mem j p nd false| ≤ δ := by
        rw [abs_le] at hδ' ⊢
        have : brT s.vt.mem j p nd false ≤ 1 := by linarith [hT true]
        rw [← hr0]
        constructor
        · rcases min_choice 1 (ρ p0) with h | h <;> rw [h] <;> linarith [hδ'.1]
        · have := min_le_right 1 (ρ p0); linarith [hδ'.2]
      intro b
      cases b
      · exact h0
      · have e : brT s.vt.mem j p nd true = 1 - brT s.vt.mem j p nd false := by linarith
        show |1 - r0 - brT s.vt.mem j p nd true| ≤ δ
        rw [e, show 1 - r0 - (1 - brT s.vt.mem j p nd false) = -(r0 - brT s.vt.mem j p nd false) by ring, abs_neg]
        exact h0
    have hside0 : ∀ b, 0 ≤ side b := fun b => by cases b <;> simp [side, r00, r01]
    have hdead : ∀ b : Bool, WOps.az (nd.child b).w = true → side b = 0 ∧ brT s.vt.mem j p nd b = 0 := by
      intro b hz
      cases b
      · obtain ⟨e1, e2⟩ := b5 hz
        refine ⟨?_, e2⟩
        show r0 = 0
        rw [← hr0, e1, NumR.rv_zero]; norm_num
      · obtain ⟨e1, e2⟩ := b6 hz
        refine ⟨?_, e2⟩
        show 1 - r0 = 0
        rw [← hr0, e1, NumR.rv_one]; norm_num
    -- the two subtrees
    have hsub : ∀ b : Bool, ∃ lo hi' : Nat → Nat → ℝ,
        (∀ x u, 0 ≤ lo x u ∧ lo x u ≤ hi' x u ∧ hi' x u ≤ 1) ∧
        (WOps.az (nd.child b).w = false →
          bsum j (fun x => ∏ u ∈ Finset.range j, (hi' x u - lo x u)) = 1 ∧
          bsum j (fun x => |∏ u ∈ Finset.range j, (hi' x u - lo x u) -
            ‖vp s.vt.mem j (nd.child b).n x‖ ^ 2 / nsq s.vt.mem j (nd.child b).n|) ≤ 2 * j * δ ∧
          ∀ (t : Nat) (res : List Bool) (draw : Nat → R), j ≤ res.length →
            (∀ q < j, res[q]? = some false) → (∀ u < j, 0 ≤ ρ (draw (t + u)) ∧ ρ (draw (t + u)) < 1) →
            ∃ x r, x < 2 ^ j ∧ Fl.sampleLoop s.vt.mem m draw j t (nd.child b).n res = .ok r ∧ BitsOf j x res r ∧
              vp s.vt.mem j (nd.child b).n x ≠ 0 ∧
              ∀ y < 2 ^ j, (y = x ↔ ∀ u < j, lo y u ≤ ρ (draw (t + u)) ∧ ρ (draw (t + u)) < hi' y u)) := by
      intro b
      by_cases hw : WOps.az (nd.child b).w = true
      · exact ⟨fun _ _ => 0, fun _ _ => 0, by simp, fun h => by rw [hw] at h; cases h⟩
      · have hc : VPtr env s j (nd.child b).n := (hi.base.vchild hr b hv).ptr hw
        obtain ⟨lo, hi', a1, a2, a3, a4⟩ := ih _ (by omega) hc (hm.ok.child hr hmem b)
        exact ⟨lo, hi', a1, fun _ => ⟨a2, a3, a4⟩⟩
    choose lo' hi1 hb hs using hsub
    -- products
    have hprod : ∀ b : Bool, ∀ x < 2 ^ j, ∏ u ∈ Finset.range (j + 1), ((fun x u => match u with
        | 0 => if x.testBit j then 1 else r0
        | u + 1 => hi1 (x.testBit j) (x % 2 ^ j) u : Nat → Nat → ℝ) ((if b then 2 ^ j else 0) + x) u - (fun x u => match u with
        | 0 => if x.testBit j then r0 else 0
        | u + 1 => lo' (x.testBit j) (x % 2 ^ j) u : Nat → Nat → ℝ) ((if b then 2 ^ j else 0) + x) u) =
        side b * ∏ u ∈ Finset.range j, (hi1 b x u - lo' b x u) := by
      intro b x hx
      have hbit : ((if b then 2 ^ j else 0) + x).testBit j = b := by
        cases b
        · simp [testBit_lt hx]
        · simp [testBit_add hx]
      have hmod : ((if b then 2 ^ j else 0) + x) % 2 ^ j = x := by
        cases b <;> simp [Nat.mod_eq_of_lt hx]
      rw [Finset.prod_range_succ', mul_comm]
      simp only [hbit, hmod]
      congr 1
      cases b <;> simp [side]
    refine ⟨fun x u => match u with
        | 0 => if x.testBit j then r0 else 0
        | u + 1 => lo' (x.testBit j) (x % 2 ^ j) u,
      fun x u => match u with
        | 0 => if x.testBit j then 1 else r0
        | u + 1 => hi1 (x.testBit j) (x % 2 ^ j) u, ?_, ?_, ?_, ?_⟩
    · intro x u
      cases u with
      | zero => dsimp only; split <;> simp [r00, r01]
      | succ u => exact hb _ _ _
    · have e : ∀ b, bsum j (fun x => side b * ∏ u ∈ Finset.range j, (hi1 b x u - lo' b x u)) = side b := by
        intro b
        rw [bsum_mul]
        by_cases hw : WOps.az (nd.child b).w = true
        · rw [(hdead b hw).1, zero_mul]
        · rw [(hs b (by simpa using hw)).1, _root_.mul_one]
      rw [bsum]
      have e0 := bsum_congr (k := j) (hprod false)
      have e1 := bsum_congr (k := j) (hprod true)
      simp only [Bool.false_eq_true, if_false, if_true, zero_add] at e0 e1
      rw [e0, e1, e, e]
      simp [side]
    · have e : ∀ b, bsum j (fun x => |side b * ∏ u ∈ Finset.range j, (hi1 b x u - lo' b x u) -
          ‖vp s.vt.mem (j + 1) (some p) ((if b then 2 ^ j else 0) + x)‖ ^ 2 / nsq s.vt.mem (j + 1) (some p)|) ≤
          δ + brT s.vt.mem j p nd b * (2 * j * δ) := by
        intro b
        have hval : ∀ x < 2 ^ j, ‖vp s.vt.mem (j + 1) (some p) ((if b then 2 ^ j else 0) + x)‖ ^ 2 =
            ‖val (nd.child b).w‖ ^ 2 * ‖vp s.vt.mem j (nd.child b).n x‖ ^ 2 := by
          intro x hx
          cases b
          · simp only [vp, hr.1, Bool.false_eq_true, if_false, zero_add, testBit_lt hx, norm_mul, mul_pow]
          · simp only [vp, hr.1, if_true, testBit_add hx, norm_mul, mul_pow]
            rw [vp_congr s.vt.mem j _ (lowEq_add j x)]
        by_cases hw : WOps.az (nd.child b).w = true
        · obtain ⟨d1, d2⟩ := hdead b hw
          have hz : val (nd.child b).w = 0 := by
            rcases kid hi hr hv b with ⟨_, h, _⟩ | ⟨h, _⟩
            · exact h
            · rw [hw] at h; cases h
          have : bsum j (fun x => |side b * ∏ u ∈ Finset.range j, (hi1 b x u - lo' b x u) -
              ‖vp s.vt.mem (j + 1) (some p) ((if b then 2 ^ j else 0) + x)‖ ^ 2 / nsq s.vt.mem (j + 1) (some p)|) =
              bsum j (fun _ => (0 : ℝ)) := bsum_congr fun x hx => by
            rw [hval x hx, hz, d1]; simp
          rw [this, d2]
          simp [hδ0]
        · have hc : VPtr env s j (nd.child b).n := (hi.base.vchild hr b hv).ptr hw
          obtain ⟨s1, s2, _⟩ := hs b (by simpa using hw)
          have hn0 := nsq_one hi hc
          have hT0 := hT b
          calc _ ≤ bsum j (fun x => |side b - brT s.vt.mem j p nd b| * ∏ u ∈ Finset.range j, (hi1 b x u - lo' b x u) +
                brT s.vt.mem j p nd b * |∏ u ∈ Finset.range j, (hi1 b x u - lo' b x u) -
                  ‖vp s.vt.mem j (nd.child b).n x‖ ^ 2 / nsq s.vt.mem j (nd.child b).n|) := by
                refine bsum_le j fun x hx => ?_
                rw [hval x hx]
                have hP : 0 ≤ ∏ u ∈ Finset.range j, (hi1 b x u - lo' b x u) :=
                  Finset.prod_nonneg fun u _ => by have := (hb b x u).2.1; linarith
                have e : side b * ∏ u ∈ Finset.range j, (hi1 b x u - lo' b x u) -
                    ‖val (nd.child b).w‖ ^ 2 * ‖vp s.vt.mem j (nd.child b).n x‖ ^ 2 / nsq s.vt.mem (j + 1) (some p) =
                    (side b - brT s.vt.mem j p nd b) * ∏ u ∈ Finset.range j, (hi1 b x u - lo' b x u) +
                    brT s.vt.mem j p nd b * (∏ u ∈ Finset.range j, (hi1 b x u - lo' b x u) -
                      ‖vp s.vt.mem j (nd.child b).n x‖ ^ 2 / nsq s.vt.mem j (nd.child b).n) := by
                  have : brT s.vt.mem j p nd b * (‖vp s.vt.mem j (nd.child b).n x‖ ^ 2 / nsq s.vt.mem j (nd.child b).n) =
                      ‖val (nd.child b).w‖ ^ 2 * ‖vp s.vt.mem j (nd.child b).n x‖ ^ 2 / nsq s.vt.mem (j + 1) (some p) := by
                    unfold brT
                    field_simp
                  rw [← this]; ring
                rw [e]
                refine (abs_add_le _ _).trans (le_of_eq ?_)
                rw [abs_mul, abs_mul, abs_of_nonneg hP, abs_of_nonneg hT0]
            _ = |side b - brT s.vt.mem j p nd b| * 1 + brT s.vt.mem j p nd b * bsum j (fun x =>
                  |∏ u ∈ Finset.range j, (hi1 b x u - lo' b x u) -
                  ‖vp s.vt.mem j (nd.child b).n x‖ ^ 2 / nsq s.vt.mem j (nd.child b).n|) := by
                rw [bsum_pp, bsum_mul, bsum_mul, s1]
            _ ≤ _ := add_le_add (by rw [_root_.mul_one]; exact hsideT b) (mul_le_mul_of_nonneg_left s2 hT0)
      rw [bsum]
      have e0 := bsum_congr (k := j) fun x hx => congrArg (fun z => |z - ‖vp s.vt.mem (j + 1) (some p)
        ((if false then 2 ^ j else 0) + x)‖ ^ 2 / nsq s.vt.mem (j + 1) (some p)|) (hprod false x hx)
      have e1 := bsum_congr (k := j) fun x hx => congrArg (fun z => |z - ‖vp s.vt.mem (j + 1) (some p)
        ((if true then 2 ^ j else 0) + x)‖ ^ 2 / nsq s.vt.mem (j + 1) (some p)|) (hprod true x hx)
      have f0 := e false
      have f1 := e true
      simp only [Bool.false_eq_true, if_false, if_true, zero_add] at e0 e1 f0 f1
      rw [e0, e1]
      refine (add_le_add f0 f1).trans (le_of_eq ?_)
      push_cast
      calc _ = 2 * δ + (brT s.vt.mem j p nd false + brT s.vt.mem j p nd true) * (2 * j * δ) := by ring
        _ = _ := by rw [hsum1]; ring
    · intro t res draw hlen hfalse hdraw
      have hd0 := hdraw 0 (by omega)
      simp only [Nat.add_zero] at hd0
      have hdraw' : ∀ u < j, 0 ≤ ρ (draw (t + 1 + u)) ∧ ρ (draw (t + 1 + u)) < 1 := by
        intro u hu; have := hdraw (u + 1) (by omega); rwa [show t + (u + 1) = t + 1 + u by omega] at this
      -- the chosen branch
      have hbranch : ∃ b : Bool, (if b then r0 ≤ ρ (draw t) else ρ (draw t) < r0) := by
        by_cases h : ρ (draw t) < r0
        · exact ⟨false, by simpa using h⟩
        · exact ⟨true, by simpa using not_lt.1 h⟩
      obtain ⟨b, hbr⟩ := hbranch
      have hw : WOps.az (nd.child b).w = false := by
        by_contra hw
        rw [Bool.not_eq_false] at hw
        have := (hdead b hw).1
        cases b
        · simp [side] at this hbr; rw [this] at hbr; exact absurd hbr (not_lt.2 hd0.1)
        · simp [side] at this hbr
          have e : r0 = 1 := by linarith
          rw [e] at hbr; linarith [hd0.2]
      let res' := if b then res.set nd.v.toNat true else res
      have hres' : res'.length = res.length := by simp only [res']; split <;> simp
      obtain ⟨x, r, c1, c2, c3, c5, c4⟩ := (hs b hw).2.2 (t + 1) res' draw (by omega) (by
        intro q hq
        simp only [res']
        split
        · rw [hv, Int.toNat_natCast, List.getElem?_set_ne (by omega)]; exact hfalse q (by omega)
        · exact hfalse q (by omega)) hdraw'
      let X := (if b then 2 ^ j else 0) + x
      have hXbit : X.testBit j = b := by
        simp only [X]; cases b
        · simp [testBit_lt c1]
        · simp only [if_true]; exact testBit_add c1
      have hXlow : X % 2 ^ j = x := by
        simp only [X]; cases b
        · simp [Nat.mod_eq_of_lt c1]
        · simp [Nat.mod_eq_of_lt c1]
      have hXlt : X < 2 ^ (j + 1) := by
        have : 2 ^ (j + 1) = 2 ^ j + 2 ^ j := by rw [pow_succ]; omega
        simp only [X]; split <;> omega
      have hrun : Fl.sampleLoop s.vt.mem m draw (j + 1) t (some p) res =
          Fl.sampleLoop s.vt.mem m draw j (t + 1) (nd.child b).n res' := by
        have hll : ROps.lt W (draw t) p0 = decide (ρ (draw t) < r0) := by
          rw [lt_rv, decide_eq_decide]; exact hlt _ hd0.2
        rw [Fl.sampleLoop]
        simp only [hr.1, h1, h2, b2, Bool.false_eq_true, if_false, hp0, hll]
        cases b
        · simp at hbr; simp [hbr, res', VNode.child]
        · simp at hbr
          have hnb : ¬ (nd.v < 0 ∨ (res.length : Int) ≤ nd.v) := by omega
          simp [not_lt.2 hbr, hnb, res', VNode.child]
      refine ⟨X, r, hXlt, by rw [hrun]; exact c2, ⟨c3.1.trans hres', ?_⟩, ?_, ?_⟩
      · intro q
        rw [c3.2 q]
        by_cases hq : q < j
        · have : q < j + 1 := by omega
          simp only [hq, this, if_true]
          congr 1
          rw [← hXlow, Nat.testBit_mod_two_pow]; simp [hq]
        · simp only [hq, if_false]
          by_cases hqj : q = j
          · subst hqj
            simp only [Nat.lt_succ_self, if_true, hXbit]
            simp only [res']
            cases b
            · simp; exact hfalse q (by omega)
            · simp only [if_true, hv, Int.toNat_natCast]
              rw [List.getElem?_set_self (by omega)]
          · have : ¬ q < j + 1 := by omega
            simp only [this, if_false, res']
            split
            · rw [hv, Int.toNat_natCast, List.getElem?_set_ne (by omega)]
            · rfl
      · simp only [vp, hr.1, hXbit]
        rw [vp_congr s.vt.mem j _ (i := X) (i' := x) (fun b hb => by
          rw [← hXlow, Nat.testBit_mod_two_pow]; simp [hb])]
        exact mul_ne_zero (az_ne hw) c5
      · intro y hy
        have hsplit : y = X ↔ y.testBit j = b ∧ y % 2 ^ j = x := by
          constructor
          · rintro rfl; exact ⟨hXbit, hXlow⟩
          · rintro ⟨e1, e2⟩
            apply Nat.eq_of_testBit_eq
            intro q
            rcases Nat.lt_trichotomy q j with h | h | h
            · have := congrArg (·.testBit q) (e2.trans hXlow.symm)
              simpa [Nat.testBit_mod_two_pow, h] using this
            · subst h; rw [e1, hXbit]
            · rw [Nat.testBit_lt_two_pow (lt_of_lt_of_le hy (Nat.pow_le_pow_right (by omega) h)),
                Nat.testBit_lt_two_pow (lt_of_lt_of_le hXlt (Nat.pow_le_pow_right (by omega) h))]
        rw [hsplit]
        constructor
        · rintro ⟨e1, e2⟩ u hu
          cases u with
          | zero =>
            simp only [e1, Nat.add_zero]
            cases b
            · simp at hbr ⊢; exact ⟨hd0.1, hbr⟩
            · simp at hbr ⊢; exact ⟨hbr, hd0.2⟩
          | succ u =>
            have := (c4 (y % 2 ^ j) (Nat.mod_lt _ (Nat.two_pow_pos j))).1 e2 u (by omega)
            dsimp only
            rw [e1, show t + (u + 1) = t + 1 + u by omega]
            exact this
        · intro h
          have h0 := h 0 (by omega)
          simp only [Nat.add_zero] at h0
          have e1 : y.testBit j = b := by
            cases hyb : y.testBit j <;> cases b <;> simp [hyb] at h0 hbr ⊢
            · exact absurd h0.2 (not_lt.2 hbr)
            · exact absurd hbr (not_lt.2 h0.1)
          refine ⟨e1, (c4 _ (Nat.mod_lt _ (Nat.two_pow_pos j))).2 fun u hu => ?_⟩
          have := h (u + 1) (by omega)
          dsimp only at this
          rw [e1, show t + (u + 1) = t + 1 + u by omega] at this
          exact this


/-- The exact distribution of a node. -/
noncomputable def tau (mem : Nat → Option (VNode W)) (k : Nat) (n : Option Nat) (x : Nat) : ℝ := ‖vp mem k n x‖ ^ 2 / nsq mem k n

/-- `measureAll` without collapse: the outcome as a function of the draws. -/
theorem sampleAll_num {s : St W} (hi : NInv env s) {m : Memo R} (hm : MemoNum env s m) {k : Nat} {e : Edge W}
    (hk : k ≤ NQUBITS) (hp : VPtr env s k e.n) :
    ∃ (lo hi' : Nat → Nat → ℝ) (m' : Memo R), MemoNum env s m' ∧
      (∀ x u, 0 ≤ lo x u ∧ lo x u ≤ hi' x u ∧ hi' x u ≤ 1) ∧
      bsum k (fun x => ∏ u ∈ Finset.range k, (hi' x u - lo x u)) = 1 ∧
      bsum k (fun x => |∏ u ∈ Finset.range k, (hi' x u - lo x u) - tau s.vt.mem k e.n x|) ≤ 256 * k ^ 2 * μ ∧
      ∀ draw : Nat → R, (∀ u < k, 0 ≤ ρ (draw u) ∧ ρ (draw u) < 1) →
        ∃ x, x < 2 ^ k ∧ Fl.sampleAll s e m draw = .ok (bitList k x, m') ∧ vp s.vt.mem k e.n x ≠ 0 ∧
          ∀ y < 2 ^ k, (y = x ↔ ∀ u < k, lo y u ≤ ρ (draw u) ∧ ρ (draw u) < hi' y u) := by
  obtain ⟨m', h1, h2, h3⟩ := ensureProbs_num hi m hk (.inl hp) hm
  obtain ⟨lo, hi', b1, b2, b3, b4⟩ := sampleLoop_num hi h2 hk (le_refl (128 * (k : ℝ) * μ)) k e.n le_rfl hp h3
  refine ⟨lo, hi', m', h2, b1, b2, b3.trans (le_of_eq (by ring)), fun draw hd => ?_⟩
  obtain ⟨x, r, c1, c2, c3, c4, c5⟩ := b4 0 (List.replicate k false) draw (by simp) (by
    intro q hq; simp [hq]) (by simpa using hd)
  refine ⟨x, c1, ?_, c4, by simpa using c5⟩
  have hv : (k : Int) - 1 + 1 = k := by omega
  have hr : r = bitList k x := by
    apply List.ext_getElem?
    intro q
    rw [c3.2 q]
    unfold bitList
    by_cases hq : q < k
    · simp [hq]
    · simp [hq]
  unfold Fl.sampleAll
  simp only [hp.evar, h1, hv, Int.toNat_natCast, c2, hr]

/-! ## `probabilities` -/

theorem tau_nn (mem : Nat → Option (VNode W)) (k n x) : 0 ≤ tau mem k n x := div_nonneg (sq_nonneg _) (nsq_nonneg _ _ _)

theorem tau_le {s : St W} (hi : NInv env s) {j n} (h : VPtr env s j n) (x : Nat) : tau s.vt.mem j n x ≤ 1 := by
  have hlt : x % 2 ^ j < 2 ^ j := Nat.mod_lt _ (Nat.two_pow_pos j)
  have e : tau s.vt.mem j n x = tau s.vt.mem j n (x % 2 ^ j) := by
    unfold tau; rw [vp_congr s.vt.mem j n (i := x) (i' := x % 2 ^ j) (fun b hb => by simp [hb])]
  rw [e, ← tau_sum hi h, bsum_eq]
  exact Finset.single_le_sum (f := fun x => ‖vp s.vt.mem j n x‖ ^ 2 / nsq s.vt.mem j n)
    (fun i _ => div_nonneg (sq_nonneg _) (nsq_nonneg _ _ _)) (Finset.mem_range.2 hlt)

theorem tau_succ {s : St W} (hi : NInv env s) {j p : Nat} {nd : VNode W} (hr : UTable.Reg env.hv s.vt p nd) (hv : nd.v = (j : Int)) (x : Nat)
    (hc : VPtr env s j (nd.child (x.testBit j)).n) :
    tau s.vt.mem (j + 1) (some p) x = brT s.vt.mem j p nd (x.testBit j) * tau s.vt.mem j (nd.child (x.testBit j)).n x := by
  have h1 := nsq_one hi hc
  unfold tau brT
  simp only [vp, hr.1, norm_mul, mul_pow]
  field_simp

theorem probWalk_zero {s : St W} {m : Memo R} (hm : MemoNum env s m) (i : Nat) : ∀ (j : Nat) {l : Nat} {cur : Option Nat},
    VPtr env s (l + 1) cur → m cur ≠ none → Fl.probWalk s.vt.mem m i j cur (ROps.zero W) = .ok (ROps.zero W) := by
  intro j
  induction j with
  | zero => intro l cur _ _; rfl
  | succ j ih =>
    intro l cur hc hmc
    obtain ⟨p, nd, rfl, hr, hv⟩ := hc.node
    obtain ⟨x0, x1, e0, e1, _, _⟩ := hm.ok.kids hr hmc
    unfold Fl.probWalk
    simp only [hr.1, e0, e1, RoundR.zero_mul, ite_self, RoundR.eq0_zero, if_true]
    exact ih hc hmc

theorem probWalk_num {s : St W} (hi : NInv env s) {m : Memo R} (hm : MemoNum env s m) (i : Nat) {δ : ℝ} {K : Nat} (hK : K ≤ NQUBITS)
    (hK0 : 0 < K) (hδ : δ = 128 * K * μ) :
    ∀ (j : Nat) (n : Option Nat) (P : R) (A er : ℝ), j ≤ K → VPtr env s j n → m n ≠ none → |ρ P - A| ≤ er → 0 ≤ A → A ≤ 1 →
      er + 3 * j * δ ≤ 1 → ∃ x, Fl.probWalk s.vt.mem m i j n P = .ok x ∧ |ρ x - A * tau s.vt.mem j n i| ≤ er + 3 * j * δ := by
  have hμ := NumR.u_nn (R := R) (W := W)
  have hK1 : (1 : ℝ) ≤ K := by exact_mod_cast hK0
  have hδμ : 128 * μ ≤ δ := by rw [hδ]; nlinarith
  have hδ0 : 0 ≤ δ := by linarith
  have hμ1 : μ ≤ 1 / 16 := (NumR.u_le (R := R) (W := W)).trans (by norm_num)
  have hη : NumR.eta R W ≤ μ := by
    have := eta_big R W (y := 1) ((tiny (n := 0) (by norm_num)).trans (by norm_num))
    linarith
  intro j
  induction j with
  | zero =>
    intro n P A er _ _ _ h1 _ _ _
    refine ⟨P, rfl, ?_⟩
    simpa [tau, vp] using h1
  | succ j ih =>
    intro n P A er hjK hn hmem h1 hA0 hA1 hsm
    obtain ⟨p, nd, rfl, hr, hv⟩ := hn.node
    obtain ⟨x0, x1, e0, e1, g0, g1⟩ := hm.ok.kids hr hmem
    obtain ⟨b1, b2, b3, b4, b5, b6⟩ := branch hi hm (show j < NQUBITS by omega) hr hv e0 e1
    have her : 0 ≤ er := le_trans (abs_nonneg _) h1
    have hj0 : (0 : ℝ) ≤ j := Nat.cast_nonneg j
    have hjd : 0 ≤ j * δ := mul_nonneg hj0 hδ0
    push_cast at hsm ⊢
    have b4' := b4.trans (show 128 * ((j : ℝ) + 1) * μ ≤ δ by
      rw [hδ]
      have : ((j : ℝ) + 1) ≤ K := by exact_mod_cast hjK
      nlinarith)
    have hsum1 := brT_sum hi hr hv
    have hT := brT_nn s.vt.mem j p nd
    unfold Fl.probWalk
    simp only [hr.1, e0, e1, b1, if_true]
    generalize ROps.div W (ROps.mul W x0 (ROps.mag2 nd.c0.w))
        (ROps.add W (ROps.mul W x0 (ROps.mag2 nd.c0.w)) (ROps.mul W x1 (ROps.mag2 nd.c1.w))) = q0 at *
    -- the factor
    generalize hq : (if i.testBit j = true then ROps.sub W (ROps.one W) q0 else q0) = qq
    have hpr : (if i.testBit j = true then ROps.mul W P (ROps.sub W (ROps.one W) q0) else ROps.mul W P q0) = ROps.mul W P qq := by
      rw [← hq]; split <;> rfl
    rw [hpr]
    have hT1 : ∀ b, brT s.vt.mem j p nd b ≤ 1 := fun b => by cases b <;> linarith [hT true, hT false]
    have hqT : |ρ qq - brT s.vt.mem j p nd (i.testBit j)| ≤ δ + 4 * μ := by
      rw [← hq]
      cases i.testBit j
      · simp only [Bool.false_eq_true, if_false]; linarith
      · simp only [if_true]
        have h2 := NumR.sub_err (W := W) (ROps.one W) q0
        rw [NumR.rv_one] at h2
        have e : brT s.vt.mem j p nd true = 1 - brT s.vt.mem j p nd false := by linarith
        have h3 : |1 - ρ q0| ≤ 2 := by
          have := abs_le.1 b4'
          have := hT1 false
          have := hT false
          rw [abs_le]; constructor <;> linarith
        rw [e]
        have h4 : |ρ (ROps.sub W (ROps.one W) q0) - (1 - brT s.vt.mem j p nd false)| ≤
            |ρ (ROps.sub W (ROps.one W) q0) - (1 - ρ q0)| + |ρ q0 - brT s.vt.mem j p nd false| := by
          rw [show ρ (ROps.sub W (ROps.one W) q0) - (1 - brT s.vt.mem j p nd false) =
            (ρ (ROps.sub W (ROps.one W) q0) - (1 - ρ q0)) - (ρ q0 - brT s.vt.mem j p nd false) by ring]
          exact abs_sub _ _
        have h5 : μ * |1 - ρ q0| ≤ 2 * μ := by nlinarith
        linarith
    have hPq : |ρ (ROps.mul W P qq) - A * brT s.vt.mem j p nd (i.testBit j)| ≤ er + 3 * δ := by
      have h2 := NumR.mul_err (W := W) P qq
      have hb := hT (i.testBit j)
      have hb1 := hT1 (i.testBit j)
      generalize brT s.vt.mem j p nd (i.testBit j) = T at *
      have hP2 : |ρ P| ≤ 2 := by
        have := abs_le.1 h1
        rw [abs_le]; constructor <;> linarith
      have hq2 : |ρ qq| ≤ 2 := by
        have := abs_le.1 hqT
        rw [abs_le]; constructor <;> linarith
      have h3 : |ρ P * ρ qq - A * T| ≤ er + 2 * (δ + 4 * μ) := by
        rw [show ρ P * ρ qq - A * T = (ρ P - A) * T + ρ P * (ρ qq - T) by ring]
        refine (abs_add_le _ _).trans ?_
        rw [abs_mul, abs_mul, abs_of_nonneg hb]
        have i1 : |ρ P - A| * T ≤ er * 1 := mul_le_mul h1 hb1 hb her
        have i2 : |ρ P| * |ρ qq - T| ≤ 2 * (δ + 4 * μ) := mul_le_mul hP2 hqT (abs_nonneg _) (by norm_num)
        linarith
      have h4 : |ρ P * ρ qq| ≤ 4 := by
        rw [abs_mul]
        have := mul_le_mul hP2 hq2 (abs_nonneg _) (by norm_num)
        linarith
      have h5 : |ρ (ROps.mul W P qq) - A * T| ≤ |ρ (ROps.mul W P qq) - ρ P * ρ qq| + |ρ P * ρ qq - A * T| := by
        rw [show ρ (ROps.mul W P qq) - A * T = (ρ (ROps.mul W P qq) - ρ P * ρ qq) + (ρ P * ρ qq - A * T) by ring]
        exact abs_add_le _ _
      have h6 : μ * |ρ P * ρ qq| ≤ 4 * μ := by nlinarith
      linarith
    have hAT0 : 0 ≤ A * brT s.vt.mem j p nd (i.testBit j) := mul_nonneg hA0 (hT _)
    have hAT1 : A * brT s.vt.mem j p nd (i.testBit j) ≤ 1 := mul_le_one₀ hA1 (hT _) (hT1 _)
    by_cases hw : WOps.az (nd.child (i.testBit j)).w = true
    · -- a dead branch
      have hqz : qq = ROps.zero W := by
        rw [← hq]
        cases hb : i.testBit j
        · rw [hb] at hw; simpa using (b5 hw).1
        · rw [hb] at hw
          simp only [if_true]
          rw [(b6 hw).1]; exact RoundR.sub_self
      rw [hqz, RoundR.mul_zero, if_pos RoundR.eq0_zero, probWalk_zero hm i j hn hmem]
      refine ⟨_, rfl, ?_⟩
      have hz : val (nd.child (i.testBit j)).w = 0 := by
        rcases kid hi hr hv (i.testBit j) with ⟨_, h, _⟩ | ⟨h, _⟩
        · exact h
        · rw [hw] at h; cases h
      have : tau s.vt.mem (j + 1) (some p) i = 0 := by
        unfold tau; simp only [vp, hr.1, hz, zero_mul, norm_zero]; simp
      rw [this, NumR.rv_zero, mul_zero, sub_self, abs_zero]
      nlinarith
    · have hc : VPtr env s j (nd.child (i.testBit j)).n := (hi.base.vchild hr _ hv).ptr hw
      rw [tau_succ hi hr hv i hc, ← mul_assoc]
      by_cases hz : ROps.eq0 W (ROps.mul W P qq) = true
      · rw [if_pos hz, RoundR.eq0_eq hz, probWalk_zero hm i j hn hmem]
        refine ⟨_, rfl, ?_⟩
        rw [RoundR.eq0_eq hz, NumR.rv_zero, zero_sub, abs_neg, abs_of_nonneg hAT0] at hPq
        rw [NumR.rv_zero, zero_sub, abs_neg, abs_of_nonneg (mul_nonneg hAT0 (tau_nn _ _ _ _))]
        have := mul_le_mul_of_nonneg_left (tau_le hi hc i) hAT0
        nlinarith
      · rw [if_neg hz]
        obtain ⟨x, h2, h3⟩ := ih _ (ROps.mul W P qq) _ (er + 3 * δ) (by omega) hc (hm.ok.child hr hmem _) hPq hAT0 hAT1 (by linarith)
        exact ⟨x, h2, h3.trans (le_of_eq (by ring))⟩

theorem probabilities_num {s : St W} (hi : NInv env s) {m : Memo R} (hm : MemoNum env s m) {k : Nat} {e : Edge W}
    (hk0 : 0 < k) (hk : k ≤ 30) (hp : VPtr env s k e.n) :
    ∃ l m', Fl.probabilities s e m = .ok (l, m') ∧ MemoNum env s m' ∧ l.length = 2 ^ k ∧
      ∀ (i : Nat) (x : R), l[i]? = some x → |ρ x - tau s.vt.mem k e.n i| ≤ 384 * k ^ 2 * μ := by
  have hkN : k ≤ NQUBITS := by unfold NQUBITS; omega
  obtain ⟨x, m', y, h1, h2, h3, _⟩ := assignProbs_num hi (NQUBITS + 1) m (by omega) hkN (.inl hp) hm
  have hμ := NumR.u_nn (R := R) (W := W)
  have hμ1 := NumR.u_le (R := R) (W := W)
  have hk30 : (k : ℝ) ≤ 30 := by exact_mod_cast hk
  have hk00 : (0 : ℝ) ≤ k := Nat.cast_nonneg k
  have hsm : 3 * (k : ℝ) * (128 * k * μ) ≤ 1 := by
    have e : 3 * (k : ℝ) * (128 * k * μ) = 384 * (k * k) * μ := by ring
    have : (k : ℝ) * k ≤ 900 := by nlinarith
    rw [e]
    calc 384 * ((k : ℝ) * k) * μ ≤ 384 * 900 * (1 / 2 ^ 40) := mul_le_mul (by linarith) hμ1 hμ (by norm_num)
      _ ≤ 1 := by norm_num
  have walk : ∀ i, ∃ x, Fl.probWalk s.vt.mem m' i k e.n (ROps.one W) = .ok x ∧ |ρ x - tau s.vt.mem k e.n i| ≤ 384 * k ^ 2 * μ := by
    intro i
    obtain ⟨x, a1, a2⟩ := probWalk_num hi h2 i hkN hk0 rfl k e.n (ROps.one W) 1 0 le_rfl hp (by rw [h3]; simp)
      (by rw [NumR.rv_one]; simp) (by norm_num) le_rfl (by linarith)
    refine ⟨x, a1, ?_⟩
    rw [one_mul] at a2
    exact a2.trans (le_of_eq (by ring))
  have loop : ∀ n i0, ∃ l, Fl.probLoop s.vt.mem m' k e.n n i0 = .ok l ∧ l.length = n ∧
      ∀ (i : Nat) (x : R), l[i]? = some x → |ρ x - tau s.vt.mem k e.n (i0 + i)| ≤ 384 * k ^ 2 * μ := by
    intro n
    induction n with
    | zero => intro i0; exact ⟨[], rfl, rfl, fun i x h => by simp at h⟩
    | succ n ih =>
      intro i0
      obtain ⟨x, hx, hx'⟩ := walk i0
      obtain ⟨l, hl, hl1, hl2⟩ := ih (i0 + 1)
      refine ⟨x :: l, by unfold Fl.probLoop; simp only [hx, hl], by simp [hl1], fun i y hy => ?_⟩
      cases i with
      | zero => simp at hy; subst hy; exact hx'
      | succ i =>
        have := hl2 i y (by simpa using hy)
        rwa [show i0 + 1 + i = i0 + (i + 1) by omega] at this
  obtain ⟨l, hl, hl1, hl2⟩ := loop (2 ^ k) 0
  have hv : (k : Int) - 1 + 1 = k := by omega
  refine ⟨l, m', ?_, h2, hl1, by simpa using hl2⟩
  unfold Fl.probabilities
  simp only [hp.evar, h1, hv, Int.toNat_natCast, hl]
  rw [if_neg (by omega)]

end QDD.Num
