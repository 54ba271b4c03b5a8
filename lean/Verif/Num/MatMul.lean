import Verif.Num.MatAdd
import Verif.Num.Gates
/-!
# Numerical accuracy of products of matrices
-/

set_option linter.unusedSectionVars false
set_option linter.unusedVariables false
set_option linter.unusedSimpArgs false

namespace QDD
namespace Num
open RoundW NumW Prog Safe
variable {W : Type} [WOps W] [RoundW W] [NumW W] {env : Env W}

local notation "ε" => NumW.eps W

/-! ## Exact products -/

/-- The product of two matrix edges. -/
noncomputable def mmF (s : St W) (k : Nat) (l r : Edge W) (i j : Nat) : ℂ := bsum k fun c => md s k l i c * md s k r c j

theorem mmF_eq (s : St W) (k : Nat) (l r : Edge W) (i j : Nat) :
    mmF s k l r i j = val l.w * val r.w * mulF s k l.n r.n i j := by
  unfold mmF mulF md
  rw [← bsum_mul]
  exact bsum_congr fun c _ => by ring

theorem mmF_ext {s s' : St W} (hi : Safe.Inv env s) (he : Grow env s s') {k} {l r : Edge W} (hl : MReg env s l.n)
    (hr : MReg env s r.n) (i j : Nat) : mmF s' k l r i j = mmF s k l r i j := by
  rw [mmF_eq, mmF_eq, mulF_ext hi he hl hr]

theorem mmF_zL (s : St W) (k : Nat) {l : Edge W} (r : Edge W) (h : val l.w = 0) (i j : Nat) : mmF s k l r i j = 0 := by
  rw [mmF_eq, h]; simp

theorem mmF_zR (s : St W) (k : Nat) (l : Edge W) {r : Edge W} (h : val r.w = 0) (i j : Nat) : mmF s k l r i j = 0 := by
  rw [mmF_eq, h]; simp

theorem mulF_le {s : St W} (hi : NInv env s) {k l r N} (hk : k ≤ NQUBITS) (hl : Sup env s k l N)
    (hr : MLv env s k r) (i j : Nat) : ‖mulF s k l r i j‖ ≤ 101 / 100 * N := by
  unfold mulF
  refine (norm_bsum_le _ _).trans ?_
  have h : bsum k (fun c => ‖mp s.mt.mem k l i c * mp s.mt.mem k r c j‖) ≤
      bsum k (fun c => 1001 / 1000 * ‖mp s.mt.mem k l i c‖) := bsum_le k fun c _ => by
    rw [norm_mul, mul_comm]
    exact mul_le_mul_of_nonneg_right (mp_le' hi hk hr c j) (norm_nonneg _)
  rw [bsum_mul] at h
  have h1 := rowS_le' hi hk hl i
  unfold rowS at h1
  have h2 : (0 : ℝ) ≤ N := Nat.cast_nonneg N
  nlinarith

theorem mmF_le {s : St W} (hi : NInv env s) {k N} {l r : Edge W} (hk : k ≤ NQUBITS) (hl : Sup env s k l.n N)
    (hr : MLv env s k r.n) {L R : ℝ} (hL : ‖val l.w‖ ≤ L) (hR : ‖val r.w‖ ≤ R) (i j : Nat) :
    ‖mmF s k l r i j‖ ≤ L * R * (101 / 100 * N) := by
  rw [mmF_eq, norm_mul, norm_mul]
  have hL0 := (norm_nonneg _).trans hL
  have hR0 := (norm_nonneg _).trans hR
  exact mul_le_mul (mul_le_mul hL hR (norm_nonneg _) hL0) (mulF_le hi hk hl hr i j) (norm_nonneg _) (by positivity)

theorem lowEq_mod {k i c : Nat} (hc : c < 2 ^ k) : LowEq k i c ↔ c = i % 2 ^ k := by
  constructor
  · intro h
    refine Nat.eq_of_testBit_eq fun b => ?_
    rw [Nat.testBit_mod_two_pow]
    by_cases hb : b < k
    · simp [hb, h b hb]
    · have := Nat.testBit_lt_two_pow (lt_of_lt_of_le hc (Nat.pow_le_pow_right (by decide) (not_lt.1 hb)))
      simp [hb, this]
  · rintro rfl b hb
    simp [hb]

theorem mulF_noneL (s : St W) (k : Nat) (r : Option Nat) (i j : Nat) : mulF s k none r i j = mp s.mt.mem k r i j := by
  have hlt := Nat.mod_lt i (Nat.two_pow_pos k)
  unfold mulF
  rw [bsum_eq, Finset.sum_eq_single (i % 2 ^ k)]
  · rw [mp_none, if_pos ((lowEq_mod hlt).2 rfl), _root_.one_mul]
    exact mp_congr _ _ _ (fun b hb => by simp [hb]) (fun _ _ => rfl)
  · intro c hc hne
    rw [mp_none, if_neg fun h => hne ((lowEq_mod (Finset.mem_range.1 hc)).1 h), MulZeroClass.zero_mul]
  · intro h; exact absurd (Finset.mem_range.2 hlt) h

theorem mulF_noneR (s : St W) (k : Nat) (l : Option Nat) (i j : Nat) : mulF s k l none i j = mp s.mt.mem k l i j := by
  have hlt := Nat.mod_lt j (Nat.two_pow_pos k)
  have sym : ∀ c, LowEq k c j ↔ LowEq k j c := fun c => ⟨fun h b hb => (h b hb).symm, fun h b hb => (h b hb).symm⟩
  unfold mulF
  rw [bsum_eq, Finset.sum_eq_single (j % 2 ^ k)]
  · rw [mp_none, if_pos ((sym _).2 ((lowEq_mod hlt).2 rfl)), _root_.mul_one]
    exact mp_congr _ _ _ (fun _ _ => rfl) (fun b hb => by simp [hb])
  · intro c hc hne
    rw [mp_none, if_neg fun h => hne ((lowEq_mod (Finset.mem_range.1 hc)).1 ((sym _).1 h)), MulZeroClass.mul_zero]
  · intro h; exact absurd (Finset.mem_range.2 hlt) h

/-- One level of the product. -/
theorem mulF_split {s : St W} {k : Nat} {l r : Option Nat} {a b : Bool → Bool → Edge W}
    (ha : ∀ i j, mp s.mt.mem (k + 1) l i j = md s k (a (i.testBit k) (j.testBit k)) i j)
    (hb : ∀ i j, mp s.mt.mem (k + 1) r i j = md s k (b (i.testBit k) (j.testBit k)) i j) (i j : Nat) :
    mulF s (k + 1) l r i j = mmF s k (a (i.testBit k) false) (b false (j.testBit k)) i j +
      mmF s k (a (i.testBit k) true) (b true (j.testBit k)) i j := by
  unfold mulF mmF
  simp only [bsum]
  congr 1
  · refine bsum_congr fun c hc => ?_
    rw [ha, hb, testBit_lt hc]
  · refine bsum_congr fun c hc => ?_
    rw [ha, hb, testBit_add hc, md_congr _ _ _ (lowEq_add k c) (fun _ _ => rfl), md_congr _ _ _ (fun _ _ => rfl) (lowEq_add k c)]

theorem mulF_skip {s : St W} {k : Nat} {l r : Option Nat} (hl : MLv env s k l) (hr : MLv env s k r) (i j : Nat) :
    mulF s (k + 1) l r i j = if i.testBit k = j.testBit k then mulF s k l r i j else 0 := by
  have sk : ∀ {n : Option Nat}, MLv env s k n → ∀ i j, mp s.mt.mem (k + 1) n i j =
      md s k (if i.testBit k = j.testBit k then (⟨WOps.one, n⟩ : Edge W) else zeroE) i j := by
    intro n hn i j
    have h6 := md_skip (e := (⟨WOps.one, n⟩ : Edge W)) hn i j
    unfold md at h6
    simp only [val_one, _root_.one_mul] at h6
    rw [h6]
    by_cases hb : i.testBit k = j.testBit k
    · simp [hb, md, val_one]
    · simp [hb]
  rw [mulF_split (a := fun x y => if x = y then (⟨WOps.one, l⟩ : Edge W) else zeroE)
    (b := fun x y => if x = y then (⟨WOps.one, r⟩ : Edge W) else zeroE) (sk hl) (sk hr)]
  have z0 : val (zeroE : Edge W).w = 0 := val_zero
  cases i.testBit k <;> cases j.testBit k <;> simp [mmF_eq, val_one, z0]

/-! ## Node-level accuracy at all levels -/

theorem D_mono (k : Nat) : D W k ≤ D W (k + 1) := by
  have e0 := eps_nn (W := W)
  rw [D_succ]
  have : (0 : ℝ) ≤ 200 * ε * ((k : ℝ) + 1) := by positivity
  linarith

theorem MulApx.up {s : St W} (hi : NInv env s) {m l r} {y : Edge W} (hl : MLv env s m l)
    (hr : MLv env s m r) (h : MulApx env s m l r y) : MulApx env s (m + 1) l r y := by
  have hy := (h _ _ (Sup.full hi.base hl) (Sup.full hi.base hr)).2.lv
  intro Nl Nr a b
  have h := h Nl Nr (a.down hi.base hl) (b.down hi.base hr)
  refine ⟨fun i j => ?_, h.2.up⟩
  have hD := D_mono (W := W) m
  have hD0 := D_nn (W := W) m
  have hN : (0 : ℝ) ≤ Nl := Nat.cast_nonneg _
  rw [md_skip hy, mulF_skip hl hr]
  split
  · exact (h.1 i j).trans (mul_le_mul_of_nonneg_left hD hN)
  · rw [sub_self, norm_zero]; exact mul_nonneg hN (hD0.trans hD)

theorem MulApx.upTo {s : St W} (hi : NInv env s) {m l r} {y : Edge W} (hl : MLv env s m l)
    (hr : MLv env s m r) (h : MulApx env s m l r y) : ∀ d, MulApx env s (m + d) l r y
  | 0 => h
  | d + 1 => (MulApx.upTo hi hl hr h d).up hi (hl.mono (Nat.le_add_right _ _)) (hr.mono (Nat.le_add_right _ _))

variable (env) in
/-- `y` stands for the product of the nodes at all their levels. -/
def MulAll (s : St W) (l r : Option Nat) (y : Edge W) : Prop :=
  ∀ m ≤ NQUBITS, MLv env s m l → MLv env s m r → MulApx env s m l r y

theorem MulAll.ext {s s' : St W} (hi : Safe.Inv env s) (he : Grow env s s') {l r} {y : Edge W} (hl : MReg env s l)
    (hr : MReg env s r) (h : MulAll env s l r y) : MulAll env s' l r y :=
  fun m hm a b => (h m hm (hl.back he a) (hr.back he b)).ext hi he (hl.back he a) (hr.back he b)

variable (env) in
/-- `e` stands for the product of the edges `l` and `r` at level `m`. -/
def MulEdge (s : St W) (m : Nat) (l r e : Edge W) : Prop :=
  ∀ Nl Nr (L R : ℝ), MOk env s m l Nl → MOk env s m r Nr → ‖val l.w‖ ≤ L → ‖val r.w‖ ≤ R → L ≤ 2 → R ≤ 2 →
    (∀ i j, ‖md s m e i j - mmF s m l r i j‖ ≤ L * R * Nl * D W m + 20 * Nl * ε) ∧ MOk env s m e (Nl * Nr)

theorem MulEdge.ext {s s' : St W} (hi : Safe.Inv env s) (he : Grow env s s') {m l r e} (hl : MLv env s m l.n)
    (hr : MLv env s m r.n) (hw : ‖val l.w‖ ≤ 2) (hw' : ‖val r.w‖ ≤ 2) (h : MulEdge env s m l r e) : MulEdge env s' m l r e := by
  have hy : MReg env s e.n := (h _ _ 2 2 (.full hi hl) (.full hi hr) hw hw' le_rfl le_rfl).2.lv.reg
  intro Nl Nr L R a b c d c' d'
  have h := h Nl Nr L R (a.back hi he hl.reg) (b.back hi he hr.reg) c d c' d'
  refine ⟨fun i j => ?_, h.2.ext he⟩
  rw [md_ext hi he hy, mmF_ext hi he hl.reg hr.reg]
  exact h.1 i j

/-- Exits with a zero result. -/
theorem mulEdge_zero {s : St W} (hi : NInv env s) {m} (hm : m ≤ NQUBITS) {l r : Edge W} (hr : MLv env s m r.n)
    (hz : ‖val l.w‖ ≤ ε ∨ ‖val r.w‖ ≤ ε) : MulEdge env s m l r zeroE := by
  have e0 := eps_nn (W := W)
  intro Nl Nr L R hl _ mL mR hL2 hR2
  have hL0 := (norm_nonneg _).trans mL
  have hR0 := (norm_nonneg _).trans mR
  have hD0 := D_nn (W := W) m
  refine ⟨fun i j => ?_, MOk.zero _ _ _⟩
  rw [md_zeroE, zero_sub, norm_neg]
  rcases hl with hl | hl
  · rw [mmF_zL _ _ _ (val_z hl.1), norm_zero]; positivity
  have key : ‖mmF s m l r i j‖ ≤ 2 * ε * (101 / 100 * Nl) := by
    rcases hz with hz | hz
    · have := mmF_le hi hm hl hr hz (mR.trans hR2) i j; linarith
    · have := mmF_le hi hm hl hr (mL.trans hL2) hz i j; linarith
  have : 0 ≤ L * R * Nl * D W m := by positivity
  have : 0 ≤ ε * Nl := by positivity
  nlinarith

/-- Exits for a scaled identity. -/
theorem mulEdge_left {s : St W} (hi : NInv env s) {m} (hm : m ≤ NQUBITS) {l r : Edge W} (hr : MLv env s m r.n)
    (hl0 : ¬ (Z l.w ∧ l.n = none)) (hr0 : ¬ (Z r.w ∧ r.n = none)) (hn : l.n = none) :
    MulEdge env s m l r ⟨WOps.mul r.w l.w, r.n⟩ := by
  have e0 := eps_nn (W := W)
  intro Nl Nr L R hl hrN mL mR hL2 hR2
  have hL0 := (norm_nonneg _).trans mL
  have hR0 := (norm_nonneg _).trans mR
  have hD0 := D_nn (W := W) m
  have hl' := hl.resolve_left hl0
  have hN1 : (1 : ℝ) ≤ Nl := by exact_mod_cast hl'.one_le
  refine ⟨fun i j => ?_, .inr ((hrN.resolve_left hr0).mono (Nat.le_mul_of_pos_left _ hl'.one_le))⟩
  rw [mmF_eq, hn, mulF_noneL]
  unfold md
  simp only
  rw [← sub_mul, norm_mul, mul_comm (val l.w)]
  have h1 := mul_err r.w l.w
  have h2 : ‖val r.w‖ * ‖val l.w‖ ≤ 2 * 2 := mul_le_mul (mR.trans hR2) (mL.trans hL2) (norm_nonneg _) (by norm_num)
  have h3 : ε * (1 + ‖val r.w‖ * ‖val l.w‖) ≤ ε * 5 := mul_le_mul_of_nonneg_left (by linarith) e0
  have h4 := mul_le_mul (h1.trans h3) (mp_le' hi hm hr i j) (norm_nonneg _) (by positivity)
  have : 0 ≤ L * R * Nl * D W m := by positivity
  have : ε ≤ ε * Nl := le_mul_of_one_le_right e0 hN1
  linarith

theorem mulEdge_right {s : St W} (hi : NInv env s) {m} (hm : m ≤ NQUBITS) {l r : Edge W} (hl : MLv env s m l.n)
    (hl0 : ¬ (Z l.w ∧ l.n = none)) (hr0 : ¬ (Z r.w ∧ r.n = none)) (hn : r.n = none) :
    MulEdge env s m l r ⟨WOps.mul l.w r.w, l.n⟩ := by
  have e0 := eps_nn (W := W)
  intro Nl Nr L R hlN hrN mL mR hL2 hR2
  have hL0 := (norm_nonneg _).trans mL
  have hR0 := (norm_nonneg _).trans mR
  have hD0 := D_nn (W := W) m
  have hl' := hlN.resolve_left hl0
  have hr' := hrN.resolve_left hr0
  have hN1 : (1 : ℝ) ≤ Nl := by exact_mod_cast hl'.one_le
  refine ⟨fun i j => ?_, .inr (hl'.mono (Nat.le_mul_of_pos_right _ hr'.one_le))⟩
  rw [mmF_eq, hn, mulF_noneR]
  unfold md
  simp only
  rw [← sub_mul, norm_mul]
  have h1 := mul_err l.w r.w
  have h2 : ‖val l.w‖ * ‖val r.w‖ ≤ 2 * 2 := mul_le_mul (mL.trans hL2) (mR.trans hR2) (norm_nonneg _) (by norm_num)
  have h3 : ε * (1 + ‖val l.w‖ * ‖val r.w‖) ≤ ε * 5 := mul_le_mul_of_nonneg_left (by linarith) e0
  have h4 := mul_le_mul (h1.trans h3) (mp_le' hi hm hl i j) (norm_nonneg _) (by positivity)
  have : 0 ≤ L * R * Nl * D W m := by positivity
  have : ε ≤ ε * Nl := le_mul_of_one_le_right e0 hN1
  linarith

/-- From the product of the nodes, cached or computed, to the product of the edges. -/
theorem mul_scale {s : St W} (hi : NInv env s) {m} (hm : m ≤ NQUBITS) {l r x y : Edge W} (hl : MLv env s m l.n)
    (hr : MLv env s m r.n) (hl0 : ¬ (Z l.w ∧ l.n = none)) (hr0 : ¬ (Z r.w ∧ r.n = none)) (hx : Rep x y)
    (hy : MulApx env s m l.n r.n y) :
    (WOps.az x.w = true → MulEdge env s m l r zeroE) ∧
    MulEdge env s m l r ⟨WOps.mul (WOps.mul x.w l.w) r.w, x.n⟩ ∧
    (WOps.az (WOps.mul (WOps.mul x.w l.w) r.w) = true → MulEdge env s m l r zeroE) ∧
    (WOps.aone (WOps.mul (WOps.mul x.w l.w) r.w) = true → MulEdge env s m l r ⟨WOps.one, x.n⟩) := by
  have e0 := eps_nn (W := W)
  have hyl := (hy _ _ (Sup.full hi.base hl) (Sup.full hi.base hr)).2.lv
  have core : ∀ Nl Nr (L R : ℝ), MOk env s m l Nl → MOk env s m r Nr → ‖val l.w‖ ≤ L → ‖val r.w‖ ≤ R → L ≤ 2 → R ≤ 2 →
      (∀ i j, ‖val l.w * val r.w * md s m x i j - mmF s m l r i j‖ ≤ L * R * Nl * D W m + 41 / 10 * ε) ∧
      (∀ i j, ‖md s m ⟨WOps.mul (WOps.mul x.w l.w) r.w, x.n⟩ i j - mmF s m l r i j‖ ≤ L * R * Nl * D W m + 187 / 10 * Nl * ε) ∧
      MOk env s m x (Nl * Nr) ∧ (1 : ℝ) ≤ Nl := by
    intro Nl Nr L R hlN hrN mL mR hL2 hR2
    have hL0 := (norm_nonneg _).trans mL
    have hR0 := (norm_nonneg _).trans mR
    have hl' := hlN.resolve_left hl0
    have hr' := hrN.resolve_left hr0
    have hN1 : (1 : ℝ) ≤ Nl := by exact_mod_cast hl'.one_le
    have hD0 := D_nn (W := W) m
    have hD := D_le (W := W) hm
    obtain ⟨h1, h2⟩ := hy Nl Nr hl' hr'
    have near : ∀ i j, ‖md s m x i j - mulF s m l.n r.n i j‖ ≤ Nl * D W m + 1001 / 1000 * ε := by
      intro i j
      have a := norm_add_le (md s m x i j - md s m y i j) (md s m y i j - mulF s m l.n r.n i j)
      rw [sub_add_sub_cancel] at a
      have b := hx.near hi hm hyl i j
      have c := h1 i j
      linarith
    have hw : ‖val x.w‖ ≤ 14 / 10 * Nl := by
      refine mweight_le hi (hx.ok h2).lv fun i j => ?_
      have a := norm_add_le (md s m x i j - mulF s m l.n r.n i j) (mulF s m l.n r.n i j)
      rw [sub_add_cancel] at a
      have b := near i j
      have c := mulF_le hi hm hl' hr i j
      have d : (Nl : ℝ) * D W m ≤ Nl * (1 / 50) := mul_le_mul_of_nonneg_left hD (by linarith)
      have e1 := eps_le (W := W)
      norm_num at e1
      linarith
    have lr : ‖val l.w‖ * ‖val r.w‖ ≤ L * R := mul_le_mul mL mR (norm_nonneg _) hL0
    have lr4 : L * R ≤ 2 * 2 := mul_le_mul hL2 hR2 hR0 (by norm_num)
    have one : ∀ i j, ‖val l.w * val r.w * md s m x i j - mmF s m l r i j‖ ≤ L * R * Nl * D W m + 41 / 10 * ε := by
      intro i j
      rw [mmF_eq, ← mul_sub, norm_mul, norm_mul]
      have a := mul_le_mul lr (near i j) (norm_nonneg _) (by positivity)
      have b : L * R * (1001 / 1000 * ε) ≤ 2 * 2 * (1001 / 1000 * ε) := mul_le_mul_of_nonneg_right lr4 (by positivity)
      nlinarith
    refine ⟨one, fun i j => ?_, hx.ok h2, hN1⟩
    have a := mul2_err hN1 hw (mL.trans hL2) (mR.trans hR2)
    have b := mp_le' hi hm (hx.ok h2).lv i j
    have tri : md s m ⟨WOps.mul (WOps.mul x.w l.w) r.w, x.n⟩ i j - mmF s m l r i j =
        (val (WOps.mul (WOps.mul x.w l.w) r.w) - val x.w * val l.w * val r.w) * mp s.mt.mem m x.n i j +
        (val l.w * val r.w * md s m x i j - mmF s m l r i j) := by unfold md; ring
    rw [tri]
    refine (norm_add_le _ _).trans ?_
    rw [norm_mul (val (WOps.mul (WOps.mul x.w l.w) r.w) - val x.w * val l.w * val r.w)]
    have c := mul_le_mul a b (norm_nonneg _) (by positivity)
    have d := one i j
    have : ε ≤ ε * Nl := le_mul_of_one_le_right e0 hN1
    nlinarith
  refine ⟨fun hz Nl Nr L R a b c d c' d' => ?_, fun Nl Nr L R a b c d c' d' => ?_, fun hz Nl Nr L R a b c d c' d' => ?_,
    fun h1 Nl Nr L R a b c d c' d' => ?_⟩
  · obtain ⟨o1, o2, o3, o4⟩ := core Nl Nr L R a b c d c' d'
    refine ⟨fun i j => ?_, MOk.zero _ _ _⟩
    rw [md_zeroE, zero_sub, norm_neg]
    have h1 := o1 i j
    have h2 := md_le hi hm o3.lv i j
    have h3 := az_small hz
    have h4 := norm_sub_le (val l.w * val r.w * md s m x i j) (val l.w * val r.w * md s m x i j - mmF s m l r i j)
    rw [sub_sub_cancel, norm_mul (val l.w * val r.w), norm_mul (val l.w)] at h4
    have h8 : ‖val l.w‖ * ‖val r.w‖ ≤ 2 * 2 := mul_le_mul (c.trans c') (d.trans d') (norm_nonneg _) (by norm_num)
    have h9 : ‖val l.w‖ * ‖val r.w‖ * ‖md s m x i j‖ ≤ 2 * 2 * (1001 / 1000 * ε) :=
      mul_le_mul h8 (h2.trans (by linarith)) (norm_nonneg _) (by norm_num)
    have : ε ≤ ε * Nl := le_mul_of_one_le_right e0 o4
    linarith
  · obtain ⟨o1, o2, o3, o4⟩ := core Nl Nr L R a b c d c' d'
    refine ⟨fun i j => (o2 i j).trans ?_, ?_⟩
    · have : 0 ≤ Nl * ε := by positivity
      linarith
    · exact o3.imp (fun h => ⟨z_mul_left _ (z_mul_left _ h.1), h.2⟩) id
  · obtain ⟨o1, o2, o3, o4⟩ := core Nl Nr L R a b c d c' d'
    refine ⟨fun i j => ?_, MOk.zero _ _ _⟩
    have h1 := o2 i j
    have h2 := md_le hi hm (e := ⟨WOps.mul (WOps.mul x.w l.w) r.w, x.n⟩) o3.lv i j
    have h3 := az_small hz
    simp only at h2
    have h4 := norm_sub_le (md s m ⟨WOps.mul (WOps.mul x.w l.w) r.w, x.n⟩ i j)
      (md s m ⟨WOps.mul (WOps.mul x.w l.w) r.w, x.n⟩ i j - mmF s m l r i j)
    rw [sub_sub_cancel] at h4
    rw [md_zeroE, zero_sub, norm_neg]
    have : ε ≤ ε * Nl := le_mul_of_one_le_right e0 o4
    linarith
  · obtain ⟨o1, o2, o3, o4⟩ := core Nl Nr L R a b c d c' d'
    refine ⟨fun i j => ?_, ?_⟩
    · have g1 := o2 i j
      have g2 := mp_le' hi hm o3.lv i j
      have g3 := aone_close h1
      have g4 := norm_add_le (md s m ⟨WOps.one, x.n⟩ i j - md s m ⟨WOps.mul (WOps.mul x.w l.w) r.w, x.n⟩ i j)
        (md s m ⟨WOps.mul (WOps.mul x.w l.w) r.w, x.n⟩ i j - mmF s m l r i j)
      rw [sub_add_sub_cancel] at g4
      have g5 : ‖md s m ⟨WOps.one, x.n⟩ i j - md s m ⟨WOps.mul (WOps.mul x.w l.w) r.w, x.n⟩ i j‖ ≤ 1001 / 1000 * ε := by
        unfold md
        simp only
        rw [← sub_mul, norm_mul, val_one, norm_sub_rev, mul_comm]
        exact mul_le_mul g2 g3 (norm_nonneg _) (by norm_num)
      have : ε ≤ ε * Nl := le_mul_of_one_le_right e0 o4
      linarith
    · rcases o3 with o | o
      · exact (az_not_one (z_az (z_mul_left _ (z_mul_left _ o.1))) h1).elim
      · exact .inr o

/-! ## The product cache -/

theorem NInv.has {s : St W} (hi : NInv env s) {lv key l r y} (h : Safe.Has s lv key l r y) :
    ∃ x, y = some x ∧ PMNum env s l r x := by
  obtain ⟨b, hb, e, he, ev, e1, e2, e3⟩ := h
  obtain ⟨x, hx, hp⟩ := hi.cm _ _ _ _ hb e he ev
  exact ⟨x, by rw [← e3, hx], by rw [← e1, ← e2]; exact hp⟩

theorem NInv.ofHas {s s' : St W} (hi : NInv env s) (hb : Safe.Inv env s') (hv : s'.vt = s.vt) (hm : s'.mt = s.mt)
    (hav : s'.av = s.av) (ham : s'.am = s.am) (hcv : s'.cv = s.cv) (hcm : ∀ tid, tid ≠ 0 → s'.cm tid = s.cm tid)
    (hh : ∀ lv key l r y, Safe.Has s' lv key l r y → ∃ x, y = some x ∧ PMNum env s l r x) : NInv env s' := by
  refine hi.caches hb hv hm (fun tid lv key e h => hi.av _ _ _ _ (hav ▸ h)) (fun tid lv key b h => hi.cv _ _ _ _ (hcv ▸ h))
    (fun tid lv key e h => hi.am _ _ _ _ (ham ▸ h)) (fun tid lv key b h e he ev => ?_)
  by_cases ht : tid = 0
  · subst ht
    exact hh lv key e.lhs e.rhs e.res ⟨b, h, e, he, ev, rfl, rfl, rfl⟩
  · rw [hcm tid ht] at h
    exact hi.cm _ _ _ _ h e he ev

theorem findPM_frame {s s' : St W} {lp r x} (h : (findPM env lp r).run s = .ok (x, s')) :
    s'.vt = s.vt ∧ s'.mt = s.mt ∧ s'.av = s.av ∧ s'.am = s.am ∧ s'.cv = s.cv ∧ ∀ tid, tid ≠ 0 → s'.cm tid = s.cm tid := by
  rw [findPM, run_atom] at h
  cases hf : (s.cm 0).find s.mt.mem s.mt.mem env.mur env.junkMM lp r with
  | error e => rw [hf] at h; cases h
  | ok y =>
    rw [hf] at h
    cases h
    exact ⟨rfl, rfl, rfl, rfl, rfl, fun tid ht => upd_ne _ _ _ ht⟩

theorem setPM_frame {s s' : St W} {lp r x y} (h : (setPM env 0 lp r y).run s = .ok (x, s')) :
    s'.vt = s.vt ∧ s'.mt = s.mt ∧ s'.av = s.av ∧ s'.am = s.am ∧ s'.cv = s.cv ∧ ∀ tid, tid ≠ 0 → s'.cm tid = s.cm tid := by
  rw [setPM, run_atom] at h
  cases hf : (s.cm 0).set s.mt.mem env.mur env.junkMM lp r y with
  | error e => rw [hf] at h; cases h
  | ok y =>
    rw [hf] at h
    cases h
    exact ⟨rfl, rfl, rfl, rfl, rfl, fun tid ht => upd_ne _ _ _ ht⟩

/-! ## The product -/

/-- Numerical bookkeeping of one level of `mm_multiply2`. -/
theorem mmul_level {u D N n0 n1 b k : ℝ} (u0 : 0 ≤ u) (u1 : u ≤ 1 / 10 ^ 8) (D0 : 0 ≤ D) (D1 : D ≤ 1 / 50) (hN : 1 ≤ N)
    (h0 : 0 ≤ n0) (h1 : 0 ≤ n1) (hn : n0 + n1 ≤ N) (hb : b = 1 + 2 * u) (hk : 0 ≤ k) :
    (b * b * n0 * D + 20 * n0 * u) + (b * b * n1 * D + 20 * n1 * u) + 40 * u * (k + 1) * (1 + 11 / 10 * N) +
      4 * u * (1 + 12 / 10 * N) ≤ N * (D + 200 * u * (k + 1) + 100 * u) := by
  have s1 : b * b ≤ 1 + 5 * u := by rw [hb]; nlinarith
  have s2 : u * D ≤ 1 / 50 * u := by nlinarith
  have t1 : b * b * D ≤ D + 1 / 10 * u := by nlinarith
  have t2 : b * b * D * (n0 + n1) ≤ (D + 1 / 10 * u) * N := mul_le_mul t1 hn (by linarith) (by positivity)
  have t3 : u * (n0 + n1) ≤ u * N := mul_le_mul_of_nonneg_left hn u0
  have t4 : 0 ≤ u * k := by positivity
  have t5 : u * k ≤ u * k * N := le_mul_of_one_le_right t4 hN
  have t6 : u ≤ u * N := le_mul_of_one_le_right u0 hN
  nlinarith

theorem mprod_wt {u D n b N : ℝ} (u0 : 0 ≤ u) (u1 : u ≤ 1 / 10 ^ 8) (D0 : 0 ≤ D) (D1 : D ≤ 1 / 50)
    (h0 : 0 ≤ n) (hn : n ≤ N) (hb : b = 1 + 2 * u) :
    b * b * (101 / 100 * n) + (b * b * n * D + 20 * n * u) ≤ 11 / 10 * N := by
  have s1 : b * b ≤ 1001 / 1000 := by rw [hb]; nlinarith
  have s0 : 0 ≤ b * b := mul_self_nonneg b
  have t1 : b * b * n ≤ 1001 / 1000 * N := mul_le_mul s1 hn h0 (by norm_num)
  have t2 : b * b * n * D ≤ 1001 / 1000 * N * (1 / 50) := mul_le_mul t1 D1 D0 (by linarith)
  have t3 : n * u ≤ N * (1 / 10 ^ 8) := mul_le_mul hn u1 u0 (by linarith)
  norm_num at t3 ⊢
  linarith

variable (env) in
/-- What a run of `mm_multiply2` returns. -/
def MulNum (l r : Edge W) (e : Edge W) (s' : St W) : Prop :=
  NInv env s' ∧ (∀ m ≤ NQUBITS, MLv env s' m l.n → MLv env s' m r.n → MulEdge env s' m l r e) ∧
    ∀ lp rp, l = ⟨WOps.one, some lp⟩ → r = ⟨WOps.one, some rp⟩ → ∃ y, Rep e y ∧ MulAll env s' (some lp) (some rp) y

theorem mmMul2_num : ∀ {k : Nat} {s : St W} {l r : Edge W},
    k ≤ NQUBITS → NInv env s → MLv env s k l.n → MLv env s k r.n → ∀ {e s'},
    (mmMul2 env k l r).run s = .ok (e, s') → MulNum env l r e s' := by
  have e0 := eps_nn (W := W)
  have e1 := eps_le (W := W)
  have hone : ∀ {x : Option Nat}, ¬ eeq (⟨WOps.one, x⟩ : Edge W) zeroE = true := fun {x} h => by
    have : WOps.az (WOps.one : W) = true := eeq_zero_az h
    rw [az_one] at this; cases this
  have ez : ∀ {x : Edge W}, eeq x zeroE = true → ‖val x.w‖ ≤ ε := fun h => by
    have := eeq_w h
    simpa [zeroE, val_zero] using this
  have early : ∀ {s : St W} {l r : Edge W}, NInv env s → (eeq l zeroE || eeq r zeroE) = true → MulNum env l r zeroE s := by
    intro s l r hi h0
    refine ⟨hi, fun m hm hl hr => mulEdge_zero hi hm hr ?_, fun lp rp a b => ?_⟩
    · simp only [Bool.or_eq_true] at h0
      exact h0.imp ez ez
    · exfalso
      rw [a, b] at h0
      simp only [Bool.or_eq_true] at h0
      exact h0.elim hone hone
  have nz : ∀ {l r : Edge W}, ¬ (eeq l zeroE || eeq r zeroE) = true → ¬ (Z l.w ∧ l.n = none) ∧ ¬ (Z r.w ∧ r.n = none) := by
    intro l r h
    simp only [Bool.or_eq_true, not_or] at h
    exact ⟨fun g => h.1 (eeq_z g), fun g => h.2 (eeq_z g)⟩
  intro k
  induction k with
  | zero =>
    intro s l r hk hi hl hr e s' hrun
    have h1 := hl.term hi.base
    by_cases h0 : (eeq l zeroE || eeq r zeroE) = true
    · unfold mmMul2 at hrun
      rw [if_pos h0] at hrun
      cases hrun
      exact early hi h0
    · unfold mmMul2 at hrun
      rw [if_neg h0, h1] at hrun
      cases hrun
      exact ⟨hi, fun m hm a b => mulEdge_left hi hm b (nz h0).1 (nz h0).2 h1, fun lp rp a b => by rw [a] at h1; cases h1⟩
  | succ k ih =>
    intro s l r hk hi hl hr e s' hrun
    by_cases h0 : (eeq l zeroE || eeq r zeroE) = true
    · unfold mmMul2 at hrun
      rw [if_pos h0] at hrun
      cases hrun
      exact early hi h0
    obtain ⟨nl0, nr0⟩ := nz h0
    cases hln : l.n with
    | none =>
      unfold mmMul2 at hrun
      rw [if_neg h0, hln] at hrun
      cases hrun
      exact ⟨hi, fun m hm a b => mulEdge_left hi hm b nl0 nr0 hln, fun lp rp a b => by rw [a] at hln; cases hln⟩
    | some lp =>
    cases hrn : r.n with
    | none =>
      unfold mmMul2 at hrun
      rw [if_neg h0, hln, hrn] at hrun
      simp only at hrun
      rw [← hln] at hrun
      cases hrun
      exact ⟨hi, fun m hm a b => mulEdge_right hi hm a nl0 nr0 hrn, fun lp rp a b => by rw [b] at hrn; cases hrn⟩
    | some rp =>
    by_cases hz : (WOps.az l.w || WOps.az r.w) = true
    · unfold mmMul2 at hrun
      rw [if_neg h0, hln, hrn] at hrun
      simp only at hrun
      rw [if_pos hz] at hrun
      cases hrun
      simp only [Bool.or_eq_true] at hz
      refine ⟨hi, fun m hm a b => mulEdge_zero hi hm b (hz.imp (fun h => az_small h) fun h => az_small h), fun lp rp a b => ?_⟩
      exfalso
      rw [a, b] at hz
      simp [az_one] at hz
    have hk' : k < NQUBITS := hk
    have hk0 : k ≤ NQUBITS := Nat.le_of_lt hk
    have hunf : mmMul2 env (k + 1) l r = mulBody env k lp rp l r := by
      unfold mmMul2 mulBody; rw [if_neg h0]; simp only [hln, hrn]; rw [if_neg hz]; rfl
    have hl' : MReg env s (some lp) := hln ▸ hl.reg
    have hr' : MReg env s (some rp) := hrn ▸ hr.reg
    obtain ⟨v, hv⟩ := at_of hi.base hl'
    obtain ⟨o, s1, ho, i1, g1, g1', hh, hnone, hsome⟩ := findPM_run hi.base hl' hr' hv
    obtain ⟨f1, f2, f3, f4, f5, f6⟩ := findPM_frame ho
    have n1 : NInv env s1 := hi.ofHas i1 f1 f2 f3 f4 f5 f6 fun lv key a b y hy => hi.has ((hh _ _ _ _ _).1 hy)
    have hl1 := hl.ext g1
    have hr1 := hr.ext g1
    cases o with
    | some x =>
      rw [hunf] at hrun
      unfold mulBody at hrun
      rw [run_ok ho] at hrun
      simp only at hrun
      obtain ⟨x', hx', _, _, y, hy, hacc⟩ := n1.has ((hh _ _ _ _ _).2 (hsome x rfl))
      cases hx'
      rw [← hln, ← hrn] at hacc
      have hs := fun (m : Nat) (hm : m ≤ NQUBITS) (a : MLv env s1 m l.n) (b : MLv env s1 m r.n) =>
        mul_scale n1 hm a b nl0 nr0 hy (hacc m hm a b)
      by_cases h3 : WOps.az x.w = true
      · rw [if_pos h3] at hrun
        cases hrun
        exact ⟨n1, fun m hm a b => (hs m hm a b).1 h3, fun lp' rp' a b => ⟨y, hy.az h3, by
          rw [a, b] at hacc; exact hacc⟩⟩
      rw [if_neg h3] at hrun
      by_cases h4 : WOps.az (WOps.mul (WOps.mul x.w l.w) r.w) = true
      · rw [if_pos h4] at hrun
        cases hrun
        refine ⟨n1, fun m hm a b => (hs m hm a b).2.2.1 h4, fun lp' rp' a b => ?_⟩
        exfalso
        rw [a, b] at h4
        simp only [RoundW.mul_one] at h4
        exact h3 h4
      rw [if_neg h4] at hrun
      cases hrun
      refine ⟨n1, fun m hm a b => (hs m hm a b).2.1, fun lp' rp' a b => ⟨y, ?_, by rw [a, b] at hacc; exact hacc⟩⟩
      rw [a, b]
      simp only [RoundW.mul_one]
      exact hy
    | none =>
      have hnone1 : ∀ y, ¬ Safe.Has s1 v (env.mur lp % NBUCKETS) (some lp) (some rp) y := fun y hy =>
        hnone rfl y ((hh _ _ _ _ _).1 hy)
      obtain ⟨nl, hrl, hnl⟩ := readM_run hl1.reg
      obtain ⟨nr, hrr, hnr⟩ := readM_run hr1.reg
      have ol := Safe.mMul_child i1 hl1 hnl
      have or := Safe.mMul_child i1 hr1 hnr
      obtain ⟨skl, vl⟩ := mMul_skip i1 hl1 hnl
      obtain ⟨skr, vr⟩ := mMul_skip i1 hr1 hnr
      have b1 : bet W ≤ 1001 / 1000 := by simpa using pow_bet_le (W := W) (k := 1) (by norm_num)
      obtain ⟨_, ob, om⟩ := mMulArg_num n1 (Sup.full i1 hl1) hnl
      obtain ⟨_, pb, pm⟩ := mMulArg_num n1 (Sup.full i1 hr1) hnr
      have ob2 : ∀ a b, ‖val (mMulArg k nl l a b).w‖ ≤ 2 := fun a b => (ob a b).trans (by linarith)
      have pb2 : ∀ a b, ‖val (mMulArg k nr r a b).w‖ ≤ 2 := fun a b => (pb a b).trans (by linarith)
      have hD0 := D_nn (W := W) k
      have hD1 := D_le (W := W) hk0
      -- one block
      have blk : ∀ (a b : Bool) (t : St W), NInv env t → Grow env s1 t →
          ∃ p q e t1 t2 t3, (mmMul2 env k (mMulArg k nl l a false) (mMulArg k nr r false b)).run t = .ok (p, t1) ∧
            (mmMul2 env k (mMulArg k nl l a true) (mMulArg k nr r true b)).run t1 = .ok (q, t2) ∧
            (mmAdd2 env k p q).run t2 = .ok (e, t3) ∧ NInv env t3 ∧ Grow env t t3 ∧ Fr env k t t3 ∧ MLv env t3 k e.n ∧
            MulPost env k (mMulArg k nl l a false) (mMulArg k nr r false b) t p t1 ∧
            MulNum env (mMulArg k nl l a false) (mMulArg k nr r false b) p t1 ∧
            ∀ (n m : Bool → Nat) (N : Nat), (∀ c, MOk env s1 k (mMulArg k nl l a c) (n c)) →
              (∀ c, MOk env s1 k (mMulArg k nr r c b) (m c)) → n false + n true ≤ N → 1 ≤ N →
              (∀ i j, ‖md t3 k e i j - (mmF s1 k (mMulArg k nl l a false) (mMulArg k nr r false b) i j +
                mmF s1 k (mMulArg k nl l a true) (mMulArg k nr r true b) i j)‖ ≤
                (bet W * bet W * n false * D W k + 20 * n false * ε) + (bet W * bet W * n true * D W k + 20 * n true * ε) +
                  A W k * (1 + 11 / 10 * N)) ∧ MOk env t3 k e (n false * m false + n true * m true) := by
        intro a b t hit het
        obtain ⟨p, t1, r1, P1⟩ := mmMul2_run hk0 hit.base ((ol a false).ext het) ((or false b).ext het)
        have N1 := ih hk0 hit ((ol a false).ext het) ((or false b).ext het) r1
        obtain ⟨j1, f1, c1, fr1, _⟩ := id P1
        have het1 := het.trans f1
        obtain ⟨q, t2, r2, j2, f2, c2, fr2, _⟩ := mmMul2_run hk0 j1 ((ol a true).ext het1) ((or true b).ext het1)
        have N2 := ih hk0 N1.1 ((ol a true).ext het1) ((or true b).ext het1) r2
        have het2 := het1.trans f2
        have hp2 : MLv env t2 k p.n := (c1 k ((ol _ _).ext het1) ((or _ _).ext het1)).ext f2
        have hq2 : MLv env t2 k q.n := c2 k ((ol _ _).ext het2) ((or _ _).ext het2)
        obtain ⟨e, t3, r3, j3, f3, c3, m3, _⟩ := mmAdd2_run hk0 j2 hp2 hq2
        have N3 := mmAdd2_num hk0 N2.1 hp2 hq2 r3
        refine ⟨p, q, e, t1, t2, t3, r1, r2, r3, N3.1, f1.trans (f2.trans f3),
          (fr1.trans fr2 f2).trans (Fr.of_cm m3) f3, c3 k (hp2.ext f3) (hq2.ext f3), P1, N1, ?_⟩
        intro n m N hn hm hN hN1
        have hb0 := bet_pos (W := W)
        have E1 := (((N1.2.1 k hk0 ((ol _ _).ext het1) ((or _ _).ext het1)).ext j1 f2 ((ol _ _).ext het1) ((or _ _).ext het1)
          (ob2 _ _) (pb2 _ _)) (n false) (m false) (bet W) (bet W) ((hn false).ext het2) ((hm false).ext het2) (ob _ _) (pb _ _)
          (by linarith) (by linarith))
        have E2 := ((N2.2.1 k hk0 ((ol _ _).ext het2) ((or _ _).ext het2)) (n true) (m true) (bet W) (bet W)
          ((hn true).ext het2) ((hm true).ext het2) (ob _ _) (pb _ _) (by linarith) (by linarith))
        have S := N3.apx hk0 (hp2.ext f3) (hq2.ext f3)
        refine ⟨fun i j => ?_, S.2 _ _ (E1.2.ext f3) (E2.2.ext f3)⟩
        have x1 := fun i j => mmF_ext (k := k) i1 het2 (ol a false).reg (or false b).reg i j
        have x2 := fun i j => mmF_ext (k := k) i1 het2 (ol a true).reg (or true b).reg i j
        have wt : ∀ (c : Bool) (x : Edge W), MLv env t2 k x.n → (∀ i j, ‖md t2 k x i j - mmF t2 k (mMulArg k nl l a c) (mMulArg k nr r c b) i j‖ ≤
            bet W * bet W * n c * D W k + 20 * n c * ε) → ‖val x.w‖ ≤ 11 / 10 * N := by
          intro c x hx hacc
          refine mweight_le N2.1 hx fun i j => ?_
          have y1 := hacc i j
          have y2 := norm_add_le (md t2 k x i j - mmF t2 k (mMulArg k nl l a c) (mMulArg k nr r c b) i j)
            (mmF t2 k (mMulArg k nl l a c) (mMulArg k nr r c b) i j)
          rw [sub_add_cancel] at y2
          have hnn : (0 : ℝ) ≤ n c := Nat.cast_nonneg _
          have hnN : (n c : ℝ) ≤ N := by
            have : n c ≤ N := by cases c <;> omega
            exact_mod_cast this
          have y3 : ‖mmF t2 k (mMulArg k nl l a c) (mMulArg k nr r c b) i j‖ ≤ bet W * bet W * (101 / 100 * n c) := by
            rcases (hn c).ext het2 with h | h
            · rw [mmF_zL _ _ _ (val_z h.1), norm_zero]; positivity
            · exact mmF_le N2.1 hk0 h ((or c b).ext het2) (ob _ _) (pb _ _) i j
          have := mprod_wt e0 e1 hD0 hD1 hnn hnN (rfl : bet W = 1 + 2 * ε)
          linarith
        have wp := wt false p hp2 E1.1
        have wq := wt true q hq2 E2.1
        have y1 := S.1 _ wp wq i j
        have y2 := E1.1 i j
        have y3 := E2.1 i j
        rw [x1] at y2
        rw [x2] at y3
        rw [md_ext j2 f3 hp2.reg, md_ext j2 f3 hq2.reg] at y1
        have tri : md t3 k e i j - (mmF s1 k (mMulArg k nl l a false) (mMulArg k nr r false b) i j +
              mmF s1 k (mMulArg k nl l a true) (mMulArg k nr r true b) i j) =
            (md t3 k e i j - (md t2 k p i j + md t2 k q i j)) +
            ((md t2 k p i j - mmF s1 k (mMulArg k nl l a false) (mMulArg k nr r false b) i j) +
              (md t2 k q i j - mmF s1 k (mMulArg k nl l a true) (mMulArg k nr r true b) i j)) := by ring
        rw [tri]
        have z1 := norm_add_le (md t2 k p i j - mmF s1 k (mMulArg k nl l a false) (mMulArg k nr r false b) i j)
          (md t2 k q i j - mmF s1 k (mMulArg k nl l a true) (mMulArg k nr r true b) i j)
        refine (norm_add_le _ _).trans ?_
        linarith
      obtain ⟨p0, q0, x0, t01, t02, s4, r01, r02, r03, n4, g4, fr4, hm0, P0, PN0, A0⟩ := blk false false s1 n1 (Grow.refl env s1)
      obtain ⟨p1, q1, x1, t11, t12, s5, r11, r12, r13, n5, g5, fr5, hm1, _, _, A1⟩ := blk false true s4 n4 g4
      have g15 := g4.trans g5
      obtain ⟨p2, q2, x2, t21, t22, s6, r21, r22, r23, n6, g6, fr6, hm2, _, _, A2⟩ := blk true false s5 n5 g15
      have g16 := g15.trans g6
      obtain ⟨p3, q3, x3, t31, t32, s7, r31, r32, r33, n7, g7, fr7, hm3, P3, _, A3⟩ := blk true true s6 n6 g16
      have g17 := g16.trans g7
      have g57 := g6.trans g7
      have g47 := g5.trans g57
      have i4 := n4.base
      have i7 := n7.base
      obtain ⟨res, s8, rm, hmk, i8, g8, hres, m8⟩ := mkM_run i7 hk' (hm0.ext g47) (hm1.ext g57) (hm2.ext g7) hm3
      have g18 := g17.trans g8
      have fr18 : Fr env k s1 s8 := by
        have a := fr4.trans fr5 g5
        have b := a.trans fr6 g6
        have c := b.trans fr7 g7
        exact c.trans (Fr.of_cm m8) g8
      have hl8 : MReg env s8 (some lp) := (hl'.ext g1).ext g18
      have hr8 : MReg env s8 (some rp) := (hr'.ext g1).ext g18
      have hv8 : At s8 lp v := (hv.ext g1 hl').ext g18 (hl'.ext g1)
      -- the four blocks
      obtain ⟨x, hx⟩ : ∃ x : Bool → Bool → Edge W, x = fun a b => if a then (if b then x3 else x2) else (if b then x1 else x0) := ⟨_, rfl⟩
      have hmk' : makeMEdge env 0 k (x false false) (x false true) (x true false) (x true true) s7 = .ok (res, s8) := by
        subst hx; exact hmk
      have acc : ∀ (a b : Bool) (n m : Bool → Nat) (N : Nat), (∀ c, MOk env s1 k (mMulArg k nl l a c) (n c)) →
              (∀ c, MOk env s1 k (mMulArg k nr r c b) (m c)) → n false + n true ≤ N → 1 ≤ N →
              (∀ i j, ‖md s7 k (x a b) i j - (mmF s1 k (mMulArg k nl l a false) (mMulArg k nr r false b) i j +
                mmF s1 k (mMulArg k nl l a true) (mMulArg k nr r true b) i j)‖ ≤
                (bet W * bet W * n false * D W k + 20 * n false * ε) + (bet W * bet W * n true * D W k + 20 * n true * ε) +
                  A W k * (1 + 11 / 10 * N)) ∧ MOk env s7 k (x a b) (n false * m false + n true * m true) := by
        intro a b n m N u1 u2 u3 u4
        cases a <;> cases b <;> subst hx <;> simp only [Bool.false_eq_true, if_false, if_true]
        · have := A0 n m N u1 u2 u3 u4
          exact ⟨fun i j => by rw [md_ext i4 g47 hm0.reg]; exact this.1 i j, this.2.ext g47⟩
        · have := A1 n m N u1 u2 u3 u4
          exact ⟨fun i j => by rw [md_ext n5.base g57 hm1.reg]; exact this.1 i j, this.2.ext g57⟩
        · have := A2 n m N u1 u2 u3 u4
          exact ⟨fun i j => by rw [md_ext n6.base g7 hm2.reg]; exact this.1 i j, this.2.ext g7⟩
        · exact A3 n m N u1 u2 u3 u4
      have hDk1 := D_le (W := W) hk
      -- making the node, for every bound on the supports
      have made : ∀ {Nl Nr : Nat}, Sup env s1 (k + 1) l.n Nl → Sup env s1 (k + 1) r.n Nr → NInv env s8 ∧
          (∀ i j, ‖md s8 (k + 1) res i j - mulF s1 (k + 1) l.n r.n i j‖ ≤ Nl * D W (k + 1)) ∧
          MOk env s8 (k + 1) res (Nl * Nr) := by
        intro Nl Nr sl sr
        obtain ⟨⟨n, on, onN⟩, _, _⟩ := mMulArg_num n1 sl hnl
        obtain ⟨⟨m, om', omN⟩, _, _⟩ := mMulArg_num n1 sr hnr
        have hN1 : (1 : ℝ) ≤ Nl := by exact_mod_cast sl.one_le
        have acc := fun a b => acc a b (n a) (fun c => m c b) Nl (on a) (fun c => om' c b) (onN a) sl.one_le
        have bnd : ∀ a, (bet W * bet W * n a false * D W k + 20 * n a false * ε) + (bet W * bet W * n a true * D W k + 20 * n a true * ε) +
                A W k * (1 + 11 / 10 * Nl) + 4 * ε * (1 + 12 / 10 * Nl) ≤ Nl * D W (k + 1) := by
          intro a
          have h := mmul_level (k := (k : ℝ)) (n0 := n a false) (n1 := n a true) e0 e1 hD0 hD1 hN1 (Nat.cast_nonneg _)
            (Nat.cast_nonneg _) (by exact_mod_cast onN a) (rfl : bet W = 1 + 2 * ε) (Nat.cast_nonneg _)
          rw [D_succ]
          unfold A
          exact h
        have pos4 : 0 ≤ 4 * ε * (1 + 12 / 10 * (Nl : ℝ)) := by positivity
        have wt : ∀ a b, ‖val (x a b).w‖ ≤ 12 / 10 * Nl := by
          intro a b
          refine mweight_le n7 (acc a b).2.lv fun i j => ?_
          have y1 := (acc a b).1 i j
          have y2 := norm_add_le (md s7 k (x a b) i j - (mmF s1 k (mMulArg k nl l a false) (mMulArg k nr r false b) i j +
                mmF s1 k (mMulArg k nl l a true) (mMulArg k nr r true b) i j)) (mmF s1 k (mMulArg k nl l a false) (mMulArg k nr r false b) i j +
                mmF s1 k (mMulArg k nl l a true) (mMulArg k nr r true b) i j)
          rw [sub_add_cancel] at y2
          have y3 := norm_add_le (mmF s1 k (mMulArg k nl l a false) (mMulArg k nr r false b) i j)
            (mmF s1 k (mMulArg k nl l a true) (mMulArg k nr r true b) i j)
          have y4 : ∀ c', ‖mmF s1 k (mMulArg k nl l a c') (mMulArg k nr r c' b) i j‖ ≤ bet W * bet W * (101 / 100 * n a c') := by
            intro c'
            rcases on a c' with h | h
            · rw [mmF_zL _ _ _ (val_z h.1), norm_zero]
              have hb := bet_pos (W := W)
              positivity
            · exact mmF_le n1 hk0 h (or c' b) (ob a c') (pb c' b) i j
          have y5 := bnd a
          have y6 : (Nl : ℝ) * D W (k + 1) ≤ Nl * (1 / 50) := mul_le_mul_of_nonneg_left hDk1 (by linarith)
          have y7 : bet W * bet W ≤ 1003 / 1000 := by
            have := mul_le_mul b1 b1 bet_pos.le (by norm_num); linarith
          have y8 : ((n a false : ℝ) + n a true) ≤ Nl := by exact_mod_cast onN a
          have y9 : bet W * bet W * ((n a false : ℝ) + n a true) ≤ 1003 / 1000 * Nl :=
            mul_le_mul y7 y8 (by positivity) (by norm_num)
          have y4f := y4 false
          have y4t := y4 true
          linarith
        have hsum : ∀ a, (n a false * m false false + n a true * m true false) + (n a false * m false true + n a true * m true true) ≤ Nl * Nr := by
          intro a
          have h1 : n a false * (m false false + m false true) ≤ n a false * Nr := Nat.mul_le_mul_left _ (omN false)
          have h2 : n a true * (m true false + m true true) ≤ n a true * Nr := Nat.mul_le_mul_left _ (omN true)
          have h3 : (n a false + n a true) * Nr ≤ Nl * Nr := Nat.mul_le_mul_right _ (onN a)
          rw [Nat.mul_add] at h1 h2
          rw [Nat.add_mul] at h3
          omega
        obtain ⟨e', t, q1, q2, q3, q4⟩ := makeMEdge_num n7 0 hk' (N := Nl * Nr) (Nat.mul_pos sl.one_le sr.one_le)
          (fun a b => (acc a b).2) hsum wt
        rw [hmk'] at q1
        cases q1
        refine ⟨q2, fun i j => ?_, q4.1⟩
        obtain ⟨_, _, w, w1, w2⟩ := q4
        rw [mulF_split om pm]
        generalize ha : i.testBit k = a at *
        generalize hc : j.testBit k = c at *
        have w2 := w2 i j
        rw [ha, hc] at w2
        have y1 : ‖md s8 (k + 1) res i j - md s7 k (x a c) i j‖ ≤ 4 * ε * (1 + 12 / 10 * Nl) := by
          rw [w2]
          unfold md
          rw [← sub_mul, norm_mul]
          have := mul_le_mul (w1 a c) (mp_le' n7 hk0 (acc a c).2.lv i j) (norm_nonneg _) (by positivity)
          refine this.trans ?_
          nlinarith
        have y2 := (acc a c).1 i j
        have y3 := bnd a
        have y5 := norm_add_le (md s8 (k + 1) res i j - md s7 k (x a c) i j) (md s7 k (x a c) i j -
          (mmF s1 k (mMulArg k nl l a false) (mMulArg k nr r false c) i j + mmF s1 k (mMulArg k nl l a true) (mMulArg k nr r true c) i j))
        rw [sub_add_sub_cancel] at y5
        linarith
      have n8 := (made (Sup.full i1 hl1) (Sup.full i1 hr1)).1
      have main : Cov env s8 l.n r.n res.n ∧ (∃ w n,
          (∀ y, Safe.Has s8 v (env.mur lp % NBUCKETS) (some lp) (some rp) y → ∃ x, y = some x ∧ Cpt w n x) ∧ Cpt w n res) ∧
          ∃ y, Rep res y ∧ MulAll env s8 l.n r.n y := by
        by_cases hb : MLv env s1 k l.n ∧ MLv env s1 k r.n
        · have sl := skl hb.1
          have sr := skr hb.2
          rw [hln] at sl
          rw [hrn] at sr
          simp only [sl, sr, ne_eq, not_true_eq_false, if_false, Bool.false_eq_true, not_false_eq_true, if_true,
            Bool.true_eq_false] at r01 r02 r11 r12 r21 r22 r31 r32 P0 P3 PN0
          simp only [mmMul2_zeroL, mmMul2_zeroR] at r02 r11 r12 r21 r22 r31
          cases r02
          cases r11
          cases r12
          cases r21
          cases r22
          cases r31
          rw [mmAdd2_zero] at r13 r23
          cases r13
          cases r23
          -- the first product
          obtain ⟨j0, f0, c0, _, hit0⟩ := P0
          obtain ⟨v0, w, n, hv0, ⟨y0, hy0⟩, hall, hret⟩ := hit0 lp rp rfl rfl
          have hvv : v0 = v := by
            have a := hv0.1
            have b := ((hv.ext g1 hl').ext f0 (hl'.ext g1)).1
            rw [a] at b; cases b; rfl
          subst hvv
          have hp0 : p0 = zeroE ∨ WOps.az p0.w = false := by
            rcases hret.ae hret with h | h
            · exact .inl h.1
            · exact .inr h.1
          rw [mmAdd2_zeroR hp0] at r03
          cases r03
          -- the last product is answered from the cache
          have hlk : MReg env t01 (some lp) := (hl'.ext g1).ext g4
          have hrk : MReg env t01 (some rp) := (hr'.ext g1).ext g4
          obtain ⟨o, t', ho', i', gg, gg', hh', hn', hs'⟩ := findPM_run i4 hlk hrk hv0
          cases o with
          | none => exact (hn' rfl y0 hy0).elim
          | some x' =>
          obtain ⟨x'', hx', hcx⟩ := hall _ (hs' x' rfl)
          cases hx'
          have hk1 : ∃ k1, k = k1 + 1 := by
            cases k with
            | zero => have := hb.1.term i1; rw [hln] at this; cases this
            | succ k1 => exact ⟨k1, rfl⟩
          obtain ⟨k1, rfl⟩ := hk1
          have hq : (mmMul2 env (k1 + 1) ⟨WOps.one, some lp⟩ ⟨WOps.one, some rp⟩).run t01 =
              .ok (if WOps.az x'.w = true then zeroE else
                if WOps.az (WOps.mul (WOps.mul x'.w WOps.one) WOps.one) = true then zeroE else
                  ⟨WOps.mul (WOps.mul x'.w WOps.one) WOps.one, x'.n⟩, t') := by
            unfold mmMul2
            rw [if_neg (by simp only [Bool.or_eq_true, not_or]; exact ⟨hone, hone⟩)]
            simp only
            rw [if_neg (by simp [az_one]), run_ok ho']
            simp only
            split
            · rfl
            · split <;> rfl
          rw [hq] at r32
          simp only [Except.ok.injEq, Prod.mk.injEq] at r32
          obtain ⟨rfl, rfl⟩ := r32
          have hret3 := hcx.ret
          generalize (if WOps.az x'.w = true then zeroE else
                if WOps.az (WOps.mul (WOps.mul x'.w WOps.one) WOps.one) = true then zeroE else
                  (⟨WOps.mul (WOps.mul x'.w WOps.one) WOps.one, x'.n⟩ : Edge W)) = q3 at *
          have hadd : mmAdd2 env (k1 + 1) zeroE q3 = pure q3 := by
            simp [mmAdd2, eeq_refl]
          rw [hadd] at r33
          cases r33
          have hres0 : res = p0 ∧ s8 = s7 := by
            rcases hret.ae hret3 with ⟨rfl, rfl⟩ | ⟨_, h2, h3⟩
            · rw [makeM_strip rfl (ae_refl _)] at hmk
              cases hmk; exact ⟨rfl, rfl⟩
            · rw [makeM_strip h2 h3] at hmk
              cases hmk; exact ⟨rfl, rfl⟩
          obtain ⟨rfl, rfl⟩ := hres0
          refine ⟨?_, ⟨w, n, fun y hy => hall y ((hh' _ _ _ _ _).1 hy), hret.cpt⟩, ?_⟩
          · have := c0.ext gg ((hl'.ext g1).ext g4) ((hr'.ext g1).ext g4)
            rw [hln, hrn]
            exact this
          · obtain ⟨y, hy, hacc⟩ := PN0.2.2 lp rp rfl rfl
            rw [hln, hrn]
            exact ⟨y, hy, hacc.ext i4 gg hlk hrk⟩
        · have hnot : ¬ (MLv env s8 k l.n ∧ MLv env s8 k r.n) := fun h => hb ⟨hl1.reg.back g18 h.1, hr1.reg.back g18 h.2⟩
          refine ⟨not_both (m := 0) (k := k) hnot hres, ⟨res.w, res.n, fun y hy => ?_, ?_⟩, res, .inl rfl, ?_⟩
          · exfalso
            rcases fr18 _ _ _ _ _ hy with ⟨y', h⟩ | h
            · exact hnone1 y' h
            · rw [← hln, ← hrn] at h; exact hnot h
          · cases haz : WOps.az res.w
            · exact .inr ⟨haz, rfl, .inl rfl⟩
            · exact .inl ⟨haz, haz⟩
          · have base : MulApx env s8 (k + 1) l.n r.n res := by
              intro Nl Nr sl sr
              obtain ⟨_, u1, u2⟩ := made (sl.back i1 g18 hl1.reg) (sr.back i1 g18 hr1.reg)
              refine ⟨fun i j => ?_, u2⟩
              rw [mulF_ext i1 g18 hl1.reg hr1.reg]
              exact u1 i j
            intro m' hm' a b
            have hge : k + 1 ≤ m' := by
              by_contra hc
              exact hnot ⟨a.mono (by omega), b.mono (by omega)⟩
            obtain ⟨d, rfl⟩ := Nat.exists_eq_add_of_le hge
            exact base.upTo n8 (hl1.ext g18) (hr1.ext g18) d
      obtain ⟨hcov, ⟨w, n, hold, hnew⟩, y, hy, hacc⟩ := main
      have hcov' : Cov env s8 (some lp) (some rp) res.n := hln ▸ hrn ▸ hcov
      obtain ⟨s9, rs, i9, g9, hs9, hnew9⟩ := setPM_run i8 hl8 hr8 hv8 hcov' hold hnew
      obtain ⟨f1, f2, f3, f4, f5, f6⟩ := setPM_frame rs
      have hacc8 : MulAll env s8 (some lp) (some rp) y := by rw [hln, hrn] at hacc; exact hacc
      have n9 : NInv env s9 := n8.ofHas i9 f1 f2 f3 f4 f5 f6 fun lv key a b z hz => by
        rcases hs9 _ _ _ _ _ hz with h | ⟨rfl, rfl, rfl⟩
        · exact n8.has h
        · exact ⟨res, rfl, hl8, hr8, y, hy, hacc8⟩
      have hacc9 : MulAll env s9 l.n r.n y := hacc.ext i8 g9 (hln ▸ hl8) (hrn ▸ hr8)
      have hs := fun (m : Nat) (hm : m ≤ NQUBITS) (a : MLv env s9 m l.n) (b : MLv env s9 m r.n) =>
        mul_scale n9 hm a b nl0 nr0 hy (hacc9 m hm a b)
      rw [hunf] at hrun
      unfold mulBody at hrun
      rw [run_ok ho] at hrun
      simp only at hrun
      rw [run_ok hrl, run_ok hrr, if_pos ⟨vl, vr⟩, run_ok r01, run_ok r02, run_ok r03, run_ok r11, run_ok r12,
          run_ok r13, run_ok r21, run_ok r22, run_ok r23, run_ok r31, run_ok r32, run_ok r33, run_ok rm, run_ok rs] at hrun
      by_cases h3 : WOps.az (WOps.mul (WOps.mul res.w l.w) r.w) = true
      · rw [if_pos h3] at hrun
        cases hrun
        refine ⟨n9, fun m hm a b => (hs m hm a b).2.2.1 h3, fun lp' rp' a b => ⟨y, hy.az ?_, by rw [a, b] at hacc9; exact hacc9⟩⟩
        rw [a, b] at h3
        simpa only [RoundW.mul_one] using h3
      rw [if_neg h3] at hrun
      by_cases h4 : WOps.aone (WOps.mul (WOps.mul res.w l.w) r.w) = true
      · rw [if_pos h4] at hrun
        cases hrun
        refine ⟨n9, fun m hm a b => (hs m hm a b).2.2.2 h4, fun lp' rp' a b => ⟨y, ?_, by rw [a, b] at hacc9; exact hacc9⟩⟩
        rw [a, b] at h3 h4
        simp only [RoundW.mul_one] at h3 h4
        rcases hy with rfl | ⟨rfl, _⟩ | ⟨rfl, h5⟩
        · exact .inr (.inr ⟨rfl, h4⟩)
        · exact (h3 (z_az z_zero)).elim
        · exact .inr (.inr ⟨rfl, h5⟩)
      rw [if_neg h4] at hrun
      cases hrun
      refine ⟨n9, fun m hm a b => (hs m hm a b).2.1, fun lp' rp' a b => ⟨y, ?_, by rw [a, b] at hacc9; exact hacc9⟩⟩
      rw [a, b]
      simp only [RoundW.mul_one]
      exact hy

end Num
end QDD
