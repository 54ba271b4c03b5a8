import Verif.Num.Vec
/-!
# Numerical accuracy of matrix-vector products, under every schedule
-/

set_option linter.unusedSectionVars false
set_option linter.unusedVariables false
set_option linter.unusedSimpArgs false

namespace QDD
namespace Num
open RoundW NumW Prog Safe
variable {W : Type} [WOps W] [RoundW W] [NumW W] {env : Env W}

local notation "ε" => NumW.eps W

theorem eeq_z {e : Edge W} (h : Z e.w ∧ e.n = none) : eeq e zeroE = true := by
  have : WOps.ae e.w WOps.zero = true := (ae_zero e.w).trans (z_az h.1)
  simp [eeq, this, h.2, zeroE]

/-- The operand blocks of `mv_multiply2`: support and entries. -/
theorem mMulArg_num {s : St W} (hi : NInv env s) {k : Nat} {e : Edge W} {nd : MNode W} {N : Nat}
    (h : Sup env s (k + 1) e.n N) (hr : Safe.ReadM env s e.n nd) :
    (∃ n : Bool → Bool → Nat, (∀ r c, MOk env s k (mMulArg k nd e r c) (n r c)) ∧ ∀ r, n r false + n r true ≤ N) ∧
    (∀ r c, ‖val (mMulArg k nd e r c).w‖ ≤ bet W) ∧
    ∀ i j, mp s.mt.mem (k + 1) e.n i j = md s k (mMulArg k nd e (i.testBit k) (j.testBit k)) i j := by
  rcases h with ⟨h1, h2⟩ | ⟨p, nd', h1, h2, h3, h0, M, h4, h5⟩
  · have harg : ∀ r c, mMulArg k nd e r c = if r ≠ c then zeroE else ⟨WOps.one, e.n⟩ := by
      intro r c
      unfold mMulArg
      rw [if_neg]
      rintro ⟨h3, h4⟩
      rcases hr with ⟨hr, _⟩ | ⟨p, hr, hr'⟩
      · exact h4 hr
      · rcases h1 with h1 | ⟨q, nd', h1, h5, h6⟩
        · exact h4 h1
        · rw [hr] at h1; cases h1
          rw [reg_fun h5 hr'] at h6; omega
    refine ⟨⟨fun r c => if r = c then N else 0, fun r c => ?_, fun r => by cases r <;> simp⟩, fun r c => ?_, fun i j => ?_⟩
    · rw [harg]
      cases r <;> cases c <;> simp
      · exact .inr h2
      · exact MOk.zero _ _ _
      · exact MOk.zero _ _ _
      · exact .inr h2
    · rw [harg]
      cases r <;> cases c <;> simp [zeroE, val_zero, val_one, bet_ge, bet_pos.le]
    · rw [harg]
      have h6 := md_skip (e := (⟨WOps.one, e.n⟩ : Edge W)) h1 i j
      unfold md at h6
      simp only [val_one, one_mul] at h6
      rw [h6]
      by_cases hb : i.testBit k = j.testBit k
      · simp [hb, md, val_one]
      · simp [hb]
  · have hnd : nd = nd' := by
      rcases hr with ⟨hr, _⟩ | ⟨q, hr, hr'⟩
      · rw [h1] at hr; cases hr
      · rw [h1] at hr; cases hr
        exact reg_fun hr' h2
    subst hnd
    have harg : ∀ r c, mMulArg k nd e r c = nd.child r c := by
      intro r c
      unfold mMulArg
      rw [if_pos ⟨h3, by simp [h1]⟩]
    refine ⟨⟨M, fun r c => by rw [harg]; exact (h4 r c).imp (fun h => by rw [h]; exact ⟨z_zero, rfl⟩) id, h5⟩, fun r c => by rw [harg]; exact (hi.mw _ _ h2 r c).1, fun i j => ?_⟩
    rw [harg, h1]
    simp only [mp, h2.1, h3, if_true, md]

theorem vMulArg_num {s : St W} (hi : NInv env s) {k : Nat} {e : Edge W} (h : VPtr env s (k + 1) e.n) :
    ∃ p nd, e.n = some p ∧ UTable.Reg env.hv s.vt p nd ∧ (∀ b, VLv env s k (vMulArg k nd e b) ∧
      ‖val (vMulArg k nd e b).w‖ ≤ bet W) ∧ ∀ j, vp s.vt.mem (k + 1) e.n j = vd s k (vMulArg k nd e (j.testBit k)) j := by
  obtain ⟨p, nd, h1, h2, h3⟩ := Safe.vMul_child hi.base h
  have hv : nd.v = (k : Int) := by
    rcases h with ⟨h, _⟩ | ⟨q, nd', h4, h5, h6⟩
    · cases h
    · rw [h1] at h4; cases h4
      rw [reg_fun h2 h5]; push_cast at h6; omega
  have harg : ∀ b, vMulArg k nd e b = nd.child b := by
    intro b
    unfold vMulArg; rw [if_pos ⟨hv, by simp [h1]⟩]
  refine ⟨p, nd, h1, h2, fun b => ⟨h3 b, by rw [harg]; exact (hi.vw _ _ h2 b).1⟩, fun j => ?_⟩
  rw [harg, h1]
  simp only [vp, h2.1, vd]

/-- One level of the product. -/
theorem nodeF_split {s : St W} {k : Nat} {l r : Option Nat} {a : Bool → Bool → Edge W} {b : Bool → Edge W}
    (ha : ∀ i j, mp s.mt.mem (k + 1) l i j = md s k (a (i.testBit k) (j.testBit k)) i j)
    (hb : ∀ j, vp s.vt.mem (k + 1) r j = vd s k (b (j.testBit k)) j) (i : Nat) :
    nodeF s (k + 1) l r i = prodF s k (a (i.testBit k) false) (b false) i + prodF s k (a (i.testBit k) true) (b true) i := by
  unfold nodeF prodF
  simp only [bsum]
  congr 1
  · refine bsum_congr fun j hj => ?_
    rw [ha, hb, testBit_lt hj]
  · refine bsum_congr fun j hj => ?_
    rw [ha, hb, testBit_add hj, vd_congr _ _ _ (lowEq_add k j), md_congr _ _ _ (fun _ _ => rfl) (lowEq_add k j)]

/-- The identity times a vector. -/
theorem nodeF_none (s : St W) : ∀ (k : Nat) (r : Option Nat) (i : Nat), nodeF s k none r i = vp s.vt.mem k r i := by
  have key : ∀ k i j, i < 2 ^ k → j < 2 ^ k → mp s.mt.mem k none i j = if i = j then 1 else 0 := by
    intro k
    induction k with
    | zero => intro i j hi hj; simp at hi hj; subst hi hj; simp [mp]
    | succ k ih =>
      intro i j hi hj
      have e1 : mp s.mt.mem k none i j = mp s.mt.mem k none (i % 2 ^ k) (j % 2 ^ k) :=
        mp_congr _ _ _ (fun b hb => by simp [hb]) (fun b hb => by simp [hb])
      simp only [mp]
      rw [e1, ih _ _ (Nat.mod_lt _ (Nat.two_pow_pos k)) (Nat.mod_lt _ (Nat.two_pow_pos k))]
      have hdi : i / 2 ^ k < 2 := by rw [Nat.div_lt_iff_lt_mul (Nat.two_pow_pos k)]; rw [Nat.pow_succ] at hi; omega
      have hdj : j / 2 ^ k < 2 := by rw [Nat.div_lt_iff_lt_mul (Nat.two_pow_pos k)]; rw [Nat.pow_succ] at hj; omega
      have hti : i.testBit k = decide (i / 2 ^ k = 1) := by
        rw [Nat.testBit_eq_decide_div_mod_eq, Nat.mod_eq_of_lt hdi]
      have htj : j.testBit k = decide (j / 2 ^ k = 1) := by
        rw [Nat.testBit_eq_decide_div_mod_eq, Nat.mod_eq_of_lt hdj]
      have m1 := Nat.div_add_mod i (2 ^ k)
      have m2 := Nat.div_add_mod j (2 ^ k)
      by_cases hij : i = j
      · subst hij; simp
      · rw [if_neg hij]
        split
        · next hb =>
          rw [if_neg]
          intro hm
          apply hij
          rw [hti, htj] at hb
          have : i / 2 ^ k = j / 2 ^ k := by
            clear m1 m2
            generalize i / 2 ^ k = a at *
            generalize j / 2 ^ k = b at *
            by_cases h1 : a = 1 <;> by_cases h2 : b = 1 <;> simp [h1, h2] at hb ⊢ <;> omega
          rw [← m1, ← m2, this, hm]
        · rfl
  intro k r i
  have hr : vp s.vt.mem k r i = vp s.vt.mem k r (i % 2 ^ k) := vp_congr _ _ _ (fun b hb => by simp [hb])
  have hi : nodeF s k none r i = nodeF s k none r (i % 2 ^ k) := by
    unfold nodeF
    exact bsum_congr fun j _ => by rw [mp_congr _ _ _ (i' := i % 2 ^ k) (fun b hb => by simp [hb]) (fun _ _ => rfl)]
  rw [hr, hi]
  have hlt := Nat.mod_lt i (Nat.two_pow_pos k)
  generalize i % 2 ^ k = m at hlt
  unfold nodeF
  rw [bsum_eq, Finset.sum_eq_single m]
  · rw [key k m m hlt hlt]; simp
  · intro j hj hne
    rw [key k m j hlt (Finset.mem_range.1 hj), if_neg (Ne.symm hne), zero_mul]
  · intro h; exact absurd (Finset.mem_range.2 hlt) h

theorem prodF_le {s : St W} (hi : NInv env s) {k N} {l r : Edge W} (hk : k ≤ NQUBITS) (hl : Sup env s k l.n N)
    (hr : VLv env s k r) {L R : ℝ} (hL : ‖val l.w‖ ≤ L) (hR : ‖val r.w‖ ≤ R) (i : Nat) :
    ‖prodF s k l r i‖ ≤ L * R * (101 / 100 * N) := by
  rw [prodF_eq, norm_mul, norm_mul]
  have hL0 := (norm_nonneg _).trans hL
  have hR0 := (norm_nonneg _).trans hR
  exact mul_le_mul (mul_le_mul hL hR (norm_nonneg _) hL0) (nodeF_le hi hk hl (hr.imp id (·.2)) i) (norm_nonneg _) (by positivity)

/-- Two multiplications of weights. -/
theorem mul2_err {x l r : W} {N : ℝ} (hN : 1 ≤ N) (hx : ‖val x‖ ≤ 14 / 10 * N) (hl : ‖val l‖ ≤ 2) (hr : ‖val r‖ ≤ 2) :
    ‖val (WOps.mul (WOps.mul x l) r) - val x * val l * val r‖ ≤ 144 / 10 * N * ε := by
  have e0 := eps_nn (W := W)
  have e1 := eps_le (W := W)
  have h1 := mul_err x l
  have h2 := mul_err (WOps.mul x l) r
  have p1 : ‖val x‖ * ‖val l‖ ≤ 28 / 10 * N := by
    have := mul_le_mul hx hl (norm_nonneg _) (by linarith); linarith
  have q1 : ‖val (WOps.mul x l) - val x * val l‖ ≤ ε * (38 / 10 * N) :=
    h1.trans (mul_le_mul_of_nonneg_left (by linarith) e0)
  have eN : ε * N ≤ 1 / 10 ^ 8 * N := mul_le_mul_of_nonneg_right e1 (by linarith)
  have w1 : ‖val (WOps.mul x l)‖ ≤ 29 / 10 * N := by
    have h3 := norm_add_le (val (WOps.mul x l) - val x * val l) (val x * val l)
    rw [sub_add_cancel, norm_mul (val x)] at h3
    linarith
  have p2 : ‖val (WOps.mul x l)‖ * ‖val r‖ ≤ 58 / 10 * N := by
    have := mul_le_mul w1 hr (norm_nonneg _) (by linarith); linarith
  have q2 : ‖val (WOps.mul (WOps.mul x l) r) - val (WOps.mul x l) * val r‖ ≤ ε * (68 / 10 * N) :=
    h2.trans (mul_le_mul_of_nonneg_left (by linarith) e0)
  have tri : val (WOps.mul (WOps.mul x l) r) - val x * val l * val r =
      (val (WOps.mul (WOps.mul x l) r) - val (WOps.mul x l) * val r) + (val (WOps.mul x l) - val x * val l) * val r := by ring
  rw [tri]
  refine (norm_add_le _ _).trans ?_
  rw [norm_mul (val (WOps.mul x l) - val x * val l)]
  have q3 : ‖val (WOps.mul x l) - val x * val l‖ * ‖val r‖ ≤ ε * (38 / 10 * N) * 2 :=
    mul_le_mul q1 hr (norm_nonneg _) (by positivity)
  nlinarith

/-- From the cached or computed product of the nodes to the product of the edges. -/
theorem scale_num {s : St W} (hi : NInv env s) {k : Nat} (hk : k ≤ NQUBITS) {l r e : Edge W} {N : Nat}
    {G : Nat → ℂ} (hN : 1 ≤ N) (hG : ∀ i, ‖G i‖ ≤ 101 / 100 * N) (he : VApx env s k e G (N * D W k))
    {L R : ℝ} (hL : ‖val l.w‖ ≤ L) (hR : ‖val r.w‖ ≤ R) (hL2 : L ≤ 2) (hR2 : R ≤ 2) :
    ‖val e.w‖ ≤ 14 / 10 * N ∧
    (∀ i, ‖val l.w * val r.w * vd s k e i - val l.w * val r.w * G i‖ ≤ L * R * N * D W k) ∧
    VApx env s k ⟨WOps.mul (WOps.mul e.w l.w) r.w, e.n⟩ (fun i => val l.w * val r.w * G i)
      (L * R * N * D W k + 145 / 10 * N * ε) := by
  have e0 := eps_nn (W := W)
  have hN1 : (1 : ℝ) ≤ N := by exact_mod_cast hN
  have hD := D_le (W := W) hk
  have hD0 := D_nn (W := W) k
  have hL0 := (norm_nonneg _).trans hL
  have hR0 := (norm_nonneg _).trans hR
  have hw : ‖val e.w‖ ≤ 14 / 10 * N := by
    refine weight_le hi he.1 fun i => ?_
    have h1 := norm_add_le (vd s k e i - G i) (G i)
    rw [sub_add_cancel] at h1
    have h2 := he.2 i
    have h3 := hG i
    have h4 : (N : ℝ) * D W k ≤ N * (1 / 50) := mul_le_mul_of_nonneg_left hD (by linarith)
    linarith
  have hd : ∀ i, ‖val l.w * val r.w * vd s k e i - val l.w * val r.w * G i‖ ≤ L * R * N * D W k := by
    intro i
    rw [← mul_sub, norm_mul, norm_mul]
    have := mul_le_mul (mul_le_mul hL hR (norm_nonneg _) hL0) (he.2 i) (norm_nonneg _) (by positivity)
    linarith
  refine ⟨hw, hd, VLv.scaled he.1 _ _, fun i => ?_⟩
  have h1 := mul2_err hN1 hw (hL.trans hL2) (hR.trans hR2)
  have h2 := vp_le' hi hk (he.1.imp id (·.2)) i
  have tri : vd s k ⟨WOps.mul (WOps.mul e.w l.w) r.w, e.n⟩ i - val l.w * val r.w * G i =
      (val (WOps.mul (WOps.mul e.w l.w) r.w) - val e.w * val l.w * val r.w) * vp s.vt.mem k e.n i +
      (val l.w * val r.w * vd s k e i - val l.w * val r.w * G i) := by unfold vd; ring
  show ‖_ - val l.w * val r.w * G i‖ ≤ _
  rw [tri]
  refine (norm_add_le _ _).trans ?_
  rw [norm_mul (val (WOps.mul (WOps.mul e.w l.w) r.w) - val e.w * val l.w * val r.w)]
  have h3 := mul_le_mul h1 h2 (norm_nonneg _) (by positivity)
  have h4 := hd i
  have : 0 ≤ N * ε := by positivity
  linarith

/-- Replacing an edge by one with a nearby weight, or by the zero edge. -/
theorem VApx.near {s : St W} (hi : NInv env s) {k : Nat} (hk : k ≤ NQUBITS) {e x : Edge W} {G : Nat → ℂ} {δ : ℝ}
    (h : VApx env s k e G δ) (hx : VLv env s k x) (hn : x = zeroE ∧ ‖val e.w‖ ≤ ε ∨ x.n = e.n ∧ ‖val x.w - val e.w‖ ≤ ε) :
    VApx env s k x G (δ + 11 / 10 * ε) := by
  have e0 := eps_nn (W := W)
  refine ⟨hx, fun i => ?_⟩
  have key : ‖vd s k x i - vd s k e i‖ ≤ 11 / 10 * ε := by
    rcases hn with ⟨rfl, h1⟩ | ⟨h1, h2⟩
    · rw [vd_zeroE, zero_sub, norm_neg]
      have := vd_le hi hk h.1 i
      linarith
    · unfold vd
      rw [h1, ← sub_mul, norm_mul]
      have := mul_le_mul h2 (vp_le' hi hk (h.1.imp id (·.2)) i) (norm_nonneg _) e0
      linarith
  have := norm_add_le (vd s k x i - vd s k e i) (vd s k e i - G i)
  rw [sub_add_sub_cancel] at this
  have := h.2 i
  linarith

/-- Numerical bookkeeping of one level of `mv_multiply2`. -/
theorem mul_level {u D N n0 n1 b k : ℝ} (u0 : 0 ≤ u) (u1 : u ≤ 1 / 10 ^ 8) (D0 : 0 ≤ D) (D1 : D ≤ 1 / 50) (hN : 1 ≤ N)
    (h0 : 0 ≤ n0) (h1 : 0 ≤ n1) (hn : n0 + n1 ≤ N) (hb : b = 1 + 2 * u) (hk : 0 ≤ k) :
    (b * b * n0 * D + 16 * n0 * u) + (b * b * n1 * D + 16 * n1 * u) + 40 * u * (k + 1) * (1 + 11 / 10 * N) +
      4 * u * (1 + 12 / 10 * N) ≤ N * (D + 200 * u * (k + 1) + 100 * u) := by
  have s1 : b * b ≤ 1 + 5 * u := by rw [hb]; nlinarith
  have s2 : u * D ≤ 1 / 50 * u := by nlinarith
  have t1 : b * b * D ≤ D + 1 / 10 * u := by nlinarith
  have t2 : b * b * D * (n0 + n1) ≤ (D + 1 / 10 * u) * N := mul_le_mul t1 hn (by linarith) (by positivity)
  have t3 : u * (n0 + n1) ≤ u * N := mul_le_mul_of_nonneg_left hn u0
  have t4 : 0 ≤ u * k := by positivity
  have t5 : u * k ≤ u * k * N := le_mul_of_one_le_right t4 hN
  have t6 : u ≤ u * N := le_mul_of_one_le_right u0 hN
  nlinarith

theorem prod_wt {u D n b N : ℝ} (u0 : 0 ≤ u) (u1 : u ≤ 1 / 10 ^ 8) (D0 : 0 ≤ D) (D1 : D ≤ 1 / 50)
    (h0 : 0 ≤ n) (hn : n ≤ N) (hb : b = 1 + 2 * u) :
    b * b * (101 / 100 * n) + (b * b * n * D + 16 * n * u) ≤ 11 / 10 * N := by
  have s1 : b * b ≤ 1001 / 1000 := by rw [hb]; nlinarith
  have s0 : 0 ≤ b * b := mul_self_nonneg b
  have t1 : b * b * n ≤ 1001 / 1000 * N := mul_le_mul s1 hn h0 (by norm_num)
  have t2 : b * b * n * D ≤ 1001 / 1000 * N * (1 / 50) := mul_le_mul t1 D1 D0 (by linarith)
  have t3 : n * u ≤ N * (1 / 10 ^ 8) := mul_le_mul hn u1 u0 (by linarith)
  norm_num at t3 ⊢
  linarith

/-- Exits of `mv_multiply2` before the cache, with a zero result. -/
theorem mul_ex : ∀ {k : Nat} {s : St W} {l r : Edge W} {N : Nat} {L R : ℝ}, NInv env s → k ≤ NQUBITS → MOk env s k l N →
    VLv env s k r → ‖val l.w‖ ≤ L → ‖val r.w‖ ≤ R → L ≤ 2 → R ≤ 2 → (‖val l.w‖ ≤ ε ∨ ‖val r.w‖ ≤ ε ∨ (Z l.w ∧ l.n = none)) →
    ∀ s', VApx env s' k zeroE (prodF s k l r) (L * R * N * D W k + 16 * N * ε) := by
  have e0 := eps_nn (W := W)
  have e1 := eps_le (W := W)
  intro k s l r N L R hs hk hl hr mL mR hL2 hR2 hz s'
  have hL0 := (norm_nonneg _).trans mL
  have hR0 := (norm_nonneg _).trans mR
  have hD0 := D_nn (W := W) k
  refine ⟨zeroE_vlv s' _, fun i => ?_⟩
  rw [vd_zeroE, zero_sub, norm_neg]
  by_cases hl0 : Z l.w ∧ l.n = none
  · rw [prodF_eq, val_z hl0.1]
    simp only [zero_mul, norm_zero]
    positivity
  have hl' := hl.resolve_left hl0
  have key : ‖prodF s k l r i‖ ≤ 2 * ε * (101 / 100 * N) := by
    rcases hz with hz | hz | hz
    · have := prodF_le hs hk hl' hr hz (mR.trans hR2) i; linarith
    · have := prodF_le hs hk hl' hr (mL.trans hL2) hz i; linarith
    · exact absurd hz hl0
  have : 0 ≤ L * R * N * D W k := by positivity
  have : 0 ≤ ε * N := by positivity
  nlinarith

/-- The exit of `mv_multiply2` for a scaled identity. -/
theorem mul_exi : ∀ {k : Nat} {s : St W} {l r : Edge W} {N : Nat} {L R : ℝ}, NInv env s → k ≤ NQUBITS → MOk env s k l N →
    VLv env s k r → ‖val l.w‖ ≤ L → ‖val r.w‖ ≤ R → L ≤ 2 → R ≤ 2 → l.n = none → ¬ (Z l.w ∧ l.n = none) →
    ∀ s', Grow env s s' → VApx env s' k ⟨WOps.mul r.w l.w, r.n⟩ (prodF s k l r) (L * R * N * D W k + 16 * N * ε) := by
  have e0 := eps_nn (W := W)
  have e1 := eps_le (W := W)
  intro k s l r N L R hs hk hl hr mL mR hL2 hR2 hz hl0 s' he
  have hL0 := (norm_nonneg _).trans mL
  have hR0 := (norm_nonneg _).trans mR
  have hD0 := D_nn (W := W) k
  refine ⟨(hr.mulR _).ext he, fun i => ?_⟩
  have hl' := hl.resolve_left hl0
  have hN1 : (1 : ℝ) ≤ N := by exact_mod_cast hl'.one_le
  rw [vd_ext hs.base he (hr.mulR _), prodF_eq, hz, nodeF_none]
  unfold vd
  simp only
  rw [← sub_mul, norm_mul, mul_comm (val l.w)]
  have h1 := mul_err r.w l.w
  have h2 : ‖val r.w‖ * ‖val l.w‖ ≤ 2 * 2 := mul_le_mul (mR.trans hR2) (mL.trans hL2) (norm_nonneg _) (by norm_num)
  have h3 : ε * (1 + ‖val r.w‖ * ‖val l.w‖) ≤ ε * 5 := mul_le_mul_of_nonneg_left (by linarith) e0
  have h4 := mul_le_mul (h1.trans h3) (vp_le' hs hk (hr.imp id (·.2)) i) (norm_nonneg _) (by positivity)
  have : 0 ≤ L * R * N * D W k := by positivity
  have : ε ≤ ε * N := le_mul_of_one_le_right e0 hN1
  linarith

theorem mvMul2_num (fk : Nat → Bool) : ∀ {k : Nat} {s : St W} {l r : Edge W} {N : Nat} {L R : ℝ}, NInv env s →
    k ≤ NQUBITS → MOk env s k l N → VLv env s k r → ‖val l.w‖ ≤ L → ‖val r.w‖ ≤ R → L ≤ 2 → R ≤ 2 →
    Sat (nworld env) (mvMul2 env fk k l r) s (fun s' e =>
      VApx env s' k e (prodF s k l r) (L * R * N * D W k + 16 * N * ε)) := by
  have e0 := eps_nn (W := W)
  have e1 := eps_le (W := W)
  intro k
  induction k with
  | zero =>
    intro s l r N L R hs hk hl hr mL mR hL2 hR2
    unfold mvMul2
    split
    · next h0 =>
      refine Sat.pure fun s' _ he => mul_ex hs hk hl hr mL mR hL2 hR2 (.inl ?_) s'
      have := eeq_w h0
      simpa [zeroE, val_zero] using this
    next h0 =>
    have hl0 : ¬ (Z l.w ∧ l.n = none) := fun h => h0 (eeq_z h)
    have hln : l.n = none := hl.lv.term hs.base
    rw [hln]
    exact Sat.pure fun s' _ he => mul_exi hs hk hl hr mL mR hL2 hR2 hln hl0 s' he
  | succ k ih =>
    intro s l r N L R hs hk hl hr mL mR hL2 hR2
    have hL0 := (norm_nonneg _).trans mL
    have hR0 := (norm_nonneg _).trans mR
    unfold mvMul2
    split
    · next h0 =>
      refine Sat.pure fun s' _ he => mul_ex hs hk hl hr mL mR hL2 hR2 (.inl ?_) s'
      have := eeq_w h0
      simpa [zeroE, val_zero] using this
    next h0 =>
    have hl0 : ¬ (Z l.w ∧ l.n = none) := fun h => h0 (eeq_z h)
    cases hln : l.n with
    | none => exact Sat.pure fun s' _ he => mul_exi hs hk hl hr mL mR hL2 hR2 hln hl0 s' he
    | some lp =>
    simp only
    by_cases hz : (WOps.az l.w || WOps.az r.w) = true
    · rw [if_pos hz]
      simp only [Bool.or_eq_true] at hz
      exact Sat.pure fun s' _ he => mul_ex hs hk hl hr mL mR hL2 hR2 (hz.imp (fun h => az_small h) fun h => .inl (az_small h)) s'
    rw [if_neg hz]
    simp only [Bool.or_eq_true, not_or] at hz
    obtain ⟨hz, hz'⟩ := hz
    have hk' : k < NQUBITS := hk
    have hk0 : k ≤ NQUBITS := Nat.le_of_lt hk
    have hp := hr.ptr hz'
    have hsup := hl.resolve_left hl0
    have hN1 : (1 : ℝ) ≤ N := by exact_mod_cast hsup.one_le
    have hNe : ε ≤ N * ε := le_mul_of_one_le_left e0 hN1
    have hGe : ∀ i, val l.w * val r.w * nodeF s (k + 1) l.n r.n i = prodF s (k + 1) l r i := fun i => (prodF_eq _ _ _ _ _).symm
    have hGb : ∀ i, ‖nodeF s (k + 1) l.n r.n i‖ ≤ 101 / 100 * N := nodeF_le hs hk hsup (.inl hp)
    rw [← hln]
    refine Sat.bind (findPV_num hs (hln ▸ hsup) hp) fun s1 x hi1 he1 hx => ?_
    obtain ⟨res, c⟩ := x
    have hs1 := hsup.ext he1
    have hp1 := hp.ext he1
    cases res with
    | some e =>
      have hx := hx e rfl
      rw [← hln] at hx
      obtain ⟨q1, q2, q3⟩ := scale_num hi1 hk hsup.one_le hGb hx mL mR hL2 hR2
      simp only
      split
      · next h3 =>
        refine Sat.pure fun s' _ he => ⟨zeroE_vlv s' _, fun i => ?_⟩
        have h4 := q2 i
        have h5 := vd_le hi1 hk hx.1 i
        have h6 := az_small h3
        rw [vd_zeroE, zero_sub, norm_neg, ← hGe]
        have h7 := norm_sub_le (val l.w * val r.w * vd s1 (k + 1) e i)
          (val l.w * val r.w * vd s1 (k + 1) e i - val l.w * val r.w * nodeF s (k + 1) l.n r.n i)
        rw [sub_sub_cancel, norm_mul (val l.w * val r.w) (vd s1 (k + 1) e i), norm_mul (val l.w)] at h7
        have h8 : ‖val l.w‖ * ‖val r.w‖ ≤ 2 * 2 := mul_le_mul (mL.trans hL2) (mR.trans hR2) (norm_nonneg _) (by norm_num)
        have h9 : ‖val l.w‖ * ‖val r.w‖ * ‖vd s1 (k + 1) e i‖ ≤ 2 * 2 * (1001 / 1000 * ε) :=
          mul_le_mul h8 (h5.trans (by linarith)) (norm_nonneg _) (by norm_num)
        linarith
      split
      · next h3 =>
        refine Sat.pure fun s' _ he => ?_
        have := (q3.near hi1 hk (zeroE_vlv s1 _) (.inl ⟨rfl, az_small h3⟩)).ext hi1.base he
        exact (this.congr hGe).mono (by linarith)
      · exact Sat.pure fun s' _ he => ((q3.ext hi1.base he).congr hGe).mono (by linarith)
    | none =>
      simp only
      -- the least bound on the support
      obtain ⟨N0, hsup0, hleast⟩ : ∃ N0, Sup env s (k + 1) l.n N0 ∧ ∀ N', Sup env s (k + 1) l.n N' → N0 ≤ N' := by
        classical
        exact ⟨Nat.find ⟨N, hsup⟩, Nat.find_spec ⟨N, hsup⟩, fun N' h => Nat.find_min' _ h⟩
      have hN0 : (N0 : ℝ) ≤ N := by exact_mod_cast hleast N hsup
      have hN01 : (1 : ℝ) ≤ N0 := by exact_mod_cast hsup0.one_le
      clear hGb hNe hN1
      have hGb : ∀ i, ‖nodeF s (k + 1) l.n r.n i‖ ≤ 101 / 100 * N0 := nodeF_le hs hk hsup0 (.inl hp)
      replace hs1 := hsup0.ext he1
      obtain ⟨pr, nr, er, rr, orr, orv⟩ := vMulArg_num hi1 hp1
      refine Sat.bind (readM_num hs1.lv.reg) fun s2 nl hi2 he2 hnl => ?_
      rw [er]
      refine Sat.bind (readV_num (he2.1 _ _ rr)) fun s3 nd hi3 he3 hnd => ?_
      subst hnd
      have he13 : Grow env s1 s3 := he2.trans he3
      have or3 : ∀ b, VLv env s3 k (vMulArg k nd r b) := fun b => (orr b).1.ext he13
      obtain ⟨⟨n, on, onN⟩, ob, om⟩ := mMulArg_num hi3 (hs1.ext he13) (hnl.ext he3)
      have orv3 : ∀ j, vp s3.vt.mem (k + 1) r.n j = vd s3 k (vMulArg k nd r (j.testBit k)) j := by
        intro j
        rw [vp_ext hi1.base he13 (.inl hp1), vd_ext hi1.base he13 (orr _).1]
        exact orv j
      have hA0 := A_ge (W := W) k
      have hA1 := A_le (W := W) hk0
      have hD0 := D_nn (W := W) k
      have hD1 := D_le (W := W) hk0
      have b1 : bet W ≤ 1001 / 1000 := by simpa using pow_bet_le (W := W) (k := 1) (by norm_num)
      have blk : ∀ (a : Bool) (t : St W), NInv env t → Grow env s3 t →
          ∀ (K : Edge W → P W (Edge W)) (Q : St W → Edge W → Prop),
          (∀ t' e, NInv env t' → Grow env t t' → VApx env t' k e (fun i => prodF s3 k (mMulArg k nl l a false) (vMulArg k nd r false) i +
              prodF s3 k (mMulArg k nl l a true) (vMulArg k nd r true) i)
            ((bet W * bet W * n a false * D W k + 16 * n a false * ε) + (bet W * bet W * n a true * D W k + 16 * n a true * ε) +
              A W k * (1 + 11 / 10 * N0)) → Sat (nworld env) (K e) t' Q) →
          Sat (nworld env) (fork (fk k) (mvMul2 env fk k (mMulArg k nl l a false) (vMulArg k nd r false))
              (mvMul2 env fk k (mMulArg k nl l a true) (vMulArg k nd r true)) >>= fun x =>
            vvAdd2 env fk k x.1 x.2 >>= K) t Q := by
        intro a t hit het K Q hK
        have sub : ∀ c', Sat (nworld env) (mvMul2 env fk k (mMulArg k nl l a c') (vMulArg k nd r c')) t (fun s' e =>
            VApx env s' k e (prodF s3 k (mMulArg k nl l a c') (vMulArg k nd r c'))
              (bet W * bet W * n a c' * D W k + 16 * n a c' * ε)) := fun c' =>
          (ih hit hk0 ((on a c').ext het) ((or3 c').ext het) (ob a c') (orr c').2 (by linarith) (by linarith)).mono
            fun s' e _ _ h => h.congr fun i => prodF_ext hi3.base het (on a c').lv.reg (or3 c') i
        refine Sat.bind (Sat.fork (c := fk k) (Qp := fun s' e => VApx env s' k e _ _) (Qq := fun s' e => VApx env s' k e _ _)
          (fun a b e hi _ he h => VApx.ext hi.base he h) (fun a b e hi _ he h => VApx.ext hi.base he h)
          (sub false) (sub true)) fun t1 x hi1 he1 hx => ?_
        obtain ⟨p, q⟩ := x
        obtain ⟨x0, x1⟩ := hx
        simp only at x0 x1
        have wt : ∀ (c' : Bool) (x : Edge W), VApx env t1 k x (prodF s3 k (mMulArg k nl l a c') (vMulArg k nd r c'))
            (bet W * bet W * n a c' * D W k + 16 * n a c' * ε) → ‖val x.w‖ ≤ 11 / 10 * N0 := by
          intro c' x hx
          refine weight_le hi1 hx.1 fun i => ?_
          have y1 := hx.2 i
          have y2 := norm_add_le (vd t1 k x i - prodF s3 k (mMulArg k nl l a c') (vMulArg k nd r c') i)
            (prodF s3 k (mMulArg k nl l a c') (vMulArg k nd r c') i)
          rw [sub_add_cancel] at y2
          have hnn : (0 : ℝ) ≤ n a c' := Nat.cast_nonneg _
          have hnN : (n a c' : ℝ) ≤ N0 := by
            have h1 := onN a
            have : n a c' ≤ N0 := by cases c' <;> omega
            exact_mod_cast this
          have y3 : ‖prodF s3 k (mMulArg k nl l a c') (vMulArg k nd r c') i‖ ≤ bet W * bet W * (101 / 100 * n a c') := by
            rcases on a c' with h | h
            · rw [prodF_eq, val_z h.1]
              have hb := bet_pos (W := W)
              simp only [zero_mul, norm_zero]; positivity
            · exact prodF_le hi3 hk0 h (or3 c') (ob a c') (orr c').2 i
          have := prod_wt e0 e1 hD0 hD1 hnn hnN (rfl : bet W = 1 + 2 * ε)
          linarith
        refine Sat.bind (vvAdd2_num fk hi1 hk0 x0.1 x1.1 (wt false p x0) (wt true q x1)) fun t2 e hi2 he2 he => ?_
        refine hK t2 e hi2 (Grow.trans he1 he2) ⟨he.1, fun i => ?_⟩
        have y1 := he.2 i
        have y2 := x0.2 i
        have y3 := x1.2 i
        have tri : vd t2 k e i - (prodF s3 k (mMulArg k nl l a false) (vMulArg k nd r false) i +
              prodF s3 k (mMulArg k nl l a true) (vMulArg k nd r true) i) =
            (vd t2 k e i - (vd t1 k p i + vd t1 k q i)) +
            ((vd t1 k p i - prodF s3 k (mMulArg k nl l a false) (vMulArg k nd r false) i) +
              (vd t1 k q i - prodF s3 k (mMulArg k nl l a true) (vMulArg k nd r true) i)) := by ring
        rw [tri]
        have z1 := norm_add_le (vd t1 k p i - prodF s3 k (mMulArg k nl l a false) (vMulArg k nd r false) i)
          (vd t1 k q i - prodF s3 k (mMulArg k nl l a true) (vMulArg k nd r true) i)
        refine (norm_add_le _ _).trans ?_
        linarith
      refine blk false s3 hi3 (Grow.refl env s3) _ _ fun s4 e0' hi4 he4 h0 => ?_
      refine blk true s4 hi4 he4 _ _ fun s5 e1' hi5 he5 h1 => ?_
      have bnd : ∀ a, (bet W * bet W * n a false * D W k + 16 * n a false * ε) + (bet W * bet W * n a true * D W k + 16 * n a true * ε) +
              A W k * (1 + 11 / 10 * N0) + 4 * ε * (1 + 12 / 10 * N0) ≤ N0 * D W (k + 1) := by
        intro a
        have h := mul_level (k := (k : ℝ)) (n0 := n a false) (n1 := n a true) e0 e1 hD0 hD1 hN01 (Nat.cast_nonneg _)
          (Nat.cast_nonneg _) (by exact_mod_cast onN a) (rfl : bet W = 1 + 2 * ε) (Nat.cast_nonneg _)
        rw [D_succ]
        unfold A
        exact h
      have pos4 : 0 ≤ 4 * ε * (1 + 12 / 10 * (N0 : ℝ)) := by positivity
      have hDk1 := D_le (W := W) hk
      have wt : ∀ (a : Bool) (t : St W) (x : Edge W), NInv env t → VApx env t k x (fun i => prodF s3 k (mMulArg k nl l a false) (vMulArg k nd r false) i +
              prodF s3 k (mMulArg k nl l a true) (vMulArg k nd r true) i)
            ((bet W * bet W * n a false * D W k + 16 * n a false * ε) + (bet W * bet W * n a true * D W k + 16 * n a true * ε) +
              A W k * (1 + 11 / 10 * N0)) → ‖val x.w‖ ≤ 12 / 10 * N0 := by
        intro a t x hit hx
        refine weight_le hit hx.1 fun i => ?_
        have y1 := hx.2 i
        have y2 := norm_add_le (vd t k x i - (prodF s3 k (mMulArg k nl l a false) (vMulArg k nd r false) i +
              prodF s3 k (mMulArg k nl l a true) (vMulArg k nd r true) i)) (prodF s3 k (mMulArg k nl l a false) (vMulArg k nd r false) i +
              prodF s3 k (mMulArg k nl l a true) (vMulArg k nd r true) i)
        rw [sub_add_cancel] at y2
        have y3 := norm_add_le (prodF s3 k (mMulArg k nl l a false) (vMulArg k nd r false) i)
          (prodF s3 k (mMulArg k nl l a true) (vMulArg k nd r true) i)
        have y4 : ∀ c', ‖prodF s3 k (mMulArg k nl l a c') (vMulArg k nd r c') i‖ ≤ bet W * bet W * (101 / 100 * n a c') := by
          intro c'
          rcases on a c' with h | h
          · rw [prodF_eq, val_z h.1]
            have hb := bet_pos (W := W)
            simp only [zero_mul, norm_zero]; positivity
          · exact prodF_le hi3 hk0 h (or3 c') (ob a c') (orr c').2 i
        have y5 := bnd a
        have y6 : (N0 : ℝ) * D W (k + 1) ≤ N0 * (1 / 50) := mul_le_mul_of_nonneg_left hDk1 (by linarith)
        have y7 : bet W * bet W ≤ 1003 / 1000 := by
          have := mul_le_mul b1 b1 bet_pos.le (by norm_num); linarith
        have y8 : ((n a false : ℝ) + n a true) ≤ N0 := by exact_mod_cast onN a
        have y9 : bet W * bet W * ((n a false : ℝ) + n a true) ≤ 1003 / 1000 * N0 :=
          mul_le_mul y7 y8 (by positivity) (by norm_num)
        have y4f := y4 false
        have y4t := y4 true
        linarith
      refine Sat.bind (mkV_num hi5 hk' (h0.1.ext he5) h1.1 (wt false s4 _ hi4 h0) (wt true s5 _ hi5 h1)) fun s6 res hi6 he6 hres => ?_
      have he36 := Grow.trans he4 (Grow.trans he5 he6)
      have he16 := Grow.trans he13 he36
      have hfin : VApx env s6 (k + 1) res (fun i => nodeF s (k + 1) l.n r.n i) (N0 * D W (k + 1)) := by
        refine ⟨hres.1, fun i => ?_⟩
        have y1 := hres.2 i
        have y2 : nodeF s (k + 1) l.n r.n i = prodF s3 k (mMulArg k nl l (i.testBit k) false) (vMulArg k nd r false) i +
            prodF s3 k (mMulArg k nl l (i.testBit k) true) (vMulArg k nd r true) i := by
          rw [← nodeF_split (s := s3) (l := l.n) (r := r.n) (a := mMulArg k nl l) (b := vMulArg k nd r) om orv3,
            nodeF_ext hs.base (he1.trans he13) hsup0.lv.reg (.inl hp)]
        have y3 := bnd (i.testBit k)
        have y4 : ‖vd s5 k (if i.testBit k then e1' else e0') i - (prodF s3 k (mMulArg k nl l (i.testBit k) false) (vMulArg k nd r false) i +
            prodF s3 k (mMulArg k nl l (i.testBit k) true) (vMulArg k nd r true) i)‖ ≤
            (bet W * bet W * n (i.testBit k) false * D W k + 16 * n (i.testBit k) false * ε) + (bet W * bet W * n (i.testBit k) true * D W k + 16 * n (i.testBit k) true * ε) +
              A W k * (1 + 11 / 10 * N0) := by
          cases hb : i.testBit k
          · have := (h0.ext hi4.base he5).2 i
            simpa using this
          · have := h1.2 i
            simpa using this
        show ‖vd s6 (k + 1) res i - nodeF s (k + 1) l.n r.n i‖ ≤ _
        rw [y2]
        have y5 := norm_add_le (vd s6 (k + 1) res i - vd s5 k (if i.testBit k then e1' else e0') i)
          (vd s5 k (if i.testBit k then e1' else e0') i - (prodF s3 k (mMulArg k nl l (i.testBit k) false) (vMulArg k nd r false) i +
            prodF s3 k (mMulArg k nl l (i.testBit k) true) (vMulArg k nd r true) i))
        rw [sub_add_sub_cancel] at y5
        linarith
      rw [← er]
      refine Sat.bind (setPV_num hi6 c (hln ▸ hs1.lv.ext he16) (hp1.ext he16) fun N' hN' => ?_) fun s7 _ hi7 he7 _ => ?_
      · have hback := hN'.back hs.base (he1.trans he16) (hln ▸ hsup0.lv.reg)
        have : (N0 : ℝ) ≤ N' := by exact_mod_cast hleast N' (hln ▸ hback)
        refine (hfin.congr fun i => ?_).mono (mul_le_mul_of_nonneg_right this (D_nn _))
        rw [← hln]
        exact (nodeF_ext hs.base (he1.trans he16) hsup0.lv.reg (.inl hp) i).symm
      obtain ⟨q1, q2, q3⟩ := scale_num hi6 hk hsup0.one_le hGb hfin mL mR hL2 hR2
      have hDk := D_nn (W := W) (k + 1)
      have hmon : L * R * N0 * D W (k + 1) + 145 / 10 * N0 * ε + 11 / 10 * ε ≤ L * R * N * D W (k + 1) + 16 * N * ε := by
        have z1 : L * R * D W (k + 1) * N0 ≤ L * R * D W (k + 1) * N := mul_le_mul_of_nonneg_left hN0 (by positivity)
        have z2 : ε * N0 ≤ ε * N := mul_le_mul_of_nonneg_left hN0 e0
        have z3 : ε ≤ ε * N0 := le_mul_of_one_le_right e0 hN01
        nlinarith
      split
      · next h3 =>
        refine Sat.pure fun s' _ he => ?_
        have := (q3.near hi6 hk (zeroE_vlv s6 _) (.inl ⟨rfl, az_small h3⟩)).ext hi6.base (he7.trans he)
        exact (this.congr hGe).mono hmon
      next hw =>
      split
      · next h3 =>
        refine Sat.pure fun s' _ he => ?_
        have hx : VLv env s6 (k + 1) ⟨WOps.one, res.n⟩ := hres.1.snap1 hw (fun h => z_mul_left _ (z_mul_left _ h)) _
        have := (q3.near hi6 hk hx (.inr ⟨rfl, by simp only [val_one]; rw [norm_sub_rev]; exact aone_close h3⟩)).ext hi6.base (he7.trans he)
        exact (this.congr hGe).mono hmon
      · exact Sat.pure fun s' _ he => ((q3.ext hi6.base (he7.trans he)).congr hGe).mono (by linarith)

/-! ## `mv_multiply` -/

theorem readV_root_num {s : St W} {k : Nat} {e : Edge W} (h : VLv env s k e) :
    Sat (nworld env) (readV e.n) s (fun s' nd => (e.n = none ∧ nd.v = -1) ∨ (VPtr env s k e.n ∧ nd.v + 1 = (k : Int))) := by
  have none : e.n = none → Sat (nworld env) (readV e.n) s
      (fun s' nd => (e.n = none ∧ nd.v = -1) ∨ (VPtr env s k e.n ∧ nd.v + 1 = (k : Int))) := fun hn => by
    rw [hn]; exact readV_none_num.mono fun s' nd _ _ h => .inl ⟨rfl, h⟩
  rcases h with (⟨_, h⟩ | ⟨p, nd, h1, h2, h3⟩) | h
  · exact none h
  · rw [h1]
    exact (readV_num h2).mono fun s' nd' _ _ e => by subst e; exact .inr ⟨.inr ⟨p, nd', rfl, h2, h3⟩, h3⟩
  · exact none h.2

/-- Accuracy of `mv_multiply`: every amplitude of the result is close to that of the product. -/
theorem mvMul_num (mt : Bool) {k : Nat} {s : St W} {l r : Edge W} {N : Nat} {L R : ℝ} (hs : NInv env s)
    (hk : k ≤ NQUBITS) (hl : MOk env s k l N) (hr : VLv env s k r) (mL : ‖val l.w‖ ≤ L) (mR : ‖val r.w‖ ≤ R)
    (hL2 : L ≤ 2) (hR2 : R ≤ 2) (hN : 1 ≤ N) :
    Sat (nworld env) (mvMul env mt l r) s (fun s' e =>
      VApx env s' k e (prodF s k l r) (L * R * N * D W k + 16 * N * ε)) := by
  unfold mvMul
  have hlz : ∀ {s1}, Grow env s s1 → (∀ i, prodF s1 k l r i = prodF s k l r i) := fun he i =>
    prodF_ext hs.base he hl.lv.reg hr i
  by_cases hn : l.n = none ∧ r.n = none
  · rw [if_pos hn]
    refine Sat.pure fun s' _ he => ?_
    have hL0 := (norm_nonneg _).trans mL
    have hR0 := (norm_nonneg _).trans mR
    have hD0 := D_nn (W := W) k
    have e0 := eps_nn (W := W)
    have hN1 : (1 : ℝ) ≤ N := by exact_mod_cast hN
    have hlv : VLv env s k ⟨WOps.mul l.w r.w, none⟩ := by
      have := hr.mulL l.w
      rwa [hn.2] at this
    refine ⟨hlv.ext he, fun i => ?_⟩
    rw [vd_ext hs.base he hlv, prodF_eq, hn.1, nodeF_none, hn.2]
    unfold vd
    simp only
    rw [← sub_mul, norm_mul]
    have h1 := mul_err l.w r.w
    have h2 : ‖val l.w‖ * ‖val r.w‖ ≤ 2 * 2 := mul_le_mul (mL.trans hL2) (mR.trans hR2) (norm_nonneg _) (by norm_num)
    have h3 : ε * (1 + ‖val l.w‖ * ‖val r.w‖) ≤ ε * 5 := mul_le_mul_of_nonneg_left (by linarith) e0
    have h4 := mul_le_mul (h1.trans h3) (vp_le' hs hk (n := none) (.inr rfl) i) (norm_nonneg _) (by positivity)
    have : 0 ≤ L * R * N * D W k := by positivity
    have : ε ≤ ε * N := le_mul_of_one_le_right e0 hN1
    linarith
  rw [if_neg hn]
  refine Sat.bind (readV_root_num hr) fun s1 nd hi1 he1 hnd => ?_
  generalize (fun k : Nat => mt && decide ((k : Int) > nd.v - 6)) = fk
  have hl1 := hl.ext he1
  have hr1 := hr.ext he1
  by_cases hrw : WOps.az r.w = true
  · generalize (nd.v + 1).toNat = lv
    have hfin : mvMul2 env fk lv l r = pure zeroE ∨
        (¬ (Z l.w ∧ l.n = none) ∧ l.n = none ∧ mvMul2 env fk lv l r = pure ⟨WOps.mul r.w l.w, r.n⟩) := by
      cases hl0 : eeq l zeroE
      · cases hln : l.n with
        | none =>
          right
          refine ⟨fun h => ?_, rfl, ?_⟩
          · rw [eeq_z ⟨h.1, hln⟩] at hl0; cases hl0
          · unfold mvMul2; simp [hl0, hln]
        | some p => left; unfold mvMul2; simp [hl0, hln, hrw]
      · left; unfold mvMul2; simp [hl0]
    rcases hfin with h | ⟨h0, h, h'⟩
    · rw [h]; exact Sat.pure fun s' _ _ => mul_ex hs hk hl hr mL mR hL2 hR2 (.inr (.inl (az_small hrw))) s'
    · rw [h']
      exact Sat.pure fun s' _ he => mul_exi hs hk hl hr mL mR hL2 hR2 h h0 s' (he1.trans he)
  · rw [root_level hr hrw hnd]
    exact (mvMul2_num fk hi1 hk hl1 hr1 mL mR hL2 hR2).mono fun s' e _ _ h => h.congr (hlz he1)

end Num
end QDD
