import Verif.Num.Gc
/-!
# Numerical accuracy: initial states and read-out
-/

set_option linter.unusedSectionVars false
set_option linter.unusedVariables false
set_option linter.unusedSimpArgs false

namespace QDD.Num
open RoundW NumW Prog Safe
variable {W : Type} [WOps W] [RoundW W] [NumW W] {env : Env W}

local notation "ε" => NumW.eps W

/-! ## Initial states (dd.cpp 284-322) -/

/-- The basis state with the low `k` bits all equal to `one`. -/
noncomputable def basisF (one : Bool) (k : Nat) (x : Nat) : ℂ := if ∀ b < k, x.testBit b = one then 1 else 0

theorem basisF_le (one : Bool) (k x : Nat) : ‖basisF one k x‖ ≤ 1 := by
  unfold basisF; split <;> simp

theorem basisF_succ (one : Bool) (k x : Nat) : basisF one (k + 1) x = if x.testBit k = one then basisF one k x else 0 := by
  unfold basisF
  by_cases h : x.testBit k = one
  · rw [if_pos h]
    refine if_congr ⟨fun g b hb => g b (by omega), fun g b hb => ?_⟩ rfl rfl
    by_cases e : b = k
    · subst e; exact h
    · exact g b (by omega)
  · rw [if_neg h, if_neg fun g => h (g k (by omega))]

theorem basis_mk {s : St W} (hs : NInv env s) {k : Nat} (hk : k < NQUBITS) (one : Bool) {e : Edge W}
    (h : VApx env s k e (basisF one k) (9 * k * ε)) :
    Sat (nworld env) (mkV env k (if one then zeroE else e) (if one then e else zeroE)) s
      (fun s' e => VApx env s' (k + 1) e (basisF one (k + 1)) (9 * (k + 1 : Nat) * ε)) := by
  have e0 := eps_nn (W := W)
  have kk := keps_le (W := W) hk.le
  have hw : ‖val e.w‖ ≤ 1001 / 1000 := by
    refine weight_le hs h.1 fun i => ?_
    have h1 := h.2 i
    have h2 := basisF_le one k i
    have h3 : ‖vd s k e i‖ ≤ ‖vd s k e i - basisF one k i‖ + ‖basisF one k i‖ := by
      simpa using norm_add_le (vd s k e i - basisF one k i) (basisF one k i)
    nlinarith
  have hz : ‖val (zeroE : Edge W).w‖ ≤ 1001 / 1000 := by rw [zeroE, val_zero, norm_zero]; norm_num
  have st := mkV_num (env := env) hs hk (c0 := if one then zeroE else e) (c1 := if one then e else zeroE) (M := 1001 / 1000)
    (by cases one <;> simp [h.1, zeroE_vlv]) (by cases one <;> simp [h.1, zeroE_vlv])
    (by cases one <;> simp [hw, hz]) (by cases one <;> simp [hw, hz])
  refine Sat.mono st fun s1 x hi1 he1 hx => ⟨hx.1, fun i => ?_⟩
  have h1 := hx.2 i
  have h2 : ‖vd s k (if i.testBit k = true then (if one then e else zeroE) else (if one then zeroE else e)) i -
      basisF one (k + 1) i‖ ≤ 9 * k * ε := by
    rw [basisF_succ]
    have hz0 : ‖(0 : ℂ) - 0‖ ≤ 9 * k * ε := by rw [sub_zero, norm_zero]; positivity
    cases one <;> cases i.testBit k <;> simp [h.2 i, hz0] <;> positivity
  have h3 := norm_sub_le_norm_sub_add_norm_sub (vd s1 (k + 1) x i)
    (vd s k (if i.testBit k = true then (if one then e else zeroE) else (if one then zeroE else e)) i) (basisF one (k + 1) i)
  refine h3.trans ((add_le_add h1 h2).trans ?_)
  push_cast
  nlinarith

theorem basisLoop_num (one : Bool) : ∀ (n i : Nat) {s : St W} {e : Edge W}, NInv env s → i + n ≤ NQUBITS →
    VApx env s i e (basisF one i) (9 * i * ε) →
    Sat (nworld env) (basisLoop env one n i e) s (fun s' e => VApx env s' (i + n) e (basisF one (i + n)) (9 * (i + n : Nat) * ε)) := by
  intro n
  induction n with
  | zero =>
    intro i s e hs _ h
    exact Sat.pure fun s' _ he => h.ext hs.base he
  | succ n ih =>
    intro i s e hs hn h
    unfold basisLoop
    refine Sat.bind (basis_mk hs (by omega) one h) fun s1 e1 hi1 he1 h1 => ?_
    have := ih (i + 1) hi1 (by omega) h1
    rwa [show i + 1 + n = i + (n + 1) by omega] at this

theorem basis_start (s : St W) (one : Bool) : VApx env s 0 oneE (basisF one 0) (9 * (0 : Nat) * ε) :=
  ⟨oneE_vlv s, fun i => by simp [vd, oneE, val_one, vp, basisF]⟩

theorem makeZeroState_num {s : St W} (hs : NInv env s) {q : Nat} (h0 : 0 < q) (hq : q ≤ NQUBITS) :
    Sat (nworld env) (makeZeroState env q) s (fun s' e => VApx env s' q e (basisF false q) (9 * q * ε)) := by
  unfold makeZeroState
  refine Sat.bind (basis_mk hs (by decide) false (basis_start s false)) fun s1 e hi1 he1 h1 => ?_
  have := basisLoop_num false (q - 1) 1 hi1 (by omega) h1
  rwa [show 1 + (q - 1) = q by omega] at this

theorem makeOneState_num {s : St W} (hs : NInv env s) {q : Nat} (h0 : 0 < q) (hq : q ≤ NQUBITS) :
    Sat (nworld env) (makeOneState env q) s (fun s' e => VApx env s' q e (basisF true q) (9 * q * ε)) := by
  unfold makeOneState
  refine Sat.bind (basis_mk hs (by decide) true (basis_start s true)) fun s1 e hi1 he1 h1 => ?_
  have := basisLoop_num true (q - 1) 1 hi1 (by omega) h1
  rwa [show 1 + (q - 1) = q by omega] at this

/-! ## Read-out (dd.cpp 1322-1353) -/

theorem putAll_num (row n l : Nat) (w : W) (hn : n ≤ 2 ^ l) (a : Arr W) (ha : row * 2 ^ l + 2 ^ l ≤ a.dim) :
    ∃ a', a.putAll (row <<< l) w n = .ok a' ∧ a'.dim = a.dim ∧
      (∀ x < n, a'.cell (row * 2 ^ l + x) = some w) ∧
      ∀ i, (i < row * 2 ^ l ∨ row * 2 ^ l + n ≤ i) → a'.cell i = a.cell i := by
  induction n with
  | zero => exact ⟨a, rfl, rfl, fun x h => by omega, fun i _ => rfl⟩
  | succ n ih =>
    obtain ⟨a1, h1, h2, h3, h4⟩ := ih (by omega)
    have hor : row <<< l ||| n = row * 2 ^ l + n := by
      rw [← Nat.shiftLeft_add_eq_or_of_lt (by omega), Nat.shiftLeft_eq]
    refine ⟨⟨a1.dim, upd a1.cell (row * 2 ^ l + n) (some w)⟩, ?_, h2, ?_, ?_⟩
    · simp only [Arr.putAll, h1, hor, Arr.put]
      rw [if_pos (by omega)]
    · intro x hx
      unfold upd
      by_cases h : x = n
      · subst h; simp
      · dsimp only; rw [if_neg (by omega)]; exact h3 x (by omega)
    · intro i hi
      unfold upd
      dsimp only
      rw [if_neg (by omega)]
      exact h4 i (by omega)

theorem fillV_num {s : St W} (hi : NInv env s) : ∀ {l : Nat} {e : Edge W}, l ≤ NQUBITS → VLv env s l e → ∀ row (w : W) (a : Arr W),
    ‖val e.w‖ * ‖val w‖ + 11 * l * ε ≤ 3 → row * 2 ^ l + 2 ^ l ≤ a.dim →
    ∃ a', fillV s.vt.mem l e row w a = .ok a' ∧ a'.dim = a.dim ∧
      (∀ x < 2 ^ l, ∃ c, a'.cell (row * 2 ^ l + x) = some c ∧ ‖val c - val w * vd s l e x‖ ≤ 5 * (l + 1 : Nat) * ε) ∧
      ∀ i, (i < row * 2 ^ l ∨ row * 2 ^ l + 2 ^ l ≤ i) → a'.cell i = a.cell i := by
  have e0 := eps_nn (W := W)
  have e1 := eps_le (W := W)
  intro l
  induction l with
  | zero =>
    intro e _ h row w a hw ha
    have hn : e.n = none := h.term hi.base
    simp only [Nat.pow_zero, Nat.mul_one] at ha ⊢
    refine ⟨⟨a.dim, upd a.cell row (some (WOps.mul e.w w))⟩, ?_, rfl, ?_, ?_⟩
    · simp only [fillV, hn, Arr.put]
      rw [if_pos (by omega)]
    · intro x hx
      have : x = 0 := by omega
      subst this
      refine ⟨WOps.mul e.w w, by simp [upd], ?_⟩
      have h1 := mul_err e.w w
      have h2 : val w * vd s 0 e 0 = val e.w * val w := by simp [vd, vp, mul_comm]
      rw [h2]
      refine h1.trans ?_
      push_cast at hw ⊢
      nlinarith
    · intro i hi
      simp only [upd]
      rw [if_neg (by omega)]
  | succ l ih =>
    intro e hl h row w a hw ha
    have hp : 2 ^ (l + 1) = 2 ^ l + 2 ^ l := by rw [Nat.pow_succ]; omega
    have hpos : 0 < 2 ^ l := Nat.two_pow_pos l
    have hlq : l ≤ NQUBITS := by omega
    rcases h with (⟨h, _⟩ | ⟨p, nd, hn, h2, h3⟩) | ⟨hz, hn⟩
    · cases h
    · have hv : nd.v = (l : Int) := by push_cast at h3; omega
      have r0 : (row <<< 1 ||| 0) * 2 ^ l = row * 2 ^ (l + 1) := by
        rw [Nat.or_zero, Nat.shiftLeft_eq, Nat.pow_one, Nat.mul_assoc, ← Nat.pow_succ']
      have r1 : (row <<< 1 ||| 1) * 2 ^ l = row * 2 ^ (l + 1) + 2 ^ l := by
        rw [← Nat.shiftLeft_add_eq_or_of_lt (by decide), Nat.shiftLeft_eq, Nat.pow_one, Nat.add_mul,
          Nat.mul_assoc, ← Nat.pow_succ', Nat.one_mul]
      have hm := mul_err e.w w
      have hP0 : 0 ≤ ‖val e.w‖ * ‖val w‖ := by positivity
      have hP : ‖val e.w‖ * ‖val w‖ ≤ 3 := by
        have : 0 ≤ 11 * ((l + 1 : Nat) : ℝ) * ε := by positivity
        linarith
      have hm' : ‖val (WOps.mul e.w w)‖ ≤ ‖val e.w‖ * ‖val w‖ + 4 * ε := by
        have h4 : ‖val (WOps.mul e.w w)‖ ≤ ‖val (WOps.mul e.w w) - val e.w * val w‖ + ‖val e.w * val w‖ := by
          simpa using norm_add_le (val (WOps.mul e.w w) - val e.w * val w) (val e.w * val w)
        rw [norm_mul] at h4
        nlinarith
      have hch : ∀ b, ‖val (nd.child b).w‖ * ‖val (WOps.mul e.w w)‖ + 11 * l * ε ≤ 3 := by
        intro b
        have h5 := (hi.vw _ _ h2 b).1
        have h6 : ‖val (nd.child b).w‖ * ‖val (WOps.mul e.w w)‖ ≤ (1 + 2 * ε) * (‖val e.w‖ * ‖val w‖ + 4 * ε) :=
          mul_le_mul h5 hm' (norm_nonneg _) (by positivity)
        push_cast at hw
        nlinarith
      obtain ⟨a1, f1, d1, c1, o1⟩ := ih (e := nd.c0) hlq (hi.base.vchild h2 false hv) (row <<< 1 ||| 0) (WOps.mul e.w w) a
        (hch false) (by rw [r0]; omega)
      obtain ⟨a2, f2, d2, c2, o2⟩ := ih (e := nd.c1) hlq (hi.base.vchild h2 true hv) (row <<< 1 ||| 1) (WOps.mul e.w w) a1
        (hch true) (by rw [r1, d1]; omega)
      rw [r0] at c1 o1
      rw [r1] at c2 o2
      have key : ∀ b y (c : W), y < 2 ^ l → ‖val c - val (WOps.mul e.w w) * vd s l (nd.child b) y‖ ≤ 5 * (l + 1 : Nat) * ε →
          ‖val c - val w * vd s (l + 1) e (bidx l b y)‖ ≤ 5 * (l + 1 + 1 : Nat) * ε := by
        intro b y c hy hc
        have e2 : vd s (l + 1) e (bidx l b y) = val e.w * vd s l (nd.child b) y := by
          have hb : (bidx l b y).testBit l = b := by
            cases b <;> simp [bidx, testBit_lt hy, testBit_add hy]
          have hlow : LowEq l (bidx l b y) y := by
            cases b
            · intro c _; simp [bidx]
            · simpa [bidx] using lowEq_add l y
          simp only [vd, hn, vp, h2.1, hb]
          rw [vp_congr _ _ _ hlow]
        rw [e2]
        have h6 : ‖vd s l (nd.child b) y‖ ≤ 11 / 10 := by
          have h7 := vd_le hi hlq (hi.base.vchild h2 b hv) y
          have h8 := (hi.vw _ _ h2 b).1
          have : bet W ≤ 101 / 100 := by unfold bet; linarith
          nlinarith
        have h9 : val c - val w * (val e.w * vd s l (nd.child b) y) = (val c - val (WOps.mul e.w w) * vd s l (nd.child b) y) +
            (val (WOps.mul e.w w) - val e.w * val w) * vd s l (nd.child b) y := by ring
        rw [h9]
        refine (norm_add_le _ _).trans ?_
        rw [norm_mul]
        have h10 : ‖val (WOps.mul e.w w) - val e.w * val w‖ * ‖vd s l (nd.child b) y‖ ≤ 4 * ε * (11 / 10) :=
          mul_le_mul (hm.trans (by nlinarith)) h6 (norm_nonneg _) (by positivity)
        push_cast at hc ⊢
        nlinarith
      refine ⟨a2, ?_, d2.trans d1, ?_, ?_⟩
      · simp only [fillV, hn, h2.1, f1, f2]
      · intro x hx
        by_cases hlt : x < 2 ^ l
        · obtain ⟨c, hc1, hc2⟩ := c1 x hlt
          refine ⟨c, by rw [o2 _ (by omega), hc1], ?_⟩
          have := key false x c hlt hc2
          simpa only [bidx, Bool.false_eq_true, if_false] using this
        · have hy : x - 2 ^ l < 2 ^ l := by omega
          have e1 : row * 2 ^ (l + 1) + x = row * 2 ^ (l + 1) + 2 ^ l + (x - 2 ^ l) := by omega
          have e2 : x = bidx l true (x - 2 ^ l) := by simp only [bidx, if_true]; omega
          obtain ⟨c, hc1, hc2⟩ := c2 _ hy
          refine ⟨c, by rw [e1, hc1], ?_⟩
          have := key true _ c hy hc2
          rwa [← e2] at this
      · intro i hi'
        rw [o2 i (by omega), o1 i (by omega)]
    · obtain ⟨a', f, d, c1, o1⟩ := putAll_num row (2 ^ (l + 1)) (l + 1) (WOps.mul e.w w) (Nat.le_refl _) a ha
      refine ⟨a', by simp only [fillV, hn, f], d, fun x hx => ⟨_, c1 x hx, ?_⟩, o1⟩
      rw [val_z (z_mul_left _ hz), vd_z _ _ _ hz, mul_zero, sub_zero, norm_zero]
      positivity

/-- `getVector` adds an error of at most `5 (k + 1) ε` to every amplitude. -/
theorem getVector_num {s : St W} (hi : NInv env s) {k : Nat} (hk : k ≤ 30) {e : Edge W} (h : VLv env s k e)
    (hn : e.n ≠ none) (hw : ‖val e.w‖ ≤ 2) : ∃ a, getVector s e = .ok a ∧ a.dim = 2 ^ k ∧
      ∀ x < 2 ^ k, ∃ c, a.cell x = some c ∧ ‖val c - vd s k e x‖ ≤ 5 * (k + 1) * ε := by
  have hok := h
  rcases h with (⟨_, h⟩ | ⟨p, nd, hp, h2, h3⟩) | ⟨_, h⟩
  · exact (hn h).elim
  · have hv : (nd.v + 1).toNat = k := by omega
    have hkq : k ≤ NQUBITS := by unfold NQUBITS; omega
    have kk := keps_le (W := W) hkq
    obtain ⟨a, f, d, c, _⟩ := fillV_num hi hkq hok 0 WOps.one (Arr.new (2 ^ k)) (by
      rw [val_one, norm_one, _root_.mul_one]; nlinarith) (by simp [Arr.new])
    refine ⟨a, ?_, d, fun x hx => ?_⟩
    · unfold getVector
      simp only [hp, h2.1, hv]
      rw [if_neg (by omega)]
      exact f
    · obtain ⟨c, h1, h2⟩ := c x hx
      refine ⟨c, by simpa using h1, ?_⟩
      rw [val_one, one_mul] at h2
      push_cast at h2
      exact h2
  · exact (hn h).elim

end QDD.Num
