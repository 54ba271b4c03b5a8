import Verif.Num.MatRow
import Verif.Num.State
/-!
# Read-out of a matrix in rounded arithmetic (src/dd.cpp 185-251)
-/

set_option linter.unusedSectionVars false
set_option linter.unusedVariables false
set_option linter.unusedSimpArgs false

namespace QDD
namespace Num
open RoundW NumW Prog Safe

variable {W : Type} [WOps W] [RoundW W] [NumW W] {env : Env W}

local notation "ε" => NumW.eps W

theorem bidx_low (l : Nat) {b : Bool} {y : Nat} (hy : y < 2 ^ l) : (bidx l b y).testBit l = b ∧ LowEq l (bidx l b y) y := by
  refine ⟨by cases b <;> simp [bidx, testBit_lt hy, testBit_add hy], ?_⟩
  cases b
  · intro c _; simp [bidx]
  · simpa [bidx] using lowEq_add l y

theorem fillM_num {s : St W} (hi : NInv env s) : ∀ {l : Nat} {e : Edge W}, l ≤ NQUBITS → MLv env s l e.n → ∀ row col (w : W) (a : Arr2 W),
    ‖val e.w‖ * ‖val w‖ + 11 * l * ε ≤ 3 → row + 2 ^ l ≤ a.dim → col + 2 ^ l ≤ a.dim →
    ∃ a', fillM s.mt.mem l e row col w a = .ok a' ∧ a'.dim = a.dim ∧
      (∀ x < 2 ^ l, ∀ y < 2 ^ l, ∃ c, a'.cell (row + x) (col + y) = some c ∧ ‖val c - val w * md s l e x y‖ ≤ 5 * (l + 1 : Nat) * ε) ∧
      ∀ i j, ((i < row ∨ row + 2 ^ l ≤ i) ∨ (j < col ∨ col + 2 ^ l ≤ j)) → a'.cell i j = a.cell i j := by
  have e0 := eps_nn (W := W)
  have e1 := eps_le (W := W)
  intro l
  induction l with
  | zero =>
    intro e _ h row col w a hw ha hb
    simp only [Nat.pow_zero] at ha hb ⊢
    refine ⟨⟨a.dim, fun x y => if x = row ∧ y = col then some (WOps.mul e.w w) else a.cell x y⟩, ?_, rfl, ?_, ?_⟩
    · simp only [fillM, h.term hi.base, Arr2.put]
      rw [if_pos (by omega)]
    · intro x hx y hy
      have : x = 0 := by omega
      subst this
      have : y = 0 := by omega
      subst this
      refine ⟨WOps.mul e.w w, by simp, ?_⟩
      have h1 := mul_err e.w w
      have h2 : val w * md s 0 e 0 0 = val e.w * val w := by simp [md, mp, mul_comm]
      rw [h2]
      refine h1.trans ?_
      push_cast at hw ⊢
      nlinarith
    · intro i j hij
      dsimp only
      rw [if_neg (by omega)]
  | succ l ih =>
    intro e hl h row col w a hw ha hb
    have hp : 2 ^ (l + 1) = 2 ^ l + 2 ^ l := by rw [Nat.pow_succ]; omega
    have hpos : 0 < 2 ^ l := Nat.two_pow_pos l
    have hlq : l ≤ NQUBITS := by omega
    obtain ⟨v, hv, hv1, _, hv3, hv4⟩ := h.reg.evar hi.base
    have four : ∀ (c : Bool → Bool → Edge W) (ww : Bool → Bool → W), (∀ r q, MLv env s l (c r q).n) →
        (∀ r q, ‖val (c r q).w‖ * ‖val (ww r q)‖ + 11 * l * ε ≤ 3) →
        ∃ a', (match fillM s.mt.mem l (c false false) row col (ww false false) a with
            | .error er => Except.error er
            | .ok a => match fillM s.mt.mem l (c false true) row (col + 2 ^ l) (ww false true) a with
              | .error er => Except.error er
              | .ok a => match fillM s.mt.mem l (c true false) (row + 2 ^ l) col (ww true false) a with
                | .error er => Except.error er
                | .ok a => fillM s.mt.mem l (c true true) (row + 2 ^ l) (col + 2 ^ l) (ww true true) a) = .ok a' ∧
          a'.dim = a.dim ∧
          (∀ r q, ∀ x < 2 ^ l, ∀ y < 2 ^ l, ∃ z, a'.cell (row + bidx l r x) (col + bidx l q y) = some z ∧
            ‖val z - val (ww r q) * md s l (c r q) x y‖ ≤ 5 * (l + 1 : Nat) * ε) ∧
          ∀ i j, ((i < row ∨ row + 2 ^ (l + 1) ≤ i) ∨ (j < col ∨ col + 2 ^ (l + 1) ≤ j)) →
            a'.cell i j = a.cell i j := by
      intro c ww hc hcw
      obtain ⟨a1, f1, d1, c1, o1⟩ := ih hlq (hc false false) row col (ww false false) a (hcw _ _) (by rw [hp] at ha; omega) (by rw [hp] at hb; omega)
      obtain ⟨a2, f2, d2, c2, o2⟩ := ih hlq (hc false true) row (col + 2 ^ l) (ww false true) a1 (hcw _ _) (by rw [d1]; omega) (by rw [d1]; omega)
      obtain ⟨a3, f3, d3, c3, o3⟩ := ih hlq (hc true false) (row + 2 ^ l) col (ww true false) a2 (hcw _ _) (by rw [d2, d1]; omega) (by rw [d2, d1]; omega)
      obtain ⟨a4, f4, d4, c4, o4⟩ := ih hlq (hc true true) (row + 2 ^ l) (col + 2 ^ l) (ww true true) a3 (hcw _ _) (by rw [d3, d2, d1]; omega) (by rw [d3, d2, d1]; omega)
      refine ⟨a4, by simp only [f1, f2, f3, f4], by omega, ?_, ?_⟩
      · intro r q x hx y hy
        cases r <;> cases q <;> simp only [bidx, Bool.false_eq_true, if_false, if_true]
        · rw [o4 _ _ (by omega), o3 _ _ (by omega), o2 _ _ (by omega)]; exact c1 x hx y hy
        · rw [o4 _ _ (by omega), o3 _ _ (by omega), show col + (2 ^ l + y) = col + 2 ^ l + y by omega]; exact c2 x hx y hy
        · rw [o4 _ _ (by omega), show row + (2 ^ l + x) = row + 2 ^ l + x by omega]; exact c3 x hx y hy
        · rw [show col + (2 ^ l + y) = col + 2 ^ l + y by omega, show row + (2 ^ l + x) = row + 2 ^ l + x by omega]; exact c4 x hx y hy
      · intro i j hij
        rw [o4 _ _ (by omega), o3 _ _ (by omega), o2 _ _ (by omega), o1 _ _ (by omega)]
    have split : ∀ x < 2 ^ (l + 1), ∃ b y, y < 2 ^ l ∧ x = bidx l b y := by
      intro x hx
      by_cases hlt : x < 2 ^ l
      · exact ⟨false, x, hlt, rfl⟩
      · exact ⟨true, x - 2 ^ l, by omega, by simp only [bidx, if_true]; omega⟩
    rcases h.split with ⟨p, nd, hn, h2, h3⟩ | ⟨hok, hlt⟩
    · have hvv : v = nd.v := by
        rw [hn] at hv; simp [evar, h2.1] at hv; exact hv.symm
      have hm := mul_err e.w w
      have hP0 : 0 ≤ ‖val e.w‖ * ‖val w‖ := by positivity
      have hP : ‖val e.w‖ * ‖val w‖ ≤ 3 := by
        have : 0 ≤ 11 * ((l + 1 : Nat) : ℝ) * ε := by positivity
        linarith
      have hm' : ‖val (WOps.mul e.w w)‖ ≤ ‖val e.w‖ * ‖val w‖ + 4 * ε := by
        have h4 : ‖val (WOps.mul e.w w)‖ ≤ ‖val (WOps.mul e.w w) - val e.w * val w‖ + ‖val e.w * val w‖ := by
          simpa using norm_add_le (val (WOps.mul e.w w) - val e.w * val w) (val e.w * val w)
        rw [norm_mul] at h4
        nlinarith
      have hch : ∀ r q, ‖val (nd.child r q).w‖ * ‖val (WOps.mul e.w w)‖ + 11 * l * ε ≤ 3 := by
        intro r q
        have h5 : ‖val (nd.child r q).w‖ ≤ 1 + 2 * ε := (hi.mw _ _ h2 r q).1
        have h6 : ‖val (nd.child r q).w‖ * ‖val (WOps.mul e.w w)‖ ≤ (1 + 2 * ε) * (‖val e.w‖ * ‖val w‖ + 4 * ε) :=
          mul_le_mul h5 hm' (norm_nonneg _) (by positivity)
        push_cast at hw
        nlinarith
      obtain ⟨a', f, d, c, o⟩ := four (fun r q => nd.child r q) (fun _ _ => WOps.mul e.w w)
        (fun r q => hi.base.mchild h2 r q h3) hch
      refine ⟨a', ?_, d, ?_, o⟩
      · simp only [fillM, hv]
        rw [if_pos (by push_cast; omega)]
        simp only [hn, h2.1]
        exact f
      · intro x hx y hy
        obtain ⟨r, x', hx', rfl⟩ := split x hx
        obtain ⟨q, y', hy', rfl⟩ := split y hy
        obtain ⟨z, hz1, hz2⟩ := c r q x' hx' y' hy'
        refine ⟨z, hz1, ?_⟩
        have hx2 := bidx_low l (b := r) hx'
        have hy2 := bidx_low l (b := q) hy'
        have e2 : md s (l + 1) e (bidx l r x') (bidx l q y') = val e.w * md s l (nd.child r q) x' y' := by
          simp only [md, hn, mp, h2.1, if_pos h3, hx2.1, hy2.1]
          rw [mp_congr _ _ _ hx2.2 hy2.2]
        rw [e2]
        have h6 : ‖md s l (nd.child r q) x' y'‖ ≤ 11 / 10 := by
          have h7 := md_le hi hlq (hi.base.mchild h2 r q h3) x' y'
          have h8 : ‖val (nd.child r q).w‖ ≤ 1 + 2 * ε := (hi.mw _ _ h2 r q).1
          nlinarith
        have h9 : val z - val w * (val e.w * md s l (nd.child r q) x' y') = (val z - val (WOps.mul e.w w) * md s l (nd.child r q) x' y') +
            (val (WOps.mul e.w w) - val e.w * val w) * md s l (nd.child r q) x' y' := by ring
        rw [h9]
        refine (norm_add_le _ _).trans ?_
        rw [norm_mul]
        have h10 : ‖val (WOps.mul e.w w) - val e.w * val w‖ * ‖md s l (nd.child r q) x' y'‖ ≤ 4 * ε * (11 / 10) :=
          mul_le_mul (hm.trans (by nlinarith)) h6 (norm_nonneg _) (by positivity)
        push_cast at hz2 ⊢
        nlinarith
    · have hvv : ¬ (v + 1 = ((l + 1 : Nat) : Int)) := by
        have := hlt v hv hv1
        push_cast; omega
      have hle : (5 : ℝ) * (l + 1 : Nat) * ε ≤ 5 * (l + 1 + 1 : Nat) * ε := by push_cast; nlinarith
      obtain ⟨a', f, d, c, o⟩ := four (fun _ _ => e) (fun r q => if r = q then w else WOps.zero) (fun _ _ => hok) (by
        intro r q
        push_cast at hw
        split
        · nlinarith
        · rw [val_zero, norm_zero, mul_zero, zero_add]
          have := mul_nonneg (norm_nonneg (val e.w)) (norm_nonneg (val w))
          nlinarith)
      refine ⟨a', ?_, d, ?_, o⟩
      · simp only [fillM, hv]
        rw [if_neg hvv]
        simp only [if_true, if_false, reduceCtorEq] at f
        exact f
      · intro x hx y hy
        obtain ⟨r, x', hx', rfl⟩ := split x hx
        obtain ⟨q, y', hy', rfl⟩ := split y hy
        obtain ⟨z, hz1, hz2⟩ := c r q x' hx' y' hy'
        refine ⟨z, hz1, ?_⟩
        have hx2 := bidx_low l (b := r) hx'
        have hy2 := bidx_low l (b := q) hy'
        rw [md_skip hok, hx2.1, hy2.1, md_congr s l e hx2.2 hy2.2]
        by_cases hrq : r = q
        · rw [if_pos hrq] at hz2 ⊢
          exact hz2.trans hle
        · rw [if_neg hrq] at hz2
          rw [if_neg hrq, mul_zero]
          rw [val_zero, zero_mul] at hz2
          exact hz2.trans hle

/-- `getMatrix` adds an error of at most `5 (k + 1) ε` to every entry. -/
theorem getMatrix_num {s : St W} (hi : NInv env s) {k : Nat} (hk : k ≤ 30) {e : Edge W} (h : MLv env s k e.n)
    (hw : ‖val e.w‖ ≤ 2) : ∃ a, getMatrix s e k = .ok a ∧ a.dim = 2 ^ k ∧
      ∀ x < 2 ^ k, ∀ y < 2 ^ k, ∃ c, a.cell x y = some c ∧ ‖val c - md s k e x y‖ ≤ 5 * (k + 1) * ε := by
  have hkq : k ≤ NQUBITS := by unfold NQUBITS; omega
  have kk := keps_le (W := W) hkq
  obtain ⟨a, f, d, c, _⟩ := fillM_num hi hkq h 0 0 WOps.one (Arr2.new (2 ^ k)) (by
    rw [val_one, norm_one, _root_.mul_one]; nlinarith) (by simp [Arr2.new]) (by simp [Arr2.new])
  refine ⟨a, ?_, d, fun x hx y hy => ?_⟩
  · unfold getMatrix
    rw [if_neg (by omega)]
    exact f
  · obtain ⟨c, h1, h2⟩ := c x hx y hy
    refine ⟨c, by simpa using h1, ?_⟩
    rw [val_one, one_mul] at h2
    push_cast at h2
    exact h2

theorem div_eq_iff {k i j : Nat} : i / 2 ^ k = j / 2 ^ k ↔ ∀ b, k ≤ b → i.testBit b = j.testBit b := by
  constructor
  · intro h b hb
    have := congrArg (fun x => x.testBit (b - k)) h
    simpa [Nat.testBit_div_two_pow, Nat.sub_add_cancel hb, Nat.add_sub_cancel' hb] using this
  · intro h
    refine Nat.eq_of_testBit_eq fun b => ?_
    rw [Nat.testBit_div_two_pow, Nat.testBit_div_two_pow]
    exact h _ (by omega)

/-- Reading a matrix at a higher level: identities on the upper qubits. -/
theorem md_up {s : St W} {k : Nat} {e : Edge W} (h : MLv env s k e.n) {n : Nat} (hn : k ≤ n) {i j : Nat} (hi : i < 2 ^ n) (hj : j < 2 ^ n) :
    md s n e i j = if i / 2 ^ k = j / 2 ^ k then md s k e (i % 2 ^ k) (j % 2 ^ k) else 0 := by
  induction n, hn using Nat.le_induction generalizing i j with
  | base =>
    rw [Nat.div_eq_of_lt hi, Nat.div_eq_of_lt hj, Nat.mod_eq_of_lt hi, Nat.mod_eq_of_lt hj, if_pos rfl]
  | succ n hn ih =>
    have hp : 0 < 2 ^ n := Nat.two_pow_pos n
    have lo : ∀ x, LowEq n x (x % 2 ^ n) := fun x b hb => by simp [hb]
    rw [md_skip (h.mono hn), md_congr s n e (lo i) (lo j), ih (Nat.mod_lt _ hp) (Nat.mod_lt _ hp),
      Nat.mod_mod_of_dvd _ (pow_dvd_pow 2 hn), Nat.mod_mod_of_dvd _ (pow_dvd_pow 2 hn)]
    have hi' : ∀ b, n + 1 ≤ b → i.testBit b = false := fun b hb => Nat.testBit_lt_two_pow (lt_of_lt_of_le hi (Nat.pow_le_pow_right (by decide) hb))
    have hj' : ∀ b, n + 1 ≤ b → j.testBit b = false := fun b hb => Nat.testBit_lt_two_pow (lt_of_lt_of_le hj (Nat.pow_le_pow_right (by decide) hb))
    have key : i / 2 ^ k = j / 2 ^ k ↔ i.testBit n = j.testBit n ∧ i % 2 ^ n / 2 ^ k = j % 2 ^ n / 2 ^ k := by
      rw [div_eq_iff, div_eq_iff]
      constructor
      · intro hb
        refine ⟨hb n hn, fun b hk => ?_⟩
        rw [Nat.testBit_mod_two_pow, Nat.testBit_mod_two_pow, hb b hk]
      · rintro ⟨h1, h2⟩ b hk
        rcases Nat.lt_trichotomy b n with hb | hb | hb
        · have := h2 b hk
          rw [Nat.testBit_mod_two_pow, Nat.testBit_mod_two_pow] at this
          simpa [hb] using this
        · rw [hb]; exact h1
        · rw [hi' b (by omega), hj' b (by omega)]
    by_cases h1 : i.testBit n = j.testBit n
    · rw [if_pos h1]
      simp only [key, h1, true_and]
    · rw [if_neg h1, if_neg fun hc => h1 (key.1 hc).1]

end Num
end QDD
