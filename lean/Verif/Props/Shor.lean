import Verif.Shor.Model
import Mathlib.Data.Nat.GCD.BigOperators
import Mathlib.Data.Nat.ModEq
import Mathlib.Tactic.Ring
import Mathlib.Tactic.Linarith
import Mathlib.Tactic.LinearCombination
import Mathlib.Algebra.Order.Ring.Abs
import Mathlib.Tactic.Push
import Mathlib.Tactic.IntervalCases
/-!
# C41: the classical arithmetic of Shor's algorithm
-/
set_option linter.unusedVariables false
set_option linter.unusedSimpArgs false

namespace QDD.Props
open QDD.Shor

theorem u64_of_lt {x : Nat} (h : x < 2 ^ 64) : u64 x = x := Nat.mod_eq_of_lt h

theorem u64_mul_of_lt {x y m : Nat} (hx : x < m) (hy : y < m) (hm : m ≤ 2 ^ 32) : u64 (x * y) = x * y := by
  apply u64_of_lt
  calc x * y < m * m := Nat.mul_lt_mul'' hx hy
    _ ≤ 2 ^ 32 * 2 ^ 32 := Nat.mul_le_mul hm hm
    _ = 2 ^ 64 := by norm_num

theorem modpowLoop_eq {m : Nat} (hm0 : 0 < m) (hm : m ≤ 2 ^ 32) :
    ∀ exp base result, base < m → result < m → modpowLoop m exp base result = (result * base ^ exp) % m := by
  intro exp
  induction exp using Nat.strongRecOn with
  | ind exp ih =>
    intro base result hb hr
    rw [modpowLoop]
    split
    · rename_i h
      have hlt : exp >>> 1 < exp := by rw [Nat.shiftRight_one]; omega
      rw [ih _ hlt _ _ (Nat.mod_lt _ hm0)]
      · rw [u64_mul_of_lt hb hb hm, Nat.shiftRight_one, Nat.and_one_is_mod]
        have e2 : exp = 2 * (exp / 2) + exp % 2 := by omega
        have key : base ^ exp = (base * base) ^ (exp / 2) * base ^ (exp % 2) := by
          conv_lhs => rw [e2]
          rw [pow_add, pow_mul, pow_two]
        rw [key]
        by_cases ho : exp % 2 = 1
        · rw [if_pos (by omega), ho, u64_mul_of_lt hr hb hm, pow_one]
          rw [Nat.mul_mod, Nat.mod_mod, Nat.pow_mod, Nat.mod_mod, ← Nat.pow_mod, ← Nat.mul_mod]
          congr 1; ring
        · rw [if_neg (by omega), show exp % 2 = 0 by omega, pow_zero, mul_one]
          rw [Nat.mul_mod, Nat.pow_mod, Nat.mod_mod, ← Nat.pow_mod, ← Nat.mul_mod]
      · split
        · exact Nat.mod_lt _ hm0
        · exact hr
    · rename_i h
      have : exp = 0 := by omega
      rw [this, pow_zero, mul_one, Nat.mod_eq_of_lt hr]

/-- **C41.** `modpow` is the power modulo `modulus`, for every modulus up to 2^32. -/
theorem C41_modpow (base exp m : Nat) (hm1 : 1 < m) (hm : m ≤ 2 ^ 32) :
    modpow base exp m = base ^ exp % m := by
  rw [modpow, modpowLoop_eq (by omega) hm _ _ _ (Nat.mod_lt _ (by omega)) hm1, one_mul, ← Nat.pow_mod]

/-- The bound is needed: with modulus 2^33 the 64-bit product wraps. -/
example : modpow (2 ^ 33) 2 (2 ^ 33 + 1) ≠ (2 ^ 33) ^ 2 % (2 ^ 33 + 1) := by
  rw [modpow, modpowLoop, modpowLoop, modpowLoop]; decide

/-- **C41.** `gcd` is the greatest common divisor. -/
theorem C41_gcd (a b : Nat) : Shor.gcd a b = Nat.gcd a b := by
  induction a using Nat.strongRecOn generalizing b with
  | ind a ih =>
    rw [Shor.gcd]
    split
    · rename_i h
      rw [ih _ (Nat.mod_lt _ (Nat.pos_of_ne_zero h)), ← Nat.gcd_rec]
    · rename_i h
      have : a = 0 := by omega
      rw [this, Nat.gcd_zero_left]

/-! ## inverse_mod -/

theorem int32_some {x : Int} (h : -2 ^ 31 ≤ x ∧ x < 2 ^ 31) : int32 x = some x := if_pos h

/-- The invariant of the loop: `t`, `newt` are the Bézout coefficients, alternate in sign, and are bounded by
`n` through `r * |newt| + newr * |t| = max…`. -/
structure Inv (a n t newt r newr : Int) : Prop where
  r0 : 0 < r
  n0 : 0 ≤ newr
  rb : r < 2 ^ 31
  nb : newr < 2 ^ 31
  g : Int.gcd r newr = Int.gcd a n
  ct : ∃ k, t * a + k * n = r
  cn : ∃ k, newt * a + k * n = newr
  sg : (0 ≤ newt ∧ t ≤ 0) ∨ (newt ≤ 0 ∧ 0 ≤ t)
  sz : r * |newt| + newr * |t| = n
  tb : |t| ≤ n

theorem inverseLoop_step {a n t newt r newr : Int} (hn : 0 < n) (hnb : n < 2 ^ 31) (I : Inv a n t newt r newr)
    (hne : newr ≠ 0) (fuel : Nat) :
    inverseLoop n t newt r newr (fuel + 1) =
        inverseLoop n newt (t - r / newr * newt) newr (r - r / newr * newr) fuel ∧
      Inv a n newt (t - r / newr * newt) newr (r - r / newr * newr) ∧
      r - r / newr * newr < newr := by
  obtain ⟨r0, n0, rb, nb, g, ⟨k1, ct⟩, ⟨k2, cn⟩, sg, sz, tb⟩ := I
  have hpos : 0 < newr := by omega
  have hq : r.tdiv newr = r / newr := Int.tdiv_eq_ediv_of_nonneg r0.le
  have q0 : 0 ≤ r / newr := Int.ediv_nonneg r0.le n0
  have hm : r - r / newr * newr = r % newr := by
    have := Int.emod_add_mul_ediv r newr
    linarith [mul_comm newr (r / newr)]
  have hm0 : 0 ≤ r % newr := Int.emod_nonneg _ hne
  have hm1 : r % newr < newr := Int.emod_lt_of_pos _ hpos
  generalize hQ : r / newr = q at *
  have habs : |t - q * newt| = |t| + q * |newt| := by
    rcases sg with ⟨h1, h2⟩ | ⟨h1, h2⟩
    · have : 0 ≤ q * newt := mul_nonneg q0 h1
      rw [abs_of_nonpos (by linarith), abs_of_nonpos h2, abs_of_nonneg h1]; ring
    · have : q * newt ≤ 0 := mul_nonpos_of_nonneg_of_nonpos q0 h1
      rw [abs_of_nonneg (by linarith), abs_of_nonneg h2, abs_of_nonpos h1]; ring
  have sz' : newr * |t - q * newt| + (r - q * newr) * |newt| = n := by
    rw [habs]; linarith [sz, mul_comm q newr]
  have at0 := abs_nonneg t
  have an0 := abs_nonneg newt
  have hb1 : |newt| ≤ n := by nlinarith [mul_nonneg n0 at0]
  have hb2 : |t - q * newt| ≤ n := by
    have h1 := abs_nonneg (t - q * newt)
    have h2 : 0 ≤ (r - q * newr) * |newt| := mul_nonneg (by omega) an0
    nlinarith
  have hb3 : |q * newt| ≤ n := by
    rw [abs_mul, abs_of_nonneg q0]; linarith
  have e1 : int32 (q * newt) = some (q * newt) := int32_some ⟨by linarith [neg_abs_le (q * newt)], by linarith [le_abs_self (q * newt)]⟩
  have e2 : int32 (t - q * newt) = some (t - q * newt) :=
    int32_some ⟨by linarith [neg_abs_le (t - q * newt)], by linarith [le_abs_self (t - q * newt)]⟩
  have e3 : int32 (q * newr) = some (q * newr) := int32_some ⟨by have := mul_nonneg q0 n0; linarith, by omega⟩
  have e4 : int32 (r - q * newr) = some (r - q * newr) := int32_some ⟨by omega, by omega⟩
  refine ⟨?_, ⟨hpos, by omega, nb, by omega, ?_, ⟨k2, cn⟩, ⟨k1 - q * k2, ?_⟩, ?_, sz', hb1⟩, by omega⟩
  · rw [inverseLoop, if_pos hne]
    simp only [hq, e1, e2, e3, e4]
  · rw [hm, ← g, Int.gcd_comm newr, Int.gcd_comm r newr]
    rw [Int.gcd_comm newr r]; exact Int.gcd_emod _ _
  · linear_combination ct - q * cn
  · rcases sg with ⟨h1, h2⟩ | ⟨h1, h2⟩
    · right
      have : 0 ≤ q * newt := mul_nonneg q0 h1
      exact ⟨by linarith, h1⟩
    · left
      have : q * newt ≤ 0 := mul_nonpos_of_nonneg_of_nonpos q0 h1
      exact ⟨by linarith, h1⟩

theorem inverseLoop_ok {a n : Int} (hn : 0 < n) (hnb : n < 2 ^ 31) :
    ∀ (k : Nat) (t newt r newr : Int), Inv a n t newt r newr → newr.toNat ≤ k →
      ∃ fuel, (Int.gcd a n = 1 →
        ∃ x, inverseLoop n t newt r newr fuel = some (.ret x) ∧ 0 ≤ x ∧ x ≤ n ∧ (n ∣ a * x - 1)) ∧
      (Int.gcd a n ≠ 1 → inverseLoop n t newt r newr fuel = some .exit3) := by
  intro k
  induction k with
  | zero =>
    intro t newt r newr I hk
    have hz : newr = 0 := by have := I.n0; omega
    subst hz
    obtain ⟨r0, n0, rb, nb, g, ⟨k1, ct⟩, cn, sg, sz, tb⟩ := I
    have hr : (Int.gcd a n : Int) = r := by
      rw [← g, Int.gcd_zero_right, Int.natCast_natAbs, abs_of_pos r0]
    refine ⟨0, fun h1 => ?_, fun h1 => ?_⟩
    · have hr1 : r = 1 := by rw [← hr, h1]; rfl
      have := neg_abs_le t
      have := le_abs_self t
      by_cases ht : t < 0
      · refine ⟨t + n, ?_, by linarith, by linarith, ⟨a - k1, ?_⟩⟩
        · rw [inverseLoop]
          simp only [ne_eq, not_true_eq_false, if_false, hr1, gt_iff_lt, lt_irrefl, ht, if_true]
          rw [int32_some ⟨by linarith, by linarith⟩]
        · rw [hr1] at ct; linear_combination ct
      · refine ⟨t, ?_, by linarith, by linarith, ⟨-k1, ?_⟩⟩
        · rw [inverseLoop]
          simp only [ne_eq, not_true_eq_false, if_false, hr1, gt_iff_lt, lt_irrefl, ht]
        · rw [hr1] at ct; linear_combination ct
    · have : 1 < r := by
        rcases Nat.lt_or_ge 1 (Int.gcd a n) with h | h
        · rw [← hr]; exact_mod_cast h
        · have : 0 < Int.gcd a n := Int.gcd_pos_of_ne_zero_right _ hn.ne'
          omega
      rw [inverseLoop]
      simp [this]
  | succ k ih =>
    intro t newt r newr I hk
    by_cases hz : newr = 0
    · obtain ⟨f, h⟩ := ih t newt r newr I (by omega)
      exact ⟨f, h⟩
    · obtain ⟨-, I', hlt⟩ := inverseLoop_step hn hnb I hz 0
      have := I'.n0
      have := I.n0
      obtain ⟨f, h1, h2⟩ := ih _ _ _ _ I' (by omega)
      refine ⟨f + 1, ?_⟩
      rw [(inverseLoop_step hn hnb I hz f).1]
      exact ⟨h1, h2⟩

theorem inverseLoop_mono (n : Int) : ∀ (f : Nat) (t newt r newr : Int) (res : InvRes),
    inverseLoop n t newt r newr f = some res → ∀ f', f ≤ f' → inverseLoop n t newt r newr f' = some res := by
  intro f
  induction f with
  | zero =>
    intro t newt r newr res h f' hf
    rw [inverseLoop.eq_def] at h ⊢
    split at h
    · cases h
    · rename_i hz; rw [if_neg hz]; exact h
  | succ f ih =>
    intro t newt r newr res h f' hf
    obtain ⟨f', rfl⟩ : ∃ g, f' = g + 1 := ⟨f' - 1, by omega⟩
    rw [inverseLoop] at h ⊢
    split at h
    · rename_i hz
      rw [if_pos hz]
      simp only at h ⊢
      split at h
      · exact h
      · split at h
        · exact h
        · split at h
          · exact h
          · split at h
            · exact h
            · exact ih _ _ _ _ _ h _ (by omega)
    · rename_i hz; rw [if_neg hz]; exact h

/-- **C41.** For `0 ≤ a` and `1 < n` in the range of `int`, `inverse_mod(a, n)` always ends, never overflows,
and: if `a` and `n` are coprime it returns the inverse of `a` modulo `n`, in `0 < x < n`; otherwise it exits
with code 3. -/
theorem C41_inverse_mod (a n : Int) (ha : 0 ≤ a) (hab : a < 2 ^ 31) (hn : 1 < n) (hnb : n < 2 ^ 31) :
    (∃ res, InverseMod a n res) ∧
    ∀ res, InverseMod a n res →
      (Int.gcd a n = 1 ∧ ∃ x, res = .ret x ∧ 0 < x ∧ x < n ∧ a * x % n = 1) ∨
      (Int.gcd a n ≠ 1 ∧ res = .exit3) := by
  have I : Inv a n 0 1 n a := ⟨by omega, ha, hnb, hab, Int.gcd_comm _ _, ⟨1, by ring⟩, ⟨0, by ring⟩,
    Or.inl ⟨by norm_num, le_rfl⟩, by simp, by simp; omega⟩
  obtain ⟨f, h1, h2⟩ := inverseLoop_ok (by omega) hnb _ _ _ _ _ I le_rfl
  have det : ∀ res res', InverseMod a n res → inverseLoop n 0 1 n a f = some res' → res = res' := by
    rintro res res' ⟨f', hf'⟩ hf
    have e1 := inverseLoop_mono n f' _ _ _ _ _ hf' (max f f') (le_max_right _ _)
    have e2 := inverseLoop_mono n f _ _ _ _ _ hf (max f f') (le_max_left _ _)
    rw [e1] at e2; exact Option.some.inj e2
  by_cases hg : Int.gcd a n = 1
  · obtain ⟨x, hx, x0, xn, ⟨c, hc⟩⟩ := h1 hg
    refine ⟨⟨_, f, hx⟩, fun res hres => Or.inl ⟨hg, x, det _ _ hres hx, ?_, ?_, ?_⟩⟩
    · rcases x0.lt_or_eq with h | h
      · exact h
      · subst h
        exfalso
        have : n ∣ 1 := ⟨-c, by linarith⟩
        have := Int.le_of_dvd one_pos this
        omega
    · rcases xn.lt_or_eq with h | h
      · exact h
      · subst h
        exfalso
        have : x ∣ 1 := ⟨a - c, by linarith⟩
        have := Int.le_of_dvd one_pos this
        omega
    · have : a * x = 1 + n * c := by linarith
      rw [this, Int.add_mul_emod_self_left, Int.emod_eq_of_lt (by norm_num) hn]
  · exact ⟨⟨_, f, h2 hg⟩, fun res hres => Or.inr ⟨hg, det _ _ hres (h2 hg)⟩⟩

/-- 7 * 13 = 91 = 6 * 15 + 1. -/
example : InverseMod 7 15 (.ret 13) := ⟨5, by decide⟩
example : InverseMod 6 15 .exit3 := ⟨5, by decide⟩

/-! ## post_processing -/

theorem factLoop_spec {n a den : Nat} (hn : 1 < n) (hnb : n < 2 ^ 32) (hd : den ≤ n) :
    ∀ fuel fact, 1 ≤ fact → fact ≤ n → n + 1 ≤ fuel + fact →
      ∃ f, factLoop n a den fuel fact = some f ∧ fact ≤ f ∧ f ≤ n ∧
        (∀ j, fact ≤ j → j < f → den * j < n ∧ modpow a (den * j) n ≠ 1) ∧
        ¬ (den * f < n ∧ modpow a (den * f) n ≠ 1) := by
  have hu : ∀ f, f ≤ n → u64 (den * f) = den * f := fun f hf =>
    u64_mul_of_lt (m := 2 ^ 32) (by omega) (by omega) le_rfl
  intro fuel
  induction fuel with
  | zero => intro fact h1 h2 h3; omega
  | succ fuel ih =>
    intro fact h1 h2 h3
    rw [factLoop, hu fact h2]
    by_cases hc : den * fact < n ∧ modpow a (den * fact) n ≠ 1
    · rw [if_pos hc]
      have hden : den ≠ 0 := by
        intro h0
        apply hc.2
        rw [h0, Nat.zero_mul, C41_modpow _ _ _ hn hnb.le, pow_zero, Nat.mod_eq_of_lt hn]
      have hlt : fact < n := by
        have : fact ≤ den * fact := Nat.le_mul_of_pos_left _ (Nat.pos_of_ne_zero hden)
        omega
      rw [u64_of_lt (show fact + 1 < 2 ^ 64 by omega)]
      obtain ⟨f, e, g1, g2, g3, g4⟩ := ih (fact + 1) (by omega) (by omega) (by omega)
      refine ⟨f, e, by omega, g2, fun j hj1 hj2 => ?_, g4⟩
      rcases Nat.lt_or_ge fact j with h | h
      · exact g3 j h hj2
      · have : j = fact := by omega
        rw [this]; exact hc
    · rw [if_neg hc]
      exact ⟨fact, rfl, le_rfl, h2, fun j h1 h2 => by omega, hc⟩

/-- If `a^(2h) ≡ 1` modulo the odd number `n`, the two numbers computed from `a^h` multiply to `n`. -/
theorem factors_mul {n a h : Nat} (hn : 1 < n) (hodd : n % 2 = 1) (hnb : n < 2 ^ 32) (hp : a ^ (2 * h) % n = 1) :
    (factors n a (2 * h)).1 * (factors n a (2 * h)).2 = n := by
  have hx : modpow a ((2 * h) >>> 1) n = a ^ h % n := by
    rw [Nat.shiftRight_one, Nat.mul_div_cancel_left _ (by norm_num), C41_modpow _ _ _ hn hnb.le]
  unfold factors
  simp only [hx, C41_gcd]
  generalize hX : a ^ h % n = x
  have hxn : x < n := by rw [← hX]; exact Nat.mod_lt _ (by omega)
  have hsq : x * x % n = 1 := by
    rw [← hX, ← Nat.mul_mod, ← pow_add, ← two_mul, hp]
  have hx0 : x ≠ 0 := by rintro rfl; simp at hsq
  rw [if_neg hx0, u64_of_lt (show x + 1 < 2 ^ 64 by omega)]
  have e2 : Nat.gcd ((x + 1) % n) n = Nat.gcd (x + 1) n := by
    rw [Nat.gcd_comm (x + 1) n, Nat.gcd_rec n (x + 1)]
  rw [e2]
  obtain ⟨y, rfl⟩ : ∃ y, x = y + 1 := ⟨x - 1, by omega⟩
  rw [Nat.add_sub_cancel]
  have hdvd : n ∣ y * (y + 1 + 1) := by
    have h1 := Nat.div_add_mod ((y + 1) * (y + 1)) n
    rw [hsq] at h1
    exact ⟨(y + 1) * (y + 1) / n, by nlinarith⟩
  have hcop : Nat.Coprime (Nat.gcd y n) (Nat.gcd (y + 1 + 1) n) := by
    have d1 := Nat.gcd_dvd_left (Nat.gcd y n) (Nat.gcd (y + 1 + 1) n)
    have d2 := Nat.gcd_dvd_right (Nat.gcd y n) (Nat.gcd (y + 1 + 1) n)
    have g1 := d1.trans (Nat.gcd_dvd_left y n)
    have gn := d1.trans (Nat.gcd_dvd_right y n)
    have g2 := d2.trans (Nat.gcd_dvd_left (y + 1 + 1) n)
    have g3 : Nat.gcd (Nat.gcd y n) (Nat.gcd (y + 1 + 1) n) ∣ 2 := by
      have := Nat.dvd_sub g2 g1
      rwa [show y + 1 + 1 - y = 2 by omega] at this
    have hle := Nat.le_of_dvd (by norm_num) g3
    have hpos := Nat.pos_of_dvd_of_pos g3 (by norm_num)
    rcases Nat.lt_or_ge (Nat.gcd (Nat.gcd y n) (Nat.gcd (y + 1 + 1) n)) 2 with h | h
    · unfold Nat.Coprime; omega
    · have e : Nat.gcd (Nat.gcd y n) (Nat.gcd (y + 1 + 1) n) = 2 := by omega
      rw [e] at gn
      omega
  apply Nat.dvd_antisymm
  · exact hcop.mul_dvd_of_dvd_of_dvd (Nat.gcd_dvd_right _ _) (Nat.gcd_dvd_right _ _)
  · calc n ∣ Nat.gcd n (y * (y + 1 + 1)) := Nat.dvd_gcd dvd_rfl hdvd
      _ ∣ Nat.gcd n y * Nat.gcd n (y + 1 + 1) := Nat.gcd_mul_right_dvd_mul_gcd n y (y + 1 + 1)
      _ = _ := by rw [Nat.gcd_comm n y, Nat.gcd_comm n]

theorem candidates_spec {n a : Nat} (hn : 1 < n) (hodd : n % 2 = 1) (hnb : n < 2 ^ 32) (close : Nat → Nat → Bool)
    (cf : List Nat) : ∀ k i, ∃ f, candidates n a close cf k i = some f ∧
      (f = (0, 0) ∨ (1 < f.1 ∧ 1 < f.2 ∧ f.1 * f.2 = n)) := by
  intro k
  induction k with
  | zero => intro i; exact ⟨_, rfl, Or.inl rfl⟩
  | succ k ih =>
    intro i
    rw [candidates]
    simp only
    by_cases h1 : (cand cf i).2 > n
    · rw [if_pos h1]; exact ⟨_, rfl, Or.inl rfl⟩
    rw [if_neg h1]
    by_cases h2 : close (cand cf i).1 (cand cf i).2
    swap
    · rw [if_neg h2]; exact ih _
    rw [if_pos h2]
    obtain ⟨fact, e, -, hf, -, -⟩ := factLoop_spec (a := a) hn hnb (Nat.le_of_not_gt h1) (n + 1) 1 le_rfl (by omega) (by omega)
    rw [e]
    simp only
    rw [u64_mul_of_lt (m := 2 ^ 32) (by omega) (by omega) le_rfl]
    generalize (cand cf i).2 * fact = per
    by_cases h3 : modpow a per n = 1
    swap
    · rw [if_neg h3]; exact ih _
    rw [if_pos h3]
    by_cases h4 : per &&& 1 ≠ 0
    · rw [if_pos h4]; exact ⟨_, rfl, Or.inl rfl⟩
    rw [if_neg h4]
    split
    · exact ⟨_, rfl, Or.inl rfl⟩
    · rename_i h5
      push Not at h5
      rw [Nat.and_one_is_mod] at h4
      obtain ⟨h, rfl⟩ : ∃ h, per = 2 * h := ⟨per / 2, by omega⟩
      rw [C41_modpow _ _ _ hn hnb.le] at h3
      have hm := factors_mul hn hodd hnb h3
      refine ⟨_, rfl, Or.inr ⟨?_, ?_, hm⟩⟩
      · have : (factors n a (2 * h)).1 ≠ 0 := by intro h0; rw [h0] at hm; omega
        omega
      · have : (factors n a (2 * h)).2 ≠ 0 := by intro h0; rw [h0] at hm; omega
        omega

theorem readRes_some {sample : List Char} {rb : Nat} (hl : 3 * rb ≤ sample.length) :
    ∀ k res, k ≤ 2 * rb → ∃ x, readRes sample rb k res = some x := by
  intro k
  induction k with
  | zero => intro res _; exact ⟨_, rfl⟩
  | succ k ih =>
    intro res hk
    rw [readRes]
    have : rb + (2 * rb - (k + 1)) < sample.length := by omega
    rw [List.getElem?_eq_getElem this]
    exact ih _ (by omega)

/-- **C41.** For every odd `n > 1`, every sample with a character per qubit and whatever the floating-point
test answers, `post_processing` returns, and either reports failure `(0,0)` or two factors, both larger than
1, whose product is `n`. -/
theorem C41_post_processing (n a rb : Nat) (hn : 1 < n) (hodd : n % 2 = 1) (hnb : n < 2 ^ 32)
    (close : Nat → Nat → Nat → Nat → Bool) (sample : List Char) (hl : 3 * rb ≤ sample.length) :
    ∃ f1 f2, postProcessing n a rb close sample = .ret f1 f2 ∧
      ((f1 = 0 ∧ f2 = 0) ∨ (1 < f1 ∧ 1 < f2 ∧ f1 * f2 = n)) := by
  obtain ⟨res, hres⟩ := readRes_some hl (2 * rb) 0 le_rfl
  unfold postProcessing
  rw [hres]
  simp only
  split
  · exact ⟨0, 0, rfl, Or.inl ⟨rfl, rfl⟩⟩
  · obtain ⟨f, e, hf⟩ := candidates_spec (a := a) hn hodd hnb (close res (u64 (1 <<< (2 * rb))))
      (cfrac res (u64 (1 <<< (2 * rb)))) (cfrac res (u64 (1 <<< (2 * rb)))).length 0
    rw [e]
    refine ⟨_, _, rfl, ?_⟩
    rcases hf with rfl | ⟨h1, h2, h3⟩
    · exact Or.inl ⟨rfl, rfl⟩
    · have b1 : f.1 < 2 ^ 32 := by nlinarith
      have b2 : f.2 < 2 ^ 32 := by nlinarith
      rw [Nat.mod_eq_of_lt b1, Nat.mod_eq_of_lt b2]
      exact Or.inr ⟨h1, h2, h3⟩

/-- A stricter test than that of line 342, for examples: the candidate is the measured fraction. -/
def exactClose : Nat → Nat → Nat → Nat → Bool := fun res denom num den => num * denom == res * den

/-- Factoring 15 with a = 2 from the measurement 64/256 = 1/4: the factors 3 and 5. -/
example : postProcessing 15 2 4 exactClose "000001000000".toList = .ret 3 5 := by
  simp [postProcessing, readRes, cfrac, candidates, cand, candLoop, factLoop, factors, C41_modpow, C41_gcd, u64, exactClose]

/-- The period search finds the order, and failure happens only for the two reasons of the algorithm: if the
order `r` of `a` modulo `n` is even and less than `n`, the first candidate accepted by the test has a
denominator dividing `r`, and `a^(r/2)` is not `-1`, then `post_processing` succeeds. -/
theorem candidates_success {n a r : Nat} (hn : 1 < n) (hodd : n % 2 = 1) (hnb : n < 2 ^ 32) (close : Nat → Nat → Bool)
    (cf : List Nat) (hr : r < n) (hr0 : 0 < r) (hr2 : r % 2 = 0) (hone : a ^ r % n = 1) (hmin : ∀ j, 0 < j → j < r → a ^ j % n ≠ 1)
    (hneg : a ^ (r / 2) % n ≠ n - 1) (m : Nat) (hm : close (cand cf m).1 (cand cf m).2) (hdvd : (cand cf m).2 ∣ r)
    (hfirst : ∀ j, j < m → (cand cf j).2 ≤ n ∧ ¬ close (cand cf j).1 (cand cf j).2) :
    ∀ k i, i ≤ m → m < i + k → ∃ f, candidates n a close cf k i = some f ∧ 1 < f.1 ∧ 1 < f.2 := by
  intro k
  induction k with
  | zero => intro i h1 h2; omega
  | succ k ih =>
    intro i h1 h2
    rw [candidates]
    simp only
    rcases Nat.lt_or_ge i m with hlt | hge
    · obtain ⟨h3, h4⟩ := hfirst i hlt
      rw [if_neg (by omega), if_neg h4]
      exact ih _ hlt (by omega)
    have : i = m := by omega
    subst this
    obtain ⟨c, hc⟩ := hdvd
    have hd0 : 0 < (cand cf i).2 := by
      rcases Nat.eq_zero_or_pos (cand cf i).2 with h | h
      · rw [h] at hc; omega
      · exact h
    have hc0 : 0 < c := by
      rcases Nat.eq_zero_or_pos c with h | h
      · rw [h] at hc; omega
      · exact h
    have hle : (cand cf i).2 ≤ n := by
      have : (cand cf i).2 ≤ (cand cf i).2 * c := Nat.le_mul_of_pos_right _ hc0
      omega
    rw [if_neg (by omega), if_pos hm]
    obtain ⟨fact, e, hf1, hf, hb, hstop⟩ := factLoop_spec (a := a) hn hnb hle (n + 1) 1 le_rfl (by omega) (by omega)
    have hfc : fact = c := by
      rcases Nat.lt_trichotomy fact c with h | h | h
      · exfalso
        apply hstop
        have hlt : (cand cf i).2 * fact < r := by rw [hc]; exact Nat.mul_lt_mul_of_pos_left h hd0
        refine ⟨by omega, ?_⟩
        rw [C41_modpow _ _ _ hn hnb.le]
        exact hmin _ (Nat.mul_pos hd0 hf1) hlt
      · exact h
      · exfalso
        have := (hb c hc0 h).2
        rw [← hc, C41_modpow _ _ _ hn hnb.le] at this
        exact this hone
    rw [e, hfc]
    simp only
    rw [← hc, u64_of_lt (show r < 2 ^ 64 by omega), C41_modpow _ _ _ hn hnb.le, if_pos hone, Nat.and_one_is_mod,
      if_neg (by omega)]
    obtain ⟨h, rfl⟩ : ∃ h, r = 2 * h := ⟨r / 2, by omega⟩
    rw [Nat.mul_div_cancel_left _ (by norm_num)] at hneg
    have hmul := factors_mul hn hodd hnb hone
    have hx : modpow a ((2 * h) >>> 1) n = a ^ h % n := by
      rw [Nat.shiftRight_one, Nat.mul_div_cancel_left _ (by norm_num), C41_modpow _ _ _ hn hnb.le]
    have hne1 := hmin h (by omega) (by omega)
    have hxn : a ^ h % n < n := Nat.mod_lt _ (by omega)
    have d1 : (factors n a (2 * h)).1 ∣ (if a ^ h % n = 0 then n - 1 else a ^ h % n - 1) := by
      unfold factors; simp only [hx, C41_gcd]; exact Nat.gcd_dvd_left _ _
    have d2 : (factors n a (2 * h)).2 ∣ (a ^ h % n + 1) % n := by
      unfold factors; simp only [hx, C41_gcd, u64_of_lt (show a ^ h % n + 1 < 2 ^ 64 by omega)]; exact Nat.gcd_dvd_left _ _
    have hx0 : a ^ h % n ≠ 0 := by
      intro h0
      have : a ^ (2 * h) % n = 0 := by rw [two_mul, pow_add, Nat.mul_mod, h0]; simp
      omega
    have hf1' : (factors n a (2 * h)).1 ≠ 1 := by
      intro h1
      rw [h1, one_mul] at hmul
      rw [hmul, Nat.mod_eq_of_lt (by omega)] at d2
      have := Nat.le_of_dvd (by omega) d2
      omega
    have hf2' : (factors n a (2 * h)).2 ≠ 1 := by
      intro h1
      rw [h1, mul_one] at hmul
      rw [hmul, if_neg hx0] at d1
      have := Nat.le_of_dvd (by omega) d1
      omega
    rw [if_neg (by push Not; exact ⟨hf1', hf2'⟩)]
    refine ⟨_, rfl, ?_, ?_⟩
    · have : (factors n a (2 * h)).1 ≠ 0 := by intro h0; rw [h0] at hmul; omega
      omega
    · have : (factors n a (2 * h)).2 ≠ 0 := by intro h0; rw [h0] at hmul; omega
      omega

/-- **C41.** When `post_processing` cannot fail: the order `r` of `a` modulo `n` is even and below `n`,
`a^(r/2)` is not `-1` modulo `n`, and the first continued-fraction candidate that passes the closeness test
has a denominator dividing `r`. Then two proper factors are reported. -/
theorem C41_post_processing_succeeds (n a rb r res m : Nat) (hn : 1 < n) (hodd : n % 2 = 1) (hnb : n < 2 ^ 32)
    (close : Nat → Nat → Nat → Nat → Bool) (sample : List Char)
    (hres : readRes sample rb (2 * rb) 0 = some res) (hres0 : res ≠ 0)
    (hr : r < n) (hr0 : 0 < r) (hr2 : r % 2 = 0) (hone : a ^ r % n = 1) (hmin : ∀ j, 0 < j → j < r → a ^ j % n ≠ 1)
    (hneg : a ^ (r / 2) % n ≠ n - 1)
    (hml : m < (cfrac res (u64 (1 <<< (2 * rb)))).length)
    (hm : close res (u64 (1 <<< (2 * rb))) (cand (cfrac res (u64 (1 <<< (2 * rb)))) m).1 (cand (cfrac res (u64 (1 <<< (2 * rb)))) m).2)
    (hdvd : (cand (cfrac res (u64 (1 <<< (2 * rb)))) m).2 ∣ r)
    (hfirst : ∀ j, j < m → (cand (cfrac res (u64 (1 <<< (2 * rb)))) j).2 ≤ n ∧
      ¬ close res (u64 (1 <<< (2 * rb))) (cand (cfrac res (u64 (1 <<< (2 * rb)))) j).1 (cand (cfrac res (u64 (1 <<< (2 * rb)))) j).2) :
    ∃ f1 f2, postProcessing n a rb close sample = .ret f1 f2 ∧ 1 < f1 ∧ 1 < f2 ∧ f1 * f2 = n := by
  obtain ⟨f, e, g1, g2⟩ := candidates_success hn hodd hnb (close res (u64 (1 <<< (2 * rb))))
    (cfrac res (u64 (1 <<< (2 * rb)))) hr hr0 hr2 hone hmin hneg m hm hdvd hfirst
    (cfrac res (u64 (1 <<< (2 * rb)))).length 0 (by omega) (by omega)
  obtain ⟨f', e', hf'⟩ := candidates_spec (a := a) hn hodd hnb (close res (u64 (1 <<< (2 * rb))))
    (cfrac res (u64 (1 <<< (2 * rb)))) (cfrac res (u64 (1 <<< (2 * rb)))).length 0
  rw [e] at e'
  cases Option.some.inj e'
  rcases hf' with h | ⟨-, -, h3⟩
  · rw [h] at g1; omega
  have b1 : f.1 < 2 ^ 32 := by nlinarith
  have b2 : f.2 < 2 ^ 32 := by nlinarith
  unfold postProcessing
  rw [hres]
  simp only
  rw [if_neg hres0, e]
  refine ⟨_, _, rfl, ?_⟩
  rw [Nat.mod_eq_of_lt b1, Nat.mod_eq_of_lt b2]
  exact ⟨g1, g2, h3⟩

/-- The hypotheses are met by n = 15, a = 2, the measurement 64/256. -/
example : ∃ f1 f2, postProcessing 15 2 4 exactClose "000001000000".toList = .ret f1 f2 ∧ 1 < f1 ∧ 1 < f2 ∧ f1 * f2 = 15 :=
  C41_post_processing_succeeds 15 2 4 4 64 0 (by decide) (by decide) (by decide) exactClose _
    (by simp [readRes, u64]) (by decide) (by decide) (by decide) (by decide) (by decide)
    (by intro j h1 h2; interval_cases j <;> decide) (by decide)
    (by simp [cfrac, u64]) (by simp [cfrac, u64, cand, candLoop, exactClose])
    (by simp [cfrac, u64, cand, candLoop]) (by intro j hj; omega)

end QDD.Props
