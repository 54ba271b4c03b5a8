import Verif.Shor.Model
import Mathlib.NumberTheory.DiophantineApproximation.Basic
import Mathlib.Tactic.Ring
import Mathlib.Tactic.Linarith
import Mathlib.Tactic.FieldSimp
import Mathlib.Tactic.Positivity
/-!
# The candidates of `post_processing` are the convergents of the measured fraction

`cand` (shor.cpp 316-323) computes, without overflow, the convergents of `res / denom` in lowest terms, with
growing denominators; by Legendre's theorem every fraction close enough to `res / denom` is among them.
-/
set_option linter.unusedVariables false
set_option linter.unusedSimpArgs false

namespace QDD.Shor

/-- `candLoop` in unbounded arithmetic. -/
def candN : List Nat → Nat → Nat → Nat × Nat
  | [], num, den => (num, den)
  | c :: cs, num, den => candN cs den (num + c * den)

theorem candN_append (l l' : List Nat) : ∀ num den, candN (l ++ l') num den = candN l' (candN l num den).1 (candN l num den).2 := by
  induction l with
  | nil => intro num den; rfl
  | cons c l ih => intro num den; exact ih _ _

theorem candN_mono : ∀ (l : List Nat) {a b c d : Nat}, a ≤ c → b ≤ d → (candN l a b).1 ≤ (candN l c d).1 ∧ (candN l a b).2 ≤ (candN l c d).2
  | [], _, _, _, _, h1, h2 => ⟨h1, h2⟩
  | c :: l, _, _, _, _, h1, h2 => candN_mono l h2 (Nat.add_le_add h1 (Nat.mul_le_mul_left _ h2))

/-- The denominators only grow inside the loop. -/
theorem candN_grow : ∀ (l : List Nat), (∀ c ∈ l, 1 ≤ c) → ∀ num den, den ≤ (candN l num den).2
  | [], _, _, _ => le_rfl
  | c :: l, h, num, den => by
    have h1 : 1 ≤ c := h c (by simp)
    have := candN_grow l (fun x hx => h x (by simp [hx])) den (num + c * den)
    have h2 : den ≤ num + c * den := by nlinarith
    exact le_trans h2 this

/-- If the result fits, nothing wrapped around. -/
theorem candLoop_eq : ∀ (l : List Nat), (∀ c ∈ l, 1 ≤ c) → ∀ num den, (candN l num den).2 < 2 ^ 64 →
    candLoop l num den = candN l num den
  | [], _, _, _, _ => rfl
  | c :: l, h, num, den, hb => by
    have hg := candN_grow l (fun x hx => h x (by simp [hx])) den (num + c * den)
    have hb' : (candN l den (num + c * den)).2 < 2 ^ 64 := hb
    have e1 : u64 (c * den) = c * den := Nat.mod_eq_of_lt (by omega)
    have e2 : u64 (num + c * den) = num + c * den := Nat.mod_eq_of_lt (by omega)
    show candLoop l den (u64 (num + u64 (c * den))) = candN l den (num + c * den)
    rw [e1, e2]
    exact candLoop_eq l (fun x hx => h x (by simp [hx])) _ _ hb'

theorem candN_coprime : ∀ (l : List Nat) {num den : Nat}, Nat.Coprime num den → Nat.Coprime (candN l num den).1 (candN l num den).2
  | [], _, _, h => h
  | c :: l, num, den, h => candN_coprime l (by
      rw [Nat.coprime_add_mul_right_right]
      exact h.symm)

/-- The `i`-th candidate in unbounded arithmetic. -/
def candQ (cf : List Nat) (i : Nat) : Nat × Nat := candN (cf.take i).reverse 1 (cf.getD i 0)

theorem cfrac_nil (d : Nat) : cfrac 0 d = [] := by rw [cfrac]; simp
theorem cfrac_cons {r : Nat} (h : r ≠ 0) (d : Nat) : cfrac r d = d / r :: cfrac (d % r) r := by rw [cfrac]; simp [h]

theorem cfrac_pos : ∀ (r d : Nat), r ≤ d → ∀ c ∈ cfrac r d, 1 ≤ c := by
  intro r
  induction r using Nat.strongRecOn with
  | ind r ih =>
    intro d hd c hc
    rcases Nat.eq_zero_or_pos r with rfl | h0
    · rw [cfrac_nil] at hc; cases hc
    rw [cfrac_cons h0.ne', List.mem_cons] at hc
    rcases hc with rfl | hc
    · exact (Nat.one_le_div_iff h0).2 hd
    · exact ih _ (Nat.mod_lt _ h0) _ (Nat.mod_lt _ h0).le _ hc

/-- The value of the `i`-th candidate, outside in. -/
theorem candQ_cons_zero (c : Nat) (cs : List Nat) : candQ (c :: cs) 0 = (1, c) := rfl

theorem candQ_cons_succ (c : Nat) (cs : List Nat) (i : Nat) :
    candQ (c :: cs) (i + 1) = ((candQ cs i).2, (candQ cs i).1 + c * (candQ cs i).2) := by
  unfold candQ
  rw [List.take_succ_cons, List.reverse_cons, candN_append, List.getD_cons_succ]
  rfl

theorem candQ_pos : ∀ (cf : List Nat), (∀ c ∈ cf, 1 ≤ c) → ∀ i, i < cf.length → 0 < (candQ cf i).1 ∧ 0 < (candQ cf i).2
  | [], _, i, hi => by simp at hi
  | c :: cs, h, 0, _ => ⟨one_pos, h c (by simp)⟩
  | c :: cs, h, i + 1, hi => by
    rw [candQ_cons_succ]
    have := candQ_pos cs (fun x hx => h x (by simp [hx])) i (by simpa using hi)
    exact ⟨this.2, by simp only; omega⟩

/-- Denominators grow with the index. -/
theorem candQ_step (cf : List Nat) (h : ∀ c ∈ cf, 1 ≤ c) (i : Nat) (hi : i + 1 < cf.length) :
    (candQ cf i).2 ≤ (candQ cf (i + 1)).2 := by
  unfold candQ
  have e : cf.take (i + 1) = cf.take i ++ [cf[i]] := by
    rw [List.take_add_one, List.getElem?_eq_getElem (by omega)]
    rfl
  rw [e, List.reverse_append, candN_append]
  have h1 : 1 ≤ cf[i] := h _ (List.getElem_mem _)
  have h2 : 1 ≤ cf[i + 1] := h _ (List.getElem_mem _)
  have e1 : cf.getD i 0 = cf[i] := by simp [List.getD, show i < cf.length by omega]
  have e2 : cf.getD (i + 1) 0 = cf[i + 1] := by simp [List.getD, hi]
  rw [e1, e2]
  refine (candN_mono _ ?_ ?_).2
  · exact h2
  · show cf[i] ≤ 1 + cf[i] * cf[i + 1]
    nlinarith

theorem candQ_le (cf : List Nat) (h : ∀ c ∈ cf, 1 ≤ c) {i j : Nat} (hij : i ≤ j) (hj : j < cf.length) :
    (candQ cf i).2 ≤ (candQ cf j).2 := by
  induction j, hij using Nat.le_induction with
  | base => exact le_rfl
  | succ j hle ih => exact le_trans (ih (by omega)) (candQ_step cf h j hj)

theorem candQ_coprime (cf : List Nat) (i : Nat) : Nat.Coprime (candQ cf i).1 (candQ cf i).2 :=
  candN_coprime _ (Nat.coprime_one_left _)

/-- No wrap-around as long as the denominator fits in 64 bits. -/
theorem cand_eq (cf : List Nat) (h : ∀ c ∈ cf, 1 ≤ c) (i : Nat) (hb : (candQ cf i).2 < 2 ^ 64) : cand cf i = candQ cf i :=
  candLoop_eq _ (fun c hc => h c (List.mem_of_mem_take (List.mem_reverse.1 hc))) _ _ hb

theorem floor_nat_div (r d f : Nat) (hf : d / r = f) : ⌊(d : ℝ) / r⌋ = (f : Int) := by
  subst hf
  rcases Nat.eq_zero_or_pos r with rfl | h0
  · simp
  have hr : (0 : ℝ) < r := by exact_mod_cast h0
  have e : (d : ℝ) = r * (d / r : Nat) + (d % r : Nat) := by exact_mod_cast (Nat.div_add_mod d r).symm
  have hl : ((d % r : Nat) : ℝ) < r := by exact_mod_cast Nat.mod_lt d h0
  have hn : (0 : ℝ) ≤ (d % r : Nat) := Nat.cast_nonneg _
  generalize d / r = f at *
  rw [Int.floor_eq_iff]
  simp only [Int.cast_natCast]
  rw [le_div_iff₀ hr, div_lt_iff₀ hr]
  constructor <;> nlinarith

/-- **The candidates are the convergents**: convergent `i` of `d / r` is the inverse of candidate `i`, and stays at
the last one. -/
theorem convergent_cand : ∀ (i r d : Nat), 0 < r → r ≤ d → ∃ j, j ≤ i ∧ j < (cfrac r d).length ∧
    ((d : ℝ) / r).convergent i = ((candQ (cfrac r d) j).2 : ℚ) / (candQ (cfrac r d) j).1 := by
  intro i
  induction i with
  | zero =>
    intro r d h0 hd
    refine ⟨0, le_rfl, ?_, ?_⟩
    · rw [cfrac_cons h0.ne']; simp
    · rw [cfrac_cons h0.ne', candQ_cons_zero, Real.convergent_zero]
      generalize hf : d / r = f
      rw [floor_nat_div r d f hf]
      simp
  | succ i ih =>
    intro r d h0 hd
    rw [cfrac_cons h0.ne']
    have hm : r * (d / r) + d % r = d := Nat.div_add_mod d r
    have hlt := Nat.mod_lt d h0
    generalize hf : d / r = f at *
    have hf' := floor_nat_div r d f hf
    have hr : (r : ℝ) ≠ 0 := by exact_mod_cast h0.ne'
    have hfr : Int.fract ((d : ℝ) / r) = ((d % r : Nat) : ℝ) / r := by
      rw [Int.fract, hf']
      have : (d : ℝ) = r * f + (d % r : Nat) := by exact_mod_cast hm.symm
      generalize ((d % r : Nat) : ℝ) = x at *
      rw [eq_div_iff hr, sub_mul, div_mul_cancel₀ _ hr, Int.cast_natCast]
      linarith
    rw [Real.convergent_succ, hf', hfr, inv_div]
    generalize d % r = s at *
    rcases Nat.eq_zero_or_pos s with h | h
    · refine ⟨0, Nat.zero_le _, by simp, ?_⟩
      rw [h, candQ_cons_zero]
      simp
    · obtain ⟨j, hj, hl, e⟩ := ih s r h hlt.le
      refine ⟨j + 1, by omega, by simpa using hl, ?_⟩
      rw [e, candQ_cons_succ]
      have hp := candQ_pos _ (cfrac_pos s r hlt.le) j hl
      have h2 : ((candQ (cfrac s r) j).2 : ℚ) ≠ 0 := by exact_mod_cast hp.2.ne'
      rw [inv_div]
      push_cast
      field_simp
      ring

/-- **Legendre.** Every fraction `p / q > 0` in lowest terms within `1/(2 q²)` of `res / d < 1` is a candidate. -/
theorem legendre_cand {p q r d : Nat} (hp : 0 < p) (hq : 0 < q) (hc : Nat.Coprime p q) (h0 : 0 < r) (hd : r < d)
    (h : |(r : ℚ) / d - p / q| < 1 / (2 * q ^ 2)) :
    ∃ m, m < (cfrac r d).length ∧ candQ (cfrac r d) m = (p, q) := by
  have hden : ((p : ℚ) / q).den = q := by
    have := Rat.den_div_eq_of_coprime (a := (p : ℤ)) (b := (q : ℤ)) (by exact_mod_cast hq) (by simpa using hc)
    simpa using this
  have hL : |((r : ℝ) / d) - (((p : ℚ) / q : ℚ) : ℝ)| < 1 / (2 * ((((p : ℚ) / q : ℚ).den : ℝ)) ^ 2) := by
    rw [hden]
    have := (Rat.cast_lt (K := ℝ)).2 h
    push_cast at this ⊢
    exact this
  obtain ⟨n, hn⟩ := Real.exists_rat_eq_convergent hL
  have hfloor : ⌊(r : ℝ) / d⌋ = 0 := by
    rw [Int.floor_eq_zero_iff]
    have : (0 : ℝ) < d := by exact_mod_cast (by omega : 0 < d)
    exact ⟨by positivity, (div_lt_one this).2 (by exact_mod_cast hd)⟩
  have hq0 : (q : ℚ) ≠ 0 := by exact_mod_cast hq.ne'
  have hp0 : (p : ℚ) ≠ 0 := by exact_mod_cast hp.ne'
  cases n with
  | zero =>
    exfalso
    rw [Real.convergent_zero, hfloor] at hn
    have : (p : ℚ) / q ≠ 0 := div_ne_zero hp0 hq0
    exact this (by simpa using hn)
  | succ n =>
    have hfr : Int.fract ((r : ℝ) / d) = (r : ℝ) / d := by rw [Int.fract, hfloor]; simp
    rw [Real.convergent_succ, hfloor, hfr, inv_div] at hn
    obtain ⟨j, hj, hl, e⟩ := convergent_cand n r d h0 hd.le
    rw [e, inv_div] at hn
    refine ⟨j, hl, ?_⟩
    have hpos := candQ_pos _ (cfrac_pos r d hd.le) j hl
    have hcop := candQ_coprime (cfrac r d) j
    generalize candQ (cfrac r d) j = c at *
    obtain ⟨c1, c2⟩ := c
    simp only at hpos hcop hn
    have h2 : (c2 : ℚ) ≠ 0 := by exact_mod_cast hpos.2.ne'
    have hx : p * c2 = c1 * q := by
      have : (p : ℚ) / q = c1 / c2 := by simpa using hn
      rw [_root_.div_eq_div_iff hq0 h2] at this
      exact_mod_cast this
    have d1 : q ∣ c2 := by
      have : q ∣ p * c2 := ⟨c1, by rw [hx, Nat.mul_comm]⟩
      exact hc.symm.dvd_of_dvd_mul_left this
    have d2 : c2 ∣ q := by
      have : c2 ∣ c1 * q := ⟨p, by rw [← hx, Nat.mul_comm]⟩
      exact hcop.symm.dvd_of_dvd_mul_left this
    have e2 : c2 = q := Nat.dvd_antisymm d2 d1
    subst e2
    have : p = c1 := Nat.eq_of_mul_eq_mul_right hq hx
    rw [this]

end QDD.Shor
