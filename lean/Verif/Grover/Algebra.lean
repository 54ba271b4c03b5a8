import Verif.Grover.Ops
/-!
# One Grover iteration is a reflection about the marked state and one about the uniform state
-/

set_option linter.unusedSectionVars false
set_option linter.unusedVariables false
set_option linter.unusedSimpArgs false

namespace QDD.Grover
open Spec Api Gate Props Py Py.Client
open Finset (range mem_range)

/-- A real number as a complex one. -/
def re (a : ℝ) : CR := ⟨a, 0⟩

theorem re_add (a b : ℝ) : re a + re b = re (a + b) := by apply Cx.ext <;> simp [re]
theorem re_sub (a b : ℝ) : re a - re b = re (a - b) := by apply Cx.ext <;> simp [re]
theorem re_mul (a b : ℝ) : re a * re b = re (a * b) := by apply Cx.ext <;> simp [re]
theorem re_neg (a : ℝ) : -re a = re (-a) := by apply Cx.ext <;> simp [re]
theorem re_zero : re 0 = 0 := rfl
theorem re_one : re 1 = 1 := rfl
theorem re_pow (a : ℝ) (m : Nat) : re a ^ m = re (a ^ m) := by
  induction m with
  | zero => rfl
  | succ m ih => rw [pow_succ, pow_succ, ih, re_mul]
theorem re_mag2 (a : ℝ) : (re a).mag2 = a * a := by simp [re, Cx.mag2]

theorem cc : SQRT2 * SQRT2 = 1 / 2 := by
  unfold SQRT2
  have := Real.mul_self_sqrt (show (0 : ℝ) ≤ 2 by norm_num)
  nlinarith

/-- The Hadamard gate on qubit `t`. -/
noncomputable def had (t : Nat) (f : Nat → CR) : Nat → CR := act t (fun a b => Hmat (bit a) (bit b)) f

theorem had_eq (t : Nat) (f : Nat → CR) (i : Nat) :
    had t f i = if i.testBit t then re SQRT2 * (f (i ^^^ 2 ^ t) - f i) else re SQRT2 * (f i + f (i ^^^ 2 ^ t)) := by
  unfold had act
  cases i.testBit t
  · have e1 : Hmat (bit false) (bit false) = re SQRT2 := rfl
    have e2 : Hmat (bit false) (bit !false) = re SQRT2 := rfl
    simp only [e1, e2, Bool.false_eq_true, if_false]
    ring
  · have e1 : Hmat (bit true) (bit true) = -re SQRT2 := by rw [re_neg]; rfl
    have e2 : Hmat (bit true) (bit !true) = re SQRT2 := rfl
    simp only [e1, e2, if_true]
    ring

theorem had_had (t : Nat) (f : Nat → CR) : had t (had t f) = f := by
  funext i
  rw [had_eq, had_eq, had_eq, bit_xor, if_pos rfl, xor_twice]
  have h : ∀ z : CR, re SQRT2 * (re SQRT2 * z + re SQRT2 * z) = z := by
    intro z
    have : re SQRT2 * re SQRT2 + re SQRT2 * re SQRT2 = 1 := by
      rw [re_mul, re_add, cc, ← re_one]; norm_num
    calc re SQRT2 * (re SQRT2 * z + re SQRT2 * z) = (re SQRT2 * re SQRT2 + re SQRT2 * re SQRT2) * z := by ring
      _ = z := by rw [this, one_mul]
  cases i.testBit t
  · simp only [Bool.not_false, Bool.false_eq_true, if_true, if_false]
    refine Eq.trans ?_ (h (f i)); ring
  · simp only [Bool.not_true, Bool.false_eq_true, if_true, if_false]
    refine Eq.trans ?_ (h (f i)); ring

theorem had_comm {s t : Nat} (h : s ≠ t) (f : Nat → CR) : had s (had t f) = had t (had s f) := act_comm h _ _ f

theorem had_sub (t : Nat) (z : CR) (f g : Nat → CR) :
    had t (fun i => f i - z * g i) = fun i => had t f i - z * had t g i := by
  funext i
  simp only [had_eq]
  split <;> ring

/-- Hadamard gates on the lowest `m` qubits, the lowest first. -/
noncomputable def wal (m : Nat) (f : Nat → CR) : Nat → CR := runOps ((List.range m).map had) f

theorem wal_zero (f : Nat → CR) : wal 0 f = f := rfl
theorem wal_succ (m : Nat) (f : Nat → CR) : wal (m + 1) f = had m (wal m f) := by
  unfold wal runOps
  rw [List.range_succ, List.map_append, List.foldl_append]
  rfl

theorem had_wal {t m : Nat} (h : m ≤ t) (f : Nat → CR) : had t (wal m f) = wal m (had t f) := by
  induction m with
  | zero => rfl
  | succ m ih => rw [wal_succ, wal_succ, had_comm (by omega), ih (by omega)]

theorem wal_wal (m : Nat) (f : Nat → CR) : wal m (wal m f) = f := by
  induction m with
  | zero => rfl
  | succ m ih => rw [wal_succ, wal_succ, ← had_wal le_rfl, had_had, ih]

theorem wal_sub (m : Nat) (z : CR) (f g : Nat → CR) :
    wal m (fun i => f i - z * g i) = fun i => wal m f i - z * wal m g i := by
  induction m with
  | zero => rfl
  | succ m ih => rw [wal_succ, ih, had_sub, wal_succ, wal_succ]

theorem mod_succ (i m : Nat) : i % 2 ^ (m + 1) = i % 2 ^ m + if i.testBit m then 2 ^ m else 0 := by
  rw [Nat.mod_pow_succ, Nat.testBit_eq_decide_div_mod_eq]
  rcases Nat.mod_two_eq_zero_or_one (i / 2 ^ m) with h | h <;> simp [h]

theorem xor_up {i m : Nat} (h : i.testBit m = false) : i ^^^ 2 ^ m = i + 2 ^ m := by
  have hr : i % 2 ^ m < 2 ^ m := Nat.mod_lt _ (Nat.two_pow_pos m)
  have hd := Nat.div_add_mod i (2 ^ m)
  have h2 : i / 2 ^ m = 2 * (i / 2 ^ m / 2) := by
    rw [Nat.testBit_eq_decide_div_mod_eq] at h
    have : i / 2 ^ m % 2 ≠ 1 := by simpa using h
    omega
  generalize i % 2 ^ m = r at *
  generalize i / 2 ^ m / 2 = a at *
  rw [h2] at hd
  have e1 : i + 2 ^ m = 2 ^ m * (2 * a + 1) + r := by rw [← hd, Nat.mul_add, Nat.mul_one]; omega
  rw [e1]
  apply Nat.eq_of_testBit_eq
  intro c
  rw [bit_xor, Nat.testBit_two_pow_mul_add _ hr]
  by_cases hc : c = m
  · subst hc
    rw [if_pos rfl, h, if_neg (Nat.lt_irrefl c), Nat.sub_self, Nat.testBit_zero]
    simp [Nat.add_mod]
  · rw [if_neg hc, ← hd, Nat.testBit_two_pow_mul_add _ hr]
    by_cases hlt : c < m
    · rw [if_pos hlt, if_pos hlt]
    · rw [if_neg hlt, if_neg hlt]
      obtain ⟨d, hd⟩ : ∃ d, c - m = d + 1 := ⟨c - m - 1, by omega⟩
      rw [hd, Nat.testBit_succ, Nat.testBit_succ]
      congr 1
      omega

theorem xor_down {i m : Nat} (h : i.testBit m = true) : (i ^^^ 2 ^ m) + 2 ^ m = i := by
  have : (i ^^^ 2 ^ m).testBit m = false := by rw [bit_xor, if_pos rfl, h]; rfl
  rw [← xor_up this, xor_twice]

/-- At an index whose low bits are 0 the transform is the (scaled) sum of the block. -/
theorem wal_low {m : Nat} (f : Nat → CR) : ∀ {i : Nat}, i % 2 ^ m = 0 →
    wal m f i = re SQRT2 ^ m * ∑ x ∈ range (2 ^ m), f (i + x) := by
  induction m with
  | zero => intro i _; simp [wal_zero]
  | succ m ih =>
    intro i hi
    have hpos : 0 < 2 ^ m := Nat.two_pow_pos m
    have hs := mod_succ i m
    have hb : i.testBit m = false := by
      by_contra hc
      rw [Bool.not_eq_false] at hc
      rw [hc, if_pos rfl] at hs
      omega
    rw [hb] at hs
    simp only [Bool.false_eq_true, if_false] at hs
    rw [wal_succ, had_eq, hb, xor_up hb]
    simp only [Bool.false_eq_true, if_false]
    rw [ih (i := i) (by omega), ih (i := i + 2 ^ m) (by rw [Nat.add_mod_right]; omega), pow_succ 2 m, Nat.mul_two, Finset.sum_range_add]
    have : ∀ x, f (i + 2 ^ m + x) = f (i + (2 ^ m + x)) := fun x => by rw [Nat.add_assoc]
    simp only [this]
    ring

/-- The transform of a function that lives on indices with low bits 0. -/
theorem wal_supp {m : Nat} {g : Nat → CR} : (∀ i, i % 2 ^ m ≠ 0 → g i = 0) → ∀ i,
    wal m g i = re SQRT2 ^ m * g (i - i % 2 ^ m) := by
  induction m with
  | zero => intro _ i; simp [wal_zero, Nat.mod_one]
  | succ m ih =>
    intro hg i
    have hpos : 0 < 2 ^ m := Nat.two_pow_pos m
    have hg' : ∀ i, i % 2 ^ m ≠ 0 → g i = 0 := fun i h => hg i (by
      have := mod_succ i m
      omega)
    have hle := Nat.mod_le i (2 ^ m)
    have hmul : ∀ j, (j - j % 2 ^ m) % 2 ^ m = 0 := fun j => by
      rw [← Nat.mul_mod_right (2 ^ m) (j / 2 ^ m)]
      congr 1
      have := Nat.div_add_mod j (2 ^ m)
      omega
    have hbit : ∀ j, (j - j % 2 ^ m).testBit m = j.testBit m := fun j => by
      have h1 : j - j % 2 ^ m = 2 ^ m * (j / 2 ^ m) := by
        have := Nat.div_add_mod j (2 ^ m)
        omega
      rw [h1, Nat.testBit_two_pow_mul, Nat.testBit_eq_decide_div_mod_eq, Nat.testBit_eq_decide_div_mod_eq]
      simp
    have hz : ∀ j, j.testBit m = true → g (j - j % 2 ^ m) = 0 := fun j hj => hg _ (by
      have h1 := mod_succ (j - j % 2 ^ m) m
      rw [hbit, hj, if_pos rfl] at h1
      omega)
    have hs := mod_succ i m
    rw [wal_succ, had_eq, ih hg', ih hg']
    by_cases hb : i.testBit m
    · have hd := xor_down hb
      rw [if_pos hb] at hs ⊢
      have e : (i ^^^ 2 ^ m) % 2 ^ m = i % 2 ^ m := by
        conv_rhs => rw [← hd, Nat.add_mod_right]
      rw [hz i hb, e, hs, show (i ^^^ 2 ^ m) - i % 2 ^ m = i - (i % 2 ^ m + 2 ^ m) from by omega]
      ring
    · rw [Bool.not_eq_true] at hb
      rw [hb] at hs ⊢
      simp only [Bool.false_eq_true, if_false, Nat.add_zero] at hs ⊢
      rw [hz (i ^^^ 2 ^ m) (by rw [bit_xor, if_pos rfl, hb]; rfl), hs]
      ring

/-- The X gate on qubit `t`. -/
noncomputable def flp (t : Nat) (f : Nat → CR) : Nat → CR := act t (fun a b => Xmat (bit a) (bit b)) f

theorem flp_eq (t : Nat) (f : Nat → CR) (i : Nat) : flp t f i = f (i ^^^ 2 ^ t) := by
  unfold flp act
  cases i.testBit t
  · show (0 : CR) * _ + (1 : CR) * _ = _
    ring
  · show (0 : CR) * _ + (1 : CR) * _ = _
    ring

/-- X on the lowest `m` qubits. -/
noncomputable def flips (m : Nat) (f : Nat → CR) : Nat → CR := runOps ((List.range m).map flp) f

theorem flips_eq (m : Nat) (f : Nat → CR) : ∀ i, flips m f i = f (i ^^^ (2 ^ m - 1)) := by
  induction m with
  | zero => intro i; simp [flips, runOps]
  | succ m ih =>
    intro i
    have e : flips (m + 1) f = flp m (flips m f) := by
      unfold flips runOps
      rw [List.range_succ, List.map_append, List.foldl_append]
      rfl
    rw [e, flp_eq, ih, Nat.xor_assoc]
    congr 2
    apply Nat.eq_of_testBit_eq
    intro c
    rw [Nat.testBit_xor, Nat.testBit_two_pow, Nat.testBit_two_pow_sub_one, Nat.testBit_two_pow_sub_one]
    by_cases h1 : m = c
    · subst h1; simp
    · by_cases h2 : c < m
      · simp [h1, h2, Nat.lt_succ_of_lt h2]
      · have : ¬ c < m + 1 := by omega
        simp [h1, h2, this]

theorem low_zero {n i : Nat} : (∀ b < n, i.testBit b = false) ↔ i % 2 ^ n = 0 := by
  constructor
  · intro h
    apply Nat.eq_of_testBit_eq
    intro c
    rw [Nat.testBit_mod_two_pow, Nat.zero_testBit]
    by_cases hc : c < n
    · simp [h c hc]
    · simp [hc]
  · intro h b hb
    have : (i % 2 ^ n).testBit b = false := by rw [h, Nat.zero_testBit]
    rw [Nat.testBit_mod_two_pow] at this
    simpa [hb] using this

/-- The controls of the diffusion. -/
def diffControls (n : Nat) : List Ctrl := (List.range (n - 1)).map fun i => ⟨i, false⟩

theorem sat_diff {n i : Nat} : sat (diffControls n) (n + 1) i ↔ ∀ b < n - 1, i.testBit b = true := by
  unfold sat diffControls
  constructor
  · intro h b hb
    exact h ⟨b, false⟩ (List.mem_map.2 ⟨b, List.mem_range.2 hb, rfl⟩) (show b < n + 1 by omega)
  · intro h c hc _
    obtain ⟨b, hb, rfl⟩ := List.mem_map.1 hc
    exact h b (List.mem_range.1 hb)

/-- H, controlled X, H on the last data qubit: the sign of the all-ones index. -/
theorem hxh {n : Nat} (hn : 0 < n) (f : Nat → CR) (i : Nat) :
    had (n - 1) (cact (n + 1) (n - 1) (diffControls n) (fun a b => Xmat (bit a) (bit b)) (had (n - 1) f)) i
      = if ∀ b < n, i.testBit b = true then - f i else f i := by
  have hc : ∀ (g : Nat → CR) j, cact (n + 1) (n - 1) (diffControls n) (fun a b => Xmat (bit a) (bit b)) g j =
      if ∀ b < n - 1, j.testBit b = true then g (j ^^^ 2 ^ (n - 1)) else g j := by
    intro g j
    unfold cact
    simp only [sat_diff]
    split
    · exact flp_eq (n - 1) g j
    · rfl
  have hflip : (∀ b < n - 1, (i ^^^ 2 ^ (n - 1)).testBit b = true) ↔ ∀ b < n - 1, i.testBit b = true := by
    constructor
    · intro h b hb; have := h b hb; rwa [bit_xor, if_neg (by omega)] at this
    · intro h b hb; rw [bit_xor, if_neg (by omega)]; exact h b hb
  have hall : (∀ b < n, i.testBit b = true) ↔ (∀ b < n - 1, i.testBit b = true) ∧ i.testBit (n - 1) = true := by
    constructor
    · intro h; exact ⟨fun b hb => h b (by omega), h _ (by omega)⟩
    · rintro ⟨h1, h2⟩ b hb
      by_cases hbn : b = n - 1
      · rw [hbn]; exact h2
      · exact h1 b (by omega)
  by_cases hs : ∀ b < n - 1, i.testBit b = true
  · have hs' := hflip.2 hs
    rw [had_eq, hc, hc, if_pos hs, if_pos hs', xor_twice]
    have hh : re SQRT2 * re SQRT2 + re SQRT2 * re SQRT2 = 1 := by rw [re_mul, re_add, cc, ← re_one]; norm_num
    rw [had_eq, had_eq, bit_xor, if_pos rfl, xor_twice]
    have hall' : (∀ b < n, i.testBit b = true) ↔ i.testBit (n - 1) = true := hall.trans ⟨fun h => h.2, fun h => ⟨hs, h⟩⟩
    simp only [hall']
    cases i.testBit (n - 1)
    · simp only [Bool.not_false, Bool.false_eq_true, if_true, if_false, implies_true, true_and]
      calc _ = (re SQRT2 * re SQRT2 + re SQRT2 * re SQRT2) * f i := by ring
        _ = f i := by rw [hh, one_mul]
    · simp only [Bool.not_true, Bool.false_eq_true, if_true, if_false, implies_true, and_self]
      calc _ = -((re SQRT2 * re SQRT2 + re SQRT2 * re SQRT2) * f i) := by ring
        _ = - f i := by rw [hh, one_mul]
  · have hs' := fun h => hs (hflip.1 h)
    rw [if_neg (fun h => hs (hall.1 h).1)]
    have : had (n - 1) (cact (n + 1) (n - 1) (diffControls n) (fun a b => Xmat (bit a) (bit b)) (had (n - 1) f)) i
        = had (n - 1) (had (n - 1) f) i := by
      rw [had_eq, hc, hc, if_neg hs, if_neg hs']
      rw [had_eq (n - 1) (had (n - 1) f)]
    rw [this, had_had]

/-- The diffusion operator as built by the program. -/
noncomputable def diffusion (n : Nat) (f : Nat → CR) : Nat → CR :=
  wal n (flips n (had (n - 1) (cact (n + 1) (n - 1) (diffControls n) (fun a b => Xmat (bit a) (bit b))
    (had (n - 1) (flips n (wal n f))))))

/-- **Inversion about the mean** (with the opposite sign). -/
theorem diffusion_eq {n : Nat} (hn : 0 < n) (f : Nat → CR) (i : Nat) :
    diffusion n f i = f i - re (2 / 2 ^ n) * ∑ x ∈ range (2 ^ n), f (i - i % 2 ^ n + x) := by
  have hx : ∀ j b, b < n → (j ^^^ (2 ^ n - 1)).testBit b = !j.testBit b := by
    intro j b hb
    rw [Nat.testBit_xor, Nat.testBit_two_pow_sub_one]
    simp [hb]
  have hm : flips n (had (n - 1) (cact (n + 1) (n - 1) (diffControls n) (fun a b => Xmat (bit a) (bit b))
      (had (n - 1) (flips n (wal n f))))) = fun i => wal n f i - re 2 * (if i % 2 ^ n = 0 then wal n f i else 0) := by
    funext j
    have e : (∀ b < n, (j ^^^ (2 ^ n - 1)).testBit b = true) ↔ j % 2 ^ n = 0 := by
      rw [← low_zero]
      constructor
      · intro h b hb; have := h b hb; rw [hx j b hb] at this; simpa using this
      · intro h b hb; rw [hx j b hb, h b hb]; rfl
    have e2 : ∀ j, flips n (wal n f) (j ^^^ (2 ^ n - 1)) = wal n f j := by
      intro j
      rw [flips_eq, Nat.xor_assoc, Nat.xor_self, Nat.xor_zero]
    rw [flips_eq, hxh hn, e2]
    simp only [e]
    have h2 : re 2 = 1 + 1 := by rw [← re_one, re_add]; norm_num
    split
    · rw [h2]; ring
    · ring
  unfold diffusion
  rw [hm, wal_sub, wal_wal]
  dsimp only
  rw [wal_supp (fun j hj => if_neg hj)]
  have hmul : (i - i % 2 ^ n) % 2 ^ n = 0 := by
    rw [← Nat.mul_mod_right (2 ^ n) (i / 2 ^ n)]
    congr 1
    have := Nat.div_add_mod i (2 ^ n)
    omega
  rw [if_pos hmul, wal_low f hmul]
  congr 1
  have hp : re SQRT2 ^ n * re SQRT2 ^ n = re (1 / 2 ^ n) := by
    rw [← mul_pow, re_mul, cc, re_pow, div_pow, one_pow]
  calc _ = re 2 * (re SQRT2 ^ n * re SQRT2 ^ n) * ∑ x ∈ range (2 ^ n), f (i - i % 2 ^ n + x) := by ring
    _ = _ := by rw [hp, re_mul]; congr 2; ring

/-- The index of an oracle string: character `b` is bit `b`. -/
def marked : List Bool → Nat
  | [] => 0
  | b :: l => (if b then 1 else 0) + 2 * marked l

theorem marked_lt (l : List Bool) : marked l < 2 ^ l.length := by
  induction l with
  | nil => simp [marked]
  | cons b l ih =>
    unfold marked
    rw [List.length_cons, pow_succ]
    split <;> omega

theorem marked_bit (l : List Bool) : ∀ b, (marked l).testBit b = l.getD b false := by
  induction l with
  | nil => intro b; simp [marked]
  | cons a l ih =>
    intro b
    unfold marked
    cases b with
    | zero => cases a <;> simp [Nat.testBit_zero, Nat.add_mod]
    | succ b =>
      rw [Nat.testBit_succ, show ((if a = true then 1 else 0) + 2 * marked l) / 2 = marked l from by split <;> omega, ih]
      simp

theorem sat_oracle {oracle : List Bool} {n i : Nat} (hl : oracle.length = n) :
    sat (oracleControls oracle n) (n + 1) i ↔ i % 2 ^ n = marked oracle := by
  have hw := marked_lt oracle
  rw [hl] at hw
  have h1 : sat (oracleControls oracle n) (n + 1) i ↔ ∀ b < n, i.testBit b = oracle.getD b false := by
    unfold sat oracleControls
    constructor
    · intro h b hb
      have := h ⟨b, !oracle.getD b false⟩ (List.mem_map.2 ⟨b, List.mem_range.2 hb, rfl⟩) (show b < n + 1 by omega)
      simpa using this
    · intro h c hc _
      obtain ⟨b, hb, rfl⟩ := List.mem_map.1 hc
      have := h b (List.mem_range.1 hb)
      simpa using this
  rw [h1]
  constructor
  · intro h
    apply Nat.eq_of_testBit_eq
    intro c
    rw [Nat.testBit_mod_two_pow]
    by_cases hc : c < n
    · rw [h c hc, marked_bit]; simp [hc]
    · rw [Nat.testBit_lt_two_pow (lt_of_lt_of_le hw (Nat.pow_le_pow_right (by omega) (Nat.le_of_not_lt hc)))]
      simp [hc]
  · intro h b hb
    rw [← marked_bit, ← h, Nat.testBit_mod_two_pow]
    simp [hb]

/-- The oracle as built by the program. -/
noncomputable def oracleOp (oracle : List Bool) (n : Nat) : (Nat → CR) → Nat → CR :=
  cact (n + 1) n (oracleControls oracle n) fun a b => Zmat (bit a) (bit b)

theorem oracle_eq {oracle : List Bool} {n : Nat} (hl : oracle.length = n) (f : Nat → CR) (i : Nat) :
    oracleOp oracle n f i = if i % 2 ^ n = marked oracle ∧ i.testBit n = true then - f i else f i := by
  unfold oracleOp cact
  simp only [sat_oracle hl]
  by_cases h : i % 2 ^ n = marked oracle
  · simp only [h, if_true, true_and]
    unfold act
    cases i.testBit n
    · show (1 : CR) * _ + (0 : CR) * _ = _
      simp
    · show (re (-1) : CR) * _ + (0 : CR) * _ = _
      rw [← re_neg, re_one]; simp
  · rw [if_neg h, if_neg (fun hh => h hh.1)]

/-- A state that only distinguishes the marked index, the ancilla being 1. -/
noncomputable def two (n w : Nat) (a b : ℝ) : Nat → CR := fun i =>
  if i / 2 ^ n = 1 then (if i % 2 ^ n = w then re a else re b) else 0

/-- **One iteration** on such a state. -/
theorem iter_two {oracle : List Bool} {n : Nat} (hn : 0 < n) (hl : oracle.length = n) (a b : ℝ) :
    diffusion n (oracleOp oracle n (two n (marked oracle) a b)) =
      two n (marked oracle) (-a - 2 / 2 ^ n * (-a + (2 ^ n - 1) * b)) (b - 2 / 2 ^ n * (-a + (2 ^ n - 1) * b)) := by
  have hw := marked_lt oracle
  rw [hl] at hw
  generalize hwd : marked oracle = w at *
  have hpos : 0 < 2 ^ n := Nat.two_pow_pos n
  have ho : ∀ i, oracleOp oracle n (two n w a b) i = two n w (-a) b i := by
    intro i
    rw [oracle_eq hl, hwd]
    unfold two
    by_cases h1 : i / 2 ^ n = 1
    · have hb : i.testBit n = true := by rw [Nat.testBit_eq_decide_div_mod_eq, h1]; rfl
      simp only [h1, hb, if_true, and_true]
      split
      · rw [re_neg]
      · rfl
    · simp only [h1, if_false]
      split <;> simp
  funext i
  rw [diffusion_eq hn]
  have hdm := Nat.div_add_mod i (2 ^ n)
  have hbase : i - i % 2 ^ n = 2 ^ n * (i / 2 ^ n) := by omega
  have hq : ∀ x, x < 2 ^ n → (i - i % 2 ^ n + x) / 2 ^ n = i / 2 ^ n ∧ (i - i % 2 ^ n + x) % 2 ^ n = x := by
    intro x hx
    rw [hbase]
    constructor
    · rw [Nat.mul_add_div hpos, Nat.div_eq_of_lt hx, Nat.add_zero]
    · rw [Nat.mul_add_mod, Nat.mod_eq_of_lt hx]
  have hsum : ∑ x ∈ range (2 ^ n), oracleOp oracle n (two n w a b) (i - i % 2 ^ n + x) =
      if i / 2 ^ n = 1 then re (-a + (2 ^ n - 1) * b) else 0 := by
    have e : ∀ x ∈ range (2 ^ n), oracleOp oracle n (two n w a b) (i - i % 2 ^ n + x) =
        if i / 2 ^ n = 1 then re b + (if x = w then re (-a) - re b else 0) else 0 := by
      intro x hx
      obtain ⟨h1, h2⟩ := hq x (mem_range.1 hx)
      rw [ho]
      unfold two
      rw [h1, h2]
      by_cases hi : i / 2 ^ n = 1
      · simp only [hi, if_true]
        split
        · ring
        · ring
      · simp only [hi, if_false]
    rw [Finset.sum_congr rfl e]
    by_cases hi : i / 2 ^ n = 1
    · simp only [hi, if_true]
      rw [Finset.sum_add_distrib, Finset.sum_ite_eq' (range (2 ^ n)) w, if_pos (mem_range.2 hw), Finset.sum_const, Finset.card_range]
      have : ∀ m : Nat, m • re b = re (m * b) := by
        intro m
        induction m with
        | zero => simp [re_zero]
        | succ m ih => rw [succ_nsmul, ih, re_add]; congr 1; push_cast; ring
      rw [this, re_sub, re_add]
      congr 1
      push_cast
      ring
    · simp only [hi, if_false, Finset.sum_const_zero]
  rw [hsum, ho]
  unfold two
  by_cases hi : i / 2 ^ n = 1
  · simp only [hi, if_true]
    split
    · rw [re_mul, re_sub]
    · rw [re_mul, re_sub]
  · simp only [hi, if_false]
    ring

/-- The setup: X on the ancilla, Hadamard gates on the data qubits. -/
theorem setup_two (n : Nat) (w : Nat) :
    wal n (flp n zeroState) = two n w (SQRT2 ^ n) (SQRT2 ^ n) := by
  have hpos : 0 < 2 ^ n := Nat.two_pow_pos n
  have hf : ∀ i, flp n zeroState i = if i = 2 ^ n then 1 else 0 := by
    intro i
    rw [flp_eq]
    unfold zeroState
    have : i ^^^ 2 ^ n = 0 ↔ i = 2 ^ n := by
      constructor
      · intro h; rw [← xor_twice i n, h, Nat.zero_xor]
      · rintro rfl; exact Nat.xor_self _
    simp only [this]
  funext i
  rw [wal_supp (g := flp n zeroState) (fun i hi => by
    rw [hf, if_neg]
    rintro rfl
    exact hi (Nat.mod_self _)), hf]
  have hdm := Nat.div_add_mod i (2 ^ n)
  have hbase : i - i % 2 ^ n = 2 ^ n * (i / 2 ^ n) := by omega
  unfold two
  rw [hbase, re_pow]
  by_cases hi : i / 2 ^ n = 1
  · rw [hi, Nat.mul_one, if_pos rfl, if_pos rfl, mul_one]
    split <;> rfl
  · rw [if_neg hi, if_neg, mul_zero]
    intro h
    apply hi
    have : 2 ^ n * (i / 2 ^ n) = 2 ^ n * 1 := by rw [h, Nat.mul_one]
    exact Nat.eq_of_mul_eq_mul_left hpos this

end QDD.Grover
