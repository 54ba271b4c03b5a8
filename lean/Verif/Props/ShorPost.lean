import Verif.Props.Shor
import Verif.Shor.Legendre
import Verif.Num.FloatR
import Mathlib.FieldTheory.Finite.Basic
import Mathlib.Data.Nat.Totient
import Mathlib.Analysis.SpecialFunctions.Pow.Real
import Mathlib.Tactic.NormNum
/-!
# C67: `post_processing` finds the factors from every ideal measurement

If the measured number is the nearest integer to `k * 2^(2 required_bits) / r`, where `r` is the order of
`a` modulo `n`, even and with `a^(r/2) ≠ -1`, and `0 < k < r`, then two proper factors of `n` are returned: for
every such `n`, `a`, `k`, including the `k` that share a factor with `r`.
-/
set_option linter.unusedVariables false
set_option linter.unusedSimpArgs false

namespace QDD.Props
open QDD.Shor

/-- The characters `required_bits ..< 3 * required_bits` of the sample are the binary digits of `res`, most
significant first. -/
def Digits (sample : List Char) (rb res : Nat) : Prop :=
  ∀ i : Nat, i < 2 * rb → sample[rb + i]? = some (if res / 2 ^ (2 * rb - 1 - i) % 2 = 1 then '1' else '0')

theorem readRes_digits {sample : List Char} {rb res : Nat} (hrb : rb ≤ 31) (h : Digits sample rb res) :
    ∀ k, k ≤ 2 * rb → res < 2 ^ (2 * rb) → readRes sample rb k (res / 2 ^ k) = some res := by
  intro k
  induction k with
  | zero => intro _ _; simp [readRes]
  | succ k ih =>
    intro hk hres
    have hd := h (2 * rb - (k + 1)) (by omega)
    rw [show 2 * rb - 1 - (2 * rb - (k + 1)) = k by omega] at hd
    unfold readRes
    rw [hd]
    have hp : 2 ^ (2 * rb) ≤ 2 ^ 62 := Nat.pow_le_pow_right (by norm_num) (by omega)
    have e : u64 (u64 ((res / 2 ^ (k + 1)) <<< 1) + if (if res / 2 ^ k % 2 = 1 then '1' else '0') = '1' then 1 else 0) = res / 2 ^ k := by
      have e1 : res / 2 ^ (k + 1) = res / 2 ^ k / 2 := by rw [pow_succ, Nat.div_div_eq_div_mul]
      have e2 : res / 2 ^ k ≤ res := Nat.div_le_self _ _
      rw [e1, Nat.shiftLeft_eq]
      generalize res / 2 ^ k = x at *
      unfold u64
      by_cases ho : x % 2 = 1
      · rw [if_pos ho, if_pos rfl]; omega
      · rw [if_neg ho, if_neg (by decide)]; omega
    simp only
    rw [e]
    exact ih (by omega) hres

theorem readRes_of_digits {sample : List Char} {rb res : Nat} (hrb : rb ≤ 31) (h : Digits sample rb res)
    (hres : res < 2 ^ (2 * rb)) : readRes sample rb (2 * rb) 0 = some res := by
  have := readRes_digits hrb h (2 * rb) le_rfl hres
  rwa [Nat.div_eq_of_lt hres] at this

/-- The test of shor.cpp 342 decides `|res/denom - num/den| < 1/(2 denom)` up to a relative error `1/n` of the
bound; on what lies closer to the bound it may say anything. -/
def TestOk (n res denom : Nat) (close : Nat → Nat → Bool) : Prop :=
  ∀ num den : Nat, num ≤ den → 0 < den → den ≤ n →
    (|(res : ℚ) / denom - num / den| ≤ (1 - 1 / n) / (2 * denom) → close num den = true) ∧
    ((1 + 1 / n) / (2 * denom) ≤ |(res : ℚ) / denom - num / den| → close num den = false)

/-- The order of `a` modulo `n` is less than `n`. -/
theorem order_lt {n a r : Nat} (hn : 1 < n) (hr0 : 0 < r) (hone : a ^ r % n = 1)
    (hmin : ∀ j, 0 < j → j < r → a ^ j % n ≠ 1) : r < n := by
  have hcop : Nat.Coprime a n := by
    have h1 : Nat.Coprime (a ^ r) n := by
      rw [Nat.Coprime, Nat.gcd_comm, Nat.gcd_rec, hone, Nat.gcd_one_left]
    exact (Nat.coprime_pow_left_iff hr0 _ _).1 h1
  have ht := Nat.ModEq.pow_totient hcop
  have ht' : a ^ n.totient % n = 1 := by
    have : a ^ n.totient % n = 1 % n := ht
    rwa [Nat.mod_eq_of_lt hn] at this
  by_contra hge
  have h1 : n.totient < n := Nat.totient_lt n hn
  exact hmin n.totient (Nat.totient_pos.2 (by omega)) (by omega) ht'

theorem gap_aux {x : ℚ} (hx : 3 ≤ x) : (1 + 1 / x + 1) * ((x - 1) * (x - 1)) ≤ 2 * (x * x) := by
  have h0 : x ≠ 0 := by linarith
  have h3 : (1 / x) * x = 1 := by field_simp
  have h2 : 1 / x ≤ 1 := (div_le_one (by linarith)).2 (by linarith)
  generalize 1 / x = y at *
  have e : (1 + y + 1) * ((x - 1) * (x - 1)) = 2 * (x * x) - 3 * x + y := by linear_combination (x - 2) * h3
  rw [e]; linarith

/-- Another fraction whose denominator is not larger is too far away. -/
theorem earlier_far {n N res p q u v : Nat} (hcop : Nat.Coprime p q) (hcj : Nat.Coprime u v) (hv : 0 < v) (hq0 : 0 < q)
    (hd : v ≤ q) (hqn : q + 1 ≤ n) (hn3 : 3 ≤ n) (hNn : n * n ≤ N) (hnear : |(res : ℚ) / N - p / q| < 1 / (2 * N))
    (hne : (u, v) ≠ (p, q)) : (1 + 1 / (n : ℚ)) / (2 * N) ≤ |(res : ℚ) / N - u / v| := by
  have vQ : (0 : ℚ) < v := by exact_mod_cast hv
  have qQ : (0 : ℚ) < q := by exact_mod_cast hq0
  have vq : (v : ℚ) ≤ q := by exact_mod_cast hd
  have nQ : (3 : ℚ) ≤ n := by exact_mod_cast hn3
  have qn : (q : ℚ) + 1 ≤ n := by exact_mod_cast hqn
  have nnN : (n : ℚ) * n ≤ N := by exact_mod_cast hNn
  have NQ : (0 : ℚ) < N := by nlinarith
  have hcross : u * q ≠ p * v := by
    intro hx
    have d1 : q ∣ v := hcop.symm.dvd_of_dvd_mul_left ⟨u, by rw [← hx, Nat.mul_comm]⟩
    have d2 : v ∣ q := hcj.symm.dvd_of_dvd_mul_left ⟨p, by rw [hx, Nat.mul_comm]⟩
    have e2 : v = q := Nat.dvd_antisymm d2 d1
    subst e2
    exact hne (by rw [Nat.eq_of_mul_eq_mul_right hv hx])
  have hdiff : 1 / ((v : ℚ) * q) ≤ |(u : ℚ) / v - p / q| := by
    have e : (u : ℚ) / v - p / q = ((u * q - p * v : Int) : ℚ) / (v * q) := by
      push_cast; field_simp
    rw [e, abs_div, abs_of_pos (by positivity : (0 : ℚ) < v * q), ← Int.cast_abs]
    apply div_le_div_of_nonneg_right _ (by positivity)
    have : (1 : Int) ≤ |(u * q - p * v : Int)| := by
      apply Int.one_le_abs
      intro h0
      apply hcross
      have : (u * q : Int) = p * v := by linarith
      exact_mod_cast this
    exact_mod_cast this
  have htri : |(u : ℚ) / v - p / q| ≤ |(res : ℚ) / N - u / v| + |(res : ℚ) / N - p / q| := by
    have := abs_sub_le ((u : ℚ) / v) (res / N) (p / q)
    rwa [abs_sub_comm ((u : ℚ) / v) (res / N)] at this
  have hbig : (1 + 1 / (n : ℚ)) / (2 * N) + 1 / (2 * N) ≤ 1 / (v * q) := by
    rw [← add_div, div_le_div_iff₀ (by positivity) (by positivity)]
    have h1 : (v : ℚ) * q ≤ (n - 1) * (n - 1) := by
      apply mul_le_mul (by linarith) (by linarith) (by positivity) (by linarith)
    have h5 := gap_aux nQ
    have h4 : (0 : ℚ) < 1 / n := by
      apply one_div_pos.2; linarith
    calc (1 + 1 / (n : ℚ) + 1) * (v * q) ≤ (1 + 1 / (n : ℚ) + 1) * ((n - 1) * (n - 1)) :=
          mul_le_mul_of_nonneg_left h1 (by linarith)
      _ ≤ 2 * (n * n) := h5
      _ ≤ 1 * (2 * N) := by linarith
  linarith

/-- **C67.** From every ideal measurement of a good period `post_processing` returns two proper factors. -/
theorem C67_factors_found (n a rb r k res : Nat) (close : Nat → Nat → Nat → Nat → Bool) (sample : List Char)
    (hn : 1 < n) (hodd : n % 2 = 1) (hnb : n ≤ 2 ^ rb) (hrb : rb ≤ 31)
    (hr0 : 0 < r) (hone : a ^ r % n = 1) (hmin : ∀ j, 0 < j → j < r → a ^ j % n ≠ 1)
    (hr2 : r % 2 = 0) (hneg : a ^ (r / 2) % n ≠ n - 1)
    (hk0 : 0 < k) (hk : k < r)
    (hres : res < 2 ^ (2 * rb)) (hsample : Digits sample rb res)
    (hnear : |(res : ℚ) / 2 ^ (2 * rb) - k / r| < 1 / (2 * 2 ^ (2 * rb)))
    (hclose : TestOk n res (2 ^ (2 * rb)) (close res (2 ^ (2 * rb)))) :
    ∃ f1 f2, postProcessing n a rb close sample = .ret f1 f2 ∧ 1 < f1 ∧ 1 < f2 ∧ f1 * f2 = n := by
  have hrn := order_lt hn hr0 hone hmin
  have hrb1 : n < 2 ^ 32 := lt_of_le_of_lt hnb (lt_of_le_of_lt (Nat.pow_le_pow_right (by norm_num) hrb) (by norm_num))
  have hN : u64 (1 <<< (2 * rb)) = 2 ^ (2 * rb) := by
    rw [Nat.shiftLeft_eq, one_mul]
    exact Nat.mod_eq_of_lt (lt_of_le_of_lt (Nat.pow_le_pow_right (by norm_num) (show 2 * rb ≤ 62 by omega)) (by norm_num))
  have hNn : n * n ≤ 2 ^ (2 * rb) := by
    rw [two_mul, pow_add]; exact Nat.mul_le_mul hnb hnb
  generalize hNdef : 2 ^ (2 * rb) = N at *
  have hNq : ((2 : ℚ) ^ (2 * rb)) = (N : ℚ) := by rw [← hNdef]; push_cast; rfl
  rw [hNq] at hnear
  have hn3 : 3 ≤ n := by omega
  -- the fraction in lowest terms
  have hg : 0 < Nat.gcd k r := Nat.gcd_pos_of_pos_left _ hk0
  obtain ⟨p, hp⟩ := Nat.gcd_dvd_left k r
  obtain ⟨q, hq⟩ := Nat.gcd_dvd_right k r
  have hcop : Nat.Coprime p q := by
    have := Nat.coprime_div_gcd_div_gcd hg
    rwa [show k / Nat.gcd k r = p from Nat.div_eq_of_eq_mul_right hg hp,
      show r / Nat.gcd k r = q from Nat.div_eq_of_eq_mul_right hg hq] at this
  generalize Nat.gcd k r = g at *
  have hp0 : 0 < p := Nat.pos_of_ne_zero (by rintro rfl; omega)
  have hq0 : 0 < q := Nat.pos_of_ne_zero (by rintro rfl; omega)
  have hqr : q ≤ r := by rw [hq]; exact Nat.le_mul_of_pos_left _ hg
  have hpq : p < q := by
    have : g * p < g * q := by omega
    exact lt_of_mul_lt_mul_left this (Nat.zero_le _)
  have gQ : (0 : ℚ) < g := by exact_mod_cast hg
  have pQ : (0 : ℚ) < p := by exact_mod_cast hp0
  have qQ : (0 : ℚ) < q := by exact_mod_cast hq0
  have NQ : (0 : ℚ) < N := by
    have : 0 < N := by rw [← hNdef]; positivity
    exact_mod_cast this
  have nQ : (3 : ℚ) ≤ n := by exact_mod_cast hn3
  have qn : (q : ℚ) + 1 ≤ n := by exact_mod_cast (by omega : q + 1 ≤ n)
  have nnN : (n : ℚ) * n ≤ N := by exact_mod_cast hNn
  have efrac : (k : ℚ) / r = p / q := by
    rw [hp, hq]; push_cast; field_simp
  rw [efrac] at hnear
  have hres0 : 0 < res := by
    by_contra h0
    have h0 : res = 0 := by omega
    subst h0
    rw [Nat.cast_zero, zero_div, zero_sub, abs_neg, abs_of_pos (div_pos pQ qQ), div_lt_div_iff₀ qQ (by positivity)] at hnear
    have : (1 : ℚ) ≤ p := by exact_mod_cast hp0
    nlinarith
  -- the gap: |res * q - p * N| is an integer below q / 2
  have hgap : |(res : ℚ) / N - p / q| ≤ (1 - 1 / n) / (2 * N) := by
    have e : (res : ℚ) / N - p / q = ((res * q - p * N : Int) : ℚ) / (N * q) := by
      push_cast; field_simp
    rw [e] at hnear ⊢
    rw [abs_div, abs_of_pos (by positivity : (0 : ℚ) < N * q), ← Int.cast_abs] at hnear ⊢
    rw [div_lt_div_iff₀ (by positivity) (by positivity)] at hnear
    generalize |(res * q - p * N : Int)| = d at *
    have h1 : 2 * d < q := by
      have : (2 : ℚ) * d < q := by nlinarith
      exact_mod_cast this
    have h2 : (2 : ℚ) * d ≤ q - 1 := by
      have : 2 * d ≤ (q : Int) - 1 := by omega
      exact_mod_cast this
    rw [div_le_div_iff₀ (by positivity) (by positivity)]
    have h3 : (1 - 1 / (n : ℚ)) * q = q - q / n := by ring
    have h4 : (q : ℚ) / n ≤ 1 := (div_le_one (by linarith)).2 (by linarith)
    have h5 : (2 : ℚ) * d ≤ (1 - 1 / n) * q := by rw [h3]; linarith
    nlinarith
  have hleg : |(res : ℚ) / N - p / q| < 1 / (2 * q ^ 2) := by
    refine lt_of_lt_of_le hnear ?_
    apply one_div_le_one_div_of_le (by positivity)
    nlinarith
  have hresN : res < N := hres
  obtain ⟨m, hml, hm⟩ := legendre_cand hp0 hq0 hcop hres0 hresN hleg
  have hpos := cfrac_pos res N hresN.le
  -- the first candidate with this value
  have hex : ∃ m, m < (cfrac res N).length ∧ candQ (cfrac res N) m = (p, q) := ⟨m, hml, hm⟩
  classical
  obtain ⟨hml', hm'⟩ := Nat.find_spec hex
  have hfirst := fun j (hj : j < Nat.find hex) => Nat.find_min hex hj
  generalize Nat.find hex = m' at *
  have hden : ∀ j, j ≤ m' → (candQ (cfrac res N) j).2 ≤ q := by
    intro j hj
    have := candQ_le _ hpos hj hml'
    rwa [hm'] at this
  have hcand : ∀ j, j ≤ m' → cand (cfrac res N) j = candQ (cfrac res N) j := by
    intro j hj
    apply cand_eq _ hpos
    have := hden j hj
    omega
  have hle : ∀ (cf : List Nat), (∀ c ∈ cf, 1 ≤ c) → ∀ i, i < cf.length → (candQ cf i).1 ≤ (candQ cf i).2 := by
    intro cf h i hi
    cases cf with
    | nil => simp at hi
    | cons c cs =>
      cases i with
      | zero => exact h c (by simp)
      | succ i =>
        rw [candQ_cons_succ]
        have := h c (by simp)
        show (candQ cs i).2 ≤ (candQ cs i).1 + c * (candQ cs i).2
        nlinarith
  refine C41_post_processing_succeeds n a rb r res m' hn hodd hrb1 close sample
    (readRes_of_digits hrb hsample (by rw [hNdef]; exact hres)) hres0.ne' hrn hr0 hr2 hone hmin hneg ?_ ?_ ?_ ?_
  · rw [hN]; exact hml'
  · rw [hN, hcand _ le_rfl, hm']
    exact (hclose p q hpq.le hq0 (by omega)).1 hgap
  · rw [hN, hcand _ le_rfl, hm']
    exact ⟨g, by rw [hq, Nat.mul_comm]⟩
  · intro j hj
    rw [hN, hcand _ hj.le]
    have hd := hden j hj.le
    have hjl : j < (cfrac res N).length := by omega
    have hps := candQ_pos _ hpos j hjl
    have hc1 := hle _ hpos j hjl
    have hcj := candQ_coprime (cfrac res N) j
    have hne : candQ (cfrac res N) j ≠ (p, q) := fun h => hfirst j hj ⟨hjl, h⟩
    generalize candQ (cfrac res N) j = c at *
    obtain ⟨u, v⟩ := c
    simp only at hd hps hc1 hcj hne ⊢
    refine ⟨by omega, ?_⟩
    rw [(hclose u v hc1 hps.2 (by omega)).2 ?_]
    · simp
    exact earlier_far hcop hcj hps.2 hq0 hd (by omega) (by exact_mod_cast nQ) hNn hnear hne

/-- The exact test meets the requirement. -/
theorem exact_testOk (n res denom : Nat) (hd : 0 < denom) (hn : 0 < n) :
    TestOk n res denom (fun num den => decide (|(res : ℚ) / denom - num / den| < 1 / (2 * denom))) := by
  intro num den h1 h2 h3
  have dQ : (0 : ℚ) < denom := by exact_mod_cast hd
  have nQ : (0 : ℚ) < 1 / n := by
    have : (0 : ℚ) < n := by exact_mod_cast hn
    positivity
  constructor
  · intro h
    rw [decide_eq_true_iff]
    refine lt_of_le_of_lt h ?_
    apply div_lt_div_of_pos_right _ (by positivity)
    linarith
  · intro h
    rw [decide_eq_false_iff_not, not_lt]
    refine le_trans ?_ h
    apply div_le_div_of_nonneg_right _ (by positivity)
    linarith

/-! ## The test in `double` arithmetic -/

/-- The test of shor.cpp 340-342, every conversion to `double` and every operation rounded by `rd`. -/
noncomputable def dblClose (rd : ℝ → ℝ) (res denom num den : Nat) : Bool :=
  decide (|rd (rd (rd res / rd denom) - rd (rd num / rd den))| < rd (1 / rd (2 * rd denom)))

/-- Rounding to `double`: relative error `2^-52`, underflow error `2^-1000`. -/
def Rounds (rd : ℝ → ℝ) : Prop := ∀ x, |rd x - x| ≤ 1 / 2 ^ 52 * |x| + 1 / 2 ^ 1000

section
variable {rd : ℝ → ℝ} {u e : ℝ} (hrd : ∀ x, |rd x - x| ≤ u * |x| + e) (hu : 0 < u) (hu' : u ≤ 1 / 1000) (he : e ≤ u * (1 / 4))

include hrd hu he in
theorem rounds_rel {x : ℝ} (hx : 1 ≤ x) : |rd x - x| ≤ 2 * u * x := by
  have h := hrd x
  have e1 : |x| = x := abs_of_pos (by linarith)
  rw [e1] at h
  nlinarith

/-- Rounding of a quotient of rounded numbers. -/
theorem quot_err {x y x' y' u : ℝ} (hu : 0 < u) (hu' : u ≤ 1 / 1000) (hx : 0 ≤ x) (hy : 0 < y) (hxy : x ≤ y)
    (h1 : |x' - x| ≤ 2 * u * x) (h2 : |y' - y| ≤ 2 * u * y) : |x' / y' - x / y| ≤ 5 * u := by
  have h2' := abs_le.1 h2
  have hy' : (49 / 50) * y ≤ y' := by nlinarith [h2'.1]
  have hy0 : 0 < y' := by linarith
  have e : x' / y' - x / y = ((x' - x) * y - x * (y' - y)) / (y' * y) := by
    field_simp; ring
  rw [e, abs_div, abs_of_pos (mul_pos hy0 hy), div_le_iff₀ (mul_pos hy0 hy)]
  have h3 : |(x' - x) * y - x * (y' - y)| ≤ 4 * u * x * y := by
    refine le_trans (abs_sub _ _) ?_
    rw [abs_mul, abs_mul, abs_of_pos hy, abs_of_nonneg hx]
    have a1 := mul_le_mul_of_nonneg_right h1 hy.le
    have a2 := mul_le_mul_of_nonneg_left h2 hx
    linarith
  refine le_trans h3 ?_
  have h4 : 4 * u * x * y ≤ 4 * u * y * y := by
    have : 4 * u * x ≤ 4 * u * y := mul_le_mul_of_nonneg_left hxy (by linarith)
    exact mul_le_mul_of_nonneg_right this hy.le
  have h5 : 4 * u * y * y ≤ 5 * u * (y' * y) := by
    have h6 : 4 * u * y ≤ 5 * u * y' := by nlinarith
    have := mul_le_mul_of_nonneg_right h6 hy.le
    linarith
  linarith

include hrd hu hu' he in
/-- A quotient of two integers in `[0, 1]`, as computed. -/
theorem frac_err {a b : Nat} (hb : 0 < b) (hab : a ≤ b) : |rd (rd a / rd b) - a / b| ≤ 7 * u := by
  have bR : (1 : ℝ) ≤ b := by exact_mod_cast hb
  have aR : (a : ℝ) ≤ b := by exact_mod_cast hab
  have a0 : (0 : ℝ) ≤ a := Nat.cast_nonneg _
  have hb' := rounds_rel hrd hu he bR
  have hq1 : (a : ℝ) / b ≤ 1 := (div_le_one (by linarith)).2 aR
  have hq0 : (0 : ℝ) ≤ a / b := by positivity
  have hq : |rd a / rd b - a / b| ≤ 5 * u := by
    rcases Nat.eq_zero_or_pos a with rfl | ha
    · have h := hrd ((0 : Nat) : ℝ)
      rw [Nat.cast_zero, abs_zero, mul_zero, zero_add, sub_zero] at h
      rw [Nat.cast_zero, zero_div, sub_zero, abs_div]
      have hb2 := abs_le.1 hb'
      have h3 : (1 / 2 : ℝ) ≤ rd b := by nlinarith [hb2.1]
      have h4 : |rd b| = rd b := abs_of_pos (by linarith)
      rw [h4, div_le_iff₀ (by linarith)]
      nlinarith
    · exact quot_err hu hu' a0 (by linarith) aR (rounds_rel hrd hu he (by exact_mod_cast ha)) hb'
  have h3 := hrd (rd a / rd b)
  have h4 : |rd a / rd b| ≤ 1 + 1 / 4 := by
    have := abs_sub_abs_le_abs_sub (rd a / rd b) (a / b : ℝ)
    rw [abs_of_nonneg hq0] at this
    linarith
  have h5 := abs_sub_le (rd (rd a / rd b)) (rd a / rd b) (a / b : ℝ)
  have h6 := mul_le_mul_of_nonneg_left h4 hu.le
  linarith

include hrd hu hu' he in
/-- The bound of the test, as computed. -/
theorem bound_err {N : Nat} (hN : 0 < N) : |rd (1 / rd (2 * rd N)) - 1 / (2 * N)| ≤ 5 * u := by
  have NR : (1 : ℝ) ≤ N := by exact_mod_cast hN
  have t1 := rounds_rel hrd hu he NR
  have t1' := abs_le.1 t1
  have hx : 1 ≤ 2 * rd N := by nlinarith [t1'.1]
  have t2 := rounds_rel hrd hu he hx
  have t2' := abs_le.1 t2
  generalize rd (2 * rd N) = D at *
  have d1 : |D - 2 * N| ≤ 9 * u * N := by
    rw [abs_le]
    have h1 : 2 * u * (2 * rd N) ≤ 5 * u * N := by nlinarith [t1'.2]
    constructor <;> linarith [t1'.1, t1'.2, t2'.1, t2'.2]
  have d1' := abs_le.1 d1
  have hD : (3 / 2 : ℝ) * N ≤ D := by nlinarith [d1'.1]
  have hD0 : 0 < D := by linarith
  have N0 : (0 : ℝ) < N := by linarith
  have d2 : |1 / D - 1 / (2 * N)| ≤ 3 * u := by
    have e : 1 / D - 1 / (2 * N) = -(D - 2 * N) / (D * (2 * N)) := by
      field_simp; ring
    rw [e, abs_div, abs_neg, abs_of_pos (by positivity : (0 : ℝ) < D * (2 * N)), div_le_iff₀ (by positivity)]
    refine le_trans d1 ?_
    have : 3 * (N : ℝ) ≤ D * (2 * N) := by nlinarith
    nlinarith
  have d3 := hrd (1 / D)
  have d4 : |1 / D| ≤ 1 := by
    rw [abs_of_pos (by positivity), div_le_one hD0]; linarith
  have := abs_sub_le (rd (1 / D)) (1 / D) (1 / (2 * N) : ℝ)
  have h6 := mul_le_mul_of_nonneg_left d4 hu.le
  linarith

include hrd hu hu' he in
/-- The difference of the test, as computed. -/
theorem diff_err {res N num den : Nat} (hN : 0 < N) (hres : res ≤ N) (hd : 0 < den) (hnd : num ≤ den) :
    |rd (rd (rd res / rd N) - rd (rd num / rd den)) - (res / N - num / den)| ≤ 16 * u := by
  have e1 := frac_err hrd hu hu' he hN hres
  have e2 := frac_err hrd hu hu' he hd hnd
  have NR : (0 : ℝ) < N := by exact_mod_cast hN
  have b1 : (res : ℝ) / N ≤ 1 := (div_le_one NR).2 (by exact_mod_cast hres)
  have b1' : (0 : ℝ) ≤ res / N := by positivity
  have b2 : (num : ℝ) / den ≤ 1 := (div_le_one (by exact_mod_cast hd)).2 (by exact_mod_cast hnd)
  have b2' : (0 : ℝ) ≤ num / den := by positivity
  generalize rd (rd res / rd N) = A at *
  generalize rd (rd num / rd den) = B at *
  generalize (res : ℝ) / N = x at *
  generalize (num : ℝ) / den = y at *
  have g1 : |(A - B) - (x - y)| ≤ 14 * u := by
    rw [show (A - B) - (x - y) = (A - x) - (B - y) by ring]
    refine le_trans (abs_sub _ _) ?_
    linarith
  have g2 : |x - y| ≤ 1 := by rw [abs_le]; constructor <;> linarith
  have g3 : |A - B| ≤ 1 + 1 / 4 := by
    have := abs_sub_abs_le_abs_sub (A - B) (x - y)
    linarith
  have g4 := hrd (A - B)
  have := abs_sub_le (rd (A - B)) (A - B) (x - y)
  have h6 := mul_le_mul_of_nonneg_left g3 hu.le
  linarith

include hrd hu hu' he in
theorem dbl_testOk_aux {n N res : Nat} (hn : 0 < n) (hNpos : 0 < N) (hres : res < N)
    (hmargin : 22 * u ≤ 1 / n / (2 * N)) : TestOk n res N (dblClose rd res N) := by
  intro num den h1 h2 h3
  have g5 := diff_err hrd hu hu' he hNpos hres.le h2 h1
  have hD1 := abs_le.1 (bound_err hrd hu hu' he hNpos)
  unfold dblClose
  generalize rd (rd (rd res / rd N) - rd (rd num / rd den)) = A at *
  generalize rd (1 / rd (2 * rd N)) = B at *
  have g6 := abs_sub_abs_le_abs_sub A ((res : ℝ) / N - num / den)
  have g7 := abs_sub_abs_le_abs_sub ((res : ℝ) / N - num / den) A
  rw [abs_sub_comm _ A] at g7
  constructor
  · intro h
    have h' : |(res : ℝ) / N - num / den| ≤ (1 - 1 / n) / (2 * N) := by
      have := (Rat.cast_le (K := ℝ)).2 h
      push_cast at this
      exact this
    rw [sub_div] at h'
    rw [decide_eq_true_iff]
    linarith [hD1.1]
  · intro h
    have h' : (1 + 1 / n) / (2 * N) ≤ |(res : ℝ) / N - num / den| := by
      have := (Rat.cast_le (K := ℝ)).2 h
      push_cast at this
      exact this
    rw [add_div] at h'
    rw [decide_eq_false_iff_not, not_lt]
    linarith [hD1.2]
end

theorem tiny_u : (1 / 2 ^ 1000 : ℝ) ≤ 1 / 2 ^ 52 * (1 / 4) := by
  rw [show (1 / 2 ^ 52 : ℝ) * (1 / 4) = 1 / 2 ^ 54 by norm_num]
  exact one_div_le_one_div_of_le (by positivity) (pow_le_pow_right₀ (by norm_num) (by norm_num))

/-- **In `double` arithmetic the test is good enough** for every `n ≤ 2^15`. -/
theorem dbl_testOk {rd : ℝ → ℝ} (hrd : Rounds rd) {n rb res : Nat} (hn : 0 < n) (hnb : n ≤ 2 ^ rb) (hrb : rb ≤ 15)
    (hres : res < 2 ^ (2 * rb)) : TestOk n res (2 ^ (2 * rb)) (dblClose rd res (2 ^ (2 * rb))) := by
  have hNpos : 0 < 2 ^ (2 * rb) := by positivity
  have hnN : n * 2 ^ (2 * rb) ≤ 2 ^ 45 := by
    calc n * 2 ^ (2 * rb) ≤ 2 ^ rb * 2 ^ (2 * rb) := Nat.mul_le_mul_right _ hnb
      _ = 2 ^ (rb + 2 * rb) := by rw [pow_add]
      _ ≤ 2 ^ 45 := Nat.pow_le_pow_right (by norm_num) (by omega)
  generalize 2 ^ (2 * rb) = N at *
  have NR : (1 : ℝ) ≤ N := by exact_mod_cast hNpos
  have nR : (1 : ℝ) ≤ n := by exact_mod_cast hn
  have nNR : (n : ℝ) * N ≤ 2 ^ 45 := by exact_mod_cast hnN
  refine dbl_testOk_aux (u := 1 / 2 ^ 52) (e := 1 / 2 ^ 1000) hrd (by positivity) (by norm_num) tiny_u hn hNpos hres ?_
  rw [div_div, le_div_iff₀ (by positivity)]
  have : (n : ℝ) * (2 * N) ≤ 2 ^ 46 := by
    rw [show (2 : ℝ) ^ 46 = 2 * 2 ^ 45 by norm_num]; linarith
  calc 22 * (1 / 2 ^ 52 : ℝ) * (n * (2 * N)) ≤ 22 * (1 / 2 ^ 52) * 2 ^ 46 := mul_le_mul_of_nonneg_left this (by positivity)
    _ ≤ 1 := by norm_num

/-- **C67, in `double` arithmetic.** For `n ≤ 2^15` and any rounding of the floating-point test. -/
theorem C67_factors_found_double {rd : ℝ → ℝ} (hrd : Rounds rd) (n a rb r k res : Nat) (sample : List Char)
    (hn : 1 < n) (hodd : n % 2 = 1) (hnb : n ≤ 2 ^ rb) (hrb : rb ≤ 15)
    (hr0 : 0 < r) (hone : a ^ r % n = 1) (hmin : ∀ j, 0 < j → j < r → a ^ j % n ≠ 1)
    (hr2 : r % 2 = 0) (hneg : a ^ (r / 2) % n ≠ n - 1)
    (hk0 : 0 < k) (hk : k < r)
    (hres : res < 2 ^ (2 * rb)) (hsample : Digits sample rb res)
    (hnear : |(res : ℚ) / 2 ^ (2 * rb) - k / r| < 1 / (2 * 2 ^ (2 * rb))) :
    ∃ f1 f2, postProcessing n a rb (dblClose rd) sample = .ret f1 f2 ∧ 1 < f1 ∧ 1 < f2 ∧ f1 * f2 = n :=
  C67_factors_found n a rb r k res (dblClose rd) sample hn hodd hnb (by omega) hr0 hone hmin hr2 hneg hk0 hk hres
    hsample hnear (dbl_testOk hrd (by omega) hnb hrb hres)

/-- Truncation to 53-bit significands is such a rounding. -/
theorem rounds_double : Rounds (Rounding.toZero 52).rd := Num.toZero_accurateR

/-- The hypotheses are met by n = 21, a = 2 (order 6), k = 5: the measurement is 853/1024, which is not `5/6`. -/
example : ∃ f1 f2, postProcessing 21 2 5 (dblClose (Rounding.toZero 52).rd) "000001101010101".toList = .ret f1 f2 ∧ 1 < f1 ∧ 1 < f2 ∧ f1 * f2 = 21 :=
  C67_factors_found_double rounds_double 21 2 5 6 5 853 _ (by decide) (by decide) (by decide) (by decide) (by decide) (by decide)
    (by intro j h1 h2; interval_cases j <;> decide) (by decide) (by decide) (by decide) (by decide) (by decide)
    (by intro i hi; interval_cases i <;> decide)
    (by norm_num [abs_lt])

/-- And by k = 4, which shares a factor with the order: the measurement 683/1024 close to `4/6`. -/
example : ∃ f1 f2, postProcessing 21 2 5 (dblClose (Rounding.toZero 52).rd) "000001010101011".toList = .ret f1 f2 ∧ 1 < f1 ∧ 1 < f2 ∧ f1 * f2 = 21 :=
  C67_factors_found_double rounds_double 21 2 5 6 4 683 _ (by decide) (by decide) (by decide) (by decide) (by decide) (by decide)
    (by intro j h1 h2; interval_cases j <;> decide) (by decide) (by decide) (by decide) (by decide) (by decide)
    (by intro i hi; interval_cases i <;> decide)
    (by norm_num [abs_lt])

end QDD.Props
