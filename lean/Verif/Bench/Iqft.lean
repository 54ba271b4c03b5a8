import Verif.Bench.Amp
/-!
# The inverse Fourier transform of the benchmark
-/
set_option linter.unusedVariables false
set_option linter.unusedSimpArgs false

namespace QDD.Bench
open Finset

/-! ## The gates -/

/-- The gates of `swap_registers(m)`. -/
def swGates (m : Nat) : Nat → List G
  | 0 => []
  | k + 1 => swGates m k ++ [.cx k (m - k - 1), .cx (m - k - 1) k, .cx k (m - k - 1)]

theorem swapRegs_gates (m : Nat) : ∀ k b, ∃ b', loop (fun i b => do
    let b ← ckNot b [i] (m - i - 1) false
    let b ← ckNot b [m - i - 1] i false
    ckNot b [i] (m - i - 1) false) k b = some b' ∧ b'.gates = b.gates ++ swGates m k ∧ b'.n = b.n
  | 0, b => ⟨b, rfl, by simp [swGates], rfl⟩
  | k + 1, b => by
    obtain ⟨b1, e, hg, hn⟩ := swapRegs_gates m k b
    refine ⟨addCx (addCx (addCx b1 k (m - k - 1)) (m - k - 1) k) k (m - k - 1), ?_, ?_, ?_⟩
    · rw [loop, e]
      simp [ckNot]
    · unfold addCx
      simp only [toDirty_gates, emit, hg, swGates]
      simp
    · unfold addCx
      rw [(toDirty_par _ _).2.1]
      show (toDirty _ _).n = _
      rw [(toDirty_par _ _).2.1]
      show (toDirty _ _).n = _
      rw [(toDirty_par _ _).2.1]
      exact hn

/-- The controlled rotations of qubit `i`. -/
def cps (i : Nat) : Nat → List G
  | 0 => []
  | k + 1 => .cp (i - k) k i :: cps i k

/-- The gates of `inverse_qft_rotations`. -/
def rots : Nat → List G
  | 0 => []
  | k + 1 => rots k ++ (cps k k ++ [.h k])

theorem cps_gates (i : Nat) : ∀ k b, ∃ b', loopDown (fun j b => some (emit b (.cp (i - j) j i))) 0 k b = some b' ∧ b'.gates = b.gates ++ cps i k ∧ b'.n = b.n
  | 0, b => ⟨b, rfl, by simp [cps], rfl⟩
  | k + 1, b => by
    obtain ⟨b', e, hg, hn⟩ := cps_gates i k (emit b (.cp (i - (0 + k)) (0 + k) i))
    refine ⟨b', by rw [loopDown]; exact e, ?_, hn⟩
    rw [hg]
    simp [emit, cps]

theorem rots_gates : ∀ k b, ∃ b', loop invRot k b = some b' ∧ b'.gates = b.gates ++ rots k ∧ b'.n = b.n
  | 0, b => ⟨b, rfl, by simp [rots], rfl⟩
  | k + 1, b => by
    obtain ⟨b1, e, hg, hn⟩ := rots_gates k b
    obtain ⟨b2, e2, hg2, hn2⟩ := cps_gates k k b1
    refine ⟨addH b2 k, ?_, ?_, ?_⟩
    · rw [loop, e, Option.bind_some, invRot, e2]; rfl
    · unfold addH
      rw [toDirty_gates]
      simp [emit, hg2, hg, rots]
    · unfold addH
      rw [(toDirty_par _ _).2.1]
      exact hn2.trans hn

theorem invQft_gates (m : Nat) (b : B) : ∃ b', invQft m b = some b' ∧ b'.gates = b.gates ++ (swGates m (m / 2) ++ rots m) ∧ b'.n = b.n := by
  obtain ⟨b1, e1, g1, n1⟩ := swapRegs_gates m (m / 2) b
  obtain ⟨b2, e2, g2, n2⟩ := rots_gates m b1
  exact ⟨b2, by unfold invQft swapRegs; rw [e1]; exact e2, by rw [g2, g1, List.append_assoc], n2.trans n1⟩

/-! ## Reversing the register -/

/-- The first `m` qubits reversed. -/
def rv (m : Nat) (s : S) : S := fun q => if q < m then s (m - 1 - q) else s q

/-- The outer `k` pairs exchanged. -/
def rvk (m k : Nat) (s : S) : S := fun q => if q < k ∨ m - k ≤ q ∧ q < m then s (m - 1 - q) else s q

theorem swap3 {p q : Nat} (h : p ≠ q) (s : S) : exec [.cx p q, .cx q p, .cx p q] s = set (set s p (s q)) q (s p) := by
  have e : ∀ (c t : Nat) (s : S), (G.cx c t).on s = set s t (xor (s t) (s c)) := fun c t s => flip_if s t (s c)
  show (G.cx p q).on ((G.cx q p).on ((G.cx p q).on s)) = _
  rw [e, e, e]
  funext i
  by_cases h1 : i = q
  · subst h1
    simp only [set_same, set_other h, set_other h.symm]
    cases s p <;> cases s i <;> rfl
  · rw [set_other h1, set_other h1]
    by_cases h2 : i = p
    · subst h2
      simp only [set_same, set_other h, set_other h.symm]
      cases s q <;> cases s i <;> rfl
    · rw [set_other h2, set_other h2, set_other h1]

theorem exec_sw (m : Nat) : ∀ k, 2 * k ≤ m → ∀ s, exec (swGates m k) s = rvk m k s
  | 0, _, s => by
    funext q
    unfold rvk
    rw [if_neg (by omega)]; rfl
  | k + 1, hk, s => by
    rw [swGates, exec_append, exec_sw m k (by omega), swap3 (by omega)]
    funext q
    have h1 : rvk m k s k = s k := by unfold rvk; rw [if_neg (by omega)]
    have h2 : rvk m k s (m - k - 1) = s (m - k - 1) := by unfold rvk; rw [if_neg (by omega)]
    rw [h1, h2]
    by_cases hq : q = m - k - 1
    · rw [hq, set_same]
      unfold rvk; rw [if_pos (by omega)]; congr 1; omega
    · rw [set_other hq]
      by_cases hq2 : q = k
      · rw [hq2, set_same]
        unfold rvk; rw [if_pos (by omega)]; congr 1; omega
      · rw [set_other hq2]
        unfold rvk
        by_cases h : q < k ∨ m - k ≤ q ∧ q < m
        · rw [if_pos h, if_pos (by omega)]
        · rw [if_neg h, if_neg (by omega)]

theorem exec_sw_full {m n : Nat} (hm : m = 2 * n) (s : S) : exec (swGates m (m / 2)) s = rv m s := by
  rw [exec_sw m _ (by omega)]
  funext q
  unfold rvk rv
  by_cases h : q < m
  · rw [if_pos h, if_pos (by omega)]
  · rw [if_neg h, if_neg (by omega)]

theorem rv_rv (m : Nat) (s : S) : rv m (rv m s) = s := by
  funext q
  unfold rv
  by_cases h : q < m
  · rw [if_pos h, if_pos (by omega)]; congr 1; omega
  · rw [if_neg h, if_neg h]

theorem sw_classical {m Q : Nat} (hQ : m ≤ Q) : ∀ k, 2 * k ≤ m → ∀ g ∈ swGates m k, g.Classical Q
  | 0, _, g, h => by cases h
  | k + 1, hk, g, h => by
    rcases List.mem_append.1 h with h | h
    · exact sw_classical hQ k (by omega) g h
    · simp only [List.mem_cons, List.not_mem_nil, or_false] at h
      rcases h with rfl | rfl | rfl
      · exact ⟨by omega, by omega, by omega⟩
      · exact ⟨by omega, by omega, by omega⟩
      · exact ⟨by omega, by omega, by omega⟩

theorem cps_ok {i Q : Nat} (hi : i < Q) : ∀ k, k ≤ i → ∀ g ∈ cps i k, g.Ok Q
  | 0, _, g, h => by cases h
  | k + 1, hk, g, h => by
    rcases List.mem_cons.1 h with rfl | h
    · exact ⟨by omega, by omega, hi⟩
    · exact cps_ok hi k (by omega) g h

theorem rots_ok {Q : Nat} : ∀ k, k ≤ Q → ∀ g ∈ rots k, g.Ok Q
  | 0, _, g, h => by cases h
  | k + 1, hk, g, h => by
    rcases List.mem_append.1 h with h | h
    · exact rots_ok k (by omega) g h
    · rcases List.mem_append.1 h with h | h
      · exact cps_ok (by omega) k le_rfl g h
      · rw [List.mem_singleton] at h; rw [h]
        show k < Q
        omega

/-! ## Amplitudes -/

/-- `exp(-2 pi i j / 2^k)`. -/
noncomputable def ω (k : Nat) (j : ℕ) : ℂ := Complex.exp (-(2 * Real.pi * j / 2 ^ k) * Complex.I)

theorem ω_add (k a b : Nat) : ω k (a + b) = ω k a * ω k b := by
  unfold ω; rw [← Complex.exp_add]; congr 1; push_cast; ring

theorem ω_up (k a : Nat) : ω (k + 1) (2 * a) = ω k a := by
  unfold ω; congr 1; push_cast; rw [pow_succ]; field_simp

theorem ω_full (k a : Nat) : ω k (2 ^ k * a) = 1 := by
  unfold ω
  rw [show (-(2 * (Real.pi : ℂ) * ((2 ^ k * a : ℕ) : ℂ) / 2 ^ k) * Complex.I) = ((-(a : ℤ) : ℤ) : ℂ) * (2 * Real.pi * Complex.I) by
    push_cast; field_simp]
  exact Complex.exp_int_mul_two_pi_mul_I _

theorem ω_zero (k : Nat) : ω k 0 = 1 := by unfold ω; simp

theorem ω_half (k : Nat) : ω (k + 1) (2 ^ k) = -1 := by
  unfold ω
  rw [show (-(2 * (Real.pi : ℂ) * ((2 ^ k : ℕ) : ℂ) / 2 ^ (k + 1)) * Complex.I) = -(Real.pi * Complex.I) by
    push_cast; rw [pow_succ]; field_simp]
  rw [Complex.exp_neg, Complex.exp_pi_mul_I]; norm_num

theorem amp_cps (i : Nat) : ∀ k, k ≤ i → ∀ φ s, amp (cps i k) φ s = (if s i then ω (i + 1) (reg 0 k s) else 1) * φ s
  | 0, _, φ, s => by simp [cps, amp, reg, ω_zero]
  | k + 1, hk, φ, s => by
    show amp (cps i k) (G.act (.cp (i - k) k i) φ) s = _
    rw [amp_cps i k (by omega)]
    have e : G.act (.cp (i - k) k i) φ s = (if s k && s i then Complex.exp (-(Real.pi / 2 ^ (i - k) : ℝ) * Complex.I) * φ s else φ s) := rfl
    rw [e]
    cases hi : s i
    · simp
    · rw [reg, Nat.zero_add]
      cases hs : s k
      · simp
      · simp only [Bool.and_self, if_true, Bool.toNat_true, one_mul]
        rw [ω_add, mul_assoc]
        congr 2
        unfold ω
        congr 1
        obtain ⟨d, rfl⟩ : ∃ d, i = k + d := ⟨i - k, by omega⟩
        rw [Nat.add_sub_cancel_left]
        push_cast
        rw [pow_succ, pow_add]
        field_simp

theorem amp_rot (i : Nat) (φ : S → ℂ) (s : S) : amp (cps i i ++ [.h i]) φ s = (1 / (√2 : ℝ) : ℂ) *
    (φ (set s i false) + ω (i + 1) (reg 0 (i + 1) s) * φ (set s i true)) := by
  rw [amp_append]
  show (1 / (√2 : ℝ) : ℂ) * (amp (cps i i) φ (set s i false) + _ * amp (cps i i) φ (set s i true)) = _
  rw [amp_cps i i le_rfl, amp_cps i i le_rfl, set_same, set_same]
  have hr : reg 0 i (set s i true) = reg 0 i s := reg_congr fun q h1 h2 => set_other (by omega)
  simp only [Bool.false_eq_true, if_false, if_true, one_mul, hr]
  rw [← mul_assoc]
  congr 3
  rw [reg, Nat.zero_add]
  cases s i
  · simp
  · simp only [if_true, Bool.toNat_true, one_mul]
    rw [ω_add, ω_half]; ring

/-- Bit reversal. -/
def rev : Nat → Nat → Nat
  | 0, _ => 0
  | k + 1, u => 2 * rev k u + (u.testBit k).toNat

theorem rev_lt : ∀ k u, rev k u < 2 ^ k
  | 0, u => by simp [rev]
  | k + 1, u => by
    have := rev_lt k u
    rw [rev, pow_succ]
    cases u.testBit k <;> simp <;> omega

theorem rev_congr : ∀ {k u v : Nat}, (∀ j, j < k → u.testBit j = v.testBit j) → rev k u = rev k v
  | 0, u, v, h => rfl
  | k + 1, u, v, h => by
    rw [rev, rev, rev_congr (fun j hj => h j (by omega)), h k (by omega)]

theorem rev_testBit : ∀ k u j, (rev k u).testBit j = (decide (j < k) && u.testBit (k - 1 - j))
  | 0, u, j => by simp [rev]
  | k + 1, u, 0 => by
    rw [rev, Nat.testBit_zero]
    cases h : u.testBit k <;> simp [h]
  | k + 1, u, j + 1 => by
    have e : (2 * rev k u + (u.testBit k).toNat) / 2 = rev k u := by
      cases u.testBit k <;> simp <;> omega
    rw [rev, Nat.testBit_succ, e, rev_testBit k u j]
    simp only [Nat.add_lt_add_iff_right]
    congr 2; omega

theorem rev_rev {k u : Nat} (h : u < 2 ^ k) : rev k (rev k u) = u := by
  apply Nat.eq_of_testBit_eq
  intro j
  rw [rev_testBit, rev_testBit]
  by_cases hj : j < k
  · simp only [hj, decide_true, Bool.true_and, show k - 1 - j < k by omega]
    congr 1; omega
  · simp only [hj, decide_false, Bool.false_and]
    exact (Nat.testBit_lt_two_pow (lt_of_lt_of_le h (Nat.pow_le_pow_right (by norm_num) (by omega)))).symm

theorem sum_double (k : Nat) (F : Nat → ℂ) : ∑ u ∈ range (2 ^ (k + 1)), F u = ∑ u ∈ range (2 ^ k), (F u + F (u + 2 ^ k)) := by
  rw [pow_succ, mul_two, Finset.sum_add_distrib, Finset.sum_range_add]
  congr 1
  exact Finset.sum_congr rfl fun x _ => by rw [Nat.add_comm]

theorem amp_rots : ∀ k φ s, amp (rots k) φ s = (1 / (√2 : ℝ) : ℂ) ^ k *
    ∑ u ∈ range (2 ^ k), ω k (reg 0 k s * rev k u) * φ (setReg 0 k u s)
  | 0, φ, s => by
    have : setReg 0 0 0 s = s := by funext q; exact setReg_out (by omega)
    simp [rots, amp, reg, ω_zero, this]
  | k + 1, φ, s => by
    rw [rots, amp_append, amp_rot, amp_rots k, amp_rots k, sum_double, pow_succ]
    have hr : ∀ b, reg 0 k (set s k b) = reg 0 k s := fun b => reg_congr fun q h1 h2 => set_other (by omega)
    have hphase : ∀ u, ω (k + 1) (reg 0 (k + 1) s * (2 * rev k u)) = ω k (reg 0 k s * rev k u) := by
      intro u
      rw [show reg 0 (k + 1) s * (2 * rev k u) = 2 * (reg 0 k s * rev k u + 2 ^ k * ((s k).toNat * rev k u)) by
        rw [reg, Nat.zero_add]; ring, ω_up, ω_add, ω_full, mul_one]
    have h0 : ∀ u, u < 2 ^ k → setReg 0 k u (set s k false) = setReg 0 (k + 1) u s := by
      intro u hu
      funext q
      by_cases hq : q < k
      · rw [setReg_in (by omega), setReg_in (by omega)]
      · rw [setReg_out (by omega)]
        by_cases hq2 : q = k
        · rw [hq2, set_same, setReg_in (by omega), Nat.sub_zero, Nat.testBit_lt_two_pow hu]
        · rw [set_other hq2, setReg_out (by omega)]
    have h1 : ∀ u, u < 2 ^ k → setReg 0 k u (set s k true) = setReg 0 (k + 1) (u + 2 ^ k) s := by
      intro u hu
      funext q
      by_cases hq : q < k
      · rw [setReg_in (by omega), setReg_in (by omega), Nat.add_comm u, Nat.sub_zero, Nat.testBit_two_pow_add_gt hq]
      · rw [setReg_out (by omega)]
        by_cases hq2 : q = k
        · rw [hq2, set_same, setReg_in (by omega), Nat.sub_zero, Nat.add_comm u, Nat.testBit_two_pow_add_eq, Nat.testBit_lt_two_pow hu]; rfl
        · rw [set_other hq2, setReg_out (by omega)]
    have e0 : ∀ u, u < 2 ^ k → rev (k + 1) u = 2 * rev k u := by
      intro u hu
      rw [rev, Nat.testBit_lt_two_pow hu]; rfl
    have e1 : ∀ u, u < 2 ^ k → rev (k + 1) (u + 2 ^ k) = 2 * rev k u + 1 := by
      intro u hu
      rw [rev, Nat.add_comm u, Nat.testBit_two_pow_add_eq, Nat.testBit_lt_two_pow hu,
        rev_congr (k := k) (u := 2 ^ k + u) (v := u) (fun j hj => Nat.testBit_two_pow_add_gt hj u)]
      rfl
    rw [hr, hr, mul_comm (_ ^ k) (1 / _), mul_assoc]
    congr 1
    rw [mul_left_comm, ← mul_add]
    congr 1
    rw [Finset.mul_sum, ← Finset.sum_add_distrib]
    refine Finset.sum_congr rfl fun u hu => ?_
    have hu := Finset.mem_range.1 hu
    rw [h0 u hu, h1 u hu, e0 u hu, e1 u hu, hphase, Nat.mul_add, ω_add, hphase, mul_one]
    ring

theorem amp_iqft {m n : Nat} (hm : m = 2 * n) (φ : S → ℂ) (s : S) : amp (swGates m (m / 2) ++ rots m) φ s = (1 / (√2 : ℝ) : ℂ) ^ m *
    ∑ x ∈ range (2 ^ m), ω m (reg 0 m s * x) * φ (setReg 0 m x s) := by
  rw [amp_append, amp_rots]
  congr 1
  have hcl := sw_classical (m := m) (Q := m) le_rfl (m / 2) (by omega)
  have hsw : ∀ s, amp (swGates m (m / 2)) φ s = φ (rv m s) := by
    intro s
    rw [amp_classical _ hcl]
    congr 1
    have := exec_back _ hcl (rv m s)
    rwa [exec_sw_full hm, rv_rv] at this
  have hset : ∀ u, rv m (setReg 0 m u s) = setReg 0 m (rev m u) s := by
    intro u
    funext q
    unfold rv
    by_cases hq : q < m
    · rw [if_pos hq, setReg_in (by omega), setReg_in (by omega), rev_testBit]
      simp [hq]
    · rw [if_neg hq, setReg_out (by omega), setReg_out (by omega)]
  refine Finset.sum_nbij' (rev m) (rev m) (fun u _ => Finset.mem_range.2 (rev_lt m u)) (fun u _ => Finset.mem_range.2 (rev_lt m u))
    (fun u h => rev_rev (Finset.mem_range.1 h)) (fun u h => rev_rev (Finset.mem_range.1 h)) (fun u h => ?_)
  rw [hsw, hset]

end QDD.Bench
