import Verif.Bench.Mul
import Mathlib.Analysis.SpecialFunctions.Complex.Log
import Mathlib.FieldTheory.Finite.Basic
/-!
# The state prepared by the benchmark's modular exponentiation
-/
set_option linter.unusedVariables false
set_option linter.unusedSimpArgs false

namespace QDD.Bench

/-- A gate on a state given by its amplitudes. -/
noncomputable def G.act : G → (S → ℂ) → S → ℂ
  | .h t, φ, s => (1 / (√2 : ℝ) : ℂ) * (φ (set s t false) + (if s t then -1 else 1) * φ (set s t true))
  | .cp k c t, φ, s => if s c && s t then Complex.exp (-(Real.pi / 2 ^ k : ℝ) * Complex.I) * φ s else φ s
  | g, φ, s => φ (g.on s)

/-- A list of gates on a state. -/
noncomputable def amp (gs : List G) (φ : S → ℂ) : S → ℂ := gs.foldl (fun φ g => g.act φ) φ

/-- All qubits 0. -/
def zero : S := fun _ => false

open Classical in
noncomputable def delta (z : S) : S → ℂ := fun s => if s = z then 1 else 0

/-- The qubits of the gate are different and among the first `Q`. -/
def G.Ok (Q : Nat) : G → Prop
  | .h t => t < Q
  | .cp _ c t => c ≠ t ∧ c < Q ∧ t < Q
  | g => g.Classical Q

theorem G.Classical.ok {Q : Nat} {g : G} (h : g.Classical Q) : g.Ok Q := by
  cases g <;> first | exact h | cases h

theorem amp_append (a b : List G) (φ : S → ℂ) : amp (a ++ b) φ = amp b (amp a φ) := by
  unfold amp; rw [List.foldl_append]

theorem on_on {Q : Nat} {g : G} (h : g.Classical Q) (s : S) : g.on (g.on s) = s := by
  cases g with
  | x t => simp only [G.on, set_same, set_set, Bool.not_not, set_self]
  | cx c t =>
    have : c ≠ t := h.1
    by_cases hc : s c = true
    · have e : (G.cx c t).on s = set s t (!s t) := if_pos hc
      rw [e]
      refine (if_pos (by rw [set_other this]; exact hc)).trans ?_
      simp only [set_same, set_set, Bool.not_not, set_self]
    · have e : (G.cx c t).on s = s := if_neg hc
      rw [e, e]
  | ccx c1 c2 t =>
    have h1 : c1 ≠ t := h.1
    have h2 : c2 ≠ t := h.2.1
    by_cases hc : (s c1 && s c2) = true
    · have e : (G.ccx c1 c2 t).on s = set s t (!s t) := if_pos hc
      rw [e]
      refine (if_pos (by rw [set_other h1, set_other h2]; exact hc)).trans ?_
      simp only [set_same, set_set, Bool.not_not, set_self]
    · have e : (G.ccx c1 c2 t).on s = s := if_neg hc
      rw [e, e]
  | h t => rfl
  | cp k c t => rfl

theorem exec_back {Q : Nat} : ∀ (gs : List G), (∀ g ∈ gs, g.Classical Q) → ∀ s, exec gs.reverse (exec gs s) = s
  | [], _, s => rfl
  | g :: gs, h, s => by
    rw [List.reverse_cons, exec_append]
    show g.on (exec gs.reverse (exec gs (g.on s))) = s
    rw [exec_back gs (fun g' hg => h g' (by simp [hg])), on_on (h g (by simp))]

theorem exec_forth {Q : Nat} (gs : List G) (h : ∀ g ∈ gs, g.Classical Q) (s : S) : exec gs (exec gs.reverse s) = s := by
  have := exec_back gs.reverse (fun g hg => h g (by simpa using hg)) s
  rwa [List.reverse_reverse] at this

theorem act_classical {Q : Nat} {g : G} (h : g.Classical Q) (φ : S → ℂ) (s : S) : g.act φ s = φ (g.on s) := by
  cases g <;> first | rfl | cases h

theorem amp_classical {Q : Nat} : ∀ (gs : List G), (∀ g ∈ gs, g.Classical Q) → ∀ φ s, amp gs φ s = φ (exec gs.reverse s)
  | [], _, φ, s => rfl
  | g :: gs, h, φ, s => by
    show amp gs (g.act φ) s = _
    rw [amp_classical gs (fun g' hg => h g' (by simp [hg])), act_classical (h g (by simp)), List.reverse_cons, exec_append]
    rfl

/-! ## Exponents -/

theorem powMod_eq {a N : Nat} (hN : 2 ≤ N) (k : Nat) : powMod a N k = a ^ k % N := by
  unfold powMod
  induction k with
  | zero => simp [Nat.mod_eq_of_lt (show 1 < N by omega)]
  | succ k ih => rw [Function.iterate_succ_apply', ih, Nat.mod_mul_mod, pow_succ]

theorem expo_mod {N : Nat} (i : Nat) : expo N i % N.totient = 2 ^ i % N.totient := by
  unfold expo
  induction i with
  | zero => rfl
  | succ i ih => rw [Function.iterate_succ_apply', Nat.mod_mod, Nat.mul_mod, ih, ← Nat.mul_mod, pow_succ]

theorem pow_red {a N : Nat} (hc : Nat.Coprime a N) (e : Nat) : a ^ e % N = a ^ (e % N.totient) % N := by
  conv_lhs => rw [← Nat.div_add_mod e N.totient]
  rw [pow_add, pow_mul]
  have h := (Nat.ModEq.pow_totient hc).pow (e / N.totient)
  rw [one_pow] at h
  have := Nat.ModEq.mul_right (a ^ (e % N.totient)) h
  rw [one_mul] at this
  exact this

/-- The constants of the multipliers. -/
theorem const_eq {a N : Nat} (hN : 2 ≤ N) (hc : Nat.Coprime a N) (i : Nat) : powMod a N (expo N i) = a ^ 2 ^ i % N := by
  rw [powMod_eq hN, pow_red hc, expo_mod, ← pow_red hc]

theorem const_coprime {a N : Nat} (hN : 2 ≤ N) (hc : Nat.Coprime a N) (i : Nat) : Nat.Coprime (powMod a N (expo N i)) N := by
  rw [const_eq hN hc]
  have := Nat.Coprime.pow_left (2 ^ i) hc
  unfold Nat.Coprime at this ⊢
  rwa [← Nat.gcd_rec, Nat.gcd_comm] 

/-! ## The states -/

/-- `x` in the first register, `y` in the second, everything else 0. -/
def enc (n x y : Nat) : S := fun q => if q < 2 * n then x.testBit q else if q < 3 * n then y.testBit (q - 2 * n) else false

theorem enc_low {n x y q : Nat} (h : q < 2 * n) : enc n x y q = x.testBit q := if_pos h
theorem enc_high {n x y q : Nat} (h : 3 * n ≤ q) : enc n x y q = false := by
  unfold enc; rw [if_neg (by omega), if_neg (by omega)]
theorem enc_mid {n x y i : Nat} (h : i < n) : enc n x y (2 * n + i) = y.testBit i := by
  unfold enc; rw [if_neg (by omega), if_pos (by omega)]; congr 1; omega

theorem enc_reg {n x y : Nat} (hy : y < 2 ^ n) : reg (2 * n) n (enc n x y) = y := by
  apply Nat.eq_of_testBit_eq
  intro j
  rw [reg_testBit]
  by_cases hj : j < n
  · rw [enc_mid hj]; simp [hj]
  · simp only [hj, decide_false, Bool.false_and]
    exact (Nat.testBit_lt_two_pow (lt_of_lt_of_le hy (Nat.pow_le_pow_right (by norm_num) (by omega)))).symm

theorem enc_setReg {n x y z : Nat} : setReg (2 * n) n z (enc n x y) = enc n x z := by
  funext q
  by_cases h : 2 * n ≤ q ∧ q < 2 * n + n
  · rw [setReg_in h]
    unfold enc; rw [if_neg (by omega), if_pos (by omega)]
  · rw [setReg_out h]
    unfold enc
    by_cases h1 : q < 2 * n
    · rw [if_pos h1, if_pos h1]
    · rw [if_neg h1, if_neg h1, if_neg (by omega), if_neg (by omega)]

theorem enc_pre {n N x y : Nat} (hy : y < N) (hN : N < 2 ^ n) : PreM n N (enc n x y) where
  r1 := enc_high (by omega)
  r3 := enc_high (by omega)
  r2 := fun i hi => enc_high (by omega)
  y := by rw [enc_reg (by omega)]; exact hy

theorem enc_set {n k x y : Nat} (hk : k < 2 * n) (hx : x < 2 ^ k) (b : Bool) : set (enc n x y) k b = enc n (x + b.toNat * 2 ^ k) y := by
  funext q
  by_cases hq : q = k
  · subst hq
    rw [set_same, enc_low hk]
    cases b
    · simp [Nat.testBit_lt_two_pow hx]
    · simp only [Bool.toNat_true, one_mul]
      rw [Nat.add_comm, Nat.testBit_two_pow_add_eq, Nat.testBit_lt_two_pow hx]; rfl
  · rw [set_other hq]
    unfold enc
    by_cases h : q < 2 * n
    · rw [if_pos h, if_pos h]
      cases b
      · simp
      · simp only [Bool.toNat_true, one_mul]
        by_cases hlt : q < k
        · rw [Nat.add_comm, Nat.testBit_two_pow_add_gt hlt]
        · rw [Nat.testBit_lt_two_pow (lt_of_lt_of_le hx (Nat.pow_le_pow_right (by norm_num) (by omega))), Nat.testBit_lt_two_pow]
          calc x + 2 ^ k < 2 ^ (k + 1) := by rw [pow_succ]; omega
            _ ≤ 2 ^ q := Nat.pow_le_pow_right (by norm_num) (by omega)
    · rw [if_neg h, if_neg h]

theorem enc_set_any {n k x y : Nat} (hk : k < 2 * n) (hx : x < 2 ^ k) {β : Bool} : set (enc n (x + β.toNat * 2 ^ k) y) k false = enc n x y := by
  rw [← enc_set hk hx, set_set, enc_set hk hx]; simp

open Classical in
/-- After `k` multipliers. -/
structure Stage (N a n k : Nat) (b : B) : Prop where
  wf : WF b
  hn : b.n = n
  hN : b.N = N
  ok : ∀ g ∈ b.gates, g.Ok (4 * n + 2)
  amp : ∀ s, amp b.gates (delta zero) s = if ∃ x, x < 2 ^ k ∧ s = enc n x (a ^ x % N) then (1 / (√2 : ℝ) : ℂ) ^ k else 0
  clean : ∀ x, x < 2 ^ k → Z b.clean (enc n x (a ^ x % N))

theorem stage_step {N a n k : Nat} {b : B} (h : Stage N a n k b) (hk : k < 2 * n) (hn : 2 ≤ n) (hN2 : 2 ≤ N) (hN : N < 2 ^ n)
    (hc : Nat.Coprime a N) : ∃ b', modMul (powMod a b.N (expo b.N k)) k (addH b k) = some b' ∧ Stage N a n (k + 1) b' := by
  classical
  have hw : WF (addH b k) := by
    have h' : WF (emit b (.h k)) := h.wf
    exact h'.toDirty k
  have hpar : Par b (addH b k) := Par.trans ⟨rfl, rfl, rfl⟩ (toDirty_par _ _)
  have hg : (addH b k).gates = b.gates ++ [.h k] := by
    show (toDirty _ _).gates = _
    rw [toDirty_gates]; rfl
  have hcl : ∀ q ∈ (addH b k).clean, q ∈ b.clean ∧ q ≠ k := fun q hq => mem_toDirty (b := emit b (.h k)) h.wf hq
  obtain ⟨b', hb, hD⟩ := runs_modMul hk hn hN2 hN (const_coprime hN2 hc k) (addH b k) hw (hpar.2.1.trans h.hn) (hpar.1.trans h.hN)
  rw [h.hN]
  obtain ⟨gs, e, hcs, hx⟩ := hD.gates
  rw [hpar.2.1, h.hn] at hcs
  have hpow : 2 ^ (k + 1) = 2 * 2 ^ k := by rw [pow_succ]; ring
  have key : ∀ x (β : Bool), x < 2 ^ k → exec gs (enc n (x + β.toNat * 2 ^ k) (a ^ x % N)) =
      enc n (x + β.toNat * 2 ^ k) (a ^ (x + β.toNat * 2 ^ k) % N) ∧ Z b'.clean (enc n (x + β.toNat * 2 ^ k) (a ^ (x + β.toNat * 2 ^ k) % N)) := by
    intro x β hxk
    have hm : a ^ x % N < N := Nat.mod_lt _ (by omega)
    have hz : Z (addH b k).clean (enc n (x + β.toNat * 2 ^ k) (a ^ x % N)) := by
      intro q hq
      obtain ⟨q1, q2⟩ := hcl q hq
      rw [← enc_set hk hxk, set_other q2]
      exact h.clean x hxk q q1
    have h1 := hx _ (enc_pre hm hN) hz
    have hb : enc n (x + β.toNat * 2 ^ k) (a ^ x % N) k = β := by rw [← enc_set hk hxk, set_same]
    simp only [hb, enc_reg (show a ^ x % N < 2 ^ n by omega)] at h1
    cases β
    · simpa using h1
    · simp only [if_true, enc_setReg, Bool.toNat_true, one_mul] at h1 ⊢
      rw [const_eq hN2 hc, ← Nat.mul_mod, ← pow_add, Nat.add_comm (2 ^ k) x] at h1
      exact h1
  have split : ∀ x', x' < 2 ^ (k + 1) → ∃ x β, x < 2 ^ k ∧ x' = x + Bool.toNat β * 2 ^ k := by
    intro x' hx'
    by_cases hlt : x' < 2 ^ k
    · exact ⟨x', false, hlt, by simp⟩
    · exact ⟨x' - 2 ^ k, true, by omega, by simp; omega⟩
  refine ⟨b', hb, hD.wf, hD.par.2.1.trans (hpar.2.1.trans h.hn), hD.par.1.trans (hpar.1.trans h.hN), ?_, ?_, ?_⟩
  · intro g hm
    rw [e, hg] at hm
    rcases List.mem_append.1 hm with hm | hm
    · rcases List.mem_append.1 hm with hm | hm
      · exact h.ok g hm
      · rw [List.mem_singleton] at hm; rw [hm]
        show k < 4 * n + 2
        omega
    · exact (hcs g hm).ok
  · intro s
    rw [e, hg, amp_append, amp_append, amp_classical gs hcs]
    show (1 / (√2 : ℝ) : ℂ) * (Bench.amp b.gates (delta zero) (set _ k false) + _ * Bench.amp b.gates (delta zero) (set _ k true)) = _
    rw [h.amp, h.amp]
    have hoff : ¬ ∃ x, x < 2 ^ k ∧ set (exec gs.reverse s) k true = enc n x (a ^ x % N) := by
      rintro ⟨x, hxk, he⟩
      have := congrFun he k
      rw [set_same, enc_low hk, Nat.testBit_lt_two_pow hxk] at this
      cases this
    rw [if_neg hoff, mul_zero, add_zero]
    have hiff : (∃ x, x < 2 ^ k ∧ set (exec gs.reverse s) k false = enc n x (a ^ x % N)) ↔
        ∃ x, x < 2 ^ (k + 1) ∧ s = enc n x (a ^ x % N) := by
      constructor
      · rintro ⟨x, hxk, he⟩
        have h1 : exec gs.reverse s = enc n (x + (exec gs.reverse s k).toNat * 2 ^ k) (a ^ x % N) := by
          rw [← enc_set hk hxk, ← he, set_set, set_self]
        refine ⟨x + (exec gs.reverse s k).toNat * 2 ^ k, ?_, ?_⟩
        · cases exec gs.reverse s k <;> simp <;> omega
        · rw [← (key x _ hxk).1, ← h1, exec_forth gs hcs]
      · rintro ⟨x', hx', he⟩
        obtain ⟨x, β, hxk, rfl⟩ := split x' hx'
        refine ⟨x, hxk, ?_⟩
        rw [he, ← (key x β hxk).1, exec_back gs hcs, enc_set_any hk hxk]
    by_cases hs : ∃ x, x < 2 ^ (k + 1) ∧ s = enc n x (a ^ x % N)
    · rw [if_pos hs, if_pos (hiff.2 hs), pow_succ, mul_comm]
    · rw [if_neg hs, if_neg (fun h => hs (hiff.1 h)), mul_zero]
  · intro x' hx'
    obtain ⟨x, β, hxk, rfl⟩ := split x' hx'
    exact (key x β hxk).2

/-- The first gate. -/
theorem stage_zero {N a : Nat} (uc dec : Bool) (hN2 : 2 ≤ N) : Stage N a N.size 0 (addX (init N uc dec) ((init N uc dec).y 0)) := by
  classical
  have hw : WF (init N uc dec) := by
    unfold WF init
    simp
  have hn : 2 ≤ N.size := by
    rw [← Nat.not_lt, Nat.lt_iff_le_pred (by norm_num), Nat.size_le]; norm_num; omega
  have hw' : WF (emit (init N uc dec) (.x ((init N uc dec).y 0))) := hw
  have h1 : a ^ 0 % N = 1 := by rw [pow_zero, Nat.mod_eq_of_lt (by omega)]
  have hset : set zero (2 * N.size) true = enc N.size 0 1 := by
    funext q
    by_cases hq : q = 2 * N.size
    · rw [hq, set_same]
      unfold enc; rw [if_neg (by omega), if_pos (by omega)]; simp
    · rw [set_other hq]
      unfold enc zero
      by_cases h1 : q < 2 * N.size
      · rw [if_pos h1]; simp
      · rw [if_neg h1]
        by_cases h2 : q < 3 * N.size
        · rw [if_pos h2]
          obtain ⟨d, hd⟩ : ∃ d, q - 2 * N.size = d + 1 := ⟨q - 2 * N.size - 1, by omega⟩
          rw [hd, Nat.testBit_succ]; simp
        · rw [if_neg h2]
  refine ⟨hw'.toDirty _, (toDirty_par _ _).2.1, (toDirty_par _ _).1, ?_, ?_, ?_⟩
  · intro g hg
    unfold addX at hg
    rw [toDirty_gates] at hg
    have : g = .x ((init N uc dec).y 0) := by simpa [emit, init] using hg
    rw [this]
    show 2 * N.size + 0 < 4 * N.size + 2
    omega
  · intro s
    unfold addX
    rw [toDirty_gates]
    show delta zero (set s (2 * N.size + 0) (!s (2 * N.size + 0))) = _
    unfold delta
    rw [Nat.add_zero, pow_zero]
    have : set s (2 * N.size) (!s (2 * N.size)) = zero ↔ ∃ x, x < 1 ∧ s = enc N.size x (a ^ x % N) := by
      constructor
      · intro h
        refine ⟨0, by norm_num, ?_⟩
        have h2 := congrArg (fun s => set s (2 * N.size) (!s (2 * N.size))) h
        simp only [set_same, set_set, Bool.not_not, set_self] at h2
        rw [h1, h2, ← hset]; rfl
      · rintro ⟨x, hx, rfl⟩
        obtain rfl : x = 0 := by omega
        rw [h1, ← hset, set_same, set_set]
        exact set_self zero (2 * N.size)
    by_cases hs : ∃ x, x < 1 ∧ s = enc N.size x (a ^ x % N)
    · rw [if_pos (this.2 hs), if_pos (by simpa using hs), pow_zero]
    · rw [if_neg (fun h => hs (this.1 h)), if_neg (by simpa using hs)]
  · intro x hx q hq
    obtain rfl : x = 0 := by simpa using hx
    rw [h1, ← hset]
    have := mem_toDirty hw' hq
    rw [set_other (by simpa [B.y, init] using this.2)]
    rfl

/-- **`find_order_algorithm` before the inverse Fourier transform.** -/
theorem findOrder_stage {N a : Nat} (uc dec : Bool) (hN2 : 2 ≤ N) (hc : Nat.Coprime a N) :
    ∃ b, findOrder N a uc dec = some b ∧ Stage N a N.size (2 * N.size) b := by
  have hn : 2 ≤ N.size := by
    rw [← Nat.not_lt, Nat.lt_iff_le_pred (by norm_num), Nat.size_le]; norm_num; omega
  have h0 := stage_zero (a := a) uc dec hN2
  unfold findOrder modExp
  dsimp only
  generalize hb : addX (init N uc dec) ((init N uc dec).y 0) = b0 at h0 ⊢
  rw [h0.hn]
  have : ∀ k, k ≤ 2 * N.size → ∃ b, loop (fun i b => modMul (powMod a b.N (expo b.N i)) i (if true = true then addH b i else b)) k b0 = some b ∧
      Stage N a N.size k b := by
    intro k
    induction k with
    | zero => intro _; exact ⟨b0, rfl, h0⟩
    | succ k ih =>
      intro hk
      obtain ⟨b, e, hs⟩ := ih (by omega)
      obtain ⟨b', e', hs'⟩ := stage_step hs (by omega) hn hN2 (Nat.lt_size_self N) hc
      exact ⟨b', by rw [loop, e]; simp only [if_true, Option.bind_some]; have := (toDirty_par (emit b (.h k)) k).1; exact (by simpa using e'), hs'⟩
  exact this _ le_rfl

end QDD.Bench
