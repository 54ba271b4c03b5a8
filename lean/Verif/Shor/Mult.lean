import Verif.Shor.Qft
/-!
# The modular multiplier on basis states
-/

set_option linter.unusedSectionVars false
set_option linter.unusedVariables false
set_option linter.unusedSimpArgs false

namespace QDD.Shor
open Spec Api Gate Props Py Py.Client QDD.Grover
open Finset (range mem_range)

/-- A basis state. -/
noncomputable def dl (j : Nat) : Nat → CR := fun i => if i = j then 1 else 0

theorem enc_bit {m z b h : Nat} (hz : z < 2) (hb : b < 2 ^ m) : ∀ q, (enc m z b h).testBit q =
    if q = 0 then decide (z = 1) else if q ≤ m then b.testBit (q - 1) else h.testBit (q - (m + 1)) := by
  intro q
  cases q with
  | zero =>
    rw [Nat.testBit_zero, enc_mod hz, if_pos rfl]
  | succ k =>
    rw [Nat.testBit_succ, enc_div hz, Nat.add_comm b, Nat.testBit_two_pow_mul_add _ hb, if_neg (show ¬ k + 1 = 0 by omega)]
    by_cases h : k < m
    · rw [if_pos h, if_pos (show k + 1 ≤ m by omega)]; rfl
    · rw [if_neg h, if_neg (show ¬ k + 1 ≤ m by omega)]
      congr 1
      omega

/-- The controls are outside the register. -/
def Outside (m : Nat) (cs : List Ctrl) : Prop := ∀ c ∈ cs, c.qubit = 0 ∨ m < c.qubit

theorem Outside.blind {m N : Nat} {cs : List Ctrl} (h : Outside m cs) : Blind m (sat cs N) := by
  intro t h1 h2 i
  unfold sat
  apply propext
  refine forall_congr' fun c => forall_congr' fun hc => ?_
  rw [bit_xor, if_neg]
  rcases h c hc with h0 | h0 <;> omega

theorem Outside.enc {m N z b b' h : Nat} {cs : List Ctrl} (ho : Outside m cs) (hz : z < 2) (hb : b < 2 ^ m) (hb' : b' < 2 ^ m) :
    sat cs N (enc m z b h) ↔ sat cs N (enc m z b' h) := by
  unfold sat
  refine forall_congr' fun c => forall_congr' fun hc => ?_
  rw [enc_bit hz hb, enc_bit hz hb']
  rcases ho c hc with h0 | h0
  · rw [if_pos h0, if_pos h0]
  · rw [if_neg (by omega), if_neg (by omega), if_neg (by omega), if_neg (by omega)]

/-- Controlled addition on a basis state. -/
theorem ADD_dl {m N z b h : Nat} {cs : List Ctrl} (ho : Outside m cs) (hz : z < 2) (hb : b < 2 ^ m) (a : Int) :
    (fun i => if sat cs N i then ADD m a (dl (enc m z b h)) i else dl (enc m z b h) i) =
      dl (enc m z (if sat cs N (enc m z b h) then addm m b a else b) h) := by
  funext i
  rw [← enc_eta m i]
  have hz' : i % 2 < 2 := by omega
  have hl := low_lt m i
  generalize i % 2 = z' at *
  generalize low m i = b' at *
  generalize i / 2 / 2 ^ m = h' at *
  have hlt := addm_lt m b a
  have hlt' := addm_lt m b' (-a)
  unfold ADD dl
  rw [enc_mod hz', enc_low hz' hl, enc_high hz' hl]
  have key : ∀ {b1 b2 : Nat}, b1 < 2 ^ m → b2 < 2 ^ m → ((enc m z' b1 h' = enc m z b2 h) ↔ (z' = z ∧ b1 = b2 ∧ h' = h)) := fun h1 h2 =>
    ⟨fun h => enc_inj hz' h1 hz h2 h, fun ⟨a, b, c⟩ => by rw [a, b, c]⟩
  by_cases hs : sat cs N (enc m z b h)
  · rw [if_pos hs]
    simp only [key hl hlt, key hlt' hb, key hl hb]
    by_cases hzz : z' = z ∧ h' = h
    · obtain ⟨rfl, rfl⟩ := hzz
      rw [if_pos ((ho.enc hz' hb hl).1 hs)]
      have : (addm m b' (-a) = b) ↔ (b' = addm m b a) := by
        constructor
        · intro e; rw [← e, addm_addm hl _ _ (by omega)]
        · intro e; rw [e, addm_addm hb _ _ (by omega)]
      simp only [this]
    · have e1 : ∀ p : Prop, ¬ (z' = z ∧ p ∧ h' = h) := fun p hp => hzz ⟨hp.1, hp.2.2⟩
      simp only [e1, if_false, ite_self]
  · rw [if_neg hs]
    simp only [key hl hb, key hlt' hb]
    by_cases hzz : z' = z ∧ h' = h
    · obtain ⟨rfl, rfl⟩ := hzz
      rw [if_neg (fun hc => hs ((ho.enc hz' hb hl).2 hc))]
    · have e1 : ∀ p : Prop, ¬ (z' = z ∧ p ∧ h' = h) := fun p hp => hzz ⟨hp.1, hp.2.2⟩
      simp only [e1, if_false, ite_self]

/-- Controlled X on a basis state. -/
theorem X_dl {N q : Nat} {cs : List Ctrl} (hq : ∀ c ∈ cs, c.qubit ≠ q) (j : Nat) :
    cact N q cs (fun a b => Xmat (bit a) (bit b)) (dl j) = dl (if sat cs N j then j ^^^ 2 ^ q else j) := by
  funext i
  rw [cact_X]
  have hs : ∀ i, sat cs N (i ^^^ 2 ^ q) ↔ sat cs N i := by
    intro i
    unfold sat
    refine forall_congr' fun c => forall_congr' fun hc => ?_
    rw [bit_xor, if_neg (hq c hc)]
  unfold dl
  have hflip : ∀ x y : Nat, x ^^^ 2 ^ q = y ↔ x = y ^^^ 2 ^ q := by
    intro x y
    constructor
    · intro h; rw [← h, xor_twice]
    · intro h; rw [h, xor_twice]
  by_cases hj : sat cs N j
  · rw [if_pos hj]
    by_cases hi : sat cs N i
    · rw [if_pos hi]; simp only [hflip]
    · rw [if_neg hi, if_neg, if_neg]
      · intro e; exact hi (by rw [e]; exact (hs j).2 hj)
      · intro e; exact hi (by rw [e]; exact hj)
  · rw [if_neg hj]
    by_cases hi : sat cs N i
    · rw [if_pos hi, if_neg, if_neg]
      · intro e; exact hj (by rw [← e]; exact hi)
      · intro e; exact hj (by rw [← e]; exact (hs i).2 hi)
    · rw [if_neg hi]

/-! ## The controls -/

variable {r : Nat}

theorem sat_none (i : Nat) : sat (controls2 r none none) (nQubits r) i := fun c hc => by cases hc

theorem controls_none_out (m : Nat) : Outside m (controls2 r none none) := fun c hc => by cases hc

theorem ctl_anc : controls2 r (some (2 * r + 2)) none = [⟨0, false⟩] := by
  unfold controls2 emplace ctl nQubits; simp

theorem controls_anc_out (m : Nat) : Outside m (controls2 r (some (2 * r + 2)) none) := by
  rw [ctl_anc]; intro c hc; simp at hc; subst hc; exact .inl rfl

theorem sat_anc {z b h : Nat} (hz : z < 2) (hb : b < 2 ^ (r + 1)) :
    sat (controls2 r (some (2 * r + 2)) none) (nQubits r) (enc (r + 1) z b h) ↔ z = 1 := by
  rw [ctl_anc, sat_one (by unfold nQubits; omega), enc_bit hz hb, if_pos rfl]
  simp

theorem ctl_two {i : Nat} (h1 : 1 ≤ i) (h2 : i ≤ r) :
    controls2 r (some i) (some 0) = [⟨2 * r + 2 - i, false⟩, ⟨2 * r + 2, false⟩] := by
  unfold controls2 emplace ctl nQubits
  simp only [emplace]
  have e : 2 * r + 3 - 1 = 2 * r + 2 := by omega
  rw [e, if_neg (by simp), if_neg (by simp; omega)]
  rfl

theorem controls_two_out {i : Nat} (h1 : 1 ≤ i) (h2 : i ≤ r) : Outside (r + 1) (controls2 r (some i) (some 0)) := by
  rw [ctl_two h1 h2]
  intro c hc
  simp at hc
  rcases hc with rfl | rfl
  · exact .inr (show r + 1 < 2 * r + 2 - i by omega)
  · exact .inr (show r + 1 < 2 * r + 2 by omega)

theorem sat_two {i z b h : Nat} (h1 : 1 ≤ i) (h2 : i ≤ r) (hz : z < 2) (hb : b < 2 ^ (r + 1)) :
    sat (controls2 r (some i) (some 0)) (nQubits r) (enc (r + 1) z b h) ↔ (h.testBit (r - i) = true ∧ h.testBit r = true) := by
  rw [ctl_two h1 h2]
  have e1 : (enc (r + 1) z b h).testBit (2 * r + 2 - i) = h.testBit (r - i) := by
    rw [enc_bit hz hb, if_neg (by omega), if_neg (by omega)]; congr 1; omega
  have e2 : (enc (r + 1) z b h).testBit (2 * r + 2) = h.testBit r := by
    rw [enc_bit hz hb, if_neg (by omega), if_neg (by omega)]; congr 1; omega
  unfold sat nQubits
  simp [e1, e2]
  omega

/-! ## The parts of the adder -/

theorem add_step {a z b h : Nat} (ha : a < 2 ^ 31) {c1 c2 : Option Nat} (ho : Outside (r + 1) (controls2 r c1 c2)) (hz : z < 2) (hb : b < 2 ^ (r + 1)) :
    run (addPhi r a c1 c2) (Q (r + 1) (dl (enc (r + 1) z b h))) =
      Q (r + 1) (dl (enc (r + 1) z (if sat (controls2 r c1 c2) (nQubits r) (enc (r + 1) z b h) then addm (r + 1) b a else b) h)) := by
  rw [run_addPhi ha c1 c2 ho.blind, ADD_dl ho hz hb]

theorem sub_step {a z b h : Nat} (ha : a < 2 ^ 31) {c1 c2 : Option Nat} (ho : Outside (r + 1) (controls2 r c1 c2)) (hz : z < 2) (hb : b < 2 ^ (r + 1)) :
    run (addPhiInv r a c1 c2) (Q (r + 1) (dl (enc (r + 1) z b h))) =
      Q (r + 1) (dl (enc (r + 1) z (if sat (controls2 r c1 c2) (nQubits r) (enc (r + 1) z b h) then addm (r + 1) b (-a) else b) h)) := by
  rw [run_addPhiInv ha c1 c2 ho.blind, ADD_dl ho hz hb]

theorem top_bit {b : Nat} (hb : b < 2 ^ (r + 1)) : b.testBit r = decide (2 ^ r ≤ b) := by
  rw [Nat.testBit_eq_decide_div_mod_eq]
  congr 1
  rw [pow_succ] at hb
  have hp := Nat.two_pow_pos r
  by_cases h : 2 ^ r ≤ b
  · have : b / 2 ^ r = 1 := by rw [Nat.div_eq_iff hp]; omega
    rw [this]; simp [h]
  · have : b / 2 ^ r = 0 := Nat.div_eq_of_lt (by omega)
    rw [this]; simp; omega

theorem enc_xor_one {m z b h : Nat} (hz : z < 2) : enc m z b h ^^^ 2 ^ 0 = enc m (1 - z) b h := by
  have h0 : (enc m z b h).testBit 0 = decide (z = 1) := by rw [Nat.testBit_zero, enc_mod hz]
  obtain rfl | rfl : z = 0 ∨ z = 1 := by omega
  · rw [xor_up (by rw [h0]; rfl)]; unfold enc; omega
  · have := xor_down (show (enc m 1 b h).testBit 0 = true by rw [h0]; rfl)
    unfold enc at *; omega

theorem top_step {z b h : Nat} (neg : Bool) (hz : z < 2) (hb : b < 2 ^ (r + 1)) :
    run [topX r neg] (dl (enc (r + 1) z b h)) = dl (enc (r + 1) (if decide (2 ^ r ≤ b) = !neg then 1 - z else z) b h) := by
  rw [run_cons, run_nil]
  unfold topX
  have e1 : nQubits r - 1 - (2 * r + 2) = 0 := by unfold nQubits; omega
  have e2 : nQubits r - 1 - (r + 1) = r + 1 := by unfold nQubits; omega
  rw [sem_gate, e1, e2, X_dl (by intro c hc; simp at hc; subst hc; exact Nat.succ_ne_zero _)]
  have hs : sat [⟨r + 1, neg⟩] (nQubits r) (enc (r + 1) z b h) ↔ decide (2 ^ r ≤ b) = !neg := by
    unfold sat
    have hlt : r + 1 < nQubits r := by unfold nQubits; omega
    simp only [List.mem_singleton, forall_eq, hlt, true_implies]
    rw [enc_bit hz hb, if_neg (by omega), if_pos le_rfl, Nat.add_sub_cancel, top_bit hb]
  by_cases h : decide (2 ^ r ≤ b) = !neg
  · rw [if_pos (hs.2 h), if_pos h, enc_xor_one hz]
  · rw [if_neg (fun h' => h (hs.1 h')), if_neg h]

theorem Q_Qinv_run {f : Nat → CR} : run (qftInv r) (Q (r + 1) f) = f := by rw [run_qftInv, Qinv_Q]

theorem addm_eq {m b c : Nat} {a k : Int} (hc : c < 2 ^ m) (h : (b : Int) + a = c + 2 ^ m * k) : addm m b a = c := by
  have : ((addm m b a : Nat) : Int) = c := by
    rw [addm_cast, h, Int.add_mul_emod_self_left]
    exact Int.emod_eq_of_lt (by omega) (by exact_mod_cast hc)
  exact_mod_cast this

theorem addm_nowrap {m b a : Nat} (h : b + a < 2 ^ m) : addm m b a = b + a := addm_eq (k := 0) h (by push_cast; omega)
theorem addm_wrap {m b a : Nat} (h : 2 ^ m ≤ b + a) (h2 : b + a < 2 ^ m + 2 ^ m) : addm m b a = b + a - 2 ^ m := by
  refine addm_eq (k := 1) (by omega) ?_
  have : (((2 ^ m : Nat)) : Int) = 2 ^ m := by push_cast; rfl
  omega
theorem subm_nowrap {m b a : Nat} (hb : b < 2 ^ m) (h : a ≤ b) : addm m b (-a) = b - a := addm_eq (k := 0) (by omega) (by omega)
theorem subm_wrap {m b a : Nat} (h : b < a) (ha : a ≤ 2 ^ m) : addm m b (-a) = b + 2 ^ m - a := by
  refine addm_eq (k := -1) (by omega) ?_
  have : (((2 ^ m : Nat)) : Int) = 2 ^ m := by push_cast; rfl
  omega

/-- `mod_add_phi` adds modulo `N` (shor.cpp 89-111). -/
theorem modAdd_step {a N b h i : Nat} (hN : N ≤ 2 ^ r) (hN31 : N < 2 ^ 31) (ha : a < N) (hb : b < N) (h1 : 1 ≤ i) (h2 : i ≤ r) :
    run (modAddPhi r a N (some i) (some 0)) (Q (r + 1) (dl (enc (r + 1) 0 b h))) =
      Q (r + 1) (dl (enc (r + 1) 0 ((b + if h.testBit (r - i) = true ∧ h.testBit r = true then a else 0) % N) h)) := by
  have hM : 2 ^ (r + 1) = 2 ^ r + 2 ^ r := by rw [pow_succ]; ring
  have ha31 : a < 2 ^ 31 := by omega
  have o2 := controls_two_out h1 h2
  have o0 := controls_none_out (r := r) (r + 1)
  have oa := controls_anc_out (r := r) (r + 1)
  unfold modAddPhi
  simp only [run_append, run_qft]
  rw [add_step ha31 o2 (by omega) (by omega)]
  simp only [sat_two h1 h2 (show 0 < 2 by omega) (show b < 2 ^ (r + 1) by omega)]
  by_cases hs : h.testBit (r - i) = true ∧ h.testBit r = true
  · simp only [if_pos hs]
    rw [addm_nowrap (by omega), sub_step hN31 o0 (by omega) (by omega), if_pos (sat_none _), Q_Qinv_run]
    by_cases hlt : b + a < N
    · rw [subm_wrap hlt (by omega), top_step false (by omega) (by omega), if_pos (by rw [decide_eq_true (by omega)]; rfl),
        add_step hN31 oa (by omega) (by omega), if_pos ((sat_anc (by omega) (by omega)).2 rfl), addm_wrap (by omega) (by omega)]
      have e : b + a + 2 ^ (r + 1) - N + N - 2 ^ (r + 1) = b + a := by omega
      rw [e, sub_step ha31 o2 (by omega) (by omega), if_pos ((sat_two h1 h2 (by omega) (by omega)).2 hs), subm_nowrap (by omega) (by omega), Q_Qinv_run]
      rw [show b + a - a = b by omega, top_step true (by omega) (by omega), if_pos (by rw [decide_eq_false (by omega)]; rfl),
        add_step ha31 o2 (by omega) (by omega), if_pos ((sat_two h1 h2 (by omega) (by omega)).2 hs), addm_nowrap (by omega), Nat.mod_eq_of_lt hlt]
    · rw [subm_nowrap (by omega) (by omega), top_step false (by omega) (by omega), if_neg (by rw [decide_eq_false (by omega)]; decide),
        add_step hN31 oa (by omega) (by omega), if_neg (fun hc => by have := (sat_anc (by omega) (by omega)).1 hc; omega)]
      rw [sub_step ha31 o2 (by omega) (by omega), if_pos ((sat_two h1 h2 (by omega) (by omega)).2 hs), subm_wrap (by omega) (by omega), Q_Qinv_run]
      rw [top_step true (by omega) (by omega), if_neg (by rw [decide_eq_true (by omega)]; decide),
        add_step ha31 o2 (by omega) (by omega), if_pos ((sat_two h1 h2 (by omega) (by omega)).2 hs), addm_wrap (by omega) (by omega)]
      have e : (b + a) % N = b + a - N := by rw [Nat.mod_eq_sub_mod (by omega), Nat.mod_eq_of_lt (by omega)]
      rw [e]
      congr 3
      omega
  · simp only [if_neg hs]
    rw [sub_step hN31 o0 (by omega) (by omega), if_pos (sat_none _), Q_Qinv_run]
    rw [subm_wrap hb (by omega), top_step false (by omega) (by omega), if_pos (by rw [decide_eq_true (by omega)]; rfl),
        add_step hN31 oa (by omega) (by omega), if_pos ((sat_anc (by omega) (by omega)).2 rfl), addm_wrap (by omega) (by omega)]
    have e : b + 2 ^ (r + 1) - N + N - 2 ^ (r + 1) = b := by omega
    rw [e, sub_step ha31 o2 (by omega) (by omega), if_neg (fun hc => hs ((sat_two h1 h2 (by omega) (by omega)).1 hc)), Q_Qinv_run]
    rw [top_step true (by omega) (by omega), if_pos (by rw [decide_eq_false (by omega)]; rfl),
        add_step ha31 o2 (by omega) (by omega), if_neg (fun hc => hs ((sat_two h1 h2 (by omega) (by omega)).1 hc)), show b + 0 = b from rfl, Nat.mod_eq_of_lt hb]

/-- `mod_add_phi_inv` subtracts modulo `N` (shor.cpp 112-135). -/
theorem modSub_step {a N b h i : Nat} (hN : N ≤ 2 ^ r) (hN31 : N < 2 ^ 31) (ha : a < N) (hb : b < N) (h1 : 1 ≤ i) (h2 : i ≤ r) :
    run (modAddPhiInv r a N (some i) (some 0)) (Q (r + 1) (dl (enc (r + 1) 0 b h))) =
      Q (r + 1) (dl (enc (r + 1) 0 ((b + if h.testBit (r - i) = true ∧ h.testBit r = true then N - a else 0) % N) h)) := by
  have hM : 2 ^ (r + 1) = 2 ^ r + 2 ^ r := by rw [pow_succ]; ring
  have ha31 : a < 2 ^ 31 := by omega
  have o2 := controls_two_out h1 h2
  have o0 := controls_none_out (r := r) (r + 1)
  have oa := controls_anc_out (r := r) (r + 1)
  unfold modAddPhiInv
  simp only [run_append, run_qft]
  rw [sub_step ha31 o2 (by omega) (by omega)]
  simp only [sat_two h1 h2 (show 0 < 2 by omega) (show b < 2 ^ (r + 1) by omega)]
  by_cases hs : h.testBit (r - i) = true ∧ h.testBit r = true
  · simp only [if_pos hs]
    rw [Q_Qinv_run]
    by_cases hlt : b < a
    · rw [subm_wrap hlt (by omega), top_step true (by omega) (by omega), if_neg (by rw [decide_eq_true (by omega)]; decide),
        add_step ha31 o2 (by omega) (by omega), if_pos ((sat_two h1 h2 (by omega) (by omega)).2 hs), addm_wrap (by omega) (by omega)]
      have e : b + 2 ^ (r + 1) - a + a - 2 ^ (r + 1) = b := by omega
      rw [e, sub_step hN31 oa (by omega) (by omega), if_neg (fun hc => by have := (sat_anc (by omega) (by omega)).1 hc; omega), Q_Qinv_run,
        top_step false (by omega) (by omega), if_neg (by rw [decide_eq_false (by omega)]; decide),
        add_step hN31 o0 (by omega) (by omega), if_pos (sat_none _), addm_nowrap (by omega),
        sub_step ha31 o2 (by omega) (by omega), if_pos ((sat_two h1 h2 (by omega) (by omega)).2 hs), subm_nowrap (by omega) (by omega),
        Nat.mod_eq_of_lt (by omega)]
      congr 3
      omega
    · rw [subm_nowrap (by omega) (by omega), top_step true (by omega) (by omega), if_pos (by rw [decide_eq_false (by omega)]; rfl),
        add_step ha31 o2 (by omega) (by omega), if_pos ((sat_two h1 h2 (by omega) (by omega)).2 hs), addm_nowrap (by omega)]
      have e : b - a + a = b := by omega
      rw [e, sub_step hN31 oa (by omega) (by omega), if_pos ((sat_anc (by omega) (by omega)).2 rfl), subm_wrap hb (by omega), Q_Qinv_run,
        top_step false (by omega) (by omega), if_pos (by rw [decide_eq_true (by omega)]; rfl),
        add_step hN31 o0 (by omega) (by omega), if_pos (sat_none _), addm_wrap (by omega) (by omega)]
      have e : b + 2 ^ (r + 1) - N + N - 2 ^ (r + 1) = b := by omega
      rw [e, sub_step ha31 o2 (by omega) (by omega), if_pos ((sat_two h1 h2 (by omega) (by omega)).2 hs), subm_nowrap (by omega) (by omega),
        Nat.mod_eq_sub_mod (by omega), Nat.mod_eq_of_lt (by omega)]
      congr 3
      omega
  · simp only [if_neg hs]
    rw [Q_Qinv_run, top_step true (by omega) (by omega), if_pos (by rw [decide_eq_false (by omega)]; rfl),
        add_step ha31 o2 (by omega) (by omega), if_neg (fun hc => hs ((sat_two h1 h2 (by omega) (by omega)).1 hc)),
        sub_step hN31 oa (by omega) (by omega), if_pos ((sat_anc (by omega) (by omega)).2 rfl), subm_wrap hb (by omega), Q_Qinv_run,
        top_step false (by omega) (by omega), if_pos (by rw [decide_eq_true (by omega)]; rfl),
        add_step hN31 o0 (by omega) (by omega), if_pos (sat_none _), addm_wrap (by omega) (by omega)]
    have e : b + 2 ^ (r + 1) - N + N - 2 ^ (r + 1) = b := by omega
    rw [e, sub_step ha31 o2 (by omega) (by omega), if_neg (fun hc => hs ((sat_two h1 h2 (by omega) (by omega)).1 hc)), show b + 0 = b from rfl, Nat.mod_eq_of_lt hb]

/-! ## Multiplication -/

theorem loop_step {N h : Nat} (hN : 0 < N) (hN30 : N ≤ 2 ^ 30) {step : Nat → Nat → List (Cmd ℝ)} {w : Nat → Nat}
    (hw : ∀ t < N, w ((2 * t) % N) ≡ 2 * w t [MOD N])
    (hstep : ∀ t b i, t < N → b < N → 1 ≤ i → i ≤ r → run (step t i) (Q (r + 1) (dl (enc (r + 1) 0 b h))) =
      Q (r + 1) (dl (enc (r + 1) 0 ((b + if h.testBit (r - i) = true ∧ h.testBit r = true then w t else 0) % N) h))) :
    ∀ (i : Nat), i ≤ r → ∀ t, t < N → ∃ l, multLoop step N i t = some l ∧ ∀ b, b < N →
      run l (Q (r + 1) (dl (enc (r + 1) 0 b h))) =
        Q (r + 1) (dl (enc (r + 1) 0 ((b + if h.testBit r = true then w t * (h % 2 ^ r / 2 ^ (r - i)) else 0) % N) h)) := by
  intro i
  induction i with
  | zero =>
    intro _ t ht
    refine ⟨[], rfl, fun b hb => ?_⟩
    have e : h % 2 ^ r / 2 ^ (r - 0) = 0 := Nat.div_eq_of_lt (Nat.mod_lt _ (Nat.two_pow_pos r))
    rw [run_nil, e, Nat.mul_zero, ite_self]
    show _ = Q (r + 1) (dl (enc (r + 1) 0 (b % N) h))
    rw [Nat.mod_eq_of_lt hb]
  | succ i ih =>
    intro hi t ht
    obtain ⟨l, hl, hrun⟩ := ih (by omega) ((2 * t) % N) (Nat.mod_lt _ hN)
    refine ⟨step t (i + 1) ++ l, ?_, fun b hb => ?_⟩
    · unfold multLoop
      rw [if_pos (by omega), hl]
      rfl
    · rw [run_append, hstep t b (i + 1) ht hb (by omega) hi, hrun _ (Nat.mod_lt _ hN)]
      congr 3
      by_cases hc : h.testBit r = true
      · simp only [hc, if_true, and_true]
        have e1 : r - i = (r - (i + 1)) + 1 := by omega
        have e2 : h % 2 ^ r / 2 ^ (r - (i + 1)) = (if h.testBit (r - (i + 1)) = true then 1 else 0) + 2 * (h % 2 ^ r / 2 ^ (r - i)) := by
          rw [e1, pow_succ, ← Nat.div_div_eq_div_mul]
          have hb : (h % 2 ^ r).testBit (r - (i + 1)) = h.testBit (r - (i + 1)) := by
            rw [Nat.testBit_mod_two_pow]; simp; omega
          rw [← hb, Nat.testBit_eq_decide_div_mod_eq]
          have := Nat.mod_add_div (h % 2 ^ r / 2 ^ (r - (i + 1))) 2
          rcases Nat.mod_two_eq_zero_or_one (h % 2 ^ r / 2 ^ (r - (i + 1))) with h0 | h0 <;> simp [h0] <;> omega
        rw [e2]
        generalize h % 2 ^ r / 2 ^ (r - i) = y
        show _ ≡ _ [MOD N]
        refine (Nat.ModEq.add_right _ (Nat.mod_modEq _ _)).trans ?_
        rw [Nat.mul_add, ← Nat.mul_assoc, Nat.add_assoc]
        refine Nat.ModEq.add_left _ ?_
        have e3 : w t * (if h.testBit (r - (i + 1)) = true then 1 else 0) = if h.testBit (r - (i + 1)) = true then w t else 0 := by split <;> simp
        rw [e3, Nat.mul_comm (w t) 2]
        exact Nat.ModEq.add_left _ ((hw t ht).mul_right _)
      · simp only [hc, Bool.false_eq_true, if_false, and_false, Nat.add_zero, Nat.mod_mod]

theorem w_sub {N t : Nat} (ht : t < N) : N - (2 * t) % N ≡ 2 * (N - t) [MOD N] := by
  have hlt : (2 * t) % N < N := Nat.mod_lt _ (by omega)
  have h1 : N - (2 * t) % N + 2 * t ≡ 0 [MOD N] := by
    have : N - (2 * t) % N + 2 * t = N * (1 + 2 * t / N) := by
      have := Nat.mod_add_div (2 * t) N
      rw [Nat.mul_add, Nat.mul_one]
      omega
    rw [this]
    exact Nat.modEq_zero_iff_dvd.2 (Nat.dvd_mul_right _ _)
  have h2 : 2 * (N - t) + 2 * t ≡ 0 [MOD N] := by
    rw [show 2 * (N - t) + 2 * t = N * 2 by omega]
    exact Nat.modEq_zero_iff_dvd.2 (Nat.dvd_mul_right _ _)
  exact Nat.ModEq.add_right_cancel' (2 * t) (h1.trans h2.symm)

theorem cmult_step {a N : Nat} (hN : N ≤ 2 ^ r) (hN30 : N ≤ 2 ^ 30) (ha : a < N) (h : Nat) : ∃ l, cmult r a N 0 = some l ∧ ∀ b < N,
    run l (dl (enc (r + 1) 0 b h)) = dl (enc (r + 1) 0 ((b + if h.testBit r = true then a * (h % 2 ^ r) else 0) % N) h) := by
  obtain ⟨l, hl, hrun⟩ := loop_step (r := r) (N := N) (h := h) (by omega) hN30 (step := fun t i => modAddPhi r t N (some i) (some 0)) (w := id)
    (fun t _ => Nat.mod_modEq _ _) (fun t b i ht hb h1 h2 => modAdd_step hN (by omega) ht hb h1 h2) r le_rfl a ha
  refine ⟨qft r ++ l ++ qftInv r, ?_, fun b hb => ?_⟩
  · unfold cmult; rw [hl]; rfl
  · rw [run_append, run_append, run_qft, hrun b hb, Q_Qinv_run, Nat.sub_self, pow_zero, Nat.div_one]; rfl

theorem cmultInv_step {a N : Nat} (hN : N ≤ 2 ^ r) (hN30 : N ≤ 2 ^ 30) (ha : a < N) (h : Nat) : ∃ l, cmultInv r a N 0 = some l ∧ ∀ b < N,
    run l (dl (enc (r + 1) 0 b h)) = dl (enc (r + 1) 0 ((b + if h.testBit r = true then (N - a) * (h % 2 ^ r) else 0) % N) h) := by
  obtain ⟨l, hl, hrun⟩ := loop_step (r := r) (N := N) (h := h) (by omega) hN30 (step := fun t i => modAddPhiInv r t N (some i) (some 0)) (w := fun t => N - t)
    (fun t ht => w_sub ht) (fun t b i ht hb h1 h2 => modSub_step hN (by omega) ht hb h1 h2) r le_rfl a ha
  refine ⟨qft r ++ l ++ qftInv r, ?_, fun b hb => ?_⟩
  · unfold cmultInv; rw [hl]; rfl
  · rw [run_append, run_append, run_qft, hrun b hb, Q_Qinv_run, Nat.sub_self, pow_zero, Nat.div_one]

/-! ## The swap -/

/-- The three gates that swap two bits if the control is set. -/
theorem swap3 {k : Nat} (hk : k < r) (j : Nat) : ∃ j', run [
      .gate (nQubits r) Xmat ((nQubits r - 1) - ((r - (k + 1)) + 1)) [ctl r (r + 2 + (r - (k + 1)))],
      .gate (nQubits r) Xmat ((nQubits r - 1) - (r + 2 + (r - (k + 1)))) (emplace (ctl r 0) [ctl r ((r - (k + 1)) + 1)]),
      .gate (nQubits r) Xmat ((nQubits r - 1) - ((r - (k + 1)) + 1)) [ctl r (r + 2 + (r - (k + 1)))]] (dl j) = dl j' ∧
    ∀ t, j'.testBit t = if j.testBit (2 * r + 2) then
        (if t = r + 2 + k then j.testBit (1 + k) else if t = 1 + k then j.testBit (r + 2 + k) else j.testBit t)
      else j.testBit t := by
  have e1 : nQubits r - 1 - ((r - (k + 1)) + 1) = r + 2 + k := by unfold nQubits; omega
  have e2 : nQubits r - 1 - (r + 2 + (r - (k + 1))) = 1 + k := by unfold nQubits; omega
  have e3 : ctl r (r + 2 + (r - (k + 1))) = ⟨1 + k, false⟩ := by unfold ctl; rw [e2]
  have e4 : ctl r ((r - (k + 1)) + 1) = ⟨r + 2 + k, false⟩ := by unfold ctl; rw [e1]
  have e5 : emplace (ctl r 0) [⟨r + 2 + k, false⟩] = [⟨r + 2 + k, false⟩, ⟨2 * r + 2, false⟩] := by
    have : ctl r 0 = ⟨2 * r + 2, false⟩ := rfl
    rw [this]
    unfold emplace
    rw [if_neg (by simp; omega), if_neg (by simp; omega)]
    rfl
  have s1 : ∀ i, sat [⟨1 + k, false⟩] (nQubits r) i ↔ i.testBit (1 + k) = true := fun i => sat_one (by unfold nQubits; omega)
  have s2 : ∀ i, sat [⟨r + 2 + k, false⟩, ⟨2 * r + 2, false⟩] (nQubits r) i ↔ (i.testBit (r + 2 + k) = true ∧ i.testBit (2 * r + 2) = true) := by
    intro i
    have l1 : r + 2 + k < nQubits r := by unfold nQubits; omega
    have l2 : 2 * r + 2 < nQubits r := by unfold nQubits; omega
    unfold sat
    simp [l1, l2]
  rw [e1, e2, e3, e4, e5, run_cons, run_cons, run_cons, run_nil, sem_gate, sem_gate, sem_gate,
      X_dl (by intro c hc; simp at hc; subst hc; show 1 + k ≠ r + 2 + k; omega),
      X_dl (by intro c hc; simp at hc; rcases hc with rfl | rfl <;> [show r + 2 + k ≠ 1 + k; show 2 * r + 2 ≠ 1 + k] <;> omega),
      X_dl (by intro c hc; simp at hc; subst hc; show 1 + k ≠ r + 2 + k; omega)]
  refine ⟨_, rfl, ?_⟩
  · intro t
    simp only [s1, s2]
    have n1 : ¬ (1 + k = r + 2 + k) := by omega
    have n2 : ¬ (r + 2 + k = 1 + k) := by omega
    have n3 : ¬ (2 * r + 2 = r + 2 + k) := by omega
    have n4 : ¬ (2 * r + 2 = 1 + k) := by omega
    cases hP : j.testBit (r + 2 + k) <;> cases hQ : j.testBit (1 + k) <;> cases hC : j.testBit (2 * r + 2) <;>
      simp only [hP, hQ, hC, bit_xor, n1, n2, n3, n4, if_true, if_false, Bool.false_eq_true, Bool.true_eq_false, Bool.not_true, Bool.not_false, and_true, and_false, true_and, false_and, and_self] <;>
      (by_cases t1 : t = r + 2 + k <;> by_cases t2 : t = 1 + k <;> simp_all)

theorem swap_step : ∀ (k : Nat), k ≤ r → ∀ j, ∃ j', run (swapLoop r 0 k (r - k)) (dl j) = dl j' ∧
    ∀ t, j'.testBit t = if j.testBit (2 * r + 2) then
        (if 1 ≤ t ∧ t < 1 + k then j.testBit (r + 1 + t) else if r + 2 ≤ t ∧ t < r + 2 + k then j.testBit (t - (r + 1)) else j.testBit t)
      else j.testBit t := by
  intro k
  induction k with
  | zero =>
    intro _ j
    refine ⟨j, rfl, fun t => ?_⟩
    rw [if_neg (show ¬ (1 ≤ t ∧ t < 1 + 0) by omega), if_neg (show ¬ (r + 2 ≤ t ∧ t < r + 2 + 0) by omega), ite_self]
  | succ k ih =>
    intro hk j
    obtain ⟨j1, h1, b1⟩ := swap3 (r := r) (k := k) (by omega) j
    obtain ⟨j2, h2, b2⟩ := ih (by omega) j1
    refine ⟨j2, ?_, fun t => ?_⟩
    · rw [swapLoop, show r - (k + 1) + 1 = r - k by omega]
      rw [show r - (k + 1) + 1 = r - k by omega] at h1
      rw [run_cons, run_cons, run_cons, ← h2, ← h1]
      rfl
    · have hC : j1.testBit (2 * r + 2) = j.testBit (2 * r + 2) := by
        rw [b1]
        split
        · rw [if_neg (by omega), if_neg (by omega)]
        · rfl
      rw [b2, hC]
      by_cases hc : j.testBit (2 * r + 2) = true
      · simp only [hc, if_true] at b1 ⊢
        by_cases t1 : 1 ≤ t ∧ t < 1 + k
        · rw [if_pos t1, if_pos (by omega), b1, if_neg (by omega), if_neg (by omega)]
        · rw [if_neg t1]
          by_cases t2 : r + 2 ≤ t ∧ t < r + 2 + k
          · rw [if_pos t2, if_neg (by omega), if_pos (by omega), b1, if_neg (by omega), if_neg (by omega)]
          · rw [if_neg t2, b1]
            by_cases t3 : t = r + 2 + k
            · rw [if_pos t3, if_neg (by omega), if_pos (by omega)]
              congr 1; omega
            · rw [if_neg t3]
              by_cases t4 : t = 1 + k
              · rw [if_pos t4, if_pos (by omega)]
                congr 1; omega
              · rw [if_neg t4, if_neg (by omega), if_neg (by omega)]
      · simp only [hc, Bool.false_eq_true, if_false] at b1 ⊢
        exact b1 t

/-- The index of control `c`, register `x`, register `b`, ancilla 0. -/
def at_ (r c x b : Nat) : Nat := enc (r + 1) 0 b (x + 2 ^ r * c)

theorem h_bit {x c : Nat} (hx : x < 2 ^ r) (k : Nat) : (x + 2 ^ r * c).testBit k = if k < r then x.testBit k else c.testBit (k - r) := by
  rw [Nat.add_comm, Nat.testBit_two_pow_mul_add _ hx]

theorem h_top {x c : Nat} (hx : x < 2 ^ r) (hc : c < 2) : ((x + 2 ^ r * c).testBit r = true) ↔ c = 1 := by
  rw [h_bit hx, if_neg (by omega), Nat.sub_self, Nat.testBit_zero]
  simp; omega

theorem h_mod {x c : Nat} (hx : x < 2 ^ r) : (x + 2 ^ r * c) % 2 ^ r = x := by
  rw [Nat.add_mul_mod_self_left, Nat.mod_eq_of_lt hx]

theorem swap_regs {c x b : Nat} (hc : c < 2) (hx : x < 2 ^ r) (hb : b < 2 ^ r) :
    run (swapLoop r 0 r 0) (dl (at_ r c x b)) = dl (if c = 1 then at_ r c b x else at_ r c x b) := by
  obtain ⟨j', h1, h2⟩ := swap_step (r := r) r le_rfl (at_ r c x b)
  rw [Nat.sub_self] at h1
  rw [h1]
  congr 1
  have hM : 2 ^ (r + 1) = 2 ^ r + 2 ^ r := by rw [pow_succ]; ring
  have bits : ∀ {x b : Nat}, x < 2 ^ r → b < 2 ^ r → ∀ t, (at_ r c x b).testBit t =
      if t = 0 then false else if t ≤ r then b.testBit (t - 1) else if t = r + 1 then false else
        if t < 2 * r + 2 then x.testBit (t - (r + 2)) else c.testBit (t - (2 * r + 2)) := by
    intro x b hx hb t
    unfold at_
    rw [enc_bit (by omega) (by omega), h_bit hx]
    by_cases t0 : t = 0
    · rw [if_pos t0, if_pos t0]; rfl
    rw [if_neg t0, if_neg t0]
    by_cases t1 : t ≤ r
    · rw [if_pos t1, if_pos (by omega)]
    rw [if_neg t1]
    by_cases t2 : t = r + 1
    · rw [if_pos t2, if_pos (by omega), t2, Nat.add_sub_cancel, Nat.testBit_lt_two_pow hb]
    rw [if_neg t2, if_neg (by omega)]
    by_cases t3 : t < 2 * r + 2
    · rw [if_pos t3, if_pos (by omega)]
    · rw [if_neg t3, if_neg (by omega)]; congr 1; omega
  have hcb : (at_ r c x b).testBit (2 * r + 2) = decide (c = 1) := by
    rw [bits hx hb, if_neg (by omega), if_neg (by omega), if_neg (by omega), if_neg (by omega), Nat.sub_self, Nat.testBit_zero]
    congr 1
    rw [Nat.mod_eq_of_lt hc]
  apply Nat.eq_of_testBit_eq
  intro t
  rw [h2, hcb]
  by_cases h : c = 1
  · rw [if_pos (decide_eq_true h), if_pos h, bits hb hx]
    by_cases t0 : t = 0
    · rw [if_pos t0, if_neg (by omega), if_neg (by omega), bits hx hb, if_pos t0]
    rw [if_neg t0]
    by_cases t1 : t ≤ r
    · rw [if_pos t1, if_pos (by omega), bits hx hb, if_neg (by omega), if_neg (by omega), if_neg (by omega), if_pos (by omega)]
      congr 1; omega
    rw [if_neg t1, if_neg (by omega)]
    by_cases t2 : t = r + 1
    · rw [if_pos t2, if_neg (by omega), bits hx hb, if_neg (by omega), if_neg (by omega), if_pos t2]
    rw [if_neg t2]
    by_cases t3 : t < 2 * r + 2
    · rw [if_pos t3, if_pos (by omega), bits hx hb, if_neg (by omega), if_pos (by omega)]
      congr 1
    · rw [if_neg t3, if_neg (by omega), bits hx hb, if_neg (by omega), if_neg (by omega), if_neg (by omega), if_neg (by omega)]
  · rw [if_neg (by simp [h]), if_neg h]

end QDD.Shor
