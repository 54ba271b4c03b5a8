import Verif.Bench.Mod
/-!
# The modular multiplier of the benchmark
-/
set_option linter.unusedVariables false
set_option linter.unusedSimpArgs false

namespace QDD.Bench

theorem runs_loopQ {n N : Nat} {f : Nat → B → Option B} (Q : S → Prop) (P : Nat → S → Prop) (g h : Nat → S → S) (k : Nat)
    (hf : ∀ i, i < k → Runs n N (f i) (P i) (g i)) (h0 : ∀ s, Q s → h 0 s = s) (hs : ∀ i s, i < k → Q s → g i (h i s) = h (i + 1) s)
    (hP : ∀ i s, i < k → Q s → P i (h i s)) : Runs n N (loop f k) Q (h k) := by
  have : ∀ j, j ≤ k → Runs n N (loop f j) Q (h j) := by
    intro j
    induction j with
    | zero => intro _; exact (runs_skip n N).mono (fun s hq => ⟨trivial, (h0 s hq).symm⟩)
    | succ j ih =>
      intro hj
      refine Runs.mono ((ih (by omega)).bind (hf j (by omega)) (fun s hp => hP j s (by omega) hp)) (fun s hp => ⟨hp, hs j s (by omega) hp⟩)
  exact this k le_rfl

theorem bit_le_reg {r w i : Nat} {s : S} (hi : i < w) (h : s (r + i) = true) : 2 ^ i ≤ reg r w s := by
  have : (reg r w s).testBit i = true := by rw [reg_testBit, h]; simp [hi]
  by_contra hlt
  rw [Nat.testBit_lt_two_pow (by omega)] at this
  cases this

theorem reg_mod_succ (r w i : Nat) (s : S) (hi : i < w) : reg r w s % 2 ^ (i + 1) = reg r w s % 2 ^ i + 2 ^ i * (s (r + i)).toNat := by
  rw [Nat.mod_pow_succ, ← Nat.toNat_testBit, reg_testBit]
  simp [hi]

/-- The values `add_mod_ps_circuit` is used on. -/
structure PreP (n N : Nat) (s : S) : Prop where
  r1 : s (4 * n + 1) = false
  r3 : s (3 * n) = false
  lt : reg (3 * n + 1) n s < N
  y : reg (2 * n) n s < N

theorem setR2_r1 {n N V : Nat} (hN : N < 2 ^ n) (hV : V < N) (s : S) : setReg (3 * n + 1) (n + 1) V s (4 * n + 1) = false := by
  rw [setReg_in (by omega), show 4 * n + 1 - (3 * n + 1) = n by omega]
  exact Nat.testBit_lt_two_pow (by omega)

theorem setR2_reg {n N V : Nat} (hN : N < 2 ^ n) (hV : V < N) (s : S) : reg (3 * n + 1) n (setReg (3 * n + 1) (n + 1) V s) = V := by
  have h := reg_setReg (3 * n + 1) (n + 1) V s
  rw [reg, show 3 * n + 1 + n = 4 * n + 1 by omega, setR2_r1 hN hV] at h
  have hpow : 2 ^ (n + 1) = 2 * 2 ^ n := by rw [pow_succ]; ring
  rw [Nat.mod_eq_of_lt (by omega)] at h
  simpa using h

theorem setR2_low {n V q : Nat} (hq : q ≤ 3 * n) (s : S) : setReg (3 * n + 1) (n + 1) V s q = s q := setReg_out (by omega)

theorem reg_full {n : Nat} {s : S} (h1 : s (4 * n + 1) = false) : reg (3 * n + 1) (n + 1) s = reg (3 * n + 1) n s := by
  rw [reg, show 3 * n + 1 + n = 4 * n + 1 by omega, h1]; simp

/-- **`add_mod_ps_circuit(d, [x])`**: `R2 := (R2 + d * y) % N` if `x` is set. -/
theorem runs_modPs {n N d x : Nat} (hx : x < 2 * n) (hn : 2 ≤ n) (hN2 : 2 ≤ N) (hN : N < 2 ^ n) (hcop : Nat.Coprime d N) :
    Runs n N (modPs d x) (PreP n N)
      (fun s => if s x then setReg (3 * n + 1) (n + 1) ((reg (3 * n + 1) n s + d * reg (2 * n) n s) % N) s else s) := by
  have hstep : ∀ i, i < n → Runs n N (fun b => modAdd ((2 % b.N) ^ i * d % b.N) [x, b.y i] b) (PreA n N ((2 % N) ^ i * d % N) [x, 2 * n + i])
      (fun s => if [x, 2 * n + i].all s then setReg (3 * n + 1) (n + 1) ((reg (3 * n + 1) n s + (2 % N) ^ i * d % N) % N) s else s) := by
    intro i hi
    refine runs_modAdd (by simp; omega) ?_ rfl hn hN (Nat.mod_lt _ (by omega)) (fun b => (2 % b.N) ^ i * d % b.N) (fun b => [x, b.y i]) ?_
    · intro c hc
      simp only [List.mem_cons, List.not_mem_nil, or_false] at hc
      omega
    · intro b e1 e2
      unfold B.y
      rw [e1, e2]; exact ⟨rfl, rfl⟩
  let h : Nat → S → S := fun i s => if s x then
    setReg (3 * n + 1) (n + 1) ((reg (3 * n + 1) n s + d * (reg (2 * n) n s % 2 ^ i)) % N) s else s
  have hlow : ∀ i s q, q ≤ 3 * n → h i s q = s q := by
    intro i s q hq
    show (if s x then _ else s) q = s q
    split
    · exact setR2_low hq s
    · rfl
  have hreg : ∀ i s, PreP n N s → reg (3 * n + 1) n (h i s) = if s x then (reg (3 * n + 1) n s + d * (reg (2 * n) n s % 2 ^ i)) % N
      else reg (3 * n + 1) n s := by
    intro i s hp
    show reg _ n (if s x then _ else s) = _
    split
    · exact setR2_reg hN (Nat.mod_lt _ (by omega)) s
    · rfl
  have hpre : ∀ i s, PreP n N s → PreP n N (h i s) := by
    intro i s hp
    refine ⟨?_, ?_, ?_, ?_⟩
    · show (if s x then _ else s) _ = false
      split
      · exact setR2_r1 hN (Nat.mod_lt _ (by omega)) s
      · exact hp.r1
    · rw [hlow i s _ le_rfl]; exact hp.r3
    · rw [hreg i s hp]
      split
      · exact Nat.mod_lt _ (by omega)
      · exact hp.lt
    · rw [reg_congr (s' := s) (fun q h1 h2 => hlow i s q (by omega))]
      exact hp.y
  have main := runs_loopQ (n := n) (N := N) (f := fun i b => modAdd ((2 % b.N) ^ i * d % b.N) [x, b.y i] b) (PreP n N)
    (fun i s => PreA n N ((2 % N) ^ i * d % N) [x, 2 * n + i] s)
    (fun i s => if [x, 2 * n + i].all s then setReg (3 * n + 1) (n + 1) ((reg (3 * n + 1) n s + (2 % N) ^ i * d % N) % N) s else s) h n
    hstep
    (fun s hp => by
      show (if s x then _ else s) = s
      split
      · simp only [pow_zero, Nat.mod_one, Nat.mul_zero, Nat.add_zero]
        rw [Nat.mod_eq_of_lt hp.lt, ← reg_full hp.r1, setReg_reg]
      · rfl)
    (fun i s hi hp => by
      simp only [List.all_cons, List.all_nil, Bool.and_true]
      rw [hlow i s _ (by omega), hlow i s _ (by omega), hreg i s hp]
      by_cases hsx : s x = true
      · have e1 : h i s = setReg (3 * n + 1) (n + 1) ((reg (3 * n + 1) n s + d * (reg (2 * n) n s % 2 ^ i)) % N) s := if_pos hsx
        have e2 : h (i + 1) s = setReg (3 * n + 1) (n + 1) ((reg (3 * n + 1) n s + d * (reg (2 * n) n s % 2 ^ (i + 1))) % N) s := if_pos hsx
        rw [e1, e2, reg_mod_succ _ _ _ _ hi, hsx]
        by_cases hy : s (2 * n + i) = true
        · simp only [hy, Bool.and_self, if_true, Bool.toNat_true, Nat.mul_one]
          rw [setReg_setReg]
          congr 1
          rw [Nat.mod_add_mod, Nat.add_mod_mod, ← Nat.add_mod_mod _ ((2 % N) ^ i * d), Nat.mul_mod ((2 % N) ^ i), ← Nat.pow_mod, ← Nat.mul_mod, Nat.add_mod_mod]
          congr 1; ring
        · simp [hy]
      · have e1 : h i s = s := if_neg hsx
        have e2 : h (i + 1) s = s := if_neg hsx
        rw [e1, e2]
        simp [hsx])
    (fun i s hi hp => by
      have k := hpre i s hp
      refine ⟨k.r1, k.r3, k.lt, fun ha => ?_⟩
      simp only [List.all_cons, List.all_nil, Bool.and_true, Bool.and_eq_true] at ha
      have hy := ha.2
      rw [hlow i s _ (by omega)] at hy
      have hb := bit_le_reg hi hy
      have hlt := hp.y
      rw [Nat.mul_mod, ← Nat.pow_mod, ← Nat.mul_mod]
      apply Nat.pos_of_ne_zero
      intro h0
      have hdv : N ∣ 2 ^ i := (Nat.Coprime.dvd_of_dvd_mul_right hcop.symm (Nat.dvd_of_mod_eq_zero h0))
      have := Nat.le_of_dvd (Nat.two_pow_pos i) hdv
      omega)
  intro b w e1 e2
  have := main b w e1 e2
  unfold modPs
  rw [e1]
  obtain ⟨b', hb, hD⟩ := this
  refine ⟨b', hb, ?_⟩
  have hfin : h n = fun s => if s x then setReg (3 * n + 1) (n + 1) ((reg (3 * n + 1) n s + d * reg (2 * n) n s) % N) s else s := by
    funext s
    show (if s x then _ else s) = _
    rw [Nat.mod_eq_of_lt (reg_lt (2 * n) n s)]
  rw [← hfin]; exact hD

/-- The registers `y` and `R2` with their first `k` qubits exchanged. -/
def swp (n k : Nat) (s : S) : S := fun q =>
  if 2 * n ≤ q ∧ q < 2 * n + k then s (q + n + 1) else if 3 * n + 1 ≤ q ∧ q < 3 * n + 1 + k then s (q - (n + 1)) else s q

theorem cswap_on {x p q : Nat} (h1 : x ≠ p) (h2 : x ≠ q) (h3 : p ≠ q) (s : S) :
    cnot [q] p (cnot [x, p] q (cnot [q] p s)) = if s x then set (set s p (s q)) q (s p) else s := by
  have e1 : cnot [q] p s = set s p (xor (s p) (s q)) := by
    unfold cnot; rw [flip_if]; simp
  have e2 : cnot [x, p] q (set s p (xor (s p) (s q))) = set (set s p (xor (s p) (s q))) q (xor (s q) (s x && xor (s p) (s q))) := by
    unfold cnot; rw [flip_if]; simp [set_other h1, set_other h3.symm]
  rw [e1, e2]
  unfold cnot
  rw [flip_if]
  simp only [List.all_cons, List.all_nil, Bool.and_true, set_same, set_other h3]
  funext i
  by_cases hi : i = p
  · subst hi
    rw [set_same]
    cases hx : s x <;> cases hp : s i <;> cases hq : s q <;> simp [hx, hp, hq, set_other h3]
  · rw [set_other hi]
    by_cases hj : i = q
    · subst hj
      rw [set_same]
      cases hx : s x <;> cases hp : s p <;> cases hq : s i <;> simp [hx, hp, hq]
    · rw [set_other hj, set_other hi]
      cases hx : s x <;> simp [hx, set_other hi, set_other hj]

theorem runs_swap {n N x : Nat} (hx : x < 2 * n) :
    Runs n N (fun b => loop (fun i b => cSwap x (b.y i) (b.R2 i) b) b.n b) (fun _ => True) (fun s => if s x then swp n n s else s) := by
  have hstep : ∀ i, i < n → Runs n N (fun b => cSwap x (b.y i) (b.R2 i) b) (fun _ => True)
      (fun s => if s x then set (set s (2 * n + i) (s (3 * n + 1 + i))) (3 * n + 1 + i) (s (2 * n + i)) else s) := by
    intro i hi
    have a : Runs n N (fun b => ckNot b [3 * n + 1 + i] (2 * n + i) false) (fun _ => True) (cnot [3 * n + 1 + i] (2 * n + i)) :=
      runs_ckNot (by simp) (by simp; omega) (fun b => [3 * n + 1 + i]) (fun b => 2 * n + i) false (Or.inl (by simp)) (fun b e => ⟨rfl, rfl⟩)
        (fun c h => by simp only [List.mem_cons, List.not_mem_nil, or_false] at h; omega) (by omega)
    have c : Runs n N (fun b => ckNot b [x, 2 * n + i] (3 * n + 1 + i) false) (fun _ => True) (cnot [x, 2 * n + i] (3 * n + 1 + i)) :=
      runs_ckNot (by simp; omega) (by simp; omega) (fun b => [x, 2 * n + i]) (fun b => 3 * n + 1 + i) false (Or.inl (by simp)) (fun b e => ⟨rfl, rfl⟩)
        (fun c h => by simp only [List.mem_cons, List.not_mem_nil, or_false] at h; omega) (by omega)
    have := ((a.bind c (fun _ _ => trivial)).bind a (fun _ _ => trivial)).mono (P' := fun _ => True)
      (fun s _ => ⟨trivial, cswap_on (by omega) (by omega) (by omega) s⟩)
    intro b w e1 e2
    obtain ⟨b', hb, hD⟩ := this b w e1 e2
    refine ⟨b', ?_, hD⟩
    rw [← hb]
    unfold cSwap B.y B.R2
    dsimp only
    rw [e1]
    simp only [Option.bind_eq_bind, Option.bind_assoc]
  have main := runs_loopQ (n := n) (N := N) (f := fun i b => cSwap x (b.y i) (b.R2 i) b) (fun _ => True) (fun _ _ => True)
    (fun i s => if s x then set (set s (2 * n + i) (s (3 * n + 1 + i))) (3 * n + 1 + i) (s (2 * n + i)) else s)
    (fun i s => if s x then swp n i s else s) n hstep
    (fun s _ => by
      split
      · funext q; unfold swp; rw [if_neg (by omega), if_neg (by omega)]
      · rfl)
    (fun i s hi _ => by
      by_cases h : s x = true
      · have hx' : swp n i s x = true := by
          unfold swp; rw [if_neg (by omega), if_neg (by omega), h]
        simp only [h, if_true, hx']
        funext q
        by_cases h1 : q = 3 * n + 1 + i
        · subst h1
          rw [set_same]
          unfold swp
          rw [if_neg (by omega), if_neg (by omega), if_neg (by omega), if_pos (by omega)]
          congr 1; omega
        · rw [set_other h1]
          by_cases h2 : q = 2 * n + i
          · subst h2
            rw [set_same]
            unfold swp
            rw [if_neg (by omega), if_neg (by omega), if_pos (by omega)]
            congr 1; omega
          · rw [set_other h2]
            unfold swp
            by_cases h3 : 2 * n ≤ q ∧ q < 2 * n + i
            · rw [if_pos h3, if_pos (by omega)]
            · rw [if_neg h3, if_neg (c := 2 * n ≤ q ∧ q < 2 * n + (i + 1)) (by omega)]
              by_cases h4 : 3 * n + 1 ≤ q ∧ q < 3 * n + 1 + i
              · rw [if_pos h4, if_pos (by omega)]
              · rw [if_neg h4, if_neg (by omega)]
      · simp [h])
    (fun _ _ _ _ => trivial)
  intro b w e1 e2
  obtain ⟨b', hb, hD⟩ := main b w e1 e2
  exact ⟨b', by simp only [e1]; exact hb, hD⟩

/-- The values `add_mod_mul_circuit` is used on. -/
structure PreM (n N : Nat) (s : S) : Prop where
  r1 : s (4 * n + 1) = false
  r3 : s (3 * n) = false
  r2 : ∀ i, i < n → s (3 * n + 1 + i) = false
  y : reg (2 * n) n s < N

theorem reg_zero {r w : Nat} {s : S} : reg r w s = 0 ↔ ∀ i, i < w → s (r + i) = false := by
  constructor
  · intro h i hi
    have := reg_testBit r w s i
    rw [h] at this
    simpa [hi] using this.symm
  · intro h
    apply Nat.eq_of_testBit_eq
    intro j
    rw [reg_testBit]
    by_cases hj : j < w
    · simp [h j hj]
    · simp [hj]

theorem swp_x {n k x : Nat} (hx : x < 2 * n) (s : S) : swp n k s x = s x := by
  unfold swp; rw [if_neg (by omega), if_neg (by omega)]
theorem swp_y {n : Nat} (s : S) : reg (2 * n) n (swp n n s) = reg (3 * n + 1) n s := by
  apply Nat.eq_of_testBit_eq
  intro j
  rw [reg_testBit, reg_testBit]
  by_cases hj : j < n
  · simp only [hj, decide_true, Bool.true_and]
    unfold swp
    rw [if_pos (by omega)]; congr 1; omega
  · simp [hj]
theorem swp_r2 {n : Nat} (s : S) : reg (3 * n + 1) n (swp n n s) = reg (2 * n) n s := by
  apply Nat.eq_of_testBit_eq
  intro j
  rw [reg_testBit, reg_testBit]
  by_cases hj : j < n
  · simp only [hj, decide_true, Bool.true_and]
    unfold swp
    rw [if_neg (by omega), if_pos (by omega)]; congr 1; omega
  · simp [hj]
theorem swp_out {n q : Nat} (s : S) (h : q < 2 * n ∨ q = 3 * n ∨ 4 * n + 1 ≤ q) : swp n n s q = s q := by
  unfold swp; rw [if_neg (by omega), if_neg (by omega)]

theorem invMod_spec {d N : Nat} (hN : 2 ≤ N) (hc : Nat.Coprime d N) : ∃ e, invMod d N = some e ∧ e < N ∧ d * e % N = 1 := by
  unfold invMod
  have h1 : 1 % N = 1 := Nat.mod_eq_of_lt (by omega)
  rw [h1]
  obtain ⟨m, hm⟩ := Nat.exists_mul_mod_eq_one_of_coprime hc (by omega)
  have hex : ∃ e ∈ List.range N, decide (d * e % N = 1) = true := ⟨m % N, by rw [List.mem_range]; exact Nat.mod_lt _ (by omega), by
    rw [decide_eq_true_iff, Nat.mul_mod_mod]; exact hm.2⟩
  cases hf : (List.range N).find? (fun e => decide (d * e % N = 1)) with
  | none =>
    rw [List.find?_eq_none] at hf
    obtain ⟨e, he, h⟩ := hex
    exact absurd h (hf e he)
  | some e =>
    have h2 := List.find?_some hf
    have h3 := List.mem_of_find?_eq_some hf
    exact ⟨e, rfl, List.mem_range.1 h3, by simpa using h2⟩

theorem undo_zero {N d e y : Nat} (hN : 2 ≤ N) (he : e < N) (h : d * e % N = 1) : (y + (N - e) % N * (d * y % N)) % N = 0 := by
  have e1 : (y + (N - e) % N * (d * y % N)) % N = (y + (N - e) * (d * y)) % N := by
    rw [Nat.add_mod, Nat.mul_mod ((N - e) % N), Nat.mod_mod, Nat.mod_mod, ← Nat.mul_mod, ← Nat.add_mod]
  rw [e1]
  have h2 : N * (d * y) + y = (y + (N - e) * (d * y)) + (d * e) * y - y + y := by
    have : N * (d * y) = (N - e) * (d * y) + d * e * y := by
      obtain ⟨k, rfl⟩ : ∃ k, N = e + k := ⟨N - e, by omega⟩
      rw [Nat.add_sub_cancel_left]; ring
    omega
  have h3 : (y + (N - e) * (d * y)) + d * e * y = N * (d * y) + y := by
    have : N * (d * y) = (N - e) * (d * y) + d * e * y := by
      obtain ⟨k, rfl⟩ : ∃ k, N = e + k := ⟨N - e, by omega⟩
      rw [Nat.add_sub_cancel_left]; ring
    omega
  have h4 : (y + (N - e) * (d * y)) + d * e * y ≡ 0 + d * e * y [MOD N] := by
    rw [h3, Nat.zero_add]
    have : d * e * y ≡ 1 * y [MOD N] := Nat.ModEq.mul_right y (by unfold Nat.ModEq; rw [h, Nat.mod_eq_of_lt (by omega)])
    refine Nat.ModEq.trans ?_ this.symm
    unfold Nat.ModEq
    rw [Nat.mul_add_mod, Nat.one_mul]
  have := Nat.ModEq.add_right_cancel' _ h4
  simpa [Nat.ModEq] using this

theorem inv_coprime {N d e : Nat} (hN : 2 ≤ N) (he : e < N) (h : d * e % N = 1) : Nat.Coprime ((N - e) % N) N := by
  have h0 : e ≠ 0 := by rintro rfl; simp at h
  rw [Nat.mod_eq_of_lt (by omega)]
  have h1 : Nat.Coprime e N := by
    have : Nat.Coprime (d * e) N := by
      have h2 : d * e = 1 + N * (d * e / N) := by
        have := Nat.mod_add_div (d * e) N
        omega
      rw [h2]
      simp
    exact Nat.Coprime.coprime_mul_left this
  have h2 : Nat.Coprime (N - e) e := (Nat.coprime_sub_self_left he.le).2 h1.symm
  have h3 : Nat.Coprime (N - e) (N - e + e) := by simpa using h2
  rwa [Nat.sub_add_cancel he.le] at h3

/-- **`add_mod_mul_circuit(d, [x])`**: `y := d * y % N` if `x` is set. -/
theorem runs_modMul {n N d x : Nat} (hx : x < 2 * n) (hn : 2 ≤ n) (hN2 : 2 ≤ N) (hN : N < 2 ^ n) (hcop : Nat.Coprime d N) :
    Runs n N (modMul d x) (PreM n N) (fun s => if s x then setReg (2 * n) n (d * reg (2 * n) n s % N) s else s) := by
  obtain ⟨e, he, helt, hinv⟩ := invMod_spec hN2 hcop
  have r1 := runs_modPs hx hn hN2 hN hcop
  have r2 := runs_swap (N := N) hx
  have r3 := runs_modPs hx hn hN2 hN (inv_coprime hN2 helt hinv)
  have r4 : Runs n N (fun b => loop (fun i b => some (toClean b (b.R2 i))) b.n b) (fun s => ∀ i, i < n → s (3 * n + 1 + i) = false)
      (fun s => s) := by
    have := runs_loopQ (n := n) (N := N) (f := fun i b => some (toClean b (b.R2 i))) (fun s => ∀ i, i < n → s (3 * n + 1 + i) = false)
      (fun i s => s (3 * n + 1 + i) = false) (fun _ s => s) (fun _ s => s) n
      (fun i hi => runs_toClean (fun b => b.R2 i) _ (fun b e => by unfold B.R2; rw [e])) (fun _ _ => rfl) (fun _ _ _ _ => rfl)
      (fun i s hi hq => hq i hi)
    intro b w e1 e2
    obtain ⟨b', hb, hD⟩ := this b w e1 e2
    exact ⟨b', by simp only [e1]; exact hb, hD⟩
  -- after the swap
  have h12 := (r1.bind r2 (fun _ _ => trivial)).mono (P' := PreM n N) (f' := fun s => if s x then
      setReg (2 * n) n (d * reg (2 * n) n s % N) (setReg (3 * n + 1) (n + 1) (reg (2 * n) n s) s) else s) (fun s hp => by
    have hz : reg (3 * n + 1) n s = 0 := reg_zero.2 hp.r2
    refine ⟨⟨hp.r1, hp.r3, by omega, hp.y⟩, ?_⟩
    by_cases hsx : s x = true
    · simp only [hsx, if_true, hz, Nat.zero_add]
      rw [setR2_low (by omega), hsx, if_pos rfl]
      have hy := hp.y
      have hm : d * reg (2 * n) n s % N < N := Nat.mod_lt _ (by omega)
      funext q
      by_cases h1 : 2 * n ≤ q ∧ q < 2 * n + n
      · rw [setReg_in h1]
        unfold swp
        rw [if_pos h1, setReg_in (by omega)]; congr 1; omega
      · rw [setReg_out h1]
        unfold swp
        rw [if_neg h1]
        by_cases h2 : 3 * n + 1 ≤ q ∧ q < 3 * n + 1 + n
        · rw [if_pos h2, setReg_in (q := q) (by omega), setR2_low (by omega), reg_testBit]
          simp only [show q - (3 * n + 1) < n by omega, decide_true, Bool.true_and]
          congr 1; omega
        · rw [if_neg h2]
          by_cases h3 : q = 4 * n + 1
          · rw [h3, setR2_r1 hN hm, setR2_r1 hN hy]
          · rw [setReg_out (by omega), setReg_out (by omega)]
    · simp [hsx])
  have h123 := (h12.bind r3 (fun s hp => by
    have hy := hp.y
    by_cases hsx : s x = true
    · simp only [hsx, if_true]
      refine ⟨?_, ?_, ?_, ?_⟩
      · rw [setReg_out (by omega), setR2_r1 hN hy]
      · rw [setReg_out (by omega), setR2_low le_rfl, hp.r3]
      · rw [reg_congr (s' := setReg (3 * n + 1) (n + 1) (reg (2 * n) n s) s) (fun q h1 h2 => setReg_out (by omega)), setR2_reg hN hy]
        exact hy
      · rw [reg_setReg]
        exact lt_of_le_of_lt (Nat.mod_le _ _) (Nat.mod_lt _ (by omega))
    · simp only [hsx, if_false, Bool.false_eq_true]
      exact ⟨hp.r1, hp.r3, by rw [reg_zero.2 hp.r2]; omega, hy⟩)).mono (P' := PreM n N)
        (f' := fun s => if s x then setReg (2 * n) n (d * reg (2 * n) n s % N) s else s) (fun s hp => ⟨hp, by
    by_cases hsx : s x = true
    · have hy := hp.y
      have hm : d * reg (2 * n) n s % N < N := Nat.mod_lt _ (by omega)
      simp only [hsx, if_true]
      rw [setReg_out (by omega), setR2_low (by omega), hsx, if_pos rfl,
        reg_congr (s' := setReg (3 * n + 1) (n + 1) (reg (2 * n) n s) s) (fun q h1 h2 => setReg_out (by omega)), setR2_reg hN hy,
        reg_setReg, Nat.mod_eq_of_lt (b := 2 ^ n) (by omega), undo_zero hN2 helt hinv]
      funext q
      by_cases h1 : 3 * n + 1 ≤ q ∧ q < 3 * n + 1 + (n + 1)
      · rw [setReg_in h1, Nat.zero_testBit, setReg_out (by omega)]
        by_cases h3 : q = 4 * n + 1
        · rw [h3, hp.r1]
        · have := hp.r2 (q - (3 * n + 1)) (by omega)
          rw [show 3 * n + 1 + (q - (3 * n + 1)) = q by omega] at this
          exact this.symm
      · rw [setReg_out h1]
        by_cases h2 : 2 * n ≤ q ∧ q < 2 * n + n
        · rw [setReg_in h2, setReg_in h2]
        · rw [setReg_out h2, setReg_out h2, setReg_out h1]
    · simp [hsx]⟩)
  have h4 := h123.bind r4 (fun s hp i hi => by
    split
    · rw [setReg_out (by omega)]; exact hp.r2 i hi
    · exact hp.r2 i hi)
  intro b w e1 e2
  obtain ⟨b', hb, hD⟩ := h4 b w e1 e2
  refine ⟨b', ?_, hD⟩
  rw [← hb]
  unfold modMul
  obtain ⟨b1, k1, d1⟩ := r1 b w e1 e2
  obtain ⟨b2, k2, d2⟩ := r2 b1 d1.wf (d1.par.2.1.trans e1) (d1.par.1.trans e2)
  have n2 : b2.N = N := d2.par.1.trans (d1.par.1.trans e2)
  simp only [Option.bind_eq_bind, k1, Option.bind_some] at k2 ⊢
  simp only [k2, Option.bind_some, n2, he]

end QDD.Bench
