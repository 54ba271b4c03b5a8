import Verif.Bench.Add
/-!
# The modular adder of the benchmark
-/
set_option linter.unusedVariables false
set_option linter.unusedSimpArgs false

namespace QDD.Bench

/-- The state `s` with the number `V` in `R2`, `R1` and the bit `t` in `R3`. -/
def stt (n V : Nat) (t : Bool) (s : S) : S := set (setReg (3 * n + 1) (n + 1) V s) (3 * n) t

section
variable {n : Nat} {s : S} {V : Nat} {t : Bool}

theorem stt_all {ctl : List Nat} (hl : ∀ c ∈ ctl, c < 3 * n) : ctl.all (stt n V t s) = ctl.all s := all_congr_on fun q hq => by
  have := hl q hq
  unfold stt
  rw [set_other (by omega), setReg_out (by omega)]

theorem stt_R3 : stt n V t s (3 * n) = t := by unfold stt; rw [set_same]

theorem stt_R1 : stt n V t s (4 * n + 1) = V.testBit n := by
  unfold stt
  rw [set_other (by omega), setReg_in (by omega)]
  congr 1; omega

theorem stt_reg : reg (3 * n + 1) (n + 1) (stt n V t s) = V % 2 ^ (n + 1) := by
  rw [← reg_setReg (3 * n + 1) (n + 1) V s]
  apply reg_congr
  intro q h1 h2
  unfold stt
  exact set_other (by omega)

theorem stt_setReg {W : Nat} : setReg (3 * n + 1) (n + 1) W (stt n V t s) = stt n W t s := by
  funext q
  unfold stt
  by_cases h : 3 * n + 1 ≤ q ∧ q < 3 * n + 1 + (n + 1)
  · rw [setReg_in h, set_other (by omega), setReg_in h]
  · rw [setReg_out h]
    by_cases hq : q = 3 * n
    · rw [hq, set_same, set_same]
    · rw [set_other hq, set_other hq, setReg_out h, setReg_out h]

theorem stt_set3 {w : Bool} : set (stt n V t s) (3 * n) w = stt n V w s := by
  unfold stt; rw [set_set]

theorem stt_flip : set (stt n V t s) (4 * n + 1) (!V.testBit n) = stt n (V ^^^ 2 ^ n) t s := by
  funext q
  by_cases hq : q = 4 * n + 1
  · rw [hq, set_same, stt_R1, Nat.testBit_xor, Nat.testBit_two_pow_self, Bool.xor_true]
  · rw [set_other hq]
    unfold stt
    by_cases h3 : q = 3 * n
    · rw [h3, set_same, set_same]
    · rw [set_other h3, set_other h3]
      by_cases h : 3 * n + 1 ≤ q ∧ q < 3 * n + 1 + (n + 1)
      · rw [setReg_in h, setReg_in h, Nat.testBit_xor, Nat.testBit_two_pow_of_ne (by omega), Bool.xor_false]
      · rw [setReg_out h, setReg_out h]

theorem low_xor {V n : Nat} (h : V < 2 ^ n) : V ^^^ 2 ^ n = V + 2 ^ n := by
  apply Nat.eq_of_testBit_eq
  intro j
  rw [Nat.testBit_xor, Nat.add_comm]
  by_cases hj : j < n
  · rw [Nat.testBit_two_pow_add_gt hj, Nat.testBit_two_pow_of_ne (by omega), Bool.xor_false]
  · by_cases he : j = n
    · subst he
      rw [Nat.testBit_two_pow_add_eq, Nat.testBit_two_pow_self, Bool.xor_true]
    · have h1 : V.testBit j = false := Nat.testBit_lt_two_pow (lt_of_lt_of_le h (Nat.pow_le_pow_right (by norm_num) (by omega)))
      rw [h1, Nat.testBit_two_pow_of_ne (by omega)]
      symm
      apply Nat.testBit_lt_two_pow
      calc 2 ^ n + V < 2 ^ (n + 1) := by rw [pow_succ]; omega
        _ ≤ 2 ^ j := Nat.pow_le_pow_right (by norm_num) (by omega)

theorem low_bit {V n : Nat} (h : V < 2 ^ n) : V.testBit n = false := Nat.testBit_lt_two_pow h
theorem high_bit {V n : Nat} (h : V < 2 ^ n) : (V + 2 ^ n).testBit n = true := by
  rw [Nat.add_comm, Nat.testBit_two_pow_add_eq, low_bit h]; rfl

/-- The step `add_GT_ADD_circuit`. -/
def gA (n p : Nat) (ctl : List Nat) (s : S) : S :=
  if ctl.all s then setReg (3 * n + 1) (n + 1) (reg (3 * n + 1) (n + 1) s + p % 2 ^ n) s else s

theorem gA_on {p : Nat} {ctl : List Nat} (ha : ctl.all (stt n V t s) = true) (h1 : V < 2 ^ (n + 1)) (hp : p < 2 ^ n) : gA n p ctl (stt n V t s) = stt n (V + p) t s := by
  unfold gA
  rw [if_pos ha, stt_reg, stt_setReg, Nat.mod_eq_of_lt h1, Nat.mod_eq_of_lt hp]

theorem gA_off {p : Nat} {ctl : List Nat} (ha : ctl.all s = false) : gA n p ctl s = s := by
  unfold gA; rw [ha]; rfl

theorem cnot_off {ctl : List Nat} {q : Nat} (ha : ctl.all s = false) : cnot ctl q s = s := by
  unfold cnot; rw [ha]; rfl

theorem cnot_up {ctl : List Nat} (ha : ctl.all (stt n V t s) = true) (h : V < 2 ^ n) : cnot ctl (4 * n + 1) (stt n V t s) = stt n (V + 2 ^ n) t s := by
  unfold cnot
  rw [if_pos ha, stt_R1, stt_flip, low_xor h]

theorem cnot_down {ctl : List Nat} (ha : ctl.all (stt n (V + 2 ^ n) t s) = true) (h : V < 2 ^ n) :
    cnot ctl (4 * n + 1) (stt n (V + 2 ^ n) t s) = stt n V t s := by
  unfold cnot
  rw [if_pos ha, stt_R1, stt_flip, ← low_xor h, Nat.xor_assoc, Nat.xor_self, Nat.xor_zero]

theorem cnot_R3 {ctl : List Nat} (ha : ctl.all (stt n V t s) = true) :
    cnot (ctl ++ [4 * n + 1]) (3 * n) (stt n V t s) = stt n V (xor t (V.testBit n)) s := by
  unfold cnot
  rw [flip_if, List.all_append, ha, Bool.true_and]
  simp only [List.all_cons, List.all_nil, Bool.and_true]
  rw [stt_R1, stt_R3, stt_set3]

theorem stt_init (h1 : s (4 * n + 1) = false) (h3 : s (3 * n) = false) : s = stt n (reg (3 * n + 1) n s) false s := by
  have e : reg (3 * n + 1) (n + 1) s = reg (3 * n + 1) n s := by
    rw [reg, show 3 * n + 1 + n = 4 * n + 1 by omega, h1]; simp
  unfold stt
  rw [← e, setReg_reg, ← h3, set_self]

theorem stt_final (h3 : s (3 * n) = false) : stt n V false s = setReg (3 * n + 1) (n + 1) V s := by
  funext q
  unfold stt
  by_cases hq : q = 3 * n
  · rw [hq, set_same, setReg_out (by omega), h3]
  · rw [set_other hq]
end

/-- The values the modular adder is used on. -/
structure PreA (n N d : Nat) (ctl : List Nat) (s : S) : Prop where
  r1 : s (4 * n + 1) = false
  r3 : s (3 * n) = false
  lt : reg (3 * n + 1) n s < N
  pos : ctl.all s = true → 0 < d

/-- **`add_mod_add_circuit_with_GT_ADD(d)`** adds `d` modulo `N` to `R2` if the controls are set, and leaves `R1` and
`R3` at 0. -/
theorem runs_modAdd {n N d : Nat} {ctl : List Nat} (hc : ctl.Nodup) (hl : ∀ c ∈ ctl, c < 3 * n) (hlen : ctl.length = 2) (hn : 2 ≤ n)
    (hN : N < 2 ^ n) (hd : d < N) (d' : B → Nat) (c : B → List Nat) (hdc : ∀ b, b.n = n → b.N = N → d' b = d ∧ c b = ctl) :
    Runs n N (fun b => modAdd (d' b) (c b) b) (PreA n N d ctl)
      (fun s => if ctl.all s then setReg (3 * n + 1) (n + 1) ((reg (3 * n + 1) n s + d) % N) s else s) := by
  have hl' : ∀ c ∈ ctl, c ≤ 3 * n := fun c h => (hl c h).le
  have g1 : Runs n N (fun b => gtAdd (d + 2 ^ b.n - b.N) ctl b) (fun _ => True) (gA n (d + 2 ^ n - N) ctl) :=
    runs_gtAdd hc hl' (by omega) hn (fun b => d + 2 ^ b.n - b.N) (d + 2 ^ n - N) (fun _ => ctl) (fun b e1 e2 => by rw [e1, e2]; exact ⟨rfl, rfl⟩)
  have g2 : Runs n N (fun b => ckNot b ctl b.R1 false) (fun _ => True) (cnot ctl (4 * n + 1)) :=
    runs_ckNot hc (fun h => by have := hl _ h; omega) (fun _ => ctl) B.R1 false (Or.inl (by omega)) (fun b e => ⟨rfl, by unfold B.R1; rw [e]⟩)
      (fun c h => by have := hl _ h; omega) (by omega)
  have hnd1 : (ctl ++ [4 * n + 1]).Nodup := by
    rw [List.nodup_append]
    refine ⟨hc, by simp, fun a ha b hb e => ?_⟩
    rw [List.mem_singleton] at hb
    have := hl a ha
    omega
  have g3 : Runs n N (fun b => ckNot b (ctl ++ [b.R1]) b.R3 true) (fun _ => True) (cnot (ctl ++ [4 * n + 1]) (3 * n)) :=
    runs_ckNot hnd1 (fun h => by
      rcases List.mem_append.1 h with h | h
      · have := hl _ h; omega
      · rw [List.mem_singleton] at h; omega) (fun b => ctl ++ [b.R1]) B.R3 true (Or.inr ⟨rfl, by simp; omega⟩)
      (fun b e => by unfold B.R1 B.R3; rw [e]; exact ⟨rfl, rfl⟩) (fun c h => by
        rcases List.mem_append.1 h with h | h
        · have := hl _ h; omega
        · rw [List.mem_singleton] at h; omega) (by omega)
  have hnd2 : (ctl ++ [3 * n]).Nodup := by
    rw [List.nodup_append]
    refine ⟨hc, by simp, fun a ha b hb e => ?_⟩
    rw [List.mem_singleton] at hb
    have := hl a ha
    omega
  have g5 : Runs n N (fun b => gtAdd b.N (ctl ++ [b.R3]) b) (fun _ => True) (gA n N (ctl ++ [3 * n])) :=
    runs_gtAdd hnd2 (fun c h => by
      rcases List.mem_append.1 h with h | h
      · exact hl' _ h
      · rw [List.mem_singleton] at h; omega) (by simp; omega) hn (fun b => b.N) N (fun b => ctl ++ [b.R3])
      (fun b e1 e2 => ⟨e2, by unfold B.R3; rw [e1]⟩)
  have g7 : Runs n N (fun b => gtAdd (2 ^ b.n - d) ctl b) (fun _ => True) (gA n (2 ^ n - d) ctl) :=
    runs_gtAdd hc hl' (by omega) hn (fun b => 2 ^ b.n - d) (2 ^ n - d) (fun _ => ctl) (fun b e1 e2 => by rw [e1]; exact ⟨rfl, rfl⟩)
  have g10 : Runs n N (fun b => gtAdd d ctl b) (fun _ => True) (gA n d ctl) :=
    runs_gtAdd hc hl' (by omega) hn (fun b => d) d (fun _ => ctl) (fun b e1 e2 => ⟨rfl, rfl⟩)
  have g9 : Runs n N (fun b => some (toClean b b.R3)) (fun s => s (3 * n) = false) (fun s => s) :=
    runs_toClean B.R3 _ (fun b e => by unfold B.R3; rw [e])
  have g12 : Runs n N (fun b => some (toClean b b.R1)) (fun s => s (4 * n + 1) = false) (fun s => s) :=
    runs_toClean B.R1 _ (fun b e => by unfold B.R1; rw [e])
  -- the first eight steps
  have hA := ((((((g1.bind g2 (fun _ _ => trivial)).bind g3 (fun _ _ => trivial)).bind g2 (fun _ _ => trivial)).bind g5 (fun _ _ => trivial)).bind g2 (fun _ _ => trivial)).bind g7 (fun _ _ => trivial)).bind g3 (fun _ _ => trivial)
  have hoff : ∀ s, ctl.all s = false → ∀ q, (ctl ++ [q]).all s = false := fun s h q => by rw [List.all_append, h]; rfl
  have hA' := hA.mono (P' := PreA n N d ctl) (f' := fun s => if ctl.all s then
      stt n ((reg (3 * n + 1) n s + d) % N + 2 ^ n - d) false s else s) (fun s hp => ⟨trivial, by
    by_cases ha : ctl.all s = true
    · rw [if_pos ha]
      have hst : ∀ V t, ctl.all (stt n V t s) = true := fun V t => by rw [stt_all hl]; exact ha
      have hd0 := hp.pos ha
      have hv := hp.lt
      conv_lhs => rw [stt_init (n := n) hp.r1 hp.r3]
      generalize reg (3 * n + 1) n s = v at *
      have hpow : 2 ^ (n + 1) = 2 * 2 ^ n := by rw [pow_succ]; ring
      rw [gA_on (hst _ _) (by omega) (by omega)]
      by_cases hcase : N ≤ v + d
      · obtain ⟨U, hU⟩ : ∃ U, U = v + d - N := ⟨_, rfl⟩
        have e1 : v + (d + 2 ^ n - N) = U + 2 ^ n := by omega
        have e2 : (v + d) % N = U := by rw [hU, Nat.mod_eq_sub_mod hcase, Nat.mod_eq_of_lt (by omega)]
        have hU2 : U < 2 ^ n := by omega
        rw [e1, e2, cnot_down (hst _ _) hU2, cnot_R3 (hst _ _), low_bit hU2, Bool.xor_false, cnot_up (hst _ _) hU2,
          gA_off (s := stt n (U + 2 ^ n) false s) (by rw [List.all_append, hst]; simp [stt_R3]), cnot_down (hst _ _) hU2,
          gA_on (hst _ _) (by omega) (by omega), cnot_R3 (hst _ _), low_bit (by omega), Bool.xor_false]
        congr 1; omega
      · obtain ⟨U, hU⟩ : ∃ U, U = v + (d + 2 ^ n - N) := ⟨_, rfl⟩
        have e2 : (v + d) % N = v + d := Nat.mod_eq_of_lt (by omega)
        have hU2 : U < 2 ^ n := by omega
        have hvd : v + d < 2 ^ n := by omega
        rw [← hU, e2, cnot_up (hst _ _) hU2, cnot_R3 (hst _ _), high_bit hU2, Bool.false_xor, cnot_down (hst _ _) hU2,
          gA_on (p := N) (by rw [List.all_append, hst]; simp [stt_R3]) (by omega) (by omega), show U + N = v + d + 2 ^ n by omega,
          cnot_down (hst _ _) hvd, gA_on (hst _ _) (by omega) (by omega), show v + d + (2 ^ n - d) = v + 2 ^ n by omega,
          cnot_R3 (hst _ _), high_bit (by omega)]
        rw [show v + d + 2 ^ n - d = v + 2 ^ n by omega]
        rfl
    · have ha : ctl.all s = false := by simpa using ha
      rw [gA_off ha, cnot_off ha, cnot_off (hoff s ha _), cnot_off ha, gA_off (hoff s ha _), cnot_off ha, gA_off ha, cnot_off (hoff s ha _)]
      simp [ha]⟩)
  have hB := (((hA'.bind g9 (fun s hp => by
      split
      · exact stt_R3
      · exact hp.r3)).bind g10 (fun _ _ => trivial)).bind g2 (fun _ _ => trivial)).mono (P' := PreA n N d ctl) (f' := fun s => if ctl.all s then
      setReg (3 * n + 1) (n + 1) ((reg (3 * n + 1) n s + d) % N) s else s) (fun s hp => ⟨hp, by
    by_cases ha : ctl.all s = true
    · simp only [ha, if_true]
      have hst : ∀ V t, ctl.all (stt n V t s) = true := fun V t => by rw [stt_all hl]; exact ha
      have hd0 := hp.pos ha
      have hm : (reg (3 * n + 1) n s + d) % N < N := Nat.mod_lt _ (by omega)
      generalize (reg (3 * n + 1) n s + d) % N = r at *
      have hpow : 2 ^ (n + 1) = 2 * 2 ^ n := by rw [pow_succ]; ring
      rw [gA_on (hst _ _) (by omega) (by omega), show r + 2 ^ n - d + d = r + 2 ^ n by omega, cnot_down (hst _ _) (by omega), stt_final hp.r3]
    · have ha : ctl.all s = false := by simpa using ha
      simp only [ha, Bool.false_eq_true, if_false]
      rw [gA_off ha, cnot_off ha]⟩)
  have hC := hB.bind g12 (fun s hp => by
    split
    · rename_i ha
      rw [setReg_in (by omega), show 4 * n + 1 - (3 * n + 1) = n by omega]
      have hd0 := hp.pos ha
      apply Nat.testBit_lt_two_pow
      exact lt_trans (Nat.mod_lt _ (by omega)) hN
    · exact hp.r1)
  intro b w e1 e2
  obtain ⟨x1, x2⟩ := hdc b e1 e2
  simp only [x1, x2]
  obtain ⟨b', hb, hD⟩ := hC b w e1 e2
  refine ⟨b', ?_, hD⟩
  rw [← hb]
  unfold modAdd
  simp only [Option.bind_eq_bind, Option.bind_assoc, Option.bind_some]

end QDD.Bench
