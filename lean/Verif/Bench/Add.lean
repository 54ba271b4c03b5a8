import Verif.Bench.Net
import Mathlib.Data.Nat.Bitwise
import Mathlib.Tactic.IntervalCases
/-!
# The adders of the benchmark: `add_GT_ADD_circuit` and `add_mod_add_circuit_with_GT_ADD`
-/
set_option linter.unusedVariables false
set_option linter.unusedSimpArgs false

namespace QDD.Bench

/-- `b'` extends `b` by classical gates computing `f` on the states with `P`; clean qubits are 0 before and after. -/
structure Does (b b' : B) (P : S → Prop) (f : S → S) : Prop where
  par : Par b b'
  wf : WF b'
  gates : ∃ gs, b'.gates = b.gates ++ gs ∧ (∀ g ∈ gs, g.Classical (4 * b.n + 2)) ∧
    ∀ s, P s → Z b.clean s → exec gs s = f s ∧ Z b'.clean (f s)

/-- The method `m` computes `f` on the states with `P`. -/
def Runs (n N : Nat) (m : B → Option B) (P : S → Prop) (f : S → S) : Prop :=
  ∀ b, WF b → b.n = n → b.N = N → ∃ b', m b = some b' ∧ Does b b' P f

theorem Runs.bind {n N : Nat} {m k : B → Option B} {P Q : S → Prop} {f g : S → S} (h : Runs n N m P f) (h' : Runs n N k Q g)
    (hPQ : ∀ s, P s → Q (f s)) : Runs n N (fun b => (m b).bind k) P (fun s => g (f s)) := by
  intro b w e1 e2
  obtain ⟨b1, x1, d1⟩ := h b w e1 e2
  obtain ⟨b2, x2, d2⟩ := h' b1 d1.wf (d1.par.2.1.trans e1) (d1.par.1.trans e2)
  refine ⟨b2, by show (m b).bind k = _; rw [x1]; exact x2, d1.par.trans d2.par, d2.wf, ?_⟩
  obtain ⟨g1, y1, c1, z1⟩ := d1.gates
  obtain ⟨g2, y2, c2, z2⟩ := d2.gates
  refine ⟨g1 ++ g2, by rw [y2, y1, List.append_assoc], ?_, ?_⟩
  · intro g hg
    rcases List.mem_append.1 hg with hg | hg
    · exact c1 g hg
    · rw [← d1.par.2.1]; exact c2 g hg
  · intro s hp hz
    obtain ⟨u1, u2⟩ := z1 s hp hz
    obtain ⟨v1, v2⟩ := z2 _ (hPQ s hp) u2
    exact ⟨by rw [exec_append, u1, v1], v2⟩

theorem Runs.mono {n N : Nat} {m : B → Option B} {P P' : S → Prop} {f f' : S → S} (h : Runs n N m P f)
    (hP : ∀ s, P' s → P s ∧ f s = f' s) : Runs n N m P' f' := by
  intro b w e1 e2
  obtain ⟨b1, x1, d1⟩ := h b w e1 e2
  refine ⟨b1, x1, d1.par, d1.wf, ?_⟩
  obtain ⟨g1, y1, c1, z1⟩ := d1.gates
  refine ⟨g1, y1, c1, fun s hp hz => ?_⟩
  obtain ⟨a, e⟩ := hP s hp
  rw [← e]
  exact z1 s a hz

theorem runs_skip (n N : Nat) : Runs n N some (fun _ => True) (fun s => s) := fun b w _ _ =>
  ⟨b, rfl, Par.refl _, w, [], by simp, by simp, fun s _ hz => ⟨rfl, hz⟩⟩

theorem runs_toClean {n N : Nat} (q : B → Nat) (q' : Nat) (hq : ∀ b, b.n = n → q b = q') :
    Runs n N (fun b => some (toClean b (q b))) (fun s => s q' = false) (fun s => s) := by
  intro b w e1 e2
  refine ⟨_, rfl, toClean_par _ _, w.toClean _, [], by simp [toClean_gates], by simp, fun s hp hz => ⟨rfl, ?_⟩⟩
  intro p hp'
  rcases mem_toClean hp' with h | h
  · exact hz p h
  · rw [h, hq b e1]; exact hp

theorem runs_ckNot {n N : Nat} {ctl : List Nat} {t : Nat} (hc : ctl.Nodup) (ht : t ∉ ctl) (c : B → List Nat) (t' : B → Nat) (own : Bool)
    (hl : ctl.length ≤ 2 ∨ own = true ∧ 2 * ctl.length ≤ 4 * n + 3)
    (e : ∀ b, b.n = n → c b = ctl ∧ t' b = t) (hcq : ∀ c ∈ ctl, c < 4 * n + 2) (htq : t < 4 * n + 2) :
    Runs n N (fun b => ckNot b (c b) (t' b) own) (fun _ => True) (cnot ctl t) := by
  intro b w e1 e2
  obtain ⟨h1, h2⟩ := e b e1
  simp only [h1, h2]
  obtain ⟨b', x, a⟩ := ckNot_adds ctl.length b ctl t own rfl w hc ht (by rw [e1]; exact hl) (by rw [e1]; exact hcq) (by rw [e1]; exact htq)
  refine ⟨b', x, a.par, a.wf, ?_⟩
  obtain ⟨gs, y, c, z⟩ := a.gates
  refine ⟨gs, y, c, fun s _ hz => ⟨z s trivial hz, fun q hq => ?_⟩⟩
  obtain ⟨q1, q2⟩ := a.sub q hq
  unfold cnot
  split
  · rw [set_other q2]; exact hz q q1
  · exact hz q q1

theorem runs_loop {n N : Nat} {f : Nat → B → Option B} (P : Nat → S → Prop) (g h : Nat → S → S) (k : Nat)
    (hf : ∀ i, i < k → Runs n N (f i) (P i) (g i)) (h0 : ∀ s, h 0 s = s) (hs : ∀ i s, i < k → P 0 s → g i (h i s) = h (i + 1) s)
    (hP : ∀ i s, i < k → P 0 s → P i (h i s)) : Runs n N (loop f k) (P 0) (h k) := by
  have : ∀ j, j ≤ k → Runs n N (loop f j) (P 0) (h j) := by
    intro j
    induction j with
    | zero => intro _; exact (runs_skip n N).mono (fun s _ => ⟨trivial, (h0 s).symm⟩)
    | succ j ih =>
      intro hj
      refine Runs.mono ((ih (by omega)).bind (hf j (by omega)) (fun s hp => hP j s (by omega) hp)) (fun s hp => ⟨hp, hs j s (by omega) hp⟩)
  exact this k le_rfl

/-! ## Registers -/

/-- The number in `w` qubits from `r` on, least significant first. -/
def reg (r : Nat) : Nat → S → Nat
  | 0, _ => 0
  | w + 1, s => reg r w s + (s (r + w)).toNat * 2 ^ w

/-- Write a number into a register. -/
def setReg (r w v : Nat) (s : S) : S := fun q => if r ≤ q ∧ q < r + w then v.testBit (q - r) else s q

theorem reg_lt (r w : Nat) (s : S) : reg r w s < 2 ^ w := by
  induction w with
  | zero => simp [reg]
  | succ w ih =>
    rw [reg, pow_succ]
    cases s (r + w) <;> simp <;> omega

theorem reg_testBit (r w : Nat) (s : S) (j : Nat) : (reg r w s).testBit j = (decide (j < w) && s (r + j)) := by
  induction w with
  | zero => simp [reg]
  | succ w ih =>
    rw [reg]
    have hl := reg_lt r w s
    have e : reg r w s + (s (r + w)).toNat * 2 ^ w = 2 ^ w * (s (r + w)).toNat + reg r w s := by ring
    rw [e, Nat.testBit_two_pow_mul_add _ hl]
    by_cases hj : j < w
    · rw [if_pos hj, ih]
      simp [hj, show j < w + 1 by omega]
    · rw [if_neg hj]
      by_cases hjw : j = w
      · subst hjw
        cases s (r + j) <;> simp
      · have h1 : ¬ j < w + 1 := by omega
        have h2 : 0 < j - w := by omega
        simp only [h1, decide_false, Bool.false_and]
        obtain ⟨d, hd⟩ : ∃ d, j - w = d + 1 := ⟨j - w - 1, by omega⟩
        rw [hd, Nat.testBit_succ]
        cases s (r + w) <;> simp

theorem reg_setReg (r w v : Nat) (s : S) : reg r w (setReg r w v s) = v % 2 ^ w := by
  apply Nat.eq_of_testBit_eq
  intro j
  rw [reg_testBit, Nat.testBit_mod_two_pow]
  by_cases hj : j < w
  · simp [hj, setReg]
  · simp [hj]

theorem setReg_setReg (r w v v' : Nat) (s : S) : setReg r w v (setReg r w v' s) = setReg r w v s := by
  funext q; unfold setReg; split <;> rfl

theorem setReg_congr {r w v v' : Nat} (h : v % 2 ^ w = v' % 2 ^ w) (s : S) : setReg r w v s = setReg r w v' s := by
  funext q; unfold setReg
  split
  · rename_i hq
    have h1 := congrArg (fun x => x.testBit (q - r)) h
    simp only [Nat.testBit_mod_two_pow] at h1
    simpa [show q - r < w by omega] using h1
  · rfl

theorem setReg_reg (r w : Nat) (s : S) : setReg r w (reg r w s) s = s := by
  funext q; unfold setReg
  split
  · rename_i hq
    rw [reg_testBit, show r + (q - r) = q by omega]
    simp [show q - r < w by omega]
  · rfl

theorem setReg_out {r w v q : Nat} {s : S} (h : ¬ (r ≤ q ∧ q < r + w)) : setReg r w v s q = s q := if_neg h
theorem setReg_in {r w v q : Nat} {s : S} (h : r ≤ q ∧ q < r + w) : setReg r w v s q = v.testBit (q - r) := if_pos h

theorem reg_congr {r w : Nat} {s s' : S} (h : ∀ q, r ≤ q → q < r + w → s q = s' q) : reg r w s = reg r w s' := by
  induction w with
  | zero => rfl
  | succ w ih =>
    rw [reg, reg, ih (fun q h1 h2 => h q h1 (by omega)), h (r + w) (by omega) (by omega)]

/-! ## Adding a power of two -/

theorem inc_testBit : ∀ (j v : Nat), (v + 1).testBit j = xor (v.testBit j) (decide (∀ l, l < j → v.testBit l = true))
  | 0, v => by
    simp only [Nat.testBit_zero, Nat.not_lt_zero, false_imp_iff, implies_true, decide_true, Bool.xor_true]
    rcases Nat.mod_two_eq_zero_or_one v with h | h
    · simp [Nat.add_mod, h]
    · simp [Nat.add_mod, h]
  | j + 1, v => by
    rw [Nat.testBit_succ, Nat.testBit_succ]
    rcases Nat.mod_two_eq_zero_or_one v with h | h
    · have e : (v + 1) / 2 = v / 2 := by omega
      have : ¬ (∀ l, l < j + 1 → v.testBit l = true) := by
        intro hall
        have := hall 0 (by omega)
        rw [Nat.testBit_zero] at this
        simp [h] at this
      rw [e, decide_eq_false this, Bool.xor_false]
    · have e : (v + 1) / 2 = v / 2 + 1 := by omega
      rw [e, inc_testBit j (v / 2)]
      congr 1
      rw [decide_eq_decide]
      constructor
      · intro hall l hl
        cases l with
        | zero => rw [Nat.testBit_zero]; simp [h]
        | succ l => rw [Nat.testBit_succ]; exact hall l (by omega)
      · intro hall l hl
        have := hall (l + 1) (by omega)
        rwa [Nat.testBit_succ] at this

theorem add_pow_testBit : ∀ (i v j : Nat), (v + 2 ^ i).testBit j =
    if j < i then v.testBit j else xor (v.testBit j) (decide (∀ l, i ≤ l → l < j → v.testBit l = true))
  | 0, v, j => by
    rw [pow_zero, inc_testBit, if_neg (by omega)]
    congr 1
    rw [decide_eq_decide]
    exact ⟨fun h l _ hl => h l hl, fun h l hl => h l (by omega) hl⟩
  | i + 1, v, 0 => by
    rw [if_pos (by omega), Nat.testBit_zero, Nat.testBit_zero, pow_succ]
    congr 1
    simp [Nat.add_mod]
  | i + 1, v, j + 1 => by
    have e : (v + 2 ^ (i + 1)) / 2 = v / 2 + 2 ^ i := by
      rw [pow_succ]
      omega
    rw [Nat.testBit_succ, e, add_pow_testBit i (v / 2) j, Nat.testBit_succ]
    by_cases h : j < i
    · rw [if_pos h, if_pos (by omega)]
    · rw [if_neg h, if_neg (by omega)]
      congr 1
      rw [decide_eq_decide]
      constructor
      · intro hall l h1 h2
        obtain ⟨l, rfl⟩ : ∃ l', l = l' + 1 := ⟨l - 1, by omega⟩
        rw [Nat.testBit_succ]
        exact hall l (by omega) (by omega)
      · intro hall l h1 h2
        have := hall (l + 1) (by omega) (by omega)
        rwa [Nat.testBit_succ] at this

/-- The carry cascade on the qubits `r + i ..< r + i + k`. -/
def casc (r i k : Nat) (s : S) : S := fun q =>
  if r + i ≤ q ∧ q < r + i + k then xor (s q) (decide (∀ l, r + i ≤ l → l < q → s l = true)) else s q

theorem casc_full (r i n : Nat) (hi : i ≤ n) (s : S) : casc r i (n + 1 - i) s = setReg r (n + 1) (reg r (n + 1) s + 2 ^ i) s := by
  funext q
  unfold casc
  by_cases hq : r + i ≤ q ∧ q < r + i + (n + 1 - i)
  · rw [if_pos hq, setReg_in (by omega), add_pow_testBit, if_neg (by omega), reg_testBit,
      show r + (q - r) = q by omega]
    simp only [show q - r < n + 1 by omega, decide_true, Bool.true_and]
    congr 1
    rw [decide_eq_decide]
    constructor
    · intro h l h1 h2
      rw [reg_testBit, h (r + l) (by omega) (by omega)]
      simp; omega
    · intro h l h1 h2
      have := h (l - r) (by omega) (by omega)
      rw [reg_testBit, show r + (l - r) = l by omega] at this
      simp at this
      exact this.2
  · rw [if_neg hq]
    by_cases hq2 : r ≤ q ∧ q < r + (n + 1)
    · rw [setReg_in hq2, add_pow_testBit, if_pos (by omega), reg_testBit, show r + (q - r) = q by omega]
      simp; omega
    · rw [setReg_out hq2]

/-! ## `add_GT_ADD_circuit` -/

/-- The controls of one gate of the cascade: the given ones and the register qubits `i ..< i + k`. -/
def cc (n : Nat) (ctl : List Nat) (i k : Nat) : List Nat := ctl ++ (List.range' i k).map (fun l => 3 * n + 1 + l)

theorem cc_all (n : Nat) (ctl : List Nat) (i k : Nat) (s : S) : (cc n ctl i k).all s =
    (ctl.all s && decide (∀ l, 3 * n + 1 + i ≤ l → l < 3 * n + 1 + i + k → s l = true)) := by
  unfold cc
  rw [List.all_append]
  congr 1
  rw [Bool.eq_iff_iff, List.all_eq_true, decide_eq_true_iff]
  constructor
  · intro h l h1 h2
    apply h
    rw [List.mem_map]
    exact ⟨l - (3 * n + 1), by rw [List.mem_range'_1]; omega, by omega⟩
  · intro h q hq
    obtain ⟨l, hl, rfl⟩ := List.mem_map.1 hq
    rw [List.mem_range'_1] at hl
    exact h _ (by omega) (by omega)

theorem cc_nodup {n : Nat} {ctl : List Nat} (hc : ctl.Nodup) (hl : ∀ c ∈ ctl, c ≤ 3 * n) (i k : Nat) : (cc n ctl i k).Nodup := by
  unfold cc
  rw [List.nodup_append]
  refine ⟨hc, ?_, ?_⟩
  · rw [List.nodup_map_iff (fun a b h => by simpa using h)]
    exact List.nodup_range'
  · intro a ha b hb e
    obtain ⟨l, _, rfl⟩ := List.mem_map.1 hb
    have := hl a ha
    omega

theorem cc_not_mem {n : Nat} {ctl : List Nat} (hl : ∀ c ∈ ctl, c ≤ 3 * n) {i k j : Nat} (hj : i + k ≤ j) : 3 * n + 1 + j ∉ cc n ctl i k := by
  unfold cc
  intro h
  rcases List.mem_append.1 h with h | h
  · have := hl _ h; omega
  · obtain ⟨l, h1, h2⟩ := List.mem_map.1 h
    rw [List.mem_range'_1] at h1
    omega

theorem cc_lt {n : Nat} {ctl : List Nat} (hl : ∀ c ∈ ctl, c ≤ 3 * n) {i k : Nat} (hik : i + k ≤ n) : ∀ c ∈ cc n ctl i k, c < 4 * n + 2 := by
  intro c h
  unfold cc at h
  rcases List.mem_append.1 h with h | h
  · have := hl _ h; omega
  · obtain ⟨l, h1, h2⟩ := List.mem_map.1 h
    rw [List.mem_range'_1] at h1
    omega

theorem cc_length (n : Nat) (ctl : List Nat) (i k : Nat) : (cc n ctl i k).length = ctl.length + k := by
  unfold cc; simp

/-- One gate of the cascade. -/
theorem casc_step {n : Nat} {ctl : List Nat} (hl : ∀ c ∈ ctl, c ≤ 3 * n) (i k : Nat) (s : S) :
    (if ctl.all (cnot (cc n ctl i k) (3 * n + 1 + (i + k)) s) then casc (3 * n + 1) i k (cnot (cc n ctl i k) (3 * n + 1 + (i + k)) s)
      else cnot (cc n ctl i k) (3 * n + 1 + (i + k)) s) =
    if ctl.all s then casc (3 * n + 1) i (k + 1) s else s := by
  have hall : ctl.all (cnot (cc n ctl i k) (3 * n + 1 + (i + k)) s) = ctl.all s := all_congr_on fun q hq => by
    have := hl q hq
    unfold cnot
    split
    · exact set_other (by omega)
    · rfl
  rw [hall]
  by_cases h : ctl.all s = true
  · rw [if_pos h, if_pos h]
    unfold cnot
    rw [cc_all, h, Bool.true_and, flip_if]
    funext q
    unfold casc
    by_cases hq : q = 3 * n + 1 + (i + k)
    · rw [if_neg (by omega), if_pos (by omega), hq, set_same]
      congr 1
      rw [decide_eq_decide]
      exact ⟨fun h l h1 h2 => h l h1 (by omega), fun h l h1 h2 => h l h1 (by omega)⟩
    · by_cases hr : 3 * n + 1 + i ≤ q ∧ q < 3 * n + 1 + i + k
      · rw [if_pos hr, if_pos (by omega), set_other hq]
        congr 1
        rw [decide_eq_decide]
        constructor
        · intro h l h1 h2
          have := h l h1 h2
          rwa [set_other (by omega)] at this
        · intro h l h1 h2
          rw [set_other (by omega)]; exact h l h1 h2
      · rw [if_neg hr, if_neg (by omega), set_other hq]
  · rw [if_neg h, if_neg h]
    unfold cnot
    rw [cc_all, if_neg (by simp [h])]

theorem runs_casc {n N : Nat} {ctl : List Nat} (hc : ctl.Nodup) (hl : ∀ c ∈ ctl, c ≤ 3 * n) (hlen : ctl.length ≤ 3) (hn : 2 ≤ n) (i : Nat) :
    ∀ k, i + k ≤ n → Runs n N (loopDown (fun j b => ckNot b (ctl ++ (List.range' i (j - i)).map b.R2) (b.R2 j) true) i k) (fun _ => True)
      (fun s => if ctl.all s then casc (3 * n + 1) i k s else s) := by
  intro k
  induction k with
  | zero =>
    intro _
    refine (runs_skip n N).mono (fun s _ => ⟨trivial, ?_⟩)
    have : casc (3 * n + 1) i 0 s = s := by
      funext q; unfold casc; rw [if_neg (by omega)]
    rw [this]; simp
  | succ k ih =>
    intro hk
    have h1 : Runs n N (fun b => ckNot b (ctl ++ (List.range' i (i + k - i)).map b.R2) (b.R2 (i + k)) true) (fun _ => True)
        (cnot (cc n ctl i k) (3 * n + 1 + (i + k))) := by
      refine runs_ckNot (cc_nodup hc hl i k) (cc_not_mem hl le_rfl) _ _ true (Or.inr ⟨rfl, ?_⟩) ?_ (cc_lt hl (by omega)) (by omega)
      · rw [cc_length]; omega
      · intro b hb
        unfold cc
        rw [show i + k - i = k by omega]
        refine ⟨?_, by unfold B.R2; rw [hb]⟩
        congr 2
        funext l
        unfold B.R2; rw [hb]
    exact (h1.bind (ih (by omega)) (fun _ _ => trivial)).mono (fun s _ => ⟨trivial, casc_step hl i k s⟩)

theorem runs_gtBit {n N : Nat} {ctl : List Nat} (hc : ctl.Nodup) (hl : ∀ c ∈ ctl, c ≤ 3 * n) (hlen : ctl.length ≤ 3) (hn : 2 ≤ n) {i : Nat}
    (hi : i < n) : Runs n N (gtBit ctl i) (fun _ => True)
      (fun s => if ctl.all s then setReg (3 * n + 1) (n + 1) (reg (3 * n + 1) (n + 1) s + 2 ^ i) s else s) := by
  have h1 : Runs n N (fun b => ckNot b (ctl ++ (List.range' i (b.n - i)).map b.R2) b.R1 true) (fun _ => True)
      (cnot (cc n ctl i (n - i)) (3 * n + 1 + (i + (n - i)))) := by
    refine runs_ckNot (cc_nodup hc hl i _) (cc_not_mem hl le_rfl) _ _ true (Or.inr ⟨rfl, ?_⟩) ?_ (cc_lt hl (by omega)) (by omega)
    · rw [cc_length]; omega
    · intro b hb
      unfold cc B.R1
      refine ⟨?_, by omega⟩
      rw [hb]
      congr 2
      funext l
      unfold B.R2; rw [hb]
  have h2 := runs_casc (N := N) hc hl hlen hn i (n - i) (by omega)
  have h3 := h1.bind h2 (fun _ _ => trivial)
  intro b w e1 e2
  have := (h3.mono (P' := fun _ => True) (fun s _ => ⟨trivial, casc_step hl i (n - i) s⟩)) b w e1 e2
  rw [show n - i + 1 = n + 1 - i by omega] at this
  simp only [casc_full _ _ _ hi.le] at this
  unfold gtBit
  rw [e1] at this ⊢
  exact this

/-- **`add_GT_ADD_circuit(p)`** adds the low `n` bits of `p` to the register `R2`, `R1` if all controls are set. -/
theorem runs_gtAdd {n N : Nat} {ctl : List Nat} (hc : ctl.Nodup) (hl : ∀ c ∈ ctl, c ≤ 3 * n) (hlen : ctl.length ≤ 3) (hn : 2 ≤ n) (p : B → Nat)
    (p' : Nat) (c : B → List Nat) (hp : ∀ b, b.n = n → b.N = N → p b = p' ∧ c b = ctl) : Runs n N (fun b => gtAdd (p b) (c b) b) (fun _ => True)
      (fun s => if ctl.all s then setReg (3 * n + 1) (n + 1) (reg (3 * n + 1) (n + 1) s + p' % 2 ^ n) s else s) := by
  have hall : ∀ v s, ctl.all (setReg (3 * n + 1) (n + 1) v s) = ctl.all s := fun v s => all_congr_on fun q hq => by
    have := hl q hq
    exact setReg_out (by omega)
  have main := runs_loop (n := n) (N := N) (f := fun i b => if p'.testBit i then gtBit ctl i b else some b) (fun _ _ => True)
    (fun i s => if p'.testBit i then (if ctl.all s then setReg (3 * n + 1) (n + 1) (reg (3 * n + 1) (n + 1) s + 2 ^ i) s else s) else s)
    (fun i s => if ctl.all s then setReg (3 * n + 1) (n + 1) (reg (3 * n + 1) (n + 1) s + p' % 2 ^ i) s else s) n
    (fun i hi => by
      by_cases hb : p'.testBit i = true
      · simp only [hb, if_true]
        exact runs_gtBit hc hl hlen hn hi
      · simp only [hb]
        exact runs_skip n N)
    (fun s => by
      simp only [pow_zero, Nat.mod_one, Nat.add_zero, setReg_reg]
      simp)
    (fun i s hi _ => by
      by_cases ha : ctl.all s = true
      · simp only [ha, if_true, hall]
        rw [Nat.mod_pow_succ, ← Nat.toNat_testBit]
        by_cases hb : p'.testBit i = true
        · rw [if_pos hb, setReg_setReg, hb]
          apply setReg_congr
          rw [reg_setReg, Nat.mod_add_mod]
          simp [Nat.add_assoc]
        · rw [if_neg hb]
          simp only [Bool.not_eq_true] at hb
          rw [hb]
          simp
      · simp [ha])
    (fun _ _ _ _ => trivial)
  intro b w e1 e2
  obtain ⟨x1, x2⟩ := hp b e1 e2
  simp only [x1, x2]
  unfold gtAdd
  rw [e1]
  exact main b w e1 e2

end QDD.Bench
