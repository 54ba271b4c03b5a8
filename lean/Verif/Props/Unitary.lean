import Verif.Props.Measure
import Verif.Core.NamedGates
import Mathlib.Tactic.NormNum
/-!
# C09, C50, C51: named gates, global phase, norm preservation
-/

set_option linter.unusedSectionVars false
set_option linter.unusedVariables false
set_option linter.unusedSimpArgs false

namespace QDD.Props
open Spec Api Finset

variable {K : Type} [Field K] [LinearOrder K] [IsStrictOrderedRing K]
variable {cfg : Cfg K} {thr thrM : Nat} {cs : List (Cmd K)} {h : Heap K} {σ : Sys K} {os : List (Obs K)}

/-! ## C50 -/

theorem sample_scale (draw : Nat → K) {c : C K} (hc : c.mag2 = 1) : ∀ (j t : Nat) (f : Nat → C K),
    sample draw j t (fun i => f i * c) = sample draw j t f
  | 0, _, _ => rfl
  | j + 1, t, f => by
    have hs : ∀ N (g : Nat → C K), ∑ i ∈ range N, (g i * c).mag2 = ∑ i ∈ range N, (g i).mag2 := fun N g =>
      Finset.sum_congr rfl fun i _ => by rw [Cx.mag2_mul, hc, mul_one]
    simp only [sample, hs]
    rw [sample_scale draw hc j (t + 1) f, sample_scale draw hc j (t + 1) (fun i => f (2 ^ j + i))]

/-- **C50.** Multiplying a state by a complex number of modulus 1 gives a state with the same probabilities, the same
marginals, and the same measurement outcome for every sequence of draws. -/
theorem C50_global_phase (hR : Hist cfg thr thrM cs h σ os) {v n : Nat} {V : Vec K} (hv : h.vs[v]? = some V)
    (hV : V.k = n) (h0 : V.Nonzero) {c : C K} (hc : c.mag2 = 1) {o : Obs K} {σ' : Sys K}
    (he : Exec cfg σ (.scale v c) o σ') :
    (n ≤ 30 → ∀ l, Returns cfg σ (.probabilities v) (.probs l) → Returns cfg σ' (.probabilities h.vs.length) (.probs l)) ∧
    (∀ q < n, ∀ eps o, Returns cfg σ (.measureOne v q eps) o → Returns cfg σ' (.measureOne h.vs.length q eps) o) ∧
    (∀ b draw, (∀ u < n, 0 ≤ draw u ∧ draw u < 1) → ∀ o, Returns cfg σ (.measureAll v b draw) o →
      Returns cfg σ' (.measureAll h.vs.length b draw) o) := by
  subst hV
  have hp : pre NQUBITS h (.scale v c) := ⟨V, hv⟩
  have hs : Spec.step cfg.sqrt h (.scale v c) = some (h.addV (V.scale c), .unit) := by
    simp only [Spec.step, hv, Option.bind_eq_bind, Option.bind_some]
  have hR' := hR.after hp hs he
  have hnew : (h.addV (V.scale c)).vs[h.vs.length]? = some (V.scale c) := addV_new _ _
  have hc0 : c ≠ 0 := by rintro rfl; simp [Cx.mag2] at hc
  have hz : (V.scale c).Nonzero := by
    obtain ⟨i, hi, hne⟩ := h0
    exact ⟨i, hi, mul_ne_zero hne hc0⟩
  have hm : ∀ i, ((V.scale c).f i).mag2 = (V.f i).mag2 := fun i => by
    show (V.f i * c).mag2 = _
    rw [Cx.mag2_mul, hc, mul_one]
  have hN : (V.scale c).norm2 = V.norm2 := Finset.sum_congr rfl fun i _ => hm i
  refine ⟨fun hn l hl => ?_, fun q hq eps o ho => ?_, fun b draw hd o ho => ?_⟩
  · have a := hR.returns (c := .probabilities v) ⟨V, hv, h0, hn⟩ (h' := h)
      (o' := .probs ((List.range (2 ^ V.k)).map fun i => (V.f i).mag2 / V.norm2))
      (by simp only [Spec.step, hv, Option.bind_eq_bind, Option.bind_some])
    rw [hl.unique a]
    refine hR'.returns (c := .probabilities h.vs.length) ⟨_, hnew, hz, hn⟩ (h' := h.addV (V.scale c)) ?_
    simp only [Spec.step, hnew, Option.bind_eq_bind, Option.bind_some, hm, hN]
    rfl
  · have a := hR.returns (c := .measureOne v q eps) ⟨V, hv, h0, hq⟩ (h' := h)
      (o' := if eps < |V.norm2 - 1| then .throw else .num (V.marg q false / V.norm2))
      (by simp only [Spec.step, hv, Option.bind_eq_bind, Option.bind_some])
    rw [ho.unique a]
    refine hR'.returns (c := .measureOne h.vs.length q eps) ⟨_, hnew, hz, hq⟩ (h' := h.addV (V.scale c)) ?_
    have hM : (V.scale c).marg q false = V.marg q false := Finset.sum_congr rfl fun i _ => by rw [hm i]
    simp only [Spec.step, hnew, Option.bind_eq_bind, Option.bind_some, hM, hN]
  · rw [ho.unique (measureAll_returns hR hv h0 b hd)]
    have := measureAll_returns hR' hnew hz b hd
    rwa [show sample draw (V.scale c).k 0 (V.scale c).f = sample draw V.k 0 V.f from sample_scale draw hc _ _ _] at this

/-! ## C51 -/

/-- Complex conjugate. -/
def conj (a : C K) : C K := ⟨a.r, -a.i⟩

/-- The columns of `A` (below `2^n`) are orthonormal. -/
def Isometry (n : Nat) (A : Nat → Nat → C K) : Prop :=
  ∀ j < 2 ^ n, ∀ k < 2 ^ n, ∑ i ∈ range (2 ^ n), conj (A i j) * A i k = if j = k then 1 else 0

theorem sum_r {ι : Type} (s : Finset ι) (g : ι → C K) : (∑ i ∈ s, g i).r = ∑ i ∈ s, (g i).r := by
  classical
  induction s using Finset.induction_on with
  | empty => simp
  | insert a s ha ih => rw [Finset.sum_insert ha, Finset.sum_insert ha, Cx.add_r, ih]

theorem sum_i {ι : Type} (s : Finset ι) (g : ι → C K) : (∑ i ∈ s, g i).i = ∑ i ∈ s, (g i).i := by
  classical
  induction s using Finset.induction_on with
  | empty => simp
  | insert a s ha ih => rw [Finset.sum_insert ha, Finset.sum_insert ha, Cx.add_i, ih]

theorem conj_sum {ι : Type} (s : Finset ι) (g : ι → C K) : conj (∑ i ∈ s, g i) = ∑ i ∈ s, conj (g i) := by
  apply Cx.ext
  · rw [sum_r]; show (∑ i ∈ s, g i).r = _; rw [sum_r]; rfl
  · rw [sum_i]; show -(∑ i ∈ s, g i).i = _; rw [sum_i, ← Finset.sum_neg_distrib]; rfl

theorem conj_mul (a b : C K) : conj (a * b) = conj a * conj b := by
  apply Cx.ext
  · simp [conj]
  · simp [conj]; ring

theorem conj_self (a : C K) : conj a * a = ⟨a.mag2, 0⟩ := by
  apply Cx.ext
  · simp [conj, Cx.mag2]
  · simp [conj]; ring

/-- An isometry preserves the squared norm. -/
theorem Isometry.norm2 {n : Nat} {A : Nat → Nat → C K} (hA : Isometry n A) (f : Nat → C K) :
    Props.norm2 n (fun i => ∑ j ∈ range (2 ^ n), A i j * f j) = Props.norm2 n f := by
  have key : ∑ i ∈ range (2 ^ n), conj (∑ j ∈ range (2 ^ n), A i j * f j) * (∑ k ∈ range (2 ^ n), A i k * f k) =
      ∑ j ∈ range (2 ^ n), conj (f j) * f j := by
    calc _ = ∑ i ∈ range (2 ^ n), ∑ j ∈ range (2 ^ n), ∑ k ∈ range (2 ^ n),
          conj (f j) * f k * (conj (A i j) * A i k) := by
            refine Finset.sum_congr rfl fun i _ => ?_
            rw [conj_sum, Finset.sum_mul_sum]
            refine Finset.sum_congr rfl fun j _ => Finset.sum_congr rfl fun k _ => ?_
            rw [conj_mul]; ring
      _ = ∑ j ∈ range (2 ^ n), ∑ k ∈ range (2 ^ n), conj (f j) * f k *
          ∑ i ∈ range (2 ^ n), conj (A i j) * A i k := by
            rw [Finset.sum_comm]
            refine Finset.sum_congr rfl fun j _ => ?_
            rw [Finset.sum_comm]
            exact Finset.sum_congr rfl fun k _ => (Finset.mul_sum _ _ _).symm
      _ = _ := by
            refine Finset.sum_congr rfl fun j hj => ?_
            rw [Finset.sum_congr rfl fun k hk => by rw [hA j (mem_range.1 hj) k (mem_range.1 hk)]]
            simp [hj]
  simp only [conj_self] at key
  have := congrArg Cx.r key
  rw [sum_r, sum_r] at this
  exact this

/-- **C51.** If the matrix read out by `getMatrix` has orthonormal columns, `mv_multiply` preserves the squared norm of the
state read out by `getVector`. -/
theorem C51_norm_preserved (hR : Hist cfg thr thrM cs h σ os) {m v n : Nat} {M : Mat K} {V : Vec K}
    (hm : h.ms[m]? = some M) (hv : h.vs[v]? = some V) (hM : M.k ≤ n) (hV : V.k = n) (hn : n ≤ 30)
    (hV0 : V.Nonzero) {A : Nat → Nat → C K} {f : Nat → C K} (hA : ReadsM cfg σ m n A) (hf : ReadsV cfg σ v n f)
    (hU : Isometry n A) {o : Obs K} {σ' : Sys K} (he : Exec cfg σ (.mv m v) o σ') :
    ∃ g, ReadsV cfg σ' h.vs.length n g ∧ norm2 n g = norm2 n f := by
  have hN : 0 < norm2 n f := by
    subst hV
    rw [norm2_congr (hf.unique (hR.readsV hv hV0 hn))]
    exact sum_pos' hV0
  have h0 : ∃ i < 2 ^ n, ∑ j ∈ range (2 ^ n), A i j * f j ≠ 0 := by
    by_contra hcon
    push Not at hcon
    have := hU.norm2 f
    rw [norm2_congr (g := fun _ => 0) hcon] at this
    rw [← this] at hN
    simp [norm2, Cx.mag2] at hN
  exact ⟨_, ((C01_mv_multiply hR hm hv hM hV hn hV0 hA hf h0).2 o σ' he).1, hU.norm2 f⟩

/-- A one-qubit gate with orthonormal columns gives, for every target and controls, a matrix with orthonormal columns. -/
theorem gate1_isometry {n t : Nat} {g : Nat → Nat → C K} {cs : List Ctrl} (ht : t < n)
    (hcs : ∀ c ∈ cs, c.qubit ≠ t)
    (hg : ∀ b b' : Bool, conj (g 0 (bit b)) * g 0 (bit b') + conj (g 1 (bit b)) * g 1 (bit b') = if b = b' then 1 else 0) :
    Isometry n (Spec.gate1 n g t cs) := by
  intro j hj k hk
  -- only the two rows that agree with column `j` off qubit `t` matter
  let r : Bool → Nat := fun b => if j.testBit t = b then j else j ^^^ 2 ^ t
  have hpow : 2 ^ t < 2 ^ n := Nat.pow_lt_pow_right (by omega) ht
  have rbit : ∀ b c, (r b).testBit c = if c = t then b else j.testBit c := by
    intro b c
    dsimp only [r]
    by_cases hb : j.testBit t = b
    · rw [if_pos hb]
      by_cases hc : c = t
      · rw [if_pos hc, hc, hb]
      · rw [if_neg hc]
    · rw [if_neg hb, Nat.testBit_xor, Nat.testBit_two_pow]
      by_cases hc : c = t
      · subst hc; simp; cases hjt : j.testBit c <;> cases b <;> simp_all
      · rw [if_neg hc]; simp [Ne.symm hc]
  have rlt : ∀ b, r b < 2 ^ n := by
    intro b
    dsimp only [r]
    split
    · exact hj
    · exact Nat.xor_lt_two_pow hj hpow
  have rne : r false ≠ r true := by
    intro hh
    have := congrArg (·.testBit t) hh
    simp only [rbit] at this
    simp at this
  have hrow : ∀ i < 2 ^ n, i ≠ r false → i ≠ r true → Spec.gate1 n g t cs i j = 0 := by
    intro i hi h0 h1
    unfold Spec.gate1
    rw [if_neg]
    intro hall
    have : i = r (i.testBit t) := by
      apply Nat.eq_of_testBit_eq
      intro c
      rw [rbit]
      by_cases hc : c = t
      · rw [if_pos hc, hc]
      · rw [if_neg hc]
        rcases Nat.lt_or_ge c n with hcn | hcn
        · exact hall c hcn hc
        · rw [Nat.testBit_lt_two_pow (lt_of_lt_of_le hi (Nat.pow_le_pow_right (by omega) hcn)),
            Nat.testBit_lt_two_pow (lt_of_lt_of_le hj (Nat.pow_le_pow_right (by omega) hcn))]
    cases hb : i.testBit t <;> rw [hb] at this <;> contradiction
  have hsum : ∑ i ∈ range (2 ^ n), conj (Spec.gate1 n g t cs i j) * Spec.gate1 n g t cs i k =
      conj (Spec.gate1 n g t cs (r false) j) * Spec.gate1 n g t cs (r false) k +
      conj (Spec.gate1 n g t cs (r true) j) * Spec.gate1 n g t cs (r true) k := by
    rw [← Finset.sum_pair rne (f := fun i => conj (Spec.gate1 n g t cs i j) * Spec.gate1 n g t cs i k)]
    symm
    refine Finset.sum_subset (fun x hx => ?_) fun i hi hni => ?_
    · simp only [Finset.mem_insert, Finset.mem_singleton] at hx
      rcases hx with rfl | rfl <;> exact mem_range.2 (rlt _)
    · simp only [Finset.mem_insert, Finset.mem_singleton, not_or] at hni
      rw [hrow i (mem_range.1 hi) hni.1 hni.2]
      rw [show conj (0 : C K) = 0 by apply Cx.ext <;> simp [conj], zero_mul]
  rw [hsum]
  -- the condition and the controls are the same on all rows
  have hsat : ∀ b, sat cs n (r b) ↔ sat cs n j := by
    intro b
    unfold sat
    refine forall_congr' fun c => forall_congr' fun hc => forall_congr' fun _ => ?_
    rw [rbit, if_neg (hcs c hc)]
  have hcol : ∀ b, Spec.gate1 n g t cs (r b) j =
      if sat cs n j then g (bit b) (bit (j.testBit t)) else if b = j.testBit t then 1 else 0 := by
    intro b
    unfold Spec.gate1
    rw [if_pos (fun c _ hc => by rw [rbit, if_neg hc])]
    simp only [hsat, rbit, if_true]
  by_cases hjk : ∀ c < n, c ≠ t → j.testBit c = k.testBit c
  · have hcolk : ∀ b, Spec.gate1 n g t cs (r b) k =
        if sat cs n j then g (bit b) (bit (k.testBit t)) else if b = k.testBit t then 1 else 0 := by
      intro b
      unfold Spec.gate1
      rw [if_pos (fun c hcn hc => by rw [rbit, if_neg hc]; exact hjk c hcn hc)]
      simp only [hsat, rbit, if_true]
    have hjk' : j = k ↔ j.testBit t = k.testBit t := by
      constructor
      · rintro rfl; rfl
      · intro hh
        apply Nat.eq_of_testBit_eq
        intro c
        rcases Nat.lt_or_ge c n with hcn | hcn
        · by_cases hc : c = t
          · rw [hc]; exact hh
          · exact hjk c hcn hc
        · rw [Nat.testBit_lt_two_pow (lt_of_lt_of_le hk (Nat.pow_le_pow_right (by omega) hcn)),
            Nat.testBit_lt_two_pow (lt_of_lt_of_le hj (Nat.pow_le_pow_right (by omega) hcn))]
    rw [hcol, hcol, hcolk, hcolk]
    simp only [hjk']
    by_cases hs : sat cs n j
    · simp only [hs, if_true]
      exact hg (j.testBit t) (k.testBit t)
    · simp only [hs, if_false]
      have c0 : conj (0 : C K) = 0 := by apply Cx.ext <;> simp [conj]
      have c1 : conj (1 : C K) = 1 := by apply Cx.ext <;> simp [conj]
      cases j.testBit t <;> cases k.testBit t <;> simp [c0, c1]
  · have hcolk : ∀ b, Spec.gate1 n g t cs (r b) k = 0 := by
      intro b
      unfold Spec.gate1
      rw [if_neg]
      intro hh
      exact hjk fun c hcn hc => by have := hh c hcn hc; rwa [rbit, if_neg hc] at this
    rw [hcolk, hcolk, if_neg (fun hh => hjk (by rw [hh]; exact fun _ _ _ => rfl))]
    simp

/-- **C51 (gates).** Building a controlled gate from a 2x2 matrix with orthonormal columns and applying it preserves the
norm, for every target and set of controls. -/
theorem C51_gate_norm (hR : Hist cfg thr thrM cs h σ os) {v n t : Nat} {g : Nat → Nat → C K} {ctl : List Ctrl}
    {V : Vec K} (hv : h.vs[v]? = some V) (hV : V.k = n) (hn : n ≤ 30) (hV0 : V.Nonzero)
    (ht : t < n) (hsrt : ctl.Pairwise (fun a b => a.qubit < b.qubit)) (hcs : ∀ c ∈ ctl, c.qubit ≠ t)
    (hg : ∀ b b' : Bool, conj (g 0 (bit b)) * g 0 (bit b') + conj (g 1 (bit b)) * g 1 (bit b') = if b = b' then 1 else 0)
    {f : Nat → C K} (hf : ReadsV cfg σ v n f) {o1 o2 : Obs K} {σ1 σ2 : Sys K}
    (h1 : Exec cfg σ (.gate n g t ctl) o1 σ1) (h2 : Exec cfg σ1 (.mv h.ms.length v) o2 σ2) :
    ∃ f', ReadsV cfg σ2 h.vs.length n f' ∧ norm2 n f' = norm2 n f := by
  have hR1 := hR.after (c := .gate n g t ctl) ⟨ht, by unfold NQUBITS; omega, hsrt, hcs⟩
    (h' := h.addM ⟨n, Spec.gate1 n g t ctl⟩) (o' := .unit) rfl h1
  have hm : (h.addM ⟨n, Spec.gate1 n g t ctl⟩).ms[h.ms.length]? = some ⟨n, Spec.gate1 n g t ctl⟩ := addM_new _ _
  have hA := hR1.readsM (n := n) hm le_rfl hn
  subst hV
  have ef := hf.unique (hR.readsV hv hV0 hn)
  have hf1 : ReadsV cfg σ1 v V.k f := ReadsV.congr (hR1.readsV (v := v) (V := V) hv hV0 hn) fun i hi => (ef i hi).symm
  refine C51_norm_preserved hR1 hm (v := v) (V := V) hv le_rfl rfl hn hV0 hA hf1 ?_ h2
  intro j hj k hk
  rw [← gate1_isometry (n := V.k) ht hcs hg j hj k hk]
  exact Finset.sum_congr rfl fun i hi => by
    rw [show (⟨V.k, Spec.gate1 V.k g t ctl⟩ : Mat K).at V.k i j = Spec.gate1 V.k g t ctl i j from
        at_self ⟨V.k, Spec.gate1 V.k g t ctl⟩ (mem_range.1 hi) hj,
      show (⟨V.k, Spec.gate1 V.k g t ctl⟩ : Mat K).at V.k i k = Spec.gate1 V.k g t ctl i k from
        at_self ⟨V.k, Spec.gate1 V.k g t ctl⟩ (mem_range.1 hi) hk]

end QDD.Props
