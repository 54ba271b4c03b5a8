import Verif.Bench.Iqft
import Verif.Py.Pauli
/-!
# The benchmark's circuit as a Qiskit circuit
-/
set_option linter.unusedVariables false
set_option linter.unusedSimpArgs false

namespace QDD.Bench
open Finset Py Spec

/-- The instructions that the Qiskit methods `x`, `cx`, `ccx`, `h`, `mcp` append (the default `ctrl_state` is all ones), as
they reach the backend: `transpile` keeps the first four and turns `mcphase` with one control, which is not among the
`basis_gates` (qdd_backend.py 131-179), into `cp` of the same angle. -/
noncomputable def G.inst : G → Inst
  | .x t => ⟨.gate .X [], [t], [], none⟩
  | .cx c t => ⟨.gate .CX [true], [c, t], [], none⟩
  | .ccx c1 c2 t => ⟨.gate .CCX [true, true], [c1, c2, t], [], none⟩
  | .h t => ⟨.gate .H [], [t], [], none⟩
  | .cp k c t => ⟨.gate (.CP (-(Real.pi / 2 ^ k))) [true], [c, t], [], none⟩

/-- `barrier` on all qubits. -/
def barrierI (Q : Nat) : Inst := ⟨.barrier, List.range Q, [], none⟩

/-- The measurements of `measure_all`. -/
def measAll (Q : Nat) : List Inst := (List.range Q).map fun q => ⟨.measure, [q], [q], none⟩

/-- The circuit run by bench/shor_main.py (27-30): a barrier, the gates, and `measure_all` (a barrier and the
measurements into as many clbits). -/
noncomputable def B.circ (b : B) : Circ :=
  ⟨4 * b.n + 2, 4 * b.n + 2, 0, barrierI (4 * b.n + 2) :: (b.gates.map G.inst ++ barrierI (4 * b.n + 2) :: measAll (4 * b.n + 2))⟩

/-- The values of the qubits in the basis state `i`. -/
def bits (i : Nat) : S := fun q => i.testBit q

theorem bits_flip (i t : Nat) : bits (i ^^^ 2 ^ t) = set (bits i) t (!bits i t) := by
  funext q
  unfold bits set
  rw [bit_xor]
  by_cases h : q = t
  · rw [if_pos h, if_pos h, h]
  · rw [if_neg h, if_neg h]

theorem ofC_mul (z w : ℂ) : ofC (z * w) = ofC z * ofC w := by
  unfold ofC
  ext <;> simp [Complex.mul_re, Complex.mul_im]

theorem ofC_add (z w : ℂ) : ofC (z + w) = ofC z + ofC w := by
  unfold ofC
  ext <;> simp

theorem ofC_zero : ofC 0 = 0 := rfl
theorem ofC_one : ofC 1 = 1 := rfl

theorem app_ctl {n t : Nat} (ht : t < n) (g : Nat → Nat → CR) (cs : List Ctrl) (f : Nat → CR) {i : Nat} (hi : i < 2 ^ n) :
    app n (Spec.gate1 n g t cs) f i = if sat cs n i then g (bit (i.testBit t)) (bit (i.testBit t)) * f i +
      g (bit (i.testBit t)) (bit (!i.testBit t)) * f (i ^^^ 2 ^ t) else f i := by
  by_cases h : sat cs n i
  · rw [if_pos h]
    have := app_gate1 ht g f hi
    unfold act at this
    rw [← this]
    unfold app
    refine Finset.sum_congr rfl fun j _ => ?_
    congr 1
    unfold Spec.gate1
    rw [if_pos h, if_pos (show sat [] n i from fun c hc => by cases hc)]
  · rw [if_neg h]
    unfold app
    rw [Finset.sum_eq_single i]
    · unfold Spec.gate1
      rw [if_pos (fun b _ _ => rfl), if_neg h, if_pos rfl, one_mul]
    · intro j hj hne
      unfold Spec.gate1
      by_cases hall : ∀ b < n, b ≠ t → i.testBit b = j.testBit b
      · rw [if_pos hall, if_neg h, if_neg, zero_mul]
        intro hb
        apply hne
        apply Nat.eq_of_testBit_eq
        intro c
        by_cases hc : c < n
        · by_cases hct : c = t
          · rw [hct, hb]
          · exact (hall c hc hct).symm
        · rw [Nat.testBit_lt_two_pow (lt_of_lt_of_le hi (Nat.pow_le_pow_right (by omega) (by omega))),
            Nat.testBit_lt_two_pow (lt_of_lt_of_le (mem_range.1 hj) (Nat.pow_le_pow_right (by omega) (by omega)))]
      · rw [if_neg hall, zero_mul]
    · intro hn; exact absurd (mem_range.2 hi) hn

theorem sat_ctl {ctl : List Bool} (h : Py.Closed ctl) {qs : List Nat} {n i : Nat} (hq : ∀ q ∈ qs, q < n) : sat (ctrls ctl qs) n i ↔ qs.all (bits i) = true := by
  unfold sat
  simp only [mem_ctrls h, List.all_eq_true]
  constructor
  · intro hs q hm
    exact hs ⟨q, false⟩ ⟨q, hm, rfl⟩ (hq q hm)
  · rintro hs c ⟨q, hm, rfl⟩ _
    exact hs q hm

/-- A gate with controls, on amplitudes. -/
theorem app_bits {n t : Nat} (ht : t < n) {A : Matrix (Fin 2) (Fin 2) ℂ} {ctl : List Bool} (hc : Py.Closed ctl) {qs : List Nat} (hq : ∀ q ∈ qs, q < n)
    {f : Nat → CR} {φ : S → ℂ} (hf : ∀ i < 2 ^ n, f i = ofC (φ (bits i))) {i : Nat} (hi : i < 2 ^ n) :
    app n (Spec.gate1 n (fun r c => ofC (A (fin2 r) (fin2 c))) t (ctrls ctl qs)) f i = ofC (if qs.all (bits i) then
      A (fin2 (bit (bits i t))) (fin2 (bit (bits i t))) * φ (bits i) + A (fin2 (bit (bits i t))) (fin2 (bit (!bits i t))) * φ (set (bits i) t (!bits i t))
      else φ (bits i)) := by
  rw [app_ctl ht _ _ _ hi, hf i hi, hf _ (flip_lt ht hi), bits_flip]
  by_cases h : qs.all (bits i) = true
  · rw [if_pos ((sat_ctl hc hq).2 h), if_pos h, ofC_add, ofC_mul, ofC_mul]
    rfl
  · rw [if_neg (fun hs => h ((sat_ctl hc hq).1 hs)), if_neg h]

theorem closed_nil : Py.Closed [] := by intro b hb; cases hb
theorem closed_one : Py.Closed [true] := by intro b hb; simpa using hb
theorem closed_two : Py.Closed [true, true] := by intro b hb; simpa using hb

/-- **One gate.** -/
theorem inst_app {Q : Nat} {g : G} (hg : g.Ok Q) {f : Nat → CR} {φ : S → ℂ} (hf : ∀ i < 2 ^ Q, f i = ofC (φ (bits i))) :
    ∃ A, g.inst.oper Q = some A ∧ ∀ i < 2 ^ Q, app Q A f i = ofC (g.act φ (bits i)) := by
  cases g with
  | x t =>
    refine ⟨_, rfl, fun i hi => ?_⟩
    refine (app_bits (show t < Q from hg) closed_nil (qs := []) (by simp) hf hi).trans ?_
    congr 1
    simp only [G.act, G.on, List.all_nil, if_true]
    cases bits i t <;> simp [fin2, bit]
  | cx c t =>
    obtain ⟨h1, h2, h3⟩ : c ≠ t ∧ c < Q ∧ t < Q := hg
    refine ⟨_, rfl, fun i hi => ?_⟩
    refine (app_bits h3 closed_one (qs := [c]) (by simpa using h2) hf hi).trans ?_
    congr 1
    simp only [G.act, G.on, List.all_cons, List.all_nil, Bool.and_true]
    cases bits i c <;> cases bits i t <;> simp [fin2, bit]
  | ccx c1 c2 t =>
    obtain ⟨h1, h2, h3, h4, h5, h6⟩ : c1 ≠ t ∧ c2 ≠ t ∧ c1 ≠ c2 ∧ c1 < Q ∧ c2 < Q ∧ t < Q := hg
    refine ⟨_, rfl, fun i hi => ?_⟩
    refine (app_bits h6 closed_two (qs := [c1, c2]) (by simpa using ⟨h4, h5⟩) hf hi).trans ?_
    congr 1
    simp only [G.act, G.on, List.all_cons, List.all_nil, Bool.and_true]
    cases bits i c1 <;> cases bits i c2 <;> cases bits i t <;> simp [fin2, bit]
  | h t =>
    refine ⟨_, rfl, fun i hi => ?_⟩
    refine (app_bits (show t < Q from hg) closed_nil (qs := []) (by simp) hf hi).trans ?_
    congr 1
    simp only [G.act, List.all_nil, if_true]
    have hs : ∀ b, bits i t = b → set (bits i) t b = bits i := fun b hb => by rw [← hb, set_self]
    cases hb : bits i t
    · rw [hs _ hb]
      simp [fin2, bit]; ring
    · rw [hs _ hb]
      simp [fin2, bit]; ring
  | cp k c t =>
    obtain ⟨h1, h2, h3⟩ : c ≠ t ∧ c < Q ∧ t < Q := hg
    refine ⟨_, rfl, fun i hi => ?_⟩
    refine (app_bits h3 closed_one (qs := [c]) (by simpa using h2) hf hi).trans ?_
    congr 1
    simp only [G.act, List.all_cons, List.all_nil, Bool.and_true]
    cases bits i c <;> cases bits i t <;> simp [fin2, bit]

/-- **The gates.** -/
theorem evol_amp {Q : Nat} : ∀ (gs : List G), (∀ g ∈ gs, g.Ok Q) → ∀ (f : Nat → CR) (φ : S → ℂ), (∀ i < 2 ^ Q, f i = ofC (φ (bits i))) →
    ∀ i < 2 ^ Q, evol Q (gs.map G.inst) f i = ofC (amp gs φ (bits i))
  | [], _, f, φ, hf => hf
  | g :: gs, hg, f, φ, hf => by
    obtain ⟨A, hA, happ⟩ := inst_app (hg g (by simp)) hf
    rw [List.map_cons, evol, hA]
    exact evol_amp gs (fun g' h => hg g' (by simp [h])) _ _ happ

theorem inst_fine {Q nc : Nat} {ms} {g : G} (hg : g.Ok Q) : Fine Q nc ms g.inst := by
  cases g with
  | x t =>
    have hg : t < Q := hg
    refine ⟨⟨by simp [G.inst], by simpa [G.inst] using hg, by simp [G.inst], ⟨rfl, rfl⟩, by intro c hc; cases hc⟩, closed_nil, by intro c hc; cases hc⟩
  | cx c t =>
    obtain ⟨h1, h2, h3⟩ : c ≠ t ∧ c < Q ∧ t < Q := hg
    refine ⟨⟨by simpa [G.inst] using h1, by simpa [G.inst] using ⟨h2, h3⟩, by simp [G.inst], ⟨rfl, rfl⟩, by intro c hc; cases hc⟩, closed_one, by intro c hc; cases hc⟩
  | ccx c1 c2 t =>
    obtain ⟨h1, h2, h3, h4, h5, h6⟩ : c1 ≠ t ∧ c2 ≠ t ∧ c1 ≠ c2 ∧ c1 < Q ∧ c2 < Q ∧ t < Q := hg
    refine ⟨⟨by simp [G.inst]; tauto, by simpa [G.inst] using ⟨h4, h5, h6⟩, by simp [G.inst], ⟨rfl, rfl⟩, by intro c hc; cases hc⟩, closed_two, by intro c hc; cases hc⟩
  | h t =>
    have hg : t < Q := hg
    refine ⟨⟨by simp [G.inst], by simpa [G.inst] using hg, by simp [G.inst], ⟨rfl, rfl⟩, by intro c hc; cases hc⟩, closed_nil, by intro c hc; cases hc⟩
  | cp k c t =>
    obtain ⟨h1, h2, h3⟩ : c ≠ t ∧ c < Q ∧ t < Q := hg
    refine ⟨⟨by simpa [G.inst] using h1, by simpa [G.inst] using ⟨h2, h3⟩, by simp [G.inst], ⟨rfl, rfl⟩, by intro c hc; cases hc⟩, closed_one, by intro c hc; cases hc⟩

theorem barrier_fine {Q nc : Nat} {ms} : Fine Q nc ms (barrierI Q) :=
  ⟨⟨List.nodup_range, fun q hq => List.mem_range.1 hq, by intro c hc; simp [barrierI] at hc, rfl, by intro c hc; cases hc⟩, trivial, by intro c hc; cases hc⟩

theorem meas_fine {Q : Nat} {ms} : ∀ x ∈ measAll Q, Fine Q Q ms x := by
  intro x hx
  obtain ⟨q, hq, rfl⟩ := List.mem_map.1 hx
  rw [List.mem_range] at hq
  exact ⟨⟨by simp, by simpa using hq, by simpa using hq, ⟨rfl, rfl⟩, by intro c hc; cases hc⟩, trivial, by intro c hc; cases hc⟩

theorem circ_fine {b : B} (hg : ∀ g ∈ b.gates, g.Ok (4 * b.n + 2)) {ms} : ∀ x ∈ b.circ.data, Fine b.circ.nq b.circ.nc ms x := by
  intro x hx
  rcases List.mem_cons.1 hx with rfl | hx
  · exact barrier_fine
  · rcases List.mem_append.1 hx with hx | hx
    · obtain ⟨g, hm, rfl⟩ := List.mem_map.1 hx
      exact inst_fine (hg g hm)
    · rcases List.mem_cons.1 hx with rfl | hx
      · exact barrier_fine
      · exact meas_fine x hx

theorem inst_gate (g : G) : ∃ n ctl, g.inst.op = .gate n ctl := by cases g <;> exact ⟨_, _, rfl⟩
theorem inst_cond (g : G) : g.inst.cond = none := by cases g <;> rfl

theorem deferrable_meas : ∀ (qs : List Nat) (meas : List Nat), qs.Nodup → (∀ q ∈ qs, q ∉ meas) →
    Deferrable meas (qs.map fun q => ⟨.measure, [q], [q], none⟩)
  | [], _, _, _ => trivial
  | q :: qs, meas, hn, hm => by
    rw [List.nodup_cons] at hn
    refine ⟨rfl, ?_⟩
    refine deferrable_meas qs _ hn.2 fun a ha => ?_
    show a ∉ [q] ++ meas
    simp only [List.singleton_append, List.mem_cons, not_or]
    exact ⟨fun h => hn.1 (h ▸ ha), hm a (by simp [ha])⟩

theorem circ_deferrable (b : B) : Deferrable [] b.circ.data := by
  refine deferrable_append [barrierI (4 * b.n + 2)] _ _ ?_ (deferrable_append _ _ _ ?_
    (deferrable_append [barrierI (4 * b.n + 2)] _ _ ?_ (deferrable_meas _ _ List.nodup_range (by simp))))
  · intro x hx
    rw [List.mem_singleton] at hx; rw [hx]
    exact ⟨rfl, (by intro h; cases h), (by intro h; cases h), by simp⟩
  · intro x hx
    obtain ⟨g, hm, rfl⟩ := List.mem_map.1 hx
    obtain ⟨n, ctl, ho⟩ := inst_gate g
    exact ⟨inst_cond g, (by rw [ho]; intro h; cases h), (by rw [ho]; intro h; cases h), by simp⟩
  · intro x hx
    rw [List.mem_singleton] at hx; rw [hx]
    exact ⟨rfl, (by intro h; cases h), (by intro h; cases h), by simp⟩

theorem fin_meas (i : Nat) : ∀ (qs : List Nat) (val : Nat → Bool) (c : Nat), (c ∈ qs ∨ val c = i.testBit c) →
    fin (qs.map fun q => (⟨.measure, [q], [q], none⟩ : Inst)) val i c = i.testBit c
  | [], val, c, h => by
    rcases h with h | h
    · cases h
    · exact h
  | q :: qs, val, c, h => by
    show fin (qs.map _) (upd val q (i.testBit q)) i c = _
    apply fin_meas i qs
    by_cases hq : c = q
    · right; unfold upd; rw [if_pos hq, hq]
    · rcases h with h | h
      · left; exact (List.mem_cons.1 h).resolve_left hq
      · right; unfold upd; rw [if_neg hq]; exact h

theorem circ_fin (b : B) (i c : Nat) (hc : c < 4 * b.n + 2) : fin b.circ.data (fun _ => false) i c = i.testBit c := by
  show fin (b.gates.map G.inst ++ _) _ i c = _
  rw [fin_append _ _ _ _ (fun x hx => by
    obtain ⟨g, hm, rfl⟩ := List.mem_map.1 hx
    obtain ⟨n, ctl, ho⟩ := inst_gate g
    rw [ho]; intro h; cases h)]
  exact fin_meas i _ _ c (Or.inl (List.mem_range.2 hc))

theorem evol_meas (n : Nat) : ∀ (qs : List Nat) (f : Nat → CR), evol n (qs.map fun q => (⟨.measure, [q], [q], none⟩ : Inst)) f = f
  | [], f => rfl
  | q :: qs, f => evol_meas n qs f

theorem circ_evol {b : B} (hg : ∀ g ∈ b.gates, g.Ok (4 * b.n + 2)) {i : Nat} (hi : i < 2 ^ (4 * b.n + 2)) :
    evol b.circ.nq b.circ.data zeroState i = ofC (amp b.gates (delta zero) (bits i)) := by
  show evol (4 * b.n + 2) (b.gates.map G.inst ++ _) zeroState i = _
  rw [evol_append]
  show evol (4 * b.n + 2) (measAll _) _ i = _
  unfold measAll
  rw [evol_meas]
  apply evol_amp _ hg _ _ _ i hi
  intro j hj
  unfold zeroState delta
  have : j = 0 ↔ bits j = zero := by
    constructor
    · rintro rfl; funext q; simp [bits, zero]
    · intro h
      apply Nat.eq_of_testBit_eq
      intro q
      have := congrFun h q
      simpa [bits, zero] using this
  by_cases h : j = 0
  · rw [if_pos h, if_pos (this.1 h)]; rfl
  · rw [if_neg h, if_neg (fun e => h (this.2 e))]; rfl

/-- The key of the basis state `i` in the counts. -/
def keyBits (Q i : Nat) : List Bool := ((List.range Q).map i.testBit).reverse

theorem keyBits_inj {Q i j : Nat} (hi : i < 2 ^ Q) (hj : j < 2 ^ Q) : keyBits Q i = keyBits Q j ↔ i = j := by
  constructor
  · intro h
    unfold keyBits at h
    rw [List.reverse_inj] at h
    apply Nat.eq_of_testBit_eq
    intro q
    by_cases hq : q < Q
    · have := congrArg (fun l => l[q]?) h
      simpa [hq] using this
    · rw [Nat.testBit_lt_two_pow (lt_of_lt_of_le hi (Nat.pow_le_pow_right (by norm_num) (by omega))),
        Nat.testBit_lt_two_pow (lt_of_lt_of_le hj (Nat.pow_le_pow_right (by norm_num) (by omega)))]
  · rintro rfl; rfl

theorem mag2_ofC (z : ℂ) : (ofC z).mag2 = ‖z‖ ^ 2 := by
  rw [← Complex.normSq_eq_norm_sq, Complex.normSq_apply]; rfl

/-- **The distribution of the measured circuit.** -/
theorem circ_prob {b : B} (hg : ∀ g ∈ b.gates, g.Ok (4 * b.n + 2)) {i : Nat} (hi : i < 2 ^ (4 * b.n + 2)) :
    b.circ.prob (keyBits (4 * b.n + 2) i) = ‖amp b.gates (delta zero) (bits i)‖ ^ 2 := by
  classical
  unfold Circ.prob
  rw [expect_deferred _ b.circ.data (circ_fine hg (ms := [])) [] (circ_deferrable b)]
  have hkey : ∀ j, ((List.range b.circ.nc).map (fin b.circ.data (fun _ => false) j)).reverse = keyBits (4 * b.n + 2) j := by
    intro j
    unfold keyBits
    congr 1
    exact List.map_congr_left fun c hc => circ_fin b j c (List.mem_range.1 hc)
  rw [Finset.sum_eq_single i]
  · rw [hkey, if_pos rfl, mul_one, circ_evol hg hi, mag2_ofC]
  · intro j hj hne
    rw [hkey, if_neg (fun h => hne ((keyBits_inj hi (mem_range.1 hj)).1 h).symm), mul_zero]
  · intro hn; exact absurd (mem_range.2 hi) hn

theorem reg_bits (m i : Nat) : reg 0 m (bits i) = i % 2 ^ m := by
  apply Nat.eq_of_testBit_eq
  intro j
  rw [reg_testBit, Nat.testBit_mod_two_pow, Nat.zero_add]
  rfl

/-- When a basis state with the first register replaced by `x` is reached before the Fourier transform. -/
theorem enc_iff {n x x' y i : Nat} (hx : x < 2 ^ (2 * n)) (hx' : x' < 2 ^ (2 * n)) (hy : y < 2 ^ n) :
    setReg 0 (2 * n) x (bits i) = enc n x' y ↔ x' = x ∧ y = i / 2 ^ (2 * n) := by
  have hge : ∀ {v w q : Nat}, v < 2 ^ w → w ≤ q → v.testBit q = false := fun hv hq =>
    Nat.testBit_lt_two_pow (lt_of_lt_of_le hv (Nat.pow_le_pow_right (by norm_num) hq))
  constructor
  · intro h
    constructor
    · apply Nat.eq_of_testBit_eq
      intro q
      by_cases hq : q < 2 * n
      · have := congrFun h q
        rw [setReg_in (by omega), enc_low hq, Nat.sub_zero] at this
        exact this.symm
      · rw [hge hx' (by omega), hge hx (by omega)]
    · apply Nat.eq_of_testBit_eq
      intro q
      have := congrFun h (2 * n + q)
      rw [setReg_out (by omega)] at this
      rw [Nat.testBit_div_two_pow]
      have h2 : bits i (2 * n + q) = i.testBit (q + 2 * n) := by unfold bits; rw [Nat.add_comm]
      rw [← h2, this]
      by_cases hq : q < n
      · rw [enc_mid hq]
      · rw [enc_high (by omega), hge hy (by omega)]
  · rintro ⟨rfl, rfl⟩
    funext q
    by_cases hq : q < 2 * n
    · rw [setReg_in (by omega), enc_low hq, Nat.sub_zero]
    · rw [setReg_out (by omega)]
      have h1 : bits i q = (i / 2 ^ (2 * n)).testBit (q - 2 * n) := by
        rw [Nat.testBit_div_two_pow]; unfold bits; congr 1; omega
      rw [h1]
      unfold enc
      rw [if_neg hq]
      by_cases h3 : q < 3 * n
      · rw [if_pos h3]
      · rw [if_neg h3, hge hy (by omega)]

/-- **The amplitudes of the order-finding circuit.** -/
theorem order_amp {N a : Nat} (uc dec : Bool) (hN2 : 2 ≤ N) (hc : Nat.Coprime a N) :
    ∃ b, orderCircuit N a uc dec = some b ∧ b.n = N.size ∧ (∀ g ∈ b.gates, g.Ok (4 * b.n + 2)) ∧ ∀ i,
      amp b.gates (delta zero) (bits i) = (∑ x ∈ range (2 ^ (2 * N.size)),
        if a ^ x % N = i / 2 ^ (2 * N.size) then ω (2 * N.size) (i % 2 ^ (2 * N.size) * x) else 0) / 2 ^ (2 * N.size) := by
  classical
  obtain ⟨b1, e1, hs⟩ := findOrder_stage (a := a) uc dec hN2 hc
  obtain ⟨b2, e2, g2, n2⟩ := invQft_gates (2 * N.size) b1
  refine ⟨b2, ?_, n2.trans hs.hn, ?_, ?_⟩
  · unfold orderCircuit
    rw [e1, Option.bind_some, hs.hn, e2]
  · rw [n2, hs.hn, g2]
    intro g hg
    rcases List.mem_append.1 hg with hg | hg
    · exact hs.ok g hg
    · rcases List.mem_append.1 hg with hg | hg
      · exact (sw_classical (by omega) _ (by omega) g hg).ok
      · exact rots_ok _ (by omega) g hg
  · intro i
    have hk : (1 / (√2 : ℝ) : ℂ) ^ (2 * N.size) * (1 / (√2 : ℝ) : ℂ) ^ (2 * N.size) = (2 ^ (2 * N.size))⁻¹ := by
      rw [← mul_pow, div_mul_div_comm, one_mul, ← Complex.ofReal_mul, Real.mul_self_sqrt (by norm_num)]; simp
    rw [g2, amp_append, amp_iqft rfl, reg_bits, div_eq_inv_mul _ ((2 : ℂ) ^ (2 * N.size)), ← hk, mul_assoc]
    congr 1
    rw [Finset.mul_sum]
    refine Finset.sum_congr rfl fun x hx => ?_
    rw [mem_range] at hx
    have hlt : ∀ x, a ^ x % N < 2 ^ N.size := fun x => lt_trans (Nat.mod_lt _ (by omega)) (Nat.lt_size_self N)
    rw [hs.amp]
    by_cases h : a ^ x % N = i / 2 ^ (2 * N.size)
    · rw [if_pos h, if_pos ⟨x, hx, (enc_iff hx hx (hlt x)).2 ⟨rfl, h⟩⟩, mul_comm]
    · rw [if_neg h, if_neg, mul_zero, mul_zero]
      rintro ⟨x', hx', he⟩
      obtain ⟨rfl, h2⟩ := (enc_iff hx hx' (hlt x')).1 he
      exact h h2

end QDD.Bench
