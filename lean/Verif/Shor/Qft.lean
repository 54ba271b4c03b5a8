import Verif.Shor.Circuit
import Verif.Grover.Algebra
import Mathlib.Analysis.SpecialFunctions.Trigonometric.Basic
/-!
# The quantum Fourier transform turns additions into phases
-/

set_option linter.unusedSectionVars false
set_option linter.unusedVariables false
set_option linter.unusedSimpArgs false

namespace QDD.Shor
open Spec Api Gate Props Py Py.Client QDD.Grover
open Finset (range mem_range)

/-- What a gate does to amplitudes. -/
noncomputable def sem : Cmd ℝ → (Nat → CR) → Nat → CR
  | .gate N g q cs => cact N q cs fun a b => g (bit a) (bit b)
  | _ => id

theorem sem_gate (N : Nat) (g : Nat → Nat → CR) (q : Nat) (cs : List Ctrl) (f : Nat → CR) :
    sem (.gate N g q cs) f = cact N q cs (fun a b => g (bit a) (bit b)) f := rfl

/-- What a list of gates does. -/
noncomputable def run (gs : List (Cmd ℝ)) (f : Nat → CR) : Nat → CR := runOps (gs.map sem) f

theorem run_nil (f : Nat → CR) : run [] f = f := rfl
theorem run_cons (g : Cmd ℝ) (gs : List (Cmd ℝ)) (f : Nat → CR) : run (g :: gs) f = run gs (sem g f) := rfl
theorem run_append (a b : List (Cmd ℝ)) (f : Nat → CR) : run (a ++ b) f = run b (run a f) := by
  unfold run runOps; rw [List.map_append, List.foldl_append]

/-! ## Phases -/

/-- `e^{2πiz}`. -/
noncomputable def E (z : ℝ) : CR := ⟨Real.cos (2 * Real.pi * z), Real.sin (2 * Real.pi * z)⟩

theorem E_add (x y : ℝ) : E (x + y) = E x * E y := by
  unfold E
  rw [mul_add, Real.cos_add, Real.sin_add]
  apply Cx.ext <;> simp
  ring
theorem E_zero : E 0 = 1 := by unfold E; apply Cx.ext <;> simp
theorem E_int (n : Int) : E n = 1 := by
  unfold E
  have h1 := Real.cos_int_mul_two_pi n
  have h2 : Real.sin (n * (2 * Real.pi)) = 0 := by
    rw [← mul_assoc, show (n : ℝ) * 2 = ((n * 2 : Int) : ℝ) by push_cast; rfl]
    exact Real.sin_int_mul_pi _
  rw [mul_comm] at h1 h2
  rw [h1, h2]
  rfl
theorem E_half : E (1 / 2) = -1 := by
  unfold E
  rw [show 2 * Real.pi * (1 / 2) = Real.pi by ring]
  apply Cx.ext <;> simp
theorem E_neg (x : ℝ) : E x * E (-x) = 1 := by rw [← E_add, add_neg_cancel, E_zero]
theorem E_add_int (x : ℝ) (n : Int) : E (x + n) = E x := by rw [E_add, E_int, mul_one]

theorem phaseGate_E (fac div z : ℝ) (h : fac / div = 2 * z) : phaseGate fac div = g4 1 0 0 (E z) := by
  unfold phaseGate E
  rw [mul_div_assoc, h, show Real.pi * (2 * z) = 2 * Real.pi * z by ring]

/-- A controlled phase. -/
theorem cact_phase (N q : Nat) (cs : List Ctrl) (e : CR) (f : Nat → CR) (i : Nat) :
    cact N q cs (fun a b => g4 1 0 0 e (bit a) (bit b)) f i = if sat cs N i then (if i.testBit q then e else 1) * f i else f i := by
  unfold cact act
  cases i.testBit q <;> simp [bit, g4]

/-- A controlled X. -/
theorem cact_X (N q : Nat) (cs : List Ctrl) (f : Nat → CR) (i : Nat) :
    cact N q cs (fun a b => Xmat (bit a) (bit b)) f i = if sat cs N i then f (i ^^^ 2 ^ q) else f i := by
  unfold cact
  rw [show act q (fun a b => Xmat (bit a) (bit b)) f i = f (i ^^^ 2 ^ q) from flp_eq q f i]

theorem cact_H (N q : Nat) (f : Nat → CR) : cact N q [] (fun a b => Hmat (bit a) (bit b)) f = had q f := by
  funext i
  exact if_pos (fun c hc => by cases hc)

/-! ## One stage of the transform -/

/-- The low `k` bits of the register that begins at qubit 1. -/
def low (k i : Nat) : Nat := i / 2 % 2 ^ k

theorem low_succ (k i : Nat) : low (k + 1) i = low k i + if i.testBit (k + 1) then 2 ^ k else 0 := by
  unfold low
  rw [mod_succ, Nat.testBit_succ]

theorem sat_one {N q i : Nat} (h : q < N) : sat [⟨q, false⟩] N i ↔ i.testBit q = true := by
  unfold sat
  simp [h]

/-- The phases of one stage: qubit `t`, controls `u, …, 1`. -/
theorem run_phases {r t : Nat} (ht : t ≤ r + 1) (s : ℝ) (hs : s * s = 1) : ∀ (u : Nat), u < t → ∀ (f : Nat → CR) (i : Nat),
    run (phases r (2 * r + 2 - t) s u (2 * r + 2 - u) (2 ^ (t - u))) f i =
      (if i.testBit t then E (s * (low u i / 2 ^ t)) else 1) * f i := by
  intro u
  induction u with
  | zero =>
    intro _ f i
    simp [phases, run_nil, low, E_zero, Nat.mod_one]
  | succ u ih =>
    intro hu f i
    unfold phases
    rw [run_cons]
    have e1 : 2 * r + 2 - (u + 1) + 1 = 2 * r + 2 - u := by omega
    have e2 : 2 * 2 ^ (t - (u + 1)) = 2 ^ (t - u) := by rw [← pow_succ']; congr 1; omega
    rw [e1, e2, ih (by omega)]
    have e3 : nQubits r - 1 - (2 * r + 2 - t) = t := by unfold nQubits; omega
    have e4 : ctl r (2 * r + 2 - (u + 1)) = ⟨u + 1, false⟩ := by unfold ctl nQubits; congr 1; omega
    have hs0 : s ≠ 0 := by rintro rfl; simp at hs
    have e5 : phaseGate 1 (s * ((2 ^ (t - (u + 1)) : Nat) : ℝ)) = g4 1 0 0 (E (s * (2 ^ u / 2 ^ t))) := by
      apply phaseGate_E
      have hp : (2 : ℝ) ^ t = 2 ^ (t - (u + 1)) * 2 ^ (u + 1) := by rw [← pow_add]; congr 1; omega
      rw [hp, pow_succ]
      push_cast
      have hss : s ^ 2 = 1 := by rw [sq]; exact hs
      field_simp
      rw [hss]
    rw [sem_gate, e3, e4, e5, cact_phase, low_succ]
    have hlt : u + 1 < nQubits r := by unfold nQubits; omega
    by_cases hb : i.testBit (u + 1)
    · rw [if_pos ((sat_one hlt).2 hb), if_pos hb]
      by_cases ht' : i.testBit t
      · rw [if_pos ht', if_pos ht', if_pos ht', ← mul_assoc, ← E_add]
        congr 2
        push_cast
        ring
      · rw [if_neg ht', if_neg ht', if_neg ht', one_mul]
    · rw [if_neg (fun h => hb ((sat_one hlt).1 h)), if_neg hb, add_zero]

/-- One stage: Hadamard on qubit `m + 1` and the phases. -/
noncomputable def stage (m : Nat) (f : Nat → CR) : Nat → CR := fun i =>
  (if i.testBit (m + 1) then E (low m i / 2 ^ (m + 1)) else 1) * had (m + 1) f i

/-- The inverse stage. -/
noncomputable def stageInv (m : Nat) (f : Nat → CR) : Nat → CR :=
  had (m + 1) fun i => (if i.testBit (m + 1) then E (-(low m i / 2 ^ (m + 1))) else 1) * f i

theorem stageInv_stage (m : Nat) (f : Nat → CR) : stageInv m (stage m f) = f := by
  have e : (fun i => (if i.testBit (m + 1) then E (-(low m i / 2 ^ (m + 1))) else 1) * stage m f i) = had (m + 1) f := by
    funext i
    unfold stage
    by_cases h : i.testBit (m + 1)
    · rw [if_pos h, if_pos h, ← mul_assoc, mul_comm (E _) (E _), E_neg, one_mul]
    · rw [if_neg h, if_neg h, one_mul, one_mul]
  unfold stageInv
  rw [e, had_had]

/-- The transform of the register of `m` bits. -/
noncomputable def Q : Nat → (Nat → CR) → Nat → CR
  | 0, f => f
  | m + 1, f => Q m (stage m f)

noncomputable def Qinv : Nat → (Nat → CR) → Nat → CR
  | 0, f => f
  | m + 1, f => stageInv m (Qinv m f)

theorem Qinv_Q (m : Nat) : ∀ f : Nat → CR, Qinv m (Q m f) = f := by
  induction m with
  | zero => intro f; rfl
  | succ m ih => intro f; unfold Q Qinv; rw [ih, stageInv_stage]

theorem run_qftLoop {r : Nat} : ∀ (m : Nat), m ≤ r + 1 → ∀ f : Nat → CR, run (qftLoop r m (2 * r + 2 - m)) f = Q m f := by
  intro m
  induction m with
  | zero => intro _ f; rfl
  | succ m ih =>
    intro hm f
    unfold qftLoop Q
    have e0 : 2 * r + 2 - (m + 1) + 1 = 2 * r + 2 - m := by omega
    have e3 : nQubits r - 1 - (2 * r + 2 - (m + 1)) = m + 1 := by unfold nQubits; omega
    rw [List.cons_append, run_cons, run_append, e0, ih (by omega)]
    congr 1
    have e1 : 2 * r + 2 - (2 * r + 2 - m) = m := by omega
    have h := run_phases (r := r) (t := m + 1) hm 1 (by norm_num) m (by omega)
    rw [show m + 1 - m = 1 by omega, pow_one] at h
    funext i
    rw [e1, h, one_mul]
    unfold stage
    rw [sem_gate, e3, cact_H]

theorem run_qft (r : Nat) (f : Nat → CR) : run (qft r) f = Q (r + 1) f := by
  have := run_qftLoop (r := r) (r + 1) le_rfl f
  unfold qft
  rw [show 2 * r + 2 - (r + 1) = r + 1 by omega] at this ⊢
  exact this

theorem qftInvLoop_add {r : Nat} (m : Nat) (hm : m ≤ r + 1) : ∀ f : Nat → CR, run (qftInvLoop r (r + 1)) f = run (qftInvLoop r (r + 1 - m)) (Qinv m f) := by
  induction m with
  | zero => intro f; rfl
  | succ m ih =>
    intro f
    rw [ih (by omega), show r + 1 - m = (r + 1 - (m + 1)) + 1 by omega]
    rw [qftInvLoop, run_append, run_cons]
    congr 1
    have e2 : r + 1 - (m + 1) + 1 + r = 2 * r + 2 - (m + 1) := by omega
    rw [e2]
    have e0 : 2 * r + 2 - (m + 1) + 1 = 2 * r + 2 - m := by omega
    have e1 : 2 * r + 2 - (2 * r + 2 - m) = m := by omega
    have e3 : nQubits r - 1 - (2 * r + 2 - (m + 1)) = m + 1 := by unfold nQubits; omega
    have h := run_phases (r := r) (t := m + 1) hm (-1) (by norm_num) m (by omega)
    rw [show m + 1 - m = 1 by omega, pow_one] at h
    rw [e0, e1]
    rw [sem_gate, e3, cact_H]
    show _ = stageInv m (Qinv m f)
    unfold stageInv
    congr 1
    funext i
    rw [h, neg_one_mul]

theorem run_qftInv (r : Nat) (f : Nat → CR) : run (qftInv r) f = Qinv (r + 1) f := by
  unfold qftInv
  rw [qftInvLoop_add (r + 1) le_rfl, Nat.sub_self]
  rfl

/-! ## Locality -/

/-- `φ` does not look at qubits `1 … m`. -/
def Blind {β : Type} (m : Nat) (φ : Nat → β) : Prop := ∀ t, 1 ≤ t → t ≤ m → ∀ i, φ (i ^^^ 2 ^ t) = φ i

theorem stage_local {m : Nat} {φ ψ : Nat → CR} (hφ : ∀ i, φ (i ^^^ 2 ^ (m + 1)) = φ i) (hψ : ∀ i, ψ (i ^^^ 2 ^ (m + 1)) = ψ i)
    (f g : Nat → CR) : stage m (fun i => φ i * f i + ψ i * g i) = fun i => φ i * stage m f i + ψ i * stage m g i := by
  funext i
  unfold stage
  simp only [had_eq, hφ, hψ]
  split <;> ring

theorem Q_local {m : Nat} {φ ψ : Nat → CR} (hφ : Blind m φ) (hψ : Blind m ψ) (f g : Nat → CR) :
    Q m (fun i => φ i * f i + ψ i * g i) = fun i => φ i * Q m f i + ψ i * Q m g i := by
  induction m generalizing f g with
  | zero => rfl
  | succ m ih =>
    unfold Q
    rw [stage_local (hφ (m + 1) (by omega) le_rfl) (hψ (m + 1) (by omega) le_rfl)]
    exact ih (fun t h1 h2 => hφ t h1 (by omega)) (fun t h1 h2 => hψ t h1 (by omega)) _ _

theorem Q_mul {m : Nat} {φ : Nat → CR} (hφ : Blind m φ) (f : Nat → CR) :
    Q m (fun i => φ i * f i) = fun i => φ i * Q m f i := by
  have := Q_local (m := m) (φ := φ) (ψ := fun _ => 0) hφ (fun _ _ _ _ => rfl) f f
  simpa using this

theorem Q_ite {m : Nat} {s : Nat → Prop} [DecidablePred s] (hs : Blind m s) (f g : Nat → CR) :
    Q m (fun i => if s i then f i else g i) = fun i => if s i then Q m f i else Q m g i := by
  have := Q_local (m := m) (φ := fun i => if s i then 1 else 0) (ψ := fun i => if s i then 0 else 1)
    (fun t h1 h2 i => by simp only [hs t h1 h2 i]) (fun t h1 h2 i => by simp only [hs t h1 h2 i]) f g
  have e : ∀ F G : Nat → CR, (fun i => (if s i then (1 : CR) else 0) * F i + (if s i then (0 : CR) else 1) * G i) = fun i => if s i then F i else G i := by
    intro F G; funext i; split <;> simp
  rw [e, e] at this
  exact this

/-! ## Addition -/

/-- Index `z + 2 (b + 2^m h)`: the lowest qubit, a register of `m` bits, the rest. -/
def enc (m z b h : Nat) : Nat := z + 2 * (b + 2 ^ m * h)

theorem enc_div {m z b h : Nat} (hz : z < 2) : enc m z b h / 2 = b + 2 ^ m * h := by unfold enc; omega
theorem enc_mod {m z b h : Nat} (hz : z < 2) : enc m z b h % 2 = z := by unfold enc; omega
theorem enc_low {m z b h : Nat} (hz : z < 2) (hb : b < 2 ^ m) : low m (enc m z b h) = b := by
  unfold low; rw [enc_div hz, Nat.add_mul_mod_self_left, Nat.mod_eq_of_lt hb]
theorem enc_high {m z b h : Nat} (hz : z < 2) (hb : b < 2 ^ m) : enc m z b h / 2 / 2 ^ m = h := by
  rw [enc_div hz, Nat.add_mul_div_left _ _ (Nat.two_pow_pos m), Nat.div_eq_of_lt hb, Nat.zero_add]
theorem enc_eta (m i : Nat) : enc m (i % 2) (low m i) (i / 2 / 2 ^ m) = i := by
  unfold enc low; rw [Nat.mod_add_div, Nat.mod_add_div]
theorem low_lt (m i : Nat) : low m i < 2 ^ m := Nat.mod_lt _ (Nat.two_pow_pos m)
theorem enc_inj {m z b h z' b' h' : Nat} (hz : z < 2) (hb : b < 2 ^ m) (hz' : z' < 2) (hb' : b' < 2 ^ m)
    (he : enc m z b h = enc m z' b' h') : z = z' ∧ b = b' ∧ h = h' := by
  refine ⟨?_, ?_, ?_⟩
  · rw [← enc_mod (m := m) (b := b) (h := h) hz, he, enc_mod hz']
  · rw [← enc_low (h := h) hz hb, he, enc_low hz' hb']
  · rw [← enc_high (h := h) hz hb, he, enc_high hz' hb']

/-- Addition modulo `2^m`. -/
def addm (m b : Nat) (a : Int) : Nat := (((b : Int) + a) % 2 ^ m).toNat

theorem addm_cast (m b : Nat) (a : Int) : ((addm m b a : Nat) : Int) = ((b : Int) + a) % 2 ^ m := by
  unfold addm
  exact Int.toNat_of_nonneg (Int.emod_nonneg _ (by positivity))
theorem addm_lt (m b : Nat) (a : Int) : addm m b a < 2 ^ m := by
  have := Int.emod_lt_of_pos ((b : Int) + a) (show (0 : Int) < 2 ^ m by positivity)
  rw [← addm_cast] at this
  exact_mod_cast this

theorem addm_addm {m b : Nat} (hb : b < 2 ^ m) (a a' : Int) (h : a + a' = 0) : addm m (addm m b a) a' = b := by
  have : ((addm m (addm m b a) a' : Nat) : Int) = b := by
    rw [addm_cast, addm_cast, Int.emod_add_emod, add_assoc, h, add_zero]
    exact Int.emod_eq_of_lt (by omega) (by exact_mod_cast hb)
  exact_mod_cast this

/-- The operator that adds `a` to the register: the amplitude at `b` comes from `b - a`. -/
noncomputable def ADD (m : Nat) (a : Int) (f : Nat → CR) : Nat → CR := fun i => f (enc m (i % 2) (addm m (low m i) (-a)) (i / 2 / 2 ^ m))

/-- The phases of `add_phi`. -/
noncomputable def phi (a : Int) : Nat → Nat → CR
  | 0, _ => 1
  | m + 1, i => (if i.testBit (m + 1) then E (a / 2 ^ (m + 1)) else 1) * phi a m i

theorem phi_succ (a : Int) (m i : Nat) :
    phi a (m + 1) i = (if i.testBit (m + 1) then E (a / 2 ^ (m + 1)) else 1) * phi a m i := rfl

theorem had_coord {m z b u : Nat} (hz : z < 2) (hb : b < 2 ^ m) (f : Nat → CR) :
    had (m + 1) f (enc (m + 1) z b u) = re SQRT2 * (f (enc (m + 1) z b u) + f (enc (m + 1) z (b + 2 ^ m) u)) ∧
    had (m + 1) f (enc (m + 1) z (b + 2 ^ m) u) = re SQRT2 * (f (enc (m + 1) z b u) - f (enc (m + 1) z (b + 2 ^ m) u)) := by
  have hbit : ∀ β : Nat, β < 2 → (enc (m + 1) z (b + 2 ^ m * β) u).testBit (m + 1) = decide (β = 1) := by
    intro β hβ
    rw [Nat.testBit_succ, enc_div hz, show b + 2 ^ m * β + 2 ^ (m + 1) * u = 2 ^ m * (β + 2 * u) + b by rw [pow_succ]; ring,
      Nat.testBit_two_pow_mul_add _ hb, if_neg (by omega), Nat.sub_self, Nat.testBit_zero]
    congr 1
    rw [Nat.add_mul_mod_self_left, Nat.mod_eq_of_lt hβ]
  have h0 := hbit 0 (by omega)
  have h1 := hbit 1 (by omega)
  simp only [Nat.mul_zero, Nat.add_zero] at h0
  rw [Nat.mul_one] at h1
  have hx : enc (m + 1) z b u ^^^ 2 ^ (m + 1) = enc (m + 1) z (b + 2 ^ m) u := by
    rw [xor_up (by rw [h0]; rfl)]
    unfold enc
    rw [pow_succ]; ring
  have hx' : enc (m + 1) z (b + 2 ^ m) u ^^^ 2 ^ (m + 1) = enc (m + 1) z b u := by rw [← hx, xor_twice]
  constructor
  · rw [had_eq, h0, if_neg (by decide), hx]
  · rw [had_eq, h1, if_pos (by decide), hx']

theorem enc_shift (m z b β u : Nat) : enc m z b (β + 2 * u) = enc (m + 1) z (b + 2 ^ m * β) u := by
  unfold enc; rw [pow_succ]; ring

/-- The stage in coordinates. -/
theorem stage_coord {m z b u : Nat} (hz : z < 2) (hb : b < 2 ^ m) (f : Nat → CR) :
    stage m f (enc (m + 1) z b u) = re SQRT2 * (f (enc (m + 1) z b u) + f (enc (m + 1) z (b + 2 ^ m) u)) ∧
    stage m f (enc (m + 1) z (b + 2 ^ m) u) =
      E (b / 2 ^ (m + 1)) * (re SQRT2 * (f (enc (m + 1) z b u) - f (enc (m + 1) z (b + 2 ^ m) u))) := by
  have hl : ∀ β : Nat, low m (enc (m + 1) z (b + 2 ^ m * β) u) = b := by
    intro β; rw [← enc_shift, enc_low hz hb]
  have hbit : ∀ β : Nat, β < 2 → (enc (m + 1) z (b + 2 ^ m * β) u).testBit (m + 1) = decide (β = 1) := by
    intro β hβ
    rw [Nat.testBit_succ, enc_div hz, show b + 2 ^ m * β + 2 ^ (m + 1) * u = 2 ^ m * (β + 2 * u) + b by rw [pow_succ]; ring,
      Nat.testBit_two_pow_mul_add _ hb, if_neg (by omega), Nat.sub_self, Nat.testBit_zero]
    congr 1
    rw [Nat.add_mul_mod_self_left, Nat.mod_eq_of_lt hβ]
  have h0 := hbit 0 (by omega)
  have h1 := hbit 1 (by omega)
  have l1 := hl 1
  simp only [Nat.mul_zero, Nat.add_zero] at h0
  rw [Nat.mul_one] at h1 l1
  obtain ⟨e1, e2⟩ := had_coord (u := u) hz hb f
  constructor
  · unfold stage
    rw [h0, if_neg (by decide), one_mul, e1]
  · unfold stage
    rw [h1, if_pos (by decide), l1, e2]

theorem add_cases {m b : Nat} (hb : b < 2 ^ m) (a : Int) :
    (addm (m + 1) b a = addm m b a ∧ addm (m + 1) (b + 2 ^ m) a = addm m b a + 2 ^ m ∧
      ∃ k : Int, (b : Int) + a = addm m b a + 2 ^ (m + 1) * k) ∨
    (addm (m + 1) b a = addm m b a + 2 ^ m ∧ addm (m + 1) (b + 2 ^ m) a = addm m b a ∧
      ∃ k : Int, (b : Int) + a = addm m b a + 2 ^ m + 2 ^ (m + 1) * k) := by
  have hc := addm_cast m b a
  have hc1 := addm_cast (m + 1) b a
  have hc2 := addm_cast (m + 1) (b + 2 ^ m) a
  have hP : (0 : Int) < 2 ^ m := by positivity
  have e := Int.emod_add_mul_ediv ((b : Int) + a) (2 ^ m)
  have l0 := Int.emod_nonneg ((b : Int) + a) (show (2 : Int) ^ m ≠ 0 by positivity)
  have l1 := Int.emod_lt_of_pos ((b : Int) + a) hP
  push_cast at hc2
  rw [pow_succ] at *
  generalize ((b : Int) + a) / 2 ^ m = d at *
  generalize hM : (2 : Int) ^ m = M at *
  rw [← hc] at e l0 l1
  generalize addm m b a = B at *
  have hMn : ((2 ^ m : Nat) : Int) = M := by rw [← hM]; push_cast; rfl
  have r1 : ∀ k x : Int, 0 ≤ x → x < M * 2 → (x + M * 2 * k) % (M * 2) = x := by
    intro k x h0 h1
    rw [Int.add_mul_emod_self_left, Int.emod_eq_of_lt h0 h1]
  rcases Int.emod_two_eq_zero_or_one d with h | h
  · left
    have hd : d = 2 * (d / 2) := by omega
    generalize d / 2 = k at *
    subst hd
    have e1 : (b : Int) + a = B + M * 2 * k := by rw [← e]; ring
    have e2 : (b : Int) + M + a = (B + M) + M * 2 * k := by linarith
    rw [e1, r1 k _ (by omega) (by omega)] at hc1
    rw [e2, r1 k _ (by omega) (by omega)] at hc2
    refine ⟨by exact_mod_cast hc1, ?_, k, e1⟩
    have : ((addm (m + 1) (b + 2 ^ m) a : Nat) : Int) = ((B + 2 ^ m : Nat) : Int) := by rw [hc2]; push_cast; rw [hM]
    exact_mod_cast this
  · right
    have hd : d = 2 * (d / 2) + 1 := by omega
    generalize d / 2 = k at *
    subst hd
    have e1 : (b : Int) + a = (B + M) + M * 2 * k := by rw [← e]; ring
    have e2 : (b : Int) + M + a = B + M * 2 * (k + 1) := by linarith
    rw [e1, r1 k _ (by omega) (by omega)] at hc1
    rw [e2, r1 (k + 1) _ (by omega) (by omega)] at hc2
    refine ⟨?_, by exact_mod_cast hc2, k, e1⟩
    have : ((addm (m + 1) b a : Nat) : Int) = ((B + 2 ^ m : Nat) : Int) := by rw [hc1]; push_cast; rw [hM]
    exact_mod_cast this

/-- The top phase and one stage. -/
theorem stage_ADD (m : Nat) (a : Int) (f : Nat → CR) :
    ADD m a (fun i => (if i.testBit (m + 1) then E (a / 2 ^ (m + 1)) else 1) * stage m f i) = stage m (ADD (m + 1) a f) := by
  funext i
  obtain ⟨z, b, β, u, hz, hb, hβ, rfl⟩ : ∃ z b β u, z < 2 ∧ b < 2 ^ m ∧ β < 2 ∧ i = enc (m + 1) z (b + 2 ^ m * β) u := by
    refine ⟨i % 2, low m i, i / 2 / 2 ^ m % 2, i / 2 / 2 ^ m / 2, by omega, low_lt m i, by omega, ?_⟩
    rw [← enc_shift, Nat.mod_add_div, enc_eta]
  have hA : ∀ (g : Nat → CR) (β : Nat), ADD m a g (enc (m + 1) z (b + 2 ^ m * β) u) = g (enc (m + 1) z (addm m b (-a) + 2 ^ m * β) u) := by
    intro g β
    unfold ADD
    rw [← enc_shift, enc_mod hz, enc_low hz hb, enc_high hz hb, enc_shift]
  have hlt1 : ∀ β : Nat, β < 2 → b + 2 ^ m * β < 2 ^ (m + 1) := by
    intro β hβ
    rw [pow_succ]
    have : 2 ^ m * β ≤ 2 ^ m * 1 := Nat.mul_le_mul_left _ (by omega)
    omega
  have hB := addm_lt m b (-a)
  have hbit : ∀ β : Nat, β < 2 → (enc (m + 1) z (addm m b (-a) + 2 ^ m * β) u).testBit (m + 1) = decide (β = 1) := by
    intro β hβ
    rw [Nat.testBit_succ, enc_div hz, show addm m b (-a) + 2 ^ m * β + 2 ^ (m + 1) * u = 2 ^ m * (β + 2 * u) + addm m b (-a) by rw [pow_succ]; ring,
      Nat.testBit_two_pow_mul_add _ hB, if_neg (by omega), Nat.sub_self, Nat.testBit_zero]
    congr 1
    rw [Nat.add_mul_mod_self_left, Nat.mod_eq_of_lt hβ]
  have hD : ∀ β : Nat, β < 2 → ADD (m + 1) a f (enc (m + 1) z (b + 2 ^ m * β) u) = f (enc (m + 1) z (addm (m + 1) (b + 2 ^ m * β) (-a)) u) := by
    intro β hβ
    unfold ADD
    rw [enc_mod hz, enc_low hz (hlt1 β hβ), enc_high hz (hlt1 β hβ)]
  rw [hA, hbit β hβ]
  have hD0 := hD 0 (by omega)
  have hD1 := hD 1 (by omega)
  simp only [Nat.mul_zero, Nat.add_zero] at hD0
  rw [Nat.mul_one] at hD1
  obtain ⟨s1, s2⟩ := stage_coord (u := u) hz hB f
  obtain ⟨t1, t2⟩ := stage_coord (u := u) hz hb (ADD (m + 1) a f)
  rw [hD0, hD1] at t1 t2
  have hpow : (0 : ℝ) < 2 ^ (m + 1) := by positivity
  obtain rfl | rfl : β = 0 ∨ β = 1 := by omega
  · simp only [Nat.mul_zero, Nat.add_zero]
    rw [if_neg (by decide), one_mul, s1, t1]
    rcases add_cases hb (-a) with ⟨h1, h2, _⟩ | ⟨h1, h2, _⟩
    · rw [h1, h2]
    · rw [h1, h2, add_comm (f _) (f _)]
  · rw [Nat.mul_one, if_pos (by decide), s2, t2]
    rcases add_cases hb (-a) with ⟨h1, h2, k, hk⟩ | ⟨h1, h2, k, hk⟩
    · rw [h1, h2, ← mul_assoc, ← E_add]
      congr 1
      have hk' : (b : ℝ) - a = addm m b (-a) + 2 ^ (m + 1) * (k : ℝ) := by
        have : (((b : Int) + -a : Int) : ℝ) = ((addm m b (-a) + 2 ^ (m + 1) * k : Int) : ℝ) := by rw [hk]
        push_cast at this
        linarith
      rw [← E_add_int _ k]
      congr 1
      field_simp
      linarith
    · rw [h1, h2, ← mul_assoc, ← E_add]
      have hk' : (b : ℝ) - a = addm m b (-a) + 2 ^ m + 2 ^ (m + 1) * (k : ℝ) := by
        have : (((b : Int) + -a : Int) : ℝ) = ((addm m b (-a) + 2 ^ m + 2 ^ (m + 1) * k : Int) : ℝ) := by rw [hk]
        push_cast at this
        linarith
      have : E (b / 2 ^ (m + 1)) = -E (a / 2 ^ (m + 1) + addm m b (-a) / 2 ^ (m + 1)) := by
        have e : (b : ℝ) / 2 ^ (m + 1) = (a / 2 ^ (m + 1) + addm m b (-a) / 2 ^ (m + 1) + 1 / 2) + k := by
          field_simp
          rw [pow_succ] at hk' ⊢
          linarith
        rw [e, E_add_int, E_add, E_half]
        ring
      rw [this]
      ring

/-- **The transform turns addition into phases.** -/
theorem phi_Q (a : Int) (m : Nat) : ∀ f : Nat → CR, (fun i => phi a m i * Q m f i) = Q m (ADD m a f) := by
  induction m with
  | zero =>
    intro f
    funext i
    have : ADD 0 a f i = f i := by
      unfold ADD
      have h0 : addm 0 (low 0 i) (-a) = low 0 i := by
        have h1 := addm_lt 0 (low 0 i) (-a)
        have h2 := low_lt 0 i
        omega
      rw [h0, enc_eta]
    show (1 : CR) * f i = ADD 0 a f i
    rw [this, one_mul]
  | succ m ih =>
    intro f
    unfold Q
    rw [← stage_ADD, ← ih, Q_mul]
    · funext i
      show (_ * phi a m i) * _ = _
      ring
    · intro t h1 h2 i
      beta_reduce
      rw [bit_xor, if_neg (show m + 1 ≠ t by omega)]

/-- Controlled addition. -/
theorem phi_Q_ite (a : Int) (m : Nat) {s : Nat → Prop} [DecidablePred s] (hs : Blind m s) (f : Nat → CR) :
    (fun i => if s i then phi a m i * Q m f i else Q m f i) = Q m (fun i => if s i then ADD m a f i else f i) := by
  rw [Q_ite hs, ← phi_Q]

/-! ## The gates of `add_phi` -/

theorem facLoop_eq (a : Nat) : ∀ (k F q : Nat), F % 2 = 0 → 2 ^ k * F + 2 * (a % 2 ^ k) < 2 ^ 32 →
    facLoop a k F q = (2 ^ k * F + 2 * (a % 2 ^ k), 2 ^ k * q) := by
  intro k
  induction k with
  | zero => intro F q _ _; simp [facLoop, Nat.mod_one]
  | succ k ih =>
    intro F q hF hlt
    have hb : a % 2 ^ (k + 1) = a % 2 ^ k + if a.testBit k then 2 ^ k else 0 := mod_succ a k
    have hcond : ((a >>> k) &&& 1 ≠ 0) ↔ a.testBit k = true := by
      rw [Nat.testBit, Nat.and_comm]; simp
    have hor : F ||| 1 = F + 1 := by
      apply Nat.eq_of_testBit_eq
      intro j
      cases j with
      | zero => simp [Nat.testBit_zero]; omega
      | succ j =>
        rw [Nat.testBit_or, Nat.testBit_succ, Nat.testBit_succ, Nat.testBit_succ, show (F + 1) / 2 = F / 2 by omega]
        simp
    unfold facLoop
    have hp : 0 < 2 ^ k := Nat.two_pow_pos k
    rw [hb] at hlt
    have hx : ((2 * (if (a >>> k) &&& 1 ≠ 0 then F ||| 1 else F)) % 2 ^ 32) = 2 * F + if a.testBit k then 2 else 0 := by
      rw [Nat.mod_eq_of_lt]
      · by_cases h : a.testBit k
        · rw [if_pos (hcond.2 h), if_pos h, hor]; ring
        · rw [if_neg (fun h' => h (hcond.1 h')), if_neg h]; rfl
      · by_cases h : a.testBit k
        · rw [if_pos (hcond.2 h), hor]
          rw [if_pos h] at hlt
          have : 2 * (F + 1) ≤ 2 ^ (k + 1) * F + 2 * (a % 2 ^ k + 2 ^ k) := by
            rw [pow_succ]
            have : F ≤ 2 ^ k * F := Nat.le_mul_of_pos_left _ hp
            have e : 2 ^ k * 2 * F = 2 * (2 ^ k * F) := by ring
            omega
          omega
        · rw [if_neg (fun h' => h (hcond.1 h'))]
          have : 2 * F ≤ 2 ^ (k + 1) * F := by
            rw [pow_succ]
            have : F ≤ 2 ^ k * F := Nat.le_mul_of_pos_left _ hp
            have e : 2 ^ k * 2 * F = 2 * (2 ^ k * F) := by ring
            omega
          omega
    have key : 2 ^ k * (2 * F + if a.testBit k then 2 else 0) + 2 * (a % 2 ^ k) = 2 ^ (k + 1) * F + 2 * (a % 2 ^ (k + 1)) := by
      rw [hb, pow_succ]
      split <;> ring
    rw [hx, ih]
    · rw [key]
      congr 1
      rw [pow_succ]; ring
    · split <;> omega
    · rw [key, hb]; exact hlt

/-- The angle of one gate of `add_phi`. -/
theorem facLoop_angle {a k : Nat} (ha : a < 2 ^ 31) :
    facLoop a (k + 1) 0 1 = (2 * (a % 2 ^ (k + 1)), 2 ^ (k + 1)) := by
  have h1 : a % 2 ^ (k + 1) ≤ a := Nat.mod_le _ _
  have h := facLoop_eq a (k + 1) 0 1 rfl (by rw [Nat.mul_zero, Nat.zero_add]; omega)
  rw [h, Nat.mul_zero, Nat.zero_add, Nat.mul_one]

theorem E_mod (a k : Nat) (s : Int) : E (s * ((a % 2 ^ k : Nat) / 2 ^ k)) = E (((s * a : Int)) / 2 ^ k) := by
  have e : (a : ℝ) = (a % 2 ^ k : Nat) + 2 ^ k * ((a / 2 ^ k : Nat) : ℝ) := by
    have := Nat.mod_add_div a (2 ^ k)
    exact_mod_cast this.symm
  rw [← E_add_int _ (s * (a / 2 ^ k : Nat))]
  congr 1
  push_cast
  have hp : (2 : ℝ) ^ k ≠ 0 := by positivity
  field_simp
  have e' : ((((a : Int) / 2 ^ k : Int)) : ℝ) = ((a / 2 ^ k : Nat) : ℝ) := by
    have : (((a / 2 ^ k : Nat)) : Int) = (a : Int) / 2 ^ k := by push_cast; rfl
    rw [← this]; norm_cast
  rw [e', e]

variable {r : Nat} {cs : List Ctrl}

theorem run_addPhiLoop {a : Nat} (ha : a < 2 ^ 31) (c1 c2 : Option Nat) : ∀ (k : Nat), k ≤ r + 1 → ∀ (f : Nat → CR),
    run (addPhiLoop r a c1 c2 k) f = fun i => if sat (controls2 r c1 c2) (nQubits r) i then phi a k i * f i else f i := by
  intro k
  induction k with
  | zero => intro _ f; funext i; simp [addPhiLoop, run_nil, phi]
  | succ k ih =>
    intro hk f
    unfold addPhiLoop
    rw [run_cons, ih (by omega)]
    funext i
    have e3 : nQubits r - 1 - (1 + 2 * r - k) = k + 1 := by unfold nQubits; omega
    rw [facLoop_angle ha]
    dsimp only
    have e5 : phaseGate ((2 * (a % 2 ^ (k + 1)) : Nat) : ℝ) ((2 ^ (k + 1) : Nat) : ℝ) = g4 1 0 0 (E ((a : Int) / 2 ^ (k + 1))) := by
      have := E_mod a (k + 1) 1
      rw [one_mul] at this
      rw [← this]
      apply phaseGate_E
      push_cast
      ring
    rw [sem_gate, e3, e5, cact_phase]
    by_cases h : sat (controls2 r c1 c2) (nQubits r) i
    · rw [if_pos h, if_pos h, if_pos h]
      rw [phi_succ]
      ring
    · rw [if_neg h, if_neg h, if_neg h]

theorem run_addPhiInvLoop {a : Nat} (ha : a < 2 ^ 31) (c1 c2 : Option Nat) : ∀ (k : Nat), k ≤ r + 1 → ∀ (f : Nat → CR),
    run (addPhiInvLoop r a c1 c2 k) f = fun i => if sat (controls2 r c1 c2) (nQubits r) i then phi (-a) k i * f i else f i := by
  intro k
  induction k with
  | zero => intro _ f; funext i; simp [addPhiInvLoop, run_nil, phi]
  | succ k ih =>
    intro hk f
    unfold addPhiInvLoop
    rw [run_cons, ih (by omega)]
    funext i
    have e3 : nQubits r - 1 - (1 + 2 * r - k) = k + 1 := by unfold nQubits; omega
    rw [facLoop_angle ha]
    dsimp only
    have e5 : phaseGate ((2 * (a % 2 ^ (k + 1)) : Nat) : ℝ) (-((2 ^ (k + 1) : Nat) : ℝ)) = g4 1 0 0 (E ((-(a : Int) : Int) / 2 ^ (k + 1))) := by
      have := E_mod a (k + 1) (-1)
      rw [neg_one_mul] at this
      rw [← this]
      apply phaseGate_E
      push_cast
      field_simp
    rw [sem_gate, e3, e5, cact_phase]
    by_cases h : sat (controls2 r c1 c2) (nQubits r) i
    · rw [if_pos h, if_pos h, if_pos h]
      rw [phi_succ]
      ring
    · rw [if_neg h, if_neg h, if_neg h]

theorem run_addPhi {a : Nat} (ha : a < 2 ^ 31) (c1 c2 : Option Nat) (hs : Blind (r + 1) (sat (controls2 r c1 c2) (nQubits r))) (f : Nat → CR) :
    run (addPhi r a c1 c2) (Q (r + 1) f) =
      Q (r + 1) (fun i => if sat (controls2 r c1 c2) (nQubits r) i then ADD (r + 1) a f i else f i) := by
  unfold addPhi
  rw [run_addPhiLoop ha c1 c2 _ le_rfl, phi_Q_ite _ _ hs]

theorem run_addPhiInv {a : Nat} (ha : a < 2 ^ 31) (c1 c2 : Option Nat) (hs : Blind (r + 1) (sat (controls2 r c1 c2) (nQubits r))) (f : Nat → CR) :
    run (addPhiInv r a c1 c2) (Q (r + 1) f) =
      Q (r + 1) (fun i => if sat (controls2 r c1 c2) (nQubits r) i then ADD (r + 1) (-a) f i else f i) := by
  unfold addPhiInv
  rw [run_addPhiInvLoop ha c1 c2 _ le_rfl, phi_Q_ite _ _ hs]

end QDD.Shor
