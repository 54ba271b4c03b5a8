import Verif.Bench.Circ
import Verif.Py.Merge
/-!
# The Toffoli gate of the benchmark in terms of H, T and CX
-/
set_option linter.unusedVariables false
set_option linter.unusedSimpArgs false
set_option linter.unusedSectionVars false

namespace QDD.Bench
open Finset Py Spec

/-- `QuantumCircuit.h` -/
def hI (t : Nat) : Inst := ⟨.gate .H [], [t], [], none⟩
/-- `QuantumCircuit.t` (add_T_gate, 397-404) -/
def tI (t : Nat) : Inst := ⟨.gate .T [], [t], [], none⟩
/-- `QuantumCircuit.tdg` (add_Tdag_gate, 406-413) -/
def tdgI (t : Nat) : Inst := ⟨.gate .Tdg [], [t], [], none⟩
/-- `QuantumCircuit.cx` (add_ck_not_circuit with one control, 286-292, 388-395) -/
def cxI (c t : Nat) : Inst := ⟨.gate .CX [true], [c, t], [], none⟩
/-- `QuantumCircuit.ccx` -/
def ccxI (c1 c2 t : Nat) : Inst := ⟨.gate .CCX [true, true], [c1, c2, t], [], none⟩

/-- The gates `add_c2_not_gate` appends with `decompose_toffoli` (bench/QuantumFactoring.py 349-366). -/
def toffoli (c1 c2 t : Nat) : List Inst :=
  [hI t, cxI c2 t, tdgI t, cxI c1 t, tI t, cxI c2 t, tdgI t, cxI c1 t, tI c2, tI t, hI t, cxI c1 c2, tI c1, tdgI c2, cxI c1 c2]

/-- A phase when qubit `q` is 1. -/
noncomputable def phaseAct (w : ℂ) (q : Nat) (φ : S → ℂ) : S → ℂ := fun s => if s q then w * φ s else φ s

theorem phase_app {Q q : Nat} (hq : q < Q) {g : GName} {w : ℂ} (hg : g.mat1 = some !![1, 0; 0, w])
    {f : Nat → CR} {φ : S → ℂ} (hf : ∀ i < 2 ^ Q, f i = ofC (φ (bits i))) :
    ∃ A, Inst.oper ⟨.gate g [], [q], [], none⟩ Q = some A ∧ ∀ i < 2 ^ Q, app Q A f i = ofC (phaseAct w q φ (bits i)) := by
  refine ⟨Spec.gate1 Q (fun r c => ofC ((!![1, 0; 0, w] : Matrix (Fin 2) (Fin 2) ℂ) (fin2 r) (fin2 c))) q (ctrls [] []), ?_, fun i hi => ?_⟩
  · unfold Inst.oper
    dsimp only
    unfold GName.oper
    rw [hg]
    rfl
  · refine (app_bits hq closed_nil (qs := []) (by simp) hf hi).trans ?_
    congr 1
    simp only [List.all_nil, if_true, phaseAct]
    cases bits i q <;> simp [fin2, bit]

theorem evol_step {Q : Nat} {x : Inst} {xs : List Inst} {f : Nat → CR} {ψ : S → ℂ}
    (hx : ∃ A, x.oper Q = some A ∧ ∀ i < 2 ^ Q, app Q A f i = ofC (ψ (bits i))) {χ : S → ℂ}
    (h : ∀ f', (∀ i < 2 ^ Q, f' i = ofC (ψ (bits i))) → ∀ i < 2 ^ Q, evol Q xs f' i = ofC (χ (bits i))) :
    ∀ i < 2 ^ Q, evol Q (x :: xs) f i = ofC (χ (bits i)) := by
  obtain ⟨A, hA, happ⟩ := hx
  rw [evol, hA]
  exact h _ happ

theorem toC (z : CR) : ofC (⟨z.r, z.i⟩ : ℂ) = z := rfl

/-- The state with the given bits. -/
theorem lift_amp {Q : Nat} (f : Nat → CR) : ∃ φ : S → ℂ, ∀ i < 2 ^ Q, f i = ofC (φ (bits i)) := by
  refine ⟨fun s => let j := Nat.ofBits fun b : Fin Q => s b; ⟨(f j).r, (f j).i⟩, fun i hi => ?_⟩
  have : (Nat.ofBits fun b : Fin Q => bits i b) = i := by
    apply Nat.eq_of_testBit_eq
    intro k
    by_cases hk : k < Q
    · rw [Nat.testBit_ofBits_lt _ _ hk]; rfl
    · rw [Nat.testBit_ofBits_ge _ _ (by omega), Nat.testBit_lt_two_pow (lt_of_lt_of_le hi (Nat.pow_le_pow_right (by norm_num) (by omega)))]
  show f i = ofC ⟨(f _).r, (f _).i⟩
  rw [this]
  rfl

noncomputable def wT : ℂ := Complex.exp ((Real.pi / 4 : ℝ) * Complex.I)
noncomputable def wD : ℂ := Complex.exp (((-(Real.pi / 4) : ℝ) : ℂ) * Complex.I)

theorem wT_wD : wT * wD = 1 := by
  unfold wT wD
  rw [← Complex.exp_add]
  push_cast
  rw [show ((Real.pi : ℂ) / 4 * Complex.I + -(Real.pi / 4) * Complex.I) = 0 by ring, Complex.exp_zero]

theorem wT_four : wT ^ 4 = -1 := by
  unfold wT
  rw [← Complex.exp_nat_mul]
  push_cast
  rw [show (4 * (((Real.pi : ℂ) / 4) * Complex.I)) = Real.pi * Complex.I by ring, Complex.exp_pi_mul_I]

theorem half_sq : (1 / (√2 : ℝ) : ℂ) * (1 / (√2 : ℝ) : ℂ) = 1 / 2 := by
  rw [div_mul_div_comm, one_mul, ← Complex.ofReal_mul, Real.mul_self_sqrt (by norm_num)]
  norm_num

/-- The amplitudes after these gates. -/
theorem toffoli_amp {c1 c2 t : Nat} (h1 : c1 ≠ t) (h2 : c2 ≠ t) (h3 : c1 ≠ c2) (φ : S → ℂ) (s : S) :
    (G.cx c1 c2).act (phaseAct wD c2 (phaseAct wT c1 ((G.cx c1 c2).act ((G.h t).act (phaseAct wT t (phaseAct wT c2
      ((G.cx c1 t).act (phaseAct wD t ((G.cx c2 t).act (phaseAct wT t ((G.cx c1 t).act (phaseAct wD t ((G.cx c2 t).act
        ((G.h t).act φ)))))))))))))) s = (G.ccx c1 c2 t).act φ s := by
  have e1 := wT_wD
  have e2 := wT_four
  have e3 := half_sq
  generalize wT = w at *
  generalize wD = v at *
  generalize hh : (1 / (√2 : ℝ) : ℂ) = h at *
  have hs : ∀ q b, s q = b → set s q b = s := fun q b hb => by rw [← hb, set_self]
  cases ha : s c1 <;> cases hb : s c2 <;> cases hd : s t <;>
    simp [G.act, G.on, phaseAct, hh, set_same, set_other, set_set, ha, hb, hd, h1, h2, h3, h1.symm, h2.symm, h3.symm, hs c2 _ hb, hs t _ hd] <;>
    grind

theorem g_app {Q : Nat} (g : G) (hg : g.Ok Q) {f : Nat → CR} {φ : S → ℂ} (hf : ∀ i < 2 ^ Q, f i = ofC (φ (bits i))) {x : Inst}
    (hx : x = g.inst) : ∃ A, x.oper Q = some A ∧ ∀ i < 2 ^ Q, app Q A f i = ofC (g.act φ (bits i)) := by
  subst hx; exact inst_app hg hf

/-- The gates act as the Toffoli gate. -/
theorem toffoli_evol {Q c1 c2 t : Nat} (h1 : c1 ≠ t) (h2 : c2 ≠ t) (h3 : c1 ≠ c2) (k1 : c1 < Q) (k2 : c2 < Q) (k3 : t < Q)
    (f : Nat → CR) : ∀ i < 2 ^ Q, evol Q (toffoli c1 c2 t) f i = evol Q [ccxI c1 c2 t] f i := by
  obtain ⟨φ, hf⟩ := lift_amp (Q := Q) f
  intro i hi
  have hr : evol Q [ccxI c1 c2 t] f i = ofC ((G.ccx c1 c2 t).act φ (bits i)) :=
    evol_step (xs := []) (g_app (.ccx c1 c2 t) ⟨h1, h2, h3, k1, k2, k3⟩ hf rfl) (fun f' h => h) i hi
  rw [hr, ← toffoli_amp h1 h2 h3]
  have hT : ∀ {q} (hq : q < Q) {f φ} (hf : ∀ i < 2 ^ Q, f i = ofC (φ (bits i))), ∃ A, (tI q).oper Q = some A ∧
      ∀ i < 2 ^ Q, app Q A f i = ofC (phaseAct wT q φ (bits i)) := fun hq _ _ hf => phase_app hq rfl hf
  have hD : ∀ {q} (hq : q < Q) {f φ} (hf : ∀ i < 2 ^ Q, f i = ofC (φ (bits i))), ∃ A, (tdgI q).oper Q = some A ∧
      ∀ i < 2 ^ Q, app Q A f i = ofC (phaseAct wD q φ (bits i)) := fun hq _ _ hf => phase_app hq rfl hf
  refine evol_step (g_app (.h t) k3 hf rfl) (fun _ hf => ?_) i hi
  refine evol_step (g_app (.cx c2 t) ⟨h2, k2, k3⟩ hf rfl) (fun _ hf => ?_)
  refine evol_step (hD k3 hf) (fun _ hf => ?_)
  refine evol_step (g_app (.cx c1 t) ⟨h1, k1, k3⟩ hf rfl) (fun _ hf => ?_)
  refine evol_step (hT k3 hf) (fun _ hf => ?_)
  refine evol_step (g_app (.cx c2 t) ⟨h2, k2, k3⟩ hf rfl) (fun _ hf => ?_)
  refine evol_step (hD k3 hf) (fun _ hf => ?_)
  refine evol_step (g_app (.cx c1 t) ⟨h1, k1, k3⟩ hf rfl) (fun _ hf => ?_)
  refine evol_step (hT k2 hf) (fun _ hf => ?_)
  refine evol_step (hT k3 hf) (fun _ hf => ?_)
  refine evol_step (g_app (.h t) k3 hf rfl) (fun _ hf => ?_)
  refine evol_step (g_app (.cx c1 c2) ⟨h3, k1, k2⟩ hf rfl) (fun _ hf => ?_)
  refine evol_step (hT k1 hf) (fun _ hf => ?_)
  refine evol_step (hD k2 hf) (fun _ hf => ?_)
  refine evol_step (g_app (.cx c1 c2) ⟨h3, k1, k2⟩ hf rfl) (fun _ hf => ?_)
  exact hf

end QDD.Bench
