import Verif.Props.Canon
import Mathlib.Tactic.IntervalCases
/-!
# C04 (matrices): what `mm_kronecker` returns for a stripped right operand

`mm_kronecker` (dd.cpp 1076-1103) shifts the left operand up by the level of the right operand's *root node*.  When the
right operand is the identity on its top qubits those levels are stripped, the shift is too small, and the product
is `1 ⊗ a ⊗ b'` instead of `a ⊗ 1 ⊗ b'`.
-/

set_option linter.unusedSectionVars false
set_option linter.unusedVariables false
set_option linter.unusedSimpArgs false

namespace QDD.Props
open Spec Api Finset ExactW

variable {K : Type} [Field K] [LinearOrder K] [IsStrictOrderedRing K]
variable {cfg : Cfg K} {thr thrM : Nat} {cs : List (Cmd K)} {h : Heap K} {σ : Sys K} {os : List (Obs K)}

/-- Read-outs from any machine state that represents a heap. -/
theorem Rel.readsM (hr : Rel cfg.env σ h) {m n : Nat} {M : Mat K} (hm : h.ms[m]? = some M) (hk : M.k ≤ n)
    (hn : n ≤ 30) : ReadsM cfg σ m n (M.at n) :=
  (hr.call (c := .getMatrix m n) ⟨M, hm, hk, hn⟩
    (h' := h) (by simp only [Spec.step, hm, Option.bind_eq_bind, Option.bind_some])).1

theorem Rel.readsV (hr : Rel cfg.env σ h) {m : Nat} {V : Vec K} (hm : h.vs[m]? = some V) (h0 : V.Nonzero)
    (hn : V.k ≤ 30) : ReadsV cfg σ m V.k V.f :=
  (hr.call (c := .getVector m) ⟨V, hm, h0, hn⟩
    (h' := h) (by simp only [Spec.step, hm, Option.bind_eq_bind, Option.bind_some])).1

theorem forall₂_set_right {α β : Type} {R : α → β → Prop} {as : List α} {bs : List β} (h : List.Forall₂ R as bs)
    {i : Nat} {a : α} {b : β} (hb : bs[i]? = some b) (hab : R a b) : List.Forall₂ R (as.set i a) bs := by
  have := forall₂_set h hab i
  rwa [set_self hb] at this

/-- **C04 (matrices), what the code does.** If `b` is the identity on its top qubits, `b = 1 ⊗ b'`, then
`mm_kronecker(a, b)` reads out as `1 ⊗ (a ⊗ b')` (and not as `a ⊗ (1 ⊗ b')`). -/
theorem C04_mm_kronecker_stripped (hR : Hist cfg thr thrM cs h σ os) {a b : Nat} {A B B' : Mat K} (hab : a ≠ b)
    (ha : h.ms[a]? = some A) (hb : h.ms[b]? = some B) (hn : A.k + B.k ≤ 30)
    (h0 : MNonzero B) (hk : B'.k ≤ B.k) (hid : ∀ i < 2 ^ B.k, ∀ j < 2 ^ B.k, B.F i j = B'.at B.k i j)
    (hfull : 0 < B'.k → ¬ B'.TopIdentity) :
    Returns cfg σ (.mkron a b) .unit ∧ ∀ o σ', Exec cfg σ (.mkron a b) o σ' →
      ReadsM cfg σ' h.ms.length (A.k + B.k) ((A.kron B').at (A.k + B.k)) := by
  have hr := hR.rel
  obtain ⟨e, he, rel⟩ := forall₂_get hr.data.ms hb
  obtain ⟨e', he', hlow⟩ := C12_no_node_above hR hb h0 hk hid
  rw [he] at he'; cases he'
  have hok : MOk cfg.env σ.st B'.k e.n := by
    rcases rel.1 with hx | ⟨p, nd, h1, h2, h3⟩
    · exact .inl hx
    · exact .inr ⟨p, nd, h1, h2, by have := hlow p nd h1 h2.1; omega⟩
  have rel' : MRel cfg.env σ.st B' e := by
    refine ⟨hok, fun i hi j hj => ?_⟩
    have hpow : 2 ^ B'.k ≤ 2 ^ B.k := Nat.pow_le_pow_right (by omega) hk
    have hl : MRel cfg.env σ.st ⟨B'.k, mden σ.st.mt.mem B'.k e⟩ e := ⟨hok, fun _ _ _ _ => rfl⟩
    have e1 := hl.at (n := B.k) hk (lt_of_lt_of_le hi hpow) (lt_of_lt_of_le hj hpow)
    rw [rel.2 i (lt_of_lt_of_le hi hpow) j (lt_of_lt_of_le hj hpow),
      hid i (lt_of_lt_of_le hi hpow) j (lt_of_lt_of_le hj hpow)] at e1
    unfold Mat.at at e1
    dsimp only at e1
    rw [Nat.div_eq_of_lt hi, Nat.div_eq_of_lt hj, if_pos rfl, if_pos rfl, Nat.mod_eq_of_lt hi, Nat.mod_eq_of_lt hj] at e1
    exact e1.symm
  have hr' : Rel cfg.env σ ⟨h.vs, h.ms.set b B'⟩ :=
    ⟨hr.inv, hr.data.memo, hr.data.vs, forall₂_set_right hr.data.ms he rel'⟩
  have ha' : (h.ms.set b B')[a]? = some A := by rw [List.getElem?_set_ne (Ne.symm hab)]; exact ha
  have hb' : (h.ms.set b B')[b]? = some B' := by
    obtain ⟨hl, _⟩ := List.getElem?_eq_some_iff.1 hb
    rw [List.getElem?_set_self hl]
  have hp : pre NQUBITS ⟨h.vs, h.ms.set b B'⟩ (.mkron a b) :=
    ⟨A, B', ha', hb', by unfold NQUBITS; omega, hfull⟩
  obtain ⟨q1, q2⟩ := hr'.call hp (h' := Heap.addM ⟨h.vs, h.ms.set b B'⟩ (A.kron B')) (o' := .unit)
    (by simp only [Spec.step, ha', hb', Option.bind_eq_bind, Option.bind_some])
  refine ⟨q1, fun o σ' hx => ?_⟩
  have := Rel.readsM (q2 o σ' hx) (m := h.ms.length) (n := A.k + B.k) (M := A.kron B')
    (by have := addM_new (⟨h.vs, h.ms.set b B'⟩ : Heap K) (A.kron B')
        simpa only [List.length_set] using this) (by show A.k + B'.k ≤ _; omega) hn
  exact this

/-- X and the identity, both as one-qubit gates. -/
def kronCmds (K : Type) [Field K] : List (Cmd K) :=
  [.gate 1 (fun r c => if r = c then 0 else 1) 0 [], .gate 1 (fun r c => if r = c then 1 else 0) 0 []]

/-- **C04 fails for matrices.** After building X and the identity as one-qubit gates, `mm_kronecker(X, 1)` reads out
as a matrix that differs from `X ⊗ 1` at (0, 2), in every build and under every schedule. -/
theorem C04_mm_kronecker_stripped_wrong (cfg : Cfg K) (thr thrM : Nat) :
    ∃ h σ F G, Hist cfg thr thrM (kronCmds K) h σ [.unit, .unit] ∧ ReadsM cfg σ 0 1 F ∧ ReadsM cfg σ 1 1 G ∧
      Returns cfg σ (.mkron 0 1) .unit ∧ ∀ o σ', Exec cfg σ (.mkron 0 1) o σ' →
        ∃ R, ReadsM cfg σ' 2 2 R ∧ R 0 2 ≠ F (0 / 2) (2 / 2) * G (0 % 2) (2 % 2) := by
  have r0 : Runs cfg.sqrt NQUBITS ([] : List (Cmd K)) ⟨[], []⟩ [] := .nil
  have r1 := r0.cons (c := .gate 1 (fun r c => if r = c then 0 else 1) 0 [])
    ⟨by decide, by decide, by simp, by simp⟩ rfl
  have r2 := r1.cons (c := .gate 1 (fun r c => if r = c then 1 else 0) 0 [])
    ⟨by decide, by decide, by simp, by simp⟩ rfl
  obtain ⟨σ, hσ⟩ := Hist.of_runs cfg thr thrM r2
  have hFX := hσ.readsM (m := 0) (n := 1) rfl le_rfl (by decide)
  have hFI := hσ.readsM (m := 1) (n := 1) rfl le_rfl (by decide)
  obtain ⟨q1, q2⟩ := C04_mm_kronecker_stripped hσ (a := 0) (b := 1) (B' := ⟨0, fun _ _ => 1⟩) (by decide) rfl rfl
    (show 1 + 1 ≤ 30 by decide) ⟨0, (show 0 < 2 ^ 1 by decide), 0, (show 0 < 2 ^ 1 by decide), by
      show Spec.gate1 1 _ 0 [] 0 0 ≠ 0
      unfold Spec.gate1
      rw [if_pos (by decide), if_pos (by decide)]
      simp [bit]⟩ (show 0 ≤ 1 by decide) (by
      intro i hi j hj
      have hi : i < 2 := hi
      have hj : j < 2 := hj
      show Spec.gate1 1 (fun r c => if r = c then 1 else 0) 0 [] i j = (⟨0, fun _ _ => 1⟩ : Mat K).at 1 i j
      unfold Spec.gate1
      rw [if_pos (by omega), if_pos (by simp [Spec.sat])]
      interval_cases i <;> interval_cases j <;> simp [bit, Mat.at]) (by intro h; cases h)
  refine ⟨_, σ, _, _, hσ, hFX, hFI, q1, fun o σ' hx => ⟨_, q2 o σ' hx, ?_⟩⟩
  have e1 : (Mat.kron (⟨1, Spec.gate1 1 (fun r c => if r = c then 0 else 1) 0 []⟩ : Mat K) ⟨0, fun _ _ => 1⟩).at 2 0 2
      = 0 := by
    simp [Mat.at, Mat.kron]
  have e2 : (⟨1, Spec.gate1 1 (fun r c => if r = c then 0 else 1) 0 []⟩ : Mat K).at 1 0 1 = 1 := by
    refine (at_self (⟨1, Spec.gate1 1 (fun r c => if r = c then 0 else 1) 0 []⟩ : Mat K) (i := 0) (j := 1)
      (show _ < 2 ^ 1 by decide) (show _ < 2 ^ 1 by decide)).trans ?_
    show Spec.gate1 1 _ 0 [] 0 1 = 1
    unfold Spec.gate1
    rw [if_pos (by omega), if_pos (by simp [Spec.sat])]
    have t : Nat.testBit 1 0 = true := by decide
    rw [t, Nat.zero_testBit]; rfl
  have e3 : (⟨1, Spec.gate1 1 (fun r c => if r = c then 1 else 0) 0 []⟩ : Mat K).at 1 0 0 = 1 := by
    refine (at_self (⟨1, Spec.gate1 1 (fun r c => if r = c then 1 else 0) 0 []⟩ : Mat K) (i := 0) (j := 0)
      (show _ < 2 ^ 1 by decide) (show _ < 2 ^ 1 by decide)).trans ?_
    show Spec.gate1 1 _ 0 [] 0 0 = 1
    unfold Spec.gate1
    rw [if_pos (by omega), if_pos (by simp [Spec.sat])]
    simp [bit]
  show (Mat.kron (⟨1, Spec.gate1 1 (fun r c => if r = c then 0 else 1) 0 []⟩ : Mat K) ⟨0, fun _ _ => 1⟩).at 2 0 2 ≠
    (⟨1, Spec.gate1 1 (fun r c => if r = c then 0 else 1) 0 []⟩ : Mat K).at 1 0 1 *
    (⟨1, Spec.gate1 1 (fun r c => if r = c then 1 else 0) 0 []⟩ : Mat K).at 1 0 0
  rw [e1, e2, e3, mul_one]
  exact zero_ne_one

end QDD.Props
