import Verif.Shor.Mult
import Verif.Props.Grover
import Verif.Props.Shor
import Verif.Props.Demo2
/-!
# C63: the modular multiplier of Shor's algorithm
-/

set_option linter.unusedSectionVars false
set_option linter.unusedVariables false
set_option linter.unusedSimpArgs false

namespace QDD.Props
open Spec Api Gate Py Py.Client QDD.Grover QDD.Shor
open Finset (range mem_range)

/-! ## The gates can be made -/

/-- A gate that `makeGate` accepts. -/
def WfGate (r : Nat) (g : Cmd ℝ) : Prop := ∃ m q cs, g = .gate (nQubits r) m q cs ∧ q < nQubits r ∧
  cs.Pairwise (fun a b => a.qubit < b.qubit) ∧ ∀ c ∈ cs, c.qubit ≠ q

theorem WfGate.makes {r : Nat} {g : Cmd ℝ} (h : WfGate r g) (hr : nQubits r ≤ NQUBITS) : Makes (nQubits r) g (sem g) := by
  obtain ⟨m, q, cs, rfl, hq, h1, h2⟩ := h
  exact Makes.gate hq hr h1 h2

section
variable {r : Nat}

/-- The control lists of `add_phi` that occur. -/
def Ctl2 (r : Nat) (c1 c2 : Option Nat) : Prop := ∀ q, 1 ≤ q → q ≤ r + 1 →
  (controls2 r c1 c2).Pairwise (fun a b => a.qubit < b.qubit) ∧ ∀ c ∈ controls2 r c1 c2, c.qubit ≠ q

theorem ctl2_none : Ctl2 r none none := fun q _ _ => ⟨.nil, fun c hc => by cases hc⟩
theorem ctl2_anc : Ctl2 r (some (2 * r + 2)) none := fun q h1 _ => by
  rw [ctl_anc]
  exact ⟨by simp, fun c hc => by simp at hc; subst hc; show 0 ≠ q; omega⟩
theorem ctl2_two {i : Nat} (h1 : 1 ≤ i) (h2 : i ≤ r) : Ctl2 r (some i) (some 0) := fun q hq1 hq2 => by
  rw [ctl_two h1 h2]
  refine ⟨by simp; omega, fun c hc => ?_⟩
  simp at hc
  rcases hc with rfl | rfl
  · show 2 * r + 2 - i ≠ q; omega
  · show 2 * r + 2 ≠ q; omega

theorem wf_addPhi {a : Nat} {c1 c2 : Option Nat} (h : Ctl2 r c1 c2) : ∀ k ≤ r + 1, ∀ g ∈ addPhiLoop r a c1 c2 k, WfGate r g := by
  intro k
  induction k with
  | zero => intro _ g hg; cases hg
  | succ k ih =>
    intro hk g hg
    unfold addPhiLoop at hg
    rcases List.mem_cons.1 hg with rfl | hg
    · have e3 : nQubits r - 1 - (1 + 2 * r - k) = k + 1 := by unfold nQubits; omega
      refine ⟨_, _, _, rfl, by rw [e3]; unfold nQubits; omega, ?_⟩
      rw [e3]
      exact h (k + 1) (by omega) hk
    · exact ih (by omega) g hg

theorem wf_addPhiInv {a : Nat} {c1 c2 : Option Nat} (h : Ctl2 r c1 c2) : ∀ k ≤ r + 1, ∀ g ∈ addPhiInvLoop r a c1 c2 k, WfGate r g := by
  intro k
  induction k with
  | zero => intro _ g hg; cases hg
  | succ k ih =>
    intro hk g hg
    unfold addPhiInvLoop at hg
    rcases List.mem_cons.1 hg with rfl | hg
    · have e3 : nQubits r - 1 - (1 + 2 * r - k) = k + 1 := by unfold nQubits; omega
      refine ⟨_, _, _, rfl, by rw [e3]; unfold nQubits; omega, ?_⟩
      rw [e3]
      exact h (k + 1) (by omega) hk
    · exact ih (by omega) g hg

theorem wf_phases {i : Nat} {s : ℝ} : ∀ (k j q : Nat), i < j → j + k ≤ 2 * r + 2 → ∀ g ∈ phases r i s k j q, WfGate r g := by
  intro k
  induction k with
  | zero => intro _ _ _ _ g hg; cases hg
  | succ k ih =>
    intro j q hij hj g hg
    unfold phases at hg
    rcases List.mem_cons.1 hg with rfl | hg
    · refine ⟨_, _, _, rfl, by unfold nQubits; omega, by simp, fun c hc => ?_⟩
      simp at hc
      subst hc
      unfold Shor.ctl nQubits
      show 2 * r + 3 - 1 - j ≠ _
      omega
    · exact ih (j + 1) (2 * q) (by omega) (by omega) g hg

theorem wf_H (i : Nat) : WfGate r (.gate (nQubits r) Hmat ((nQubits r - 1) - i) []) :=
  ⟨_, _, _, rfl, by unfold nQubits; omega, .nil, fun c hc => by cases hc⟩

theorem wf_qftLoop : ∀ (k i : Nat), k + i ≤ 2 * r + 2 → ∀ g ∈ qftLoop r k i, WfGate r g := by
  intro k
  induction k with
  | zero => intro _ _ g hg; cases hg
  | succ k ih =>
    intro i hi g hg
    unfold qftLoop at hg
    rcases List.mem_append.1 hg with hg | hg
    · rcases List.mem_cons.1 hg with rfl | hg
      · exact wf_H i
      · exact wf_phases _ _ _ (by omega) (by omega) g hg
    · exact ih (i + 1) (by omega) g hg

theorem wf_qft : ∀ g ∈ qft r, WfGate r g := wf_qftLoop _ _ (by omega)

theorem wf_qftInvLoop : ∀ (k : Nat), k ≤ r + 1 → ∀ g ∈ qftInvLoop r k, WfGate r g := by
  intro k
  induction k with
  | zero => intro _ g hg; cases hg
  | succ k ih =>
    intro hk g hg
    unfold qftInvLoop at hg
    rcases List.mem_append.1 hg with hg | hg
    · exact wf_phases _ _ _ (by omega) (by omega) g hg
    · rcases List.mem_cons.1 hg with rfl | hg
      · exact wf_H _
      · exact ih (by omega) g hg

theorem wf_qftInv : ∀ g ∈ qftInv r, WfGate r g := wf_qftInvLoop _ le_rfl

theorem wf_topX (neg : Bool) : ∀ g ∈ [topX r neg], WfGate r g := by
  intro g hg
  rw [List.mem_singleton] at hg
  subst hg
  refine ⟨_, _, _, rfl, by unfold nQubits; omega, by simp, fun c hc => ?_⟩
  simp at hc
  subst hc
  unfold nQubits
  show 2 * r + 3 - 1 - (r + 1) ≠ _
  omega

theorem wf_modAdd {a N i : Nat} (h1 : 1 ≤ i) (h2 : i ≤ r) : ∀ g ∈ modAddPhi r a N (some i) (some 0), WfGate r g := by
  intro g hg
  unfold modAddPhi at hg
  simp only [List.mem_append] at hg
  rcases hg with (((((((((h | h) | h) | h) | h) | h) | h) | h) | h) | h) | h
  · exact wf_addPhi (ctl2_two h1 h2) _ le_rfl g h
  · exact wf_addPhiInv ctl2_none _ le_rfl g h
  · exact wf_qftInv g h
  · exact wf_topX _ g h
  · exact wf_qft g h
  · exact wf_addPhi ctl2_anc _ le_rfl g h
  · exact wf_addPhiInv (ctl2_two h1 h2) _ le_rfl g h
  · exact wf_qftInv g h
  · exact wf_topX _ g h
  · exact wf_qft g h
  · exact wf_addPhi (ctl2_two h1 h2) _ le_rfl g h

theorem wf_modSub {a N i : Nat} (h1 : 1 ≤ i) (h2 : i ≤ r) : ∀ g ∈ modAddPhiInv r a N (some i) (some 0), WfGate r g := by
  intro g hg
  unfold modAddPhiInv at hg
  simp only [List.mem_append] at hg
  rcases hg with (((((((((h | h) | h) | h) | h) | h) | h) | h) | h) | h) | h
  · exact wf_addPhiInv (ctl2_two h1 h2) _ le_rfl g h
  · exact wf_qftInv g h
  · exact wf_topX _ g h
  · exact wf_qft g h
  · exact wf_addPhi (ctl2_two h1 h2) _ le_rfl g h
  · exact wf_addPhiInv ctl2_anc _ le_rfl g h
  · exact wf_qftInv g h
  · exact wf_topX _ g h
  · exact wf_qft g h
  · exact wf_addPhi ctl2_none _ le_rfl g h
  · exact wf_addPhiInv (ctl2_two h1 h2) _ le_rfl g h

theorem wf_multLoop {step : Nat → Nat → List (Cmd ℝ)} (hstep : ∀ t i, 1 ≤ i → i ≤ r → ∀ g ∈ step t i, WfGate r g) {N : Nat} :
    ∀ (i t : Nat) (l : List (Cmd ℝ)), i ≤ r → multLoop step N i t = some l → ∀ g ∈ l, WfGate r g := by
  intro i
  induction i with
  | zero => intro t l _ hl g hg; simp [multLoop] at hl; subst hl; cases hg
  | succ i ih =>
    intro t l hi hl g hg
    unfold multLoop at hl
    split at hl
    · rw [Option.map_eq_some_iff] at hl
      obtain ⟨l', hl', rfl⟩ := hl
      rcases List.mem_append.1 hg with hg | hg
      · exact hstep t (i + 1) (by omega) hi g hg
      · exact ih _ l' (by omega) hl' g hg
    · cases hl

theorem wf_cmult {a N : Nat} {l : List (Cmd ℝ)} (hl : cmult r a N 0 = some l) : ∀ g ∈ l, WfGate r g := by
  unfold cmult at hl
  rw [Option.map_eq_some_iff] at hl
  obtain ⟨l', hl', rfl⟩ := hl
  intro g hg
  simp only [List.mem_append] at hg
  rcases hg with (h | h) | h
  · exact wf_qft g h
  · exact wf_multLoop (fun t i h1 h2 => wf_modAdd h1 h2) r a l' le_rfl hl' g h
  · exact wf_qftInv g h

theorem wf_cmultInv {a N : Nat} {l : List (Cmd ℝ)} (hl : cmultInv r a N 0 = some l) : ∀ g ∈ l, WfGate r g := by
  unfold cmultInv at hl
  rw [Option.map_eq_some_iff] at hl
  obtain ⟨l', hl', rfl⟩ := hl
  intro g hg
  simp only [List.mem_append] at hg
  rcases hg with (h | h) | h
  · exact wf_qft g h
  · exact wf_multLoop (fun t i h1 h2 => wf_modSub h1 h2) r a l' le_rfl hl' g h
  · exact wf_qftInv g h

theorem wf_swapLoop : ∀ (k i : Nat), i + k ≤ r → ∀ g ∈ swapLoop r 0 k i, WfGate r g := by
  intro k
  induction k with
  | zero => intro i _ g hg; cases hg
  | succ k ih =>
    intro i hi g hg
    have hX : WfGate r (.gate (nQubits r) Xmat ((nQubits r - 1) - (i + 1)) [Shor.ctl r (r + 2 + i)]) := by
      refine ⟨_, _, _, rfl, by unfold nQubits; omega, by simp, fun c hc => ?_⟩
      simp at hc
      subst hc
      unfold Shor.ctl nQubits
      show 2 * r + 3 - 1 - (r + 2 + i) ≠ _
      omega
    unfold swapLoop at hg
    rcases List.mem_cons.1 hg with rfl | hg
    · exact hX
    rcases List.mem_cons.1 hg with rfl | hg
    · refine ⟨_, _, _, rfl, by unfold nQubits; omega, ?_⟩
      have e5 : emplace (Shor.ctl r 0) [Shor.ctl r (i + 1)] = [Shor.ctl r (i + 1), Shor.ctl r 0] := by
        have h1 : (Shor.ctl r 0).qubit = 2 * r + 2 := rfl
        have h2 : (Shor.ctl r (i + 1)).qubit = 2 * r + 2 - (i + 1) := by unfold Shor.ctl nQubits; show 2 * r + 3 - 1 - (i + 1) = _; omega
        unfold emplace
        rw [if_neg, if_neg]
        · rfl
        · intro h; rw [h] at h1; omega
        · rw [h1, h2]; omega
      rw [e5]
      constructor
      · unfold Shor.ctl nQubits; simp; omega
      · intro c hc
        simp at hc
        rcases hc with rfl | rfl <;> unfold Shor.ctl nQubits <;> dsimp only <;> omega
    rcases List.mem_cons.1 hg with rfl | hg
    · exact hX
    · exact ih (i + 1) (by omega) g hg

end

/-! ## The multiplier -/

theorem clog_pow (N : Nat) : N ≤ 2 ^ requiredBits N := Nat.le_pow_clog (by norm_num) N

/-- **What `u_a` does to a basis state.** -/
theorem uA_basis {N a : Nat} (hN : 1 < N) (hN30 : N ≤ 2 ^ 30) (ha : a < N) {gs : List (Cmd ℝ)} (hg : UA N a 0 gs) :
    ∀ c < 2, ∀ x < N, run gs (dl (at_ (requiredBits N) c x 0)) = dl (at_ (requiredBits N) c (if c = 1 then a * x % N else x) 0) := by
  intro c hc x hx
  obtain ⟨t, m1, m2, hinv, h1, h2, rfl⟩ := hg
  have hNr := clog_pow N
  generalize requiredBits N = r at *
  obtain ⟨t', ht', ht0, htN, hta⟩ : ∃ t' : Nat, t = t' ∧ 0 < t' ∧ t' < N ∧ a * t' % N = 1 := by
    rcases (C41_inverse_mod a N (by omega) (by omega) (by omega) (by omega)).2 _ hinv with ⟨_, y, hy, hy0, hyN, hyy⟩ | ⟨_, hy⟩
    · cases hy
      refine ⟨t.toNat, by omega, by omega, by omega, ?_⟩
      have : t = (t.toNat : Int) := by omega
      rw [this] at hyy
      exact_mod_cast hyy
    · cases hy
  subst ht'
  rw [Int.toNat_natCast] at h2
  have hxr : x < 2 ^ r := by omega
  have hax : a * x % N < N := Nat.mod_lt _ (by omega)
  rw [run_append, run_append]
  obtain ⟨l, e1, hl⟩ := cmult_step (r := r) hNr hN30 ha (x + 2 ^ r * c)
  rw [h1] at e1
  cases e1
  have s1 := hl 0 (by omega)
  rw [h_mod hxr] at s1
  unfold at_
  rw [s1]
  by_cases h : c = 1
  · subst h
    rw [if_pos ((h_top hxr (by omega)).2 rfl), Nat.zero_add, if_pos rfl]
    have s2 := swap_regs (r := r) (c := 1) (by omega) hxr (show a * x % N < 2 ^ r by omega)
    unfold at_ at s2
    rw [s2, if_pos rfl]
    obtain ⟨l', e2, hl'⟩ := cmultInv_step (r := r) hNr hN30 htN (a * x % N + 2 ^ r * 1)
    rw [h2] at e2
    cases e2
    have s3 := hl' x hx
    rw [h_mod (by omega), if_pos ((h_top (by omega) (by omega)).2 rfl)] at s3
    rw [s3]
    congr 2
    have : (x + (N - t') * (a * x % N)) ≡ 0 [MOD N] := by
      have q1 : (N - t') * (a * x % N) ≡ (N - t') * (a * x) [MOD N] := (Nat.mod_modEq _ _).mul_left _
      have q2 : x + (N - t') * (a * x) + (t' * a - 1) * x = N * (a * x) := by
        have hta1 : 1 ≤ t' * a := by
          rw [Nat.mul_comm]
          by_contra hcon
          have : a * t' = 0 := by omega
          rw [this] at hta; simp at hta
        have : N - t' + t' = N := by omega
        calc x + (N - t') * (a * x) + (t' * a - 1) * x = (N - t') * (a * x) + ((t' * a - 1) + 1) * x := by ring
          _ = (N - t') * (a * x) + (t' * a) * x := by rw [show (t' * a - 1) + 1 = t' * a by omega]
          _ = (N - t' + t') * (a * x) := by ring
          _ = N * (a * x) := by rw [this]
      have q3 : (t' * a - 1) * x ≡ 0 [MOD N] := by
        have : N ∣ t' * a - 1 := by
          rw [Nat.mul_comm] at hta
          have := Nat.mod_add_div (t' * a) N
          rw [hta] at this
          exact ⟨t' * a / N, by omega⟩
        exact Nat.modEq_zero_iff_dvd.2 (Dvd.dvd.mul_right this x)
      have q4 : x + (N - t') * (a * x) + (t' * a - 1) * x ≡ 0 + 0 [MOD N] := by
        rw [q2]; exact Nat.modEq_zero_iff_dvd.2 (Nat.dvd_mul_right _ _)
      exact (q1.add_left x).trans (Nat.ModEq.add_right_cancel q3 q4)
    exact this
  · have h0 : c = 0 := by omega
    subst h0
    rw [if_neg (fun hc => by have := (h_top hxr (by omega)).1 hc; omega), if_neg (by omega), show (0 + 0) % N = 0 from Nat.zero_mod N]
    have s2 := swap_regs (r := r) (c := 0) (by omega) hxr (show 0 < 2 ^ r from Nat.two_pow_pos r)
    unfold at_ at s2
    rw [s2, if_neg (by omega)]
    obtain ⟨l', e2, hl'⟩ := cmultInv_step (r := r) hNr hN30 htN (x + 2 ^ r * 0)
    rw [h2] at e2
    cases e2
    have s3 := hl' 0 (by omega)
    rw [if_neg (fun hc => by have := (h_top hxr (by omega)).1 hc; omega), show (0 + 0) % N = 0 from Nat.zero_mod N] at s3
    exact s3

/-- The multiplier exists for every `a` coprime to `N`. -/
theorem uA_exists {N a : Nat} (hN : 1 < N) (hN30 : N ≤ 2 ^ 30) (ha : a < N) (hco : Nat.gcd a N = 1) : ∃ gs, UA N a 0 gs := by
  have hNr := clog_pow N
  obtain ⟨⟨res, hres⟩, hall⟩ := C41_inverse_mod a N (by omega) (by omega) (by omega) (by omega)
  rcases hall res hres with ⟨_, y, rfl, hy0, hyN, _⟩ | ⟨hne, _⟩
  · obtain ⟨l1, e1, _⟩ := cmult_step (r := requiredBits N) hNr hN30 ha 0
    obtain ⟨l2, e2, _⟩ := cmultInv_step (r := requiredBits N) hNr hN30 (show y.toNat < N by omega) 0
    exact ⟨_, y, l1, l2, hres, e1, e2, rfl⟩
  · exact absurd (by rw [Int.gcd_natCast_natCast]; exact hco) hne

theorem uA_wf {N a : Nat} {gs : List (Cmd ℝ)} (hg : UA N a 0 gs) : ∀ g ∈ gs, WfGate (requiredBits N) g := by
  obtain ⟨t, m1, m2, _, h1, h2, rfl⟩ := hg
  intro g hg
  simp only [List.mem_append] at hg
  rcases hg with (h | h) | h
  · exact wf_cmult h1 g h
  · exact wf_swapLoop _ _ (by omega) g h
  · exact wf_cmultInv h2 g h

/-! ## Superpositions -/

theorem sem_lin (g : Cmd ℝ) (z : CR) (f f' : Nat → CR) : sem g (fun i => z * f i + f' i) = fun i => z * sem g f i + sem g f' i := by
  cases g <;> try rfl
  funext i
  simp only [sem_gate]
  unfold cact act
  split <;> ring

theorem run_lin (gs : List (Cmd ℝ)) : ∀ (z : CR) (f f' : Nat → CR), run gs (fun i => z * f i + f' i) = fun i => z * run gs f i + run gs f' i := by
  induction gs with
  | nil => intro z f f'; rfl
  | cons g gs ih => intro z f f'; rw [run_cons, sem_lin, ih]; rfl

theorem run_zero (gs : List (Cmd ℝ)) : run gs (fun _ => 0) = fun _ => 0 := by
  have := run_lin gs (-1) (fun _ => 0) (fun _ => 0)
  have e : (fun _ : Nat => (-1 : CR) * 0 + 0) = fun _ => 0 := by funext i; ring
  rw [e] at this
  funext i
  have h := congrFun this i
  rw [h]; ring

theorem run_sum {ι : Type} [DecidableEq ι] (gs : List (Cmd ℝ)) (S : Finset ι) (F : ι → CR) (p : ι → Nat) :
    run gs (fun i => ∑ j ∈ S, F j * dl (p j) i) = fun i => ∑ j ∈ S, F j * run gs (dl (p j)) i := by
  induction S using Finset.induction_on with
  | empty => simp only [Finset.sum_empty]; exact run_zero gs
  | insert a S ha ih =>
    simp only [Finset.sum_insert ha]
    rw [run_lin gs (F a) (dl (p a)) (fun i => ∑ j ∈ S, F j * dl (p j) i), ih]

theorem at_inj {r c x c' x' : Nat} (hx : x < 2 ^ r) (hx' : x' < 2 ^ r) (h : at_ r c x 0 = at_ r c' x' 0) : c = c' ∧ x = x' := by
  have hp := Nat.two_pow_pos (r + 1)
  have h1 := (enc_inj (by omega) hp (by omega) hp h).2.2
  have h2 : x = x' := by rw [← h_mod (r := r) (c := c) hx, h1, h_mod hx']
  subst h2
  exact ⟨Nat.eq_of_mul_eq_mul_left (Nat.two_pow_pos r) (by omega), rfl⟩

/-- Multiplication by a unit is injective. -/
theorem mul_inj {N a x y : Nat} (hco : Nat.gcd a N = 1) (hx : x < N) (hy : y < N) (h : a * x % N = a * y % N) : x = y := by
  have : x ≡ y [MOD N] := Nat.ModEq.cancel_left_of_coprime (by rw [Nat.gcd_comm]; exact hco) h
  rw [Nat.ModEq, Nat.mod_eq_of_lt hx, Nat.mod_eq_of_lt hy] at this
  exact this

theorem uA_coprime {N a : Nat} (hN : 1 < N) (hN30 : N ≤ 2 ^ 30) (ha : a < N) {gs : List (Cmd ℝ)} (hg : UA N a 0 gs) : Nat.gcd a N = 1 := by
  obtain ⟨t, m1, m2, hinv, _⟩ := hg
  rcases (C41_inverse_mod a N (by omega) (by omega) (by omega) (by omega)).2 _ hinv with ⟨h, _⟩ | ⟨_, hy⟩
  · rwa [Int.gcd_natCast_natCast] at h
  · cases hy

/-- **What `u_a` does to a superposition.** -/
theorem uA_state {N a : Nat} (hN : 1 < N) (hN30 : N ≤ 2 ^ 30) (ha : a < N) {gs : List (Cmd ℝ)} (hg : UA N a 0 gs) {f : Nat → CR}
    (hf : ∀ i, f i ≠ 0 → ∃ c < 2, ∃ x < N, i = at_ (requiredBits N) c x 0) :
    (∀ c < 2, ∀ x < N, run gs f (at_ (requiredBits N) c (if c = 1 then a * x % N else x) 0) = f (at_ (requiredBits N) c x 0)) ∧
    ∀ i, (∀ c < 2, ∀ x < N, i ≠ at_ (requiredBits N) c x 0) → run gs f i = 0 := by
  classical
  have hNr := clog_pow N
  have hco := uA_coprime hN hN30 ha hg
  have hb := uA_basis hN hN30 ha hg
  generalize requiredBits N = r at *
  have hfs : f = fun i => ∑ j ∈ (range 2) ×ˢ (range N), f (at_ r j.1 j.2 0) * dl (at_ r j.1 j.2 0) i := by
    funext i
    by_cases h0 : f i = 0
    · rw [h0]
      symm
      refine Finset.sum_eq_zero fun j hj => ?_
      unfold dl
      by_cases e : i = at_ r j.1 j.2 0
      · rw [← e, h0, zero_mul]
      · rw [if_neg e, mul_zero]
    · obtain ⟨c, hc, x, hx, rfl⟩ := hf i h0
      rw [Finset.sum_eq_single (c, x)]
      · unfold dl; rw [if_pos rfl, mul_one]
      · rintro ⟨c', x'⟩ hj hne
        have hj' := Finset.mem_product.1 hj
        have : x' < N := mem_range.1 hj'.2
        unfold dl
        rw [if_neg, mul_zero]
        intro e
        obtain ⟨e1, e2⟩ := at_inj (by omega) (by omega) e
        exact hne (by rw [e1, e2])
      · intro h
        exact absurd (Finset.mem_product.2 ⟨mem_range.2 hc, mem_range.2 hx⟩) h
  have hrun : ∀ i, run gs f i = ∑ j ∈ (range 2) ×ˢ (range N), f (at_ r j.1 j.2 0) * dl (at_ r j.1 (if j.1 = 1 then a * j.2 % N else j.2) 0) i := by
    intro i
    conv_lhs => rw [hfs]
    rw [run_sum]
    refine Finset.sum_congr rfl fun j hj => ?_
    have hj' := Finset.mem_product.1 hj
    rw [hb j.1 (mem_range.1 hj'.1) j.2 (mem_range.1 hj'.2)]
  have himg : ∀ c x, x < N → (if c = 1 then a * x % N else x) < N := by
    intro c x hx
    split
    · exact Nat.mod_lt _ (by omega)
    · exact hx
  constructor
  · intro c hc x hx
    rw [hrun, Finset.sum_eq_single (c, x)]
    · unfold dl; rw [if_pos rfl, mul_one]
    · rintro ⟨c', x'⟩ hj hne
      have hj' := Finset.mem_product.1 hj
      have hx' : x' < N := mem_range.1 hj'.2
      have l1 := himg c x hx
      have l2 := himg c' x' hx'
      unfold dl
      rw [if_neg, mul_zero]
      intro e
      dsimp only at e
      obtain ⟨e1, e2⟩ := at_inj (lt_of_lt_of_le l1 hNr) (lt_of_lt_of_le l2 hNr) e
      subst e1
      by_cases h1 : c = 1
      · rw [if_pos h1, if_pos h1] at e2
        exact hne (by rw [mul_inj hco hx hx' e2])
      · rw [if_neg h1, if_neg h1] at e2
        exact hne (by rw [e2])
    · intro h
      exact absurd (Finset.mem_product.2 ⟨mem_range.2 hc, mem_range.2 hx⟩) h
  · intro i hi
    rw [hrun]
    refine Finset.sum_eq_zero fun j hj => ?_
    have hj' := Finset.mem_product.1 hj
    unfold dl
    rw [if_neg, mul_zero]
    exact hi j.1 (mem_range.1 hj'.1) _ (himg _ _ (mem_range.1 hj'.2))

/-! ## On the engine -/

variable {sqrt : ℝ → ℝ} {α : Type} {T : Option α → Prop} {x : ℝ}

theorem applyAll_meets {N : Nat} : ∀ (gs : List Nat) (ops : List ((Nat → CR) → Nat → CR)) (h : Heap ℝ) (v : Nat) (f : Nat → CR),
    List.Forall₂ (Grover.Holds N h) gs ops → HoldsV N h v f → ∀ (k : Nat → Client α),
    (∀ h' v', HoldsV N h' v' (runOps ops f) → Meets sqrt (k v') h' T x) → Meets sqrt (applyAll gs v k) h T x := by
  intro gs
  induction gs with
  | nil => intro ops h v f hm hv k hk; cases hm; exact hk h v hv
  | cons g gs ih =>
    intro ops h v f hm hv k hk
    cases hm with
    | @cons _ o _ ops hg hgs =>
    unfold applyAll
    refine mv_meets hg hv fun V hV => ?_
    rw [len_addV]
    exact ih ops (h.addV V) _ (o f) (hgs.imp fun g o hg => hg.addV V) hV k hk

theorem buildCircuit_meets {r : Nat} (hr : nQubits r ≤ NQUBITS) {gs : List (Cmd ℝ)} (hw : ∀ g ∈ gs, WfGate r g) {h : Heap ℝ} {v : Nat} {f : Nat → CR}
    (hv : HoldsV (nQubits r) h v f) {k : Nat → Client α}
    (hk : ∀ h' v', HoldsV (nQubits r) h' v' (run gs f) → Meets sqrt (k v') h' T x) : Meets sqrt (buildCircuit gs v k) h T x := by
  unfold buildCircuit
  have hm : List.Forall₂ (Makes (nQubits r)) gs (gs.map sem) := by
    rw [List.forall₂_map_right_iff]
    exact List.forall₂_same.2 fun g hg => (hw g hg).makes hr
  refine makeAll_meets gs (gs.map sem) hm h [] [] .nil _ fun h' hs hvs _ hgs => ?_
  rw [List.nil_append] at hgs
  refine applyAll_meets hs _ h' v f hgs ?_ k hk
  unfold HoldsV
  rw [hvs]
  exact hv

/-- The index of the basis state with control `c`, the number `x` in the second register and 0 in the others, for a
modulus of `r` bits: the lowest qubit is the ancilla, then `r + 1` qubits of the sum, `r` of `x`, the control. -/
def shorIdx (r c x : Nat) : Nat := 2 ^ (r + 2) * (x + 2 ^ r * c)

theorem at_eq (r c x : Nat) : at_ r c x 0 = shorIdx r c x := by
  unfold at_ enc shorIdx
  rw [show 2 ^ (r + 2) = 2 * 2 ^ (r + 1) by rw [← pow_succ']]
  ring

theorem shorIdx_lt {r c x : Nat} (hc : c < 2) (hx : x < 2 ^ r) : shorIdx r c x < 2 ^ (2 * r + 3) := by
  unfold shorIdx
  have : x + 2 ^ r * c < 2 ^ (r + 1) := by
    rw [pow_succ]
    have : 2 ^ r * c ≤ 2 ^ r * 1 := Nat.mul_le_mul_left _ (by omega)
    omega
  calc 2 ^ (r + 2) * (x + 2 ^ r * c) < 2 ^ (r + 2) * 2 ^ (r + 1) := Nat.mul_lt_mul_of_pos_left this (Nat.two_pow_pos _)
    _ = 2 ^ (2 * r + 3) := by rw [← pow_add]; congr 1; omega

/-- Applying the gates of `u_a` to the state `v` and measuring all qubits. -/
noncomputable def multMeasure (gs : List (Cmd ℝ)) (n v : Nat) : Client (List Bool) :=
  buildCircuit gs v fun v' => drawN n fun us => .call (.measureAll v' false fun t => us.getD t 0) fun o _ _ => answer o

/-- Applying the gates of `u_a` to the state `v` and reading the vector. -/
noncomputable def multVector (gs : List (Cmd ℝ)) (v : Nat) : Client (List (Option CR)) :=
  buildCircuit gs v fun v' => .call (.getVector v') fun o _ _ => vecAnswer o

variable {cfg : Cfg ℝ} {thr thrM : Nat} {cs : List (Cmd ℝ)} {h : Heap ℝ} {σ : Sys ℝ} {os : List (Obs ℝ)}

/-- The amplitudes of a vector, 0 beyond its end. -/
noncomputable def amps (V : Vec ℝ) (i : Nat) : CR := if i < 2 ^ V.k then V.f i else 0

theorem clog30 {N : Nat} (h : N ≤ 2 ^ 30) : Nat.clog 2 N ≤ 30 := Nat.clog_le_of_le_pow h

/-- What both read-outs start from. -/
theorem mult_amps {N a : Nat} (hN : 1 < N) (hN30 : N ≤ 2 ^ 30) (ha : a < N) {gs : List (Cmd ℝ)} (hg : UA N a 0 gs) {V : Vec ℝ}
    (hk : V.k = 2 * Nat.clog 2 N + 3)
    (hsup : ∀ i < 2 ^ V.k, V.f i ≠ 0 → ∃ c < 2, ∃ x < N, i = shorIdx (Nat.clog 2 N) c x) :
    (∀ c < 2, ∀ x < N, run gs (amps V) (shorIdx (Nat.clog 2 N) c (if c = 1 then a * x % N else x)) = V.f (shorIdx (Nat.clog 2 N) c x)) ∧
    ∀ i, (∀ c < 2, ∀ x < N, i ≠ shorIdx (Nat.clog 2 N) c x) → run gs (amps V) i = 0 := by
  have hNr : N ≤ 2 ^ Nat.clog 2 N := clog_pow N
  have hs : ∀ i, amps V i ≠ 0 → ∃ c < 2, ∃ x < N, i = at_ (requiredBits N) c x 0 := by
    intro i hi
    unfold amps at hi
    by_cases hl : i < 2 ^ V.k
    · rw [if_pos hl] at hi
      obtain ⟨c, hc, x, hx, rfl⟩ := hsup i hl hi
      exact ⟨c, hc, x, hx, (at_eq _ _ _).symm⟩
    · rw [if_neg hl] at hi; exact absurd rfl hi
  obtain ⟨h1, h2⟩ := uA_state hN hN30 ha hg hs
  simp only [at_eq] at h1 h2
  refine ⟨fun c hc x hx => ?_, h2⟩
  have := h1 c hc x hx
  unfold amps at this ⊢
  rw [show requiredBits N = Nat.clog 2 N from rfl] at this
  rw [this, if_pos]
  rw [hk]
  exact shorIdx_lt hc (by omega)

theorem holds_amps {V : Vec ℝ} {v n : Nat} (hV : h.vs[v]? = some V) (hk : V.k = n) : HoldsV n h v (amps V) :=
  ⟨V, hV, hk, fun i hi => by unfold amps; rw [if_pos (by rw [hk]; exact hi)]⟩

/-- **C63 (state).**  For every modulus `N` up to 2^30 and every number `a < N` coprime to it, `u_a` succeeds; its gates,
applied from any reachable state of the engine to a state of the registers with `x < N` and the other qubits 0 (any
superposition of them), give, under every schedule, the state in which `x` is replaced by `a x mod N` where the control is
1, and all other qubits are as before. -/
theorem C63_multiplier (hR : Hist cfg thr thrM cs h σ os) {N a : Nat} (hN : 1 < N) (hN30 : N ≤ 2 ^ 30) (ha : a < N) (hco : Nat.gcd a N = 1) :
    (∃ gs, UA N a 0 gs) ∧ ∀ gs, UA N a 0 gs → ∀ (v : Nat) (V : Vec ℝ), h.vs[v]? = some V → V.k = 2 * Nat.clog 2 N + 3 → V.k ≤ 30 → V.Nonzero →
      (∀ i < 2 ^ V.k, V.f i ≠ 0 → ∃ c < 2, ∃ x < N, i = shorIdx (Nat.clog 2 N) c x) →
      ∃ W : Nat → CR, Yields cfg (multVector gs v) σ (· = some ((List.range (2 ^ V.k)).map fun i => some (W i))) 1 ∧
        (∀ c < 2, ∀ x < N, W (shorIdx (Nat.clog 2 N) c (if c = 1 then a * x % N else x)) = V.f (shorIdx (Nat.clog 2 N) c x)) ∧
        ∀ i, (∀ c < 2, ∀ x < N, i ≠ shorIdx (Nat.clog 2 N) c x) → W i = 0 := by
  classical
  refine ⟨uA_exists hN hN30 ha hco, fun gs hg v V hV hk h30 hnz hsup => ?_⟩
  obtain ⟨w1, w2⟩ := mult_amps hN hN30 ha hg hk hsup
  have hNr : N ≤ 2 ^ Nat.clog 2 N := clog_pow N
  refine ⟨run gs (amps V), meets_yields hR.rel ?_, w1, w2⟩
  unfold multVector
  have hn : V.k = nQubits (requiredBits N) := hk
  refine buildCircuit_meets (r := requiredBits N) (by rw [← hn]; unfold NQUBITS; omega) (uA_wf hg) (holds_amps hV hn) fun h' v' hv' => ?_
  obtain ⟨W, hW, hWk, hWf⟩ := hv'
  have hWnz : W.Nonzero := by
    obtain ⟨i, hi, hi0⟩ := hnz
    obtain ⟨c, hc, x, hx, rfl⟩ := hsup i hi hi0
    have hlt : (if c = 1 then a * x % N else x) < N := by
      split
      · exact Nat.mod_lt _ (by omega)
      · exact hx
    refine ⟨shorIdx (Nat.clog 2 N) c (if c = 1 then a * x % N else x), ?_, ?_⟩
    · rw [hWk]; exact shorIdx_lt hc (lt_of_lt_of_le hlt hNr)
    · have hb : shorIdx (Nat.clog 2 N) c (if c = 1 then a * x % N else x) < 2 ^ nQubits (requiredBits N) :=
        shorIdx_lt hc (lt_of_lt_of_le hlt hNr)
      rw [hWf _ hb, w1 c hc x hx]
      exact hi0
  refine Meets.call (h1 := h') (o := .vec ((List.range (2 ^ W.k)).map fun i => some (W.f i))) ⟨W, hW, hWnz, by rw [hWk, ← hn]; exact h30⟩ ?_ ?_
  · simp only [Spec.step, hW, Option.bind_eq_bind, Option.bind_some]
  · unfold vecAnswer
    have e : (List.range (2 ^ W.k)).map (fun i => some (W.f i)) = (List.range (2 ^ V.k)).map fun i => some (run gs (amps V) i) := by
      rw [hWk, ← hn]
      refine List.map_congr_left fun i hi => ?_
      rw [hWf i (by rw [← hn]; exact List.mem_range.1 hi)]
    rw [e]
    refine ⟨trivial, trivial, ?_⟩
    rw [prob, if_pos rfl]

/-- **C63 (measurement).**  Also for states too large to read out: measuring all qubits after `u_a` gives the string of
control `c` and number `a x mod N` (or `x`, if `c` is 0) with the probability that measuring the state before would have
given that of `c` and `x`. -/
theorem C63_measure (hR : Hist cfg thr thrM cs h σ os) {N a : Nat} (hN : 1 < N) (hN30 : N ≤ 2 ^ 30) (ha : a < N)
    {gs : List (Cmd ℝ)} (hg : UA N a 0 gs) {v : Nat} {V : Vec ℝ} (hV : h.vs[v]? = some V) (hk : V.k = 2 * Nat.clog 2 N + 3)
    (hnrm : ∑ i ∈ range (2 ^ V.k), (V.f i).mag2 = 1)
    (hsup : ∀ i < 2 ^ V.k, V.f i ≠ 0 → ∃ c < 2, ∃ x < N, i = shorIdx (Nat.clog 2 N) c x) {c x : Nat} (hc : c < 2) (hx : x < N) :
    Yields cfg (multMeasure gs V.k v) σ
      (· = some (bits V.k (shorIdx (Nat.clog 2 N) c (if c = 1 then a * x % N else x)))) (V.f (shorIdx (Nat.clog 2 N) c x)).mag2 := by
  classical
  obtain ⟨w1, w2⟩ := mult_amps hN hN30 ha hg hk hsup
  have hNr : N ≤ 2 ^ Nat.clog 2 N := clog_pow N
  have hco := uA_coprime hN hN30 ha hg
  refine meets_yields hR.rel ?_
  unfold multMeasure
  have hn : V.k = nQubits (requiredBits N) := hk
  have h30 := clog30 hN30
  refine buildCircuit_meets (r := requiredBits N) (by rw [← hn]; unfold NQUBITS; omega) (uA_wf hg) (holds_amps hV hn) fun h' v' hv' => ?_
  rw [← hn] at hv'
  obtain ⟨W, hW, hWk, hWf⟩ := hv'
  set n := V.k with hnd
  have himg : ∀ c x, x < N → (if c = 1 then a * x % N else x) < N := by
    intro c x hx
    split
    · exact Nat.mod_lt _ (by omega)
    · exact hx
  have hlt : ∀ {c x}, c < 2 → x < N → shorIdx (Nat.clog 2 N) c x < 2 ^ n := fun hc hx => by rw [hk]; exact shorIdx_lt hc (by omega)
  have hinj : ∀ {c x c' x'}, x < N → x' < N → shorIdx (Nat.clog 2 N) c x = shorIdx (Nat.clog 2 N) c' x' → c = c' ∧ x = x' := by
    intro c x c' x' h1 h2 e
    rw [← at_eq, ← at_eq] at e
    exact at_inj (by omega) (by omega) e
  -- the norm is kept
  have sumV : ∀ F : Nat → CR, (∀ i < 2 ^ n, F i ≠ 0 → ∃ c < 2, ∃ x < N, i = shorIdx (Nat.clog 2 N) c x) →
      ∑ i ∈ range (2 ^ n), (F i).mag2 = ∑ j ∈ (range 2) ×ˢ (range N), (F (shorIdx (Nat.clog 2 N) j.1 j.2)).mag2 := by
    intro F hF
    rw [← Finset.sum_image (s := (range 2) ×ˢ (range N)) (g := fun j : Nat × Nat => shorIdx (Nat.clog 2 N) j.1 j.2) (f := fun i => (F i).mag2)]
    · symm
      refine Finset.sum_subset ?_ ?_
      · intro i hi
        obtain ⟨⟨c, x⟩, hj, rfl⟩ := Finset.mem_image.1 hi
        have hj' := Finset.mem_product.1 hj
        exact mem_range.2 (hlt (mem_range.1 hj'.1) (mem_range.1 hj'.2))
      · intro i hi hni
        have : F i = 0 := by
          by_contra h0
          obtain ⟨c, hc, x, hx, rfl⟩ := hF i (mem_range.1 hi) h0
          exact hni (Finset.mem_image.2 ⟨(c, x), Finset.mem_product.2 ⟨mem_range.2 hc, mem_range.2 hx⟩, rfl⟩)
        rw [this]; simp [Cx.mag2]
    · rintro ⟨c, x⟩ hj ⟨c', x'⟩ hj' e
      have hj := Finset.mem_product.1 hj
      have hj' := Finset.mem_product.1 hj'
      obtain ⟨e1, e2⟩ := hinj (mem_range.1 hj.2) (mem_range.1 hj'.2) e
      exact Prod.ext e1 e2
  have hWs : ∀ i < 2 ^ n, W.f i ≠ 0 → ∃ c < 2, ∃ x < N, i = shorIdx (Nat.clog 2 N) c x := by
    intro i hi h0
    by_contra hcon
    push Not at hcon
    exact h0 (by rw [hWf i hi]; exact w2 i fun c hc x hx => hcon c hc x hx)
  have hWn : Py.nrm n W.f = 1 := by
    unfold Py.nrm
    rw [sumV _ hWs, ← hnrm, sumV _ hsup]
    symm
    refine Finset.sum_bij (fun j _ => (j.1, if j.1 = 1 then a * j.2 % N else j.2)) ?_ ?_ ?_ ?_
    · rintro ⟨c, x⟩ hj
      have hj := Finset.mem_product.1 hj
      exact Finset.mem_product.2 ⟨hj.1, mem_range.2 (himg _ _ (mem_range.1 hj.2))⟩
    · rintro ⟨c, x⟩ hj ⟨c', x'⟩ hj' e
      have hj := Finset.mem_product.1 hj
      have hj' := Finset.mem_product.1 hj'
      simp only [Prod.mk.injEq] at e
      obtain ⟨rfl, e2⟩ := e
      by_cases h1 : c = 1
      · rw [if_pos h1, if_pos h1] at e2
        exact Prod.ext rfl (mul_inj hco (mem_range.1 hj.2) (mem_range.1 hj'.2) e2)
      · rw [if_neg h1, if_neg h1] at e2
        exact Prod.ext rfl e2
    · rintro ⟨c, y⟩ hj
      have hj := Finset.mem_product.1 hj
      have hy := mem_range.1 hj.2
      by_cases h1 : c = 1
      · obtain ⟨x, hx, e⟩ : ∃ x < N, a * x % N = y := by
          have hsur := Finset.surj_on_of_inj_on_of_card_le (s := range N) (t := range N) (fun x _ => a * x % N)
            (fun x _ => mem_range.2 (Nat.mod_lt _ (by omega))) (fun x y hx hy e => mul_inj hco (mem_range.1 hx) (mem_range.1 hy) e) le_rfl y (mem_range.2 hy)
          obtain ⟨x, hx, e⟩ := hsur
          exact ⟨x, mem_range.1 hx, e.symm⟩
        exact ⟨(c, x), Finset.mem_product.2 ⟨hj.1, mem_range.2 hx⟩, by simp only [if_pos h1, e]⟩
      · exact ⟨(c, y), Finset.mem_product.2 hj, by simp only [if_neg h1]⟩
    · rintro ⟨c, x⟩ hj
      have hj := Finset.mem_product.1 hj
      have hc := mem_range.1 hj.1
      have hx := mem_range.1 hj.2
      dsimp only
      rw [hWf _ (hlt hc (himg _ _ hx)), w1 c hc x hx]
  have key := drawN_meets (sqrt := cfg.sqrt) (T := fun r => r = some (bits n (shorIdx (Nat.clog 2 N) c (if c = 1 then a * x % N else x)))) (h := h') n (f := W.f) (by rw [hWn]; norm_num)
    (G := fun y => if (some (bits n y)) = some (bits n (shorIdx (Nat.clog 2 N) c (if c = 1 then a * x % N else x))) then (1 : ℝ) else 0)
    (k := fun us => .call (.measureAll v' false fun t => us.getD t 0) fun o _ _ => answer o) (fun us hul hus => by
        have hnz : W.Nonzero := by
          by_contra hc
          have : Py.nrm n W.f = 0 := Finset.sum_eq_zero fun i hi => by
            have : W.f i = 0 := by
              by_contra h0
              exact hc ⟨i, by rw [hWk]; exact mem_range.1 hi, h0⟩
            rw [this]; simp [Cx.mag2]
          rw [hWn] at this
          norm_num at this
        refine Meets.call (h1 := ⟨h'.vs.set v' W, h'.ms⟩)
          (o := .str (bits n (sample (fun t => us.getD t 0) n 0 W.f))) ⟨W, hW, hnz, ?_⟩ ?_ ?_
        · intro u hu
          rw [hWk, ← hul] at hu
          beta_reduce
          rw [List.getD_eq_getElem?_getD, List.getElem?_eq_getElem hu]
          exact hus _ (List.getElem_mem hu)
        · simp only [Spec.step, hW, Option.bind_eq_bind, Option.bind_some, hWk]
          rfl
        · exact Meets.ret _ _)
  refine cast (congrArg _ ?_) key
  rw [hWn]
  have hl := hlt hc (himg c x hx)
  rw [Finset.sum_eq_single (shorIdx (Nat.clog 2 N) c (if c = 1 then a * x % N else x))]
  · rw [if_pos rfl, hWf _ hl, w1 c hc x hx]; ring
  · intro y hy hne
    rw [if_neg, mul_zero]
    intro hcc
    injection hcc with hcc
    exact hne (bits_inj (mem_range.1 hy) hl hcc)
  · intro hcc
    exact absurd (mem_range.2 hl) hcc

/-- If `a` is not coprime to `N`, `u_a` ends the program (`std::exit(3)` in `inverse_mod`). -/
theorem C63_exits {N a : Nat} (hN : 1 < N) (hN30 : N ≤ 2 ^ 30) (ha : a < N) (hco : Nat.gcd a N ≠ 1) :
    InverseMod a N .exit3 ∧ ¬ ∃ gs, UA N a 0 gs := by
  refine ⟨?_, fun ⟨gs, hg⟩ => hco (uA_coprime hN hN30 ha hg)⟩
  obtain ⟨⟨res, hres⟩, hall⟩ := C41_inverse_mod a N (by omega) (by omega) (by omega) (by omega)
  rcases hall res hres with ⟨h1, _⟩ | ⟨_, rfl⟩
  · exact absurd (by rwa [Int.gcd_natCast_natCast] at h1) hco
  · exact hres

/-! ## A concrete case: N = 5, a = 2 on nine qubits, the control in the superposition (3/5, 4/5), x = 1 -/

/-- `zero(9)`, X on qubit 5 (`x = 1`), the rotation on the control qubit. -/
noncomputable def regCmds : List (Cmd ℝ) := [.zero 9, .gate 9 Xmat 5 [], .mv 0 0, .gate 9 rotG 8 [], .mv 1 1]

noncomputable def regX : Mat ℝ := ⟨9, Spec.gate1 9 Xmat 5 []⟩
noncomputable def regR : Mat ℝ := ⟨9, Spec.gate1 9 rotG 8 []⟩
noncomputable def reg1 : Vec ℝ := regX.apply (Spec.basis 9 0)
noncomputable def reg2 : Vec ℝ := regR.apply reg1
noncomputable def regHeap : Heap ℝ := ⟨[Spec.basis 9 0, reg1, reg2], [regX, regR]⟩

theorem reg_runs (sqrt : ℝ → ℝ) : Spec.Runs sqrt NQUBITS regCmds regHeap [.unit, .unit, .unit, .unit, .unit] := by
  have r0 : Spec.Runs sqrt NQUBITS ([] : List (Cmd ℝ)) ⟨[], []⟩ [] := .nil
  have r1 := r0.cons (c := .zero 9) ⟨by decide, by decide⟩ rfl
  have r2 := r1.cons (c := .gate 9 Xmat 5 []) ⟨by decide, by decide, by simp, by simp⟩ rfl
  have r3 := r2.cons (c := .mv 0 0) ⟨regX, Spec.basis 9 0, rfl, rfl, le_refl _⟩ rfl
  have r4 := r3.cons (c := .gate 9 rotG 8 []) ⟨by decide, by decide, by simp, by simp⟩ rfl
  have r5 := r4.cons (c := .mv 1 1) ⟨regR, reg1, rfl, rfl, le_refl _⟩ rfl
  exact r5

theorem apply_f {n q : Nat} (hq : q < n) (g : Nat → Nat → CR) (V : Vec ℝ) (hk : V.k = n) {i : Nat} (hi : i < 2 ^ n) :
    ((⟨n, Spec.gate1 n g q []⟩ : Mat ℝ).apply V).f i = act q (fun a b => g (bit a) (bit b)) V.f i := by
  subst hk
  rw [← app_gate1 hq g V.f hi]
  show ∑ j ∈ range (2 ^ V.k), (⟨V.k, Spec.gate1 V.k g q []⟩ : Mat ℝ).at V.k i j * V.f j = _
  unfold app
  refine Finset.sum_congr rfl fun j hj => ?_
  rw [show (⟨V.k, Spec.gate1 V.k g q []⟩ : Mat ℝ).at V.k i j = Spec.gate1 V.k g q [] i j from at_self (⟨V.k, Spec.gate1 V.k g q []⟩ : Mat ℝ) hi (mem_range.1 hj)]

theorem reg1_f {i : Nat} (hi : i < 2 ^ 9) : reg1.f i = if i = 32 then 1 else 0 := by
  have h := apply_f (q := 5) (by decide) Xmat (Spec.basis 9 0 : Vec ℝ) rfl hi
  rw [show reg1.f i = _ from h]
  have e : ∀ j, (Spec.basis 9 0 : Vec ℝ).f j = if j = 0 then 1 else 0 := fun j => rfl
  have hx : i ^^^ 2 ^ 5 = 0 ↔ i = 32 := by
    constructor
    · intro h
      have := congrArg (· ^^^ 2 ^ 5) h
      simp only [xor_twice] at this
      rw [this]
      decide
    · rintro rfl; decide
  unfold act
  rw [e, e]
  simp only [hx]
  by_cases h32 : i = 32
  · subst h32; simp [Gate.Xmat, g4, bit, show Nat.testBit 32 5 = true by decide]; rfl
  · rw [if_neg h32, mul_zero, add_zero]
    by_cases h0 : i = 0
    · subst h0; simp [Gate.Xmat, g4, bit]; rfl
    · rw [if_neg h0, mul_zero]

theorem reg2_f {i : Nat} (hi : i < 2 ^ 9) : reg2.f i = if i = 32 then ⟨3 / 5, 0⟩ else if i = 288 then ⟨4 / 5, 0⟩ else 0 := by
  have h := apply_f (q := 8) (by decide) rotG reg1 rfl hi
  rw [show reg2.f i = _ from h]
  have hlt : i ^^^ 2 ^ 8 < 2 ^ 9 := flip_lt (by decide) hi
  have hx : i ^^^ 2 ^ 8 = 32 ↔ i = 288 := by
    constructor
    · intro h
      have := congrArg (· ^^^ 2 ^ 8) h
      simp only [xor_twice] at this
      rw [this]
      decide
    · rintro rfl; decide
  unfold act
  rw [reg1_f hi, reg1_f hlt]
  simp only [hx]
  by_cases h32 : i = 32
  · subst h32; simp [rotG, bit, show Nat.testBit 32 8 = false by decide]
  · by_cases h0 : i = 288
    · subst h0; simp [rotG, bit, show Nat.testBit 288 8 = true by decide]
    · simp [h32, h0]

theorem clog5 : Nat.clog 2 5 = 3 := by
  apply le_antisymm
  · exact Nat.clog_le_of_le_pow (by norm_num)
  · have : 2 < Nat.clog 2 5 := (Nat.lt_clog_iff_pow_lt (by norm_num)).2 (by norm_num)
    omega

theorem reg_supp : ∀ i < 2 ^ reg2.k, reg2.f i ≠ 0 → ∃ c < 2, ∃ x < 5, i = shorIdx (Nat.clog 2 5) c x := by
  intro i hi h0
  rw [clog5]
  rw [reg2_f hi] at h0
  by_cases h32 : i = 32
  · exact ⟨0, by norm_num, 1, by norm_num, by rw [h32]; decide⟩
  · by_cases h2 : i = 288
    · exact ⟨1, by norm_num, 1, by norm_num, by rw [h2]; decide⟩
    · rw [if_neg h32, if_neg h2] at h0; exact absurd rfl h0

theorem reg_norm : ∑ i ∈ range (2 ^ reg2.k), (reg2.f i).mag2 = 1 := by
  have : ∀ i ∈ range (2 ^ reg2.k), (reg2.f i).mag2 = (if i = 32 then 9 / 25 else 0) + if i = 288 then 16 / 25 else 0 := by
    intro i hi
    rw [reg2_f (mem_range.1 hi)]
    by_cases h32 : i = 32
    · subst h32; norm_num [Cx.mag2]
    · by_cases h2 : i = 288
      · subst h2; norm_num [Cx.mag2]
      · simp [h32, h2, Cx.mag2]
  rw [Finset.sum_congr rfl this, Finset.sum_add_distrib, Finset.sum_ite_eq', Finset.sum_ite_eq', if_pos (mem_range.2 (show 32 < 2 ^ reg2.k by rw [show reg2.k = 9 from rfl]; norm_num)),
    if_pos (mem_range.2 (show 288 < 2 ^ reg2.k by rw [show reg2.k = 9 from rfl]; norm_num))]
  norm_num

/-- `u_a` with `N = 5`, `a = 2`: after it the control is 0 and `x = 1` with probability 9/25, and the control is 1 and
`x = 2` with probability 16/25 (the string shows the control first, then `x`, the sum and the ancilla). -/
example : ∃ σ gs, Hist cfg 5 5 regCmds regHeap σ [.unit, .unit, .unit, .unit, .unit] ∧ UA 5 2 0 gs ∧
    Yields cfg (multMeasure gs 9 2) σ (· = some [false, false, false, true, false, false, false, false, false]) (9 / 25) ∧
    Yields cfg (multMeasure gs 9 2) σ (· = some [true, false, true, false, false, false, false, false, false]) (16 / 25) := by
  obtain ⟨σ, hσ⟩ := Hist.of_runs cfg 5 5 (reg_runs cfg.sqrt)
  obtain ⟨gs, hg⟩ := (C63_multiplier hσ (N := 5) (a := 2) (by norm_num) (by norm_num) (by norm_num) (by decide)).1
  refine ⟨σ, gs, hσ, hg, ?_, ?_⟩
  · have := C63_measure hσ (N := 5) (a := 2) (by norm_num) (by norm_num) (by norm_num) hg (v := 2) (V := reg2) rfl
      (by rw [clog5]; rfl) reg_norm reg_supp (c := 0) (x := 1) (by norm_num) (by norm_num)
    rw [clog5] at this
    rw [show reg2.f (shorIdx 3 0 1) = ⟨3 / 5, 0⟩ by rw [reg2_f (by decide)]; rfl] at this
    rw [show (9 / 25 : ℝ) = (⟨3 / 5, 0⟩ : CR).mag2 by norm_num [Cx.mag2]]
    exact this
  · have := C63_measure hσ (N := 5) (a := 2) (by norm_num) (by norm_num) (by norm_num) hg (v := 2) (V := reg2) rfl
      (by rw [clog5]; rfl) reg_norm reg_supp (c := 1) (x := 1) (by norm_num) (by norm_num)
    rw [clog5] at this
    rw [show reg2.f (shorIdx 3 1 1) = ⟨4 / 5, 0⟩ by rw [reg2_f (by decide), if_neg (by decide), if_pos (by decide)]] at this
    rw [show (16 / 25 : ℝ) = (⟨4 / 5, 0⟩ : CR).mag2 by norm_num [Cx.mag2]]
    exact this

/-- `N = 6`, `a = 2`: `u_a` ends the program. -/
example : ¬ ∃ gs, UA 6 2 0 gs := (C63_exits (by norm_num) (by norm_num) (by norm_num) (by decide)).2

end QDD.Props
