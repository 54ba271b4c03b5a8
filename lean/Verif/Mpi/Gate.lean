import Verif.Props.Canon
import Mathlib.Tactic.IntervalCases
/-!
# C31: `getMPIGate` (src/dd.cpp 604-630)
-/

set_option linter.unusedSectionVars false
set_option linter.unusedVariables false
set_option linter.unusedSimpArgs false

namespace QDD

section model
variable {W : Type} [WOps W]

/-- `children[index]` with `index = 2 * (row >= border) + (col >= border)` (dd.cpp 617-625). -/
def mpiChild (nd : MNode W) (row col border : Nat) : Edge W :=
  match (if border ≤ row then 2 else 0) + (if border ≤ col then 1 else 0) with
  | 0 => nd.c0
  | 1 => nd.c1
  | 2 => nd.c2
  | _ => nd.c3

/-- `getMPIGate(root, row, col, world_size)` (dd.cpp 604-630): reads nodes only.  The asserts are those of dd.cpp
610-611. -/
def getMPIGate (mem : Nat → Option (MNode W)) (root : Edge W) (row col ws : Nat) : Except Err (Edge W) :=
  match root.n with
  | none => .ok root
  | some p =>
    if hw : ws ≤ 1 then .ok root
    else if ws &&& (ws - 1) ≠ 0 then .error .assert
    else if ¬ (row < ws ∧ col < ws) then .error .assert
    else match mem p with
      | none => .error .badNode
      | some nd =>
        let border := ws / 2
        let c := mpiChild nd row col border
        getMPIGate mem ⟨WOps.mul c.w root.w, c.n⟩ (row % border) (col % border) border
termination_by ws
decreasing_by omega

end model

namespace Props
open Spec Api ExactW

variable {K : Type} [Field K] [LinearOrder K] [IsStrictOrderedRing K]

/-- The block `(r, c)` of `F`, of size `2^m`. -/
def blk (F : Nat → Nat → C K) (m r c : Nat) : Nat → Nat → C K := fun i j => F (r * 2 ^ m + i) (c * 2 ^ m + j)

/-- No block met when cutting the `n`-qubit matrix `F` down to block `(row, col)` of `2^g` by `2^g` is (away from zero) an
identity on its top qubit, except multiples of the identity when the rest of the path is diagonal. -/
def Aligned (F : Nat → Nat → C K) (n g row col : Nat) : Prop := ∀ d < g,
  let B := blk F (n - d) (row / 2 ^ (g - d)) (col / 2 ^ (g - d))
  (∀ i < 2 ^ (n - d), ∀ j < 2 ^ (n - d), B i j = 0) ∨
  ¬ (⟨n - d, B⟩ : Mat K).TopIdentity ∨
  (row % 2 ^ (g - d) = col % 2 ^ (g - d) ∧
    ∃ c : C K, ∀ i < 2 ^ (n - d), ∀ j < 2 ^ (n - d), B i j = if i = j then c else 0)

namespace MpiG

theorem pow2_and (g : Nat) : 2 ^ (g + 1) &&& (2 ^ (g + 1) - 1) = 0 := by
  apply Nat.eq_of_testBit_eq
  intro b
  rw [Nat.testBit_and, Nat.testBit_two_pow_sub_one, Nat.testBit_two_pow, Nat.zero_testBit]
  by_cases h : g + 1 = b <;> simp [h]

theorem mpiChild_eq (nd : MNode (C K)) {row col b : Nat} :
    mpiChild nd row col b = nd.child (decide (b ≤ row)) (decide (b ≤ col)) := by
  unfold mpiChild MNode.child
  by_cases h : b ≤ row <;> by_cases h' : b ≤ col <;> simp [h, h']

theorem split_row {g row : Nat} (h : row < 2 ^ (g + 1)) :
    row / 2 ^ g = bit (decide (2 ^ g ≤ row)) := by
  have := Nat.two_pow_pos g
  by_cases hb : 2 ^ g ≤ row
  · simp only [hb, bit, decide_true, if_true]
    rw [Nat.pow_succ] at h
    exact Nat.div_eq_of_lt_le (by omega) (by omega)
  · simp only [hb, bit, decide_false]
    exact Nat.div_eq_of_lt (by omega)

theorem bidx_eq (k : Nat) (b : Bool) (i : Nat) : bidx k b i = bit b * 2 ^ k + i := by
  cases b <;> simp [bidx, bit]

/-- Cutting in two stages. -/
theorem blk_blk (F : Nat → Nat → C K) {n g d row col : Nat} (hd : d ≤ g) (hg : g ≤ n) :
    blk (blk F n (row / 2 ^ g) (col / 2 ^ g)) (n - d) (row % 2 ^ g / 2 ^ (g - d)) (col % 2 ^ g / 2 ^ (g - d)) =
      blk F (n - d) (row / 2 ^ (g - d)) (col / 2 ^ (g - d)) := by
  have key : ∀ x i, x / 2 ^ g * 2 ^ n + (x % 2 ^ g / 2 ^ (g - d) * 2 ^ (n - d) + i) = x / 2 ^ (g - d) * 2 ^ (n - d) + i := by
    intro x i
    have h1 : 2 ^ g = 2 ^ (g - d) * 2 ^ d := by rw [← Nat.pow_add]; congr 1; omega
    have h2 : 2 ^ n = 2 ^ d * 2 ^ (n - d) := by rw [← Nat.pow_add]; congr 1; omega
    have h3 : x / 2 ^ (g - d) = x / 2 ^ g * 2 ^ d + x % 2 ^ g / 2 ^ (g - d) := by
      rw [h1, ← Nat.div_div_eq_div_mul, Nat.mod_mul_right_div_self]
      rw [Nat.mul_comm]; exact (Nat.div_add_mod _ _).symm
    rw [h3, h2]; ring
  funext i j
  simp only [blk, key]

theorem Aligned.tail {F : Nat → Nat → C K} {n g row col : Nat} (hg : g ≤ n) (h : Aligned F (n + 1) (g + 1) row col) :
    Aligned (blk F n (row / 2 ^ g) (col / 2 ^ g)) n g (row % 2 ^ g) (col % 2 ^ g) := by
  intro d hd
  have := h (d + 1) (by omega)
  rw [show n + 1 - (d + 1) = n - d by omega, show g + 1 - (d + 1) = g - d by omega] at this
  rw [blk_blk F (by omega) hg]
  have hm : ∀ x, x % 2 ^ g % 2 ^ (g - d) = x % 2 ^ (g - d) := fun x =>
    Nat.mod_mod_of_dvd _ (pow_dvd_pow 2 (by omega))
  rw [hm, hm]
  exact this

theorem mden_smul (mem : Nat → Option (MNode (C K))) (k : Nat) (w : C K) (n : Option Nat) (i j : Nat) :
    mden mem k ⟨w, n⟩ i j = w * mptr mem k n i j := rfl

/-- Whatever the path, the call returns an edge that fits the rank's qubits, unless it dereferences garbage; a zero root
gives zero. -/
theorem getMPIGate_zero {env : Env (C K)} {s : St (C K)} (hi : Inv env s) : ∀ {g n row col : Nat} {e : Edge (C K)},
    g ≤ n → MOk env s n e.n → row < 2 ^ g → col < 2 ^ g →
    ∃ e', getMPIGate s.mt.mem e row col (2 ^ g) = .ok e' ∧ MOk env s (n - g) e'.n ∧ (e.w = 0 → e'.w = 0) := by
  intro g
  induction g with
  | zero =>
    intro n row col e hg hm hr hc
    refine ⟨e, ?_, hm, id⟩
    unfold getMPIGate
    cases e.n <;> simp
  | succ g ih =>
    intro n row col e hg hm hr hc
    have hpos := Nat.two_pow_pos g
    rcases hm with hn | ⟨p, nd, hn, h2, h3⟩
    · refine ⟨e, ?_, .inl hn, id⟩
      unfold getMPIGate; rw [hn]
    · obtain ⟨v, hv, _⟩ := hi.mlevel h2
      have hc' := (hi.mn p nd h2).ok' (decide (2 ^ g ≤ row)) (decide (2 ^ g ≤ col)) hv
      obtain ⟨e', h4, h5, h6⟩ := ih (n := n - 1) (row := row % 2 ^ g) (col := col % 2 ^ g)
        (e := ⟨WOps.mul (nd.child (decide (2 ^ g ≤ row)) (decide (2 ^ g ≤ col))).w e.w,
          (nd.child (decide (2 ^ g ≤ row)) (decide (2 ^ g ≤ col))).n⟩) (by omega)
        (hc'.mono (by omega)) (Nat.mod_lt _ hpos) (Nat.mod_lt _ hpos)
      refine ⟨e', ?_, by rw [show n - (g + 1) = n - 1 - g by omega]; exact h5, fun hw => h6 (by rw [hw, mul_eq, mul_zero])⟩
      unfold getMPIGate
      have hhalf : 2 ^ (g + 1) / 2 = 2 ^ g := by rw [Nat.pow_succ]; omega
      have h1 : ¬ 2 ^ (g + 1) ≤ 1 := by rw [Nat.pow_succ]; omega
      simp only [hn, h1, dif_neg, not_false_iff, pow2_and, ne_eq, not_true, if_false, hr, hc, and_self, h2.1, hhalf,
        mpiChild_eq]
      exact h4

/-- The block is right when the path is aligned. -/
theorem getMPIGate_spec {env : Env (C K)} {s : St (C K)} (hi : Inv env s) : ∀ {g n row col : Nat} {e : Edge (C K)}
    {F : Nat → Nat → C K}, g ≤ n → MRel env s ⟨n, F⟩ e → row < 2 ^ g → col < 2 ^ g → Aligned F n g row col →
    ∃ e', getMPIGate s.mt.mem e row col (2 ^ g) = .ok e' ∧ MRel env s ⟨n - g, blk F (n - g) row col⟩ e' := by
  intro g
  induction g with
  | zero =>
    intro n row col e F hg hm hr hc ha
    have hr : row = 0 := by simpa using hr
    have hc : col = 0 := by simpa using hc
    subst hr hc
    refine ⟨e, ?_, ?_⟩
    · unfold getMPIGate
      cases e.n <;> simp
    · refine ⟨hm.1, fun i hi j hj => ?_⟩
      simp only [blk, Nat.zero_mul, Nat.zero_add]
      exact hm.2 i hi j hj
  | succ g ih =>
    intro n row col e F hg hm hr hc ha
    have hpos := Nat.two_pow_pos g
    have hmF : ∀ i < 2 ^ n, ∀ j < 2 ^ n, mden s.mt.mem n e i j = F i j := hm.2
    have hge : ∀ x i, x < 2 ^ (g + 1) → i < 2 ^ (n - (g + 1)) → x * 2 ^ (n - (g + 1)) + i < 2 ^ n := by
      intro x i hx hi
      have h1 : 2 ^ n = 2 ^ (g + 1) * 2 ^ (n - (g + 1)) := by rw [← Nat.pow_add]; congr 1; omega
      rw [h1]
      calc x * 2 ^ (n - (g + 1)) + i < x * 2 ^ (n - (g + 1)) + 2 ^ (n - (g + 1)) := by omega
        _ = (x + 1) * 2 ^ (n - (g + 1)) := by ring
        _ ≤ _ := Nat.mul_le_mul_right _ hx
    -- the zero case
    have zero : e.w = 0 → ∃ e', getMPIGate s.mt.mem e row col (2 ^ (g + 1)) = .ok e' ∧
        MRel env s ⟨n - (g + 1), blk F (n - (g + 1)) row col⟩ e' := by
      intro hw
      obtain ⟨e', h1, h2, h3⟩ := getMPIGate_zero hi hg hm.1 hr hc
      refine ⟨e', h1, h2, fun i hi j hj => ?_⟩
      show mden _ _ _ _ _ = F _ _
      rw [← hmF _ (hge _ _ hr hi) _ (hge _ _ hc hj)]
      unfold mden; rw [hw, h3 hw, zero_mul, zero_mul]
    by_cases hw : e.w = 0
    · exact zero hw
    have h0 := ha 0 (by omega)
    simp only [Nat.sub_zero, Nat.div_eq_of_lt hr, Nat.div_eq_of_lt hc, Nat.mod_eq_of_lt hr, Nat.mod_eq_of_lt hc] at h0
    have hF : blk F n 0 0 = F := by funext i j; simp [blk]
    rw [hF] at h0
    rcases h0 with h0 | h0 | ⟨hrc, c, h0⟩
    · exfalso
      obtain ⟨i, j, h1, h2, h3⟩ := mptr_nonzero hi hm.1
      have := hmF i h1 j h2
      rw [h0 i h1 j h2] at this
      exact mul_ne_zero hw h3 this
    · rcases hm.full hi (fun _ => h0) with ⟨_, h⟩ | ⟨p, nd, hn, h2, h3⟩
      · have h : n = 0 := h
        omega
      · obtain ⟨m, rfl⟩ : ∃ m, n = m + 1 := ⟨n - 1, by omega⟩
        have hv : nd.v = (m : Int) := by
          have h3 : nd.v + 1 = ((m + 1 : Nat) : Int) := h3
          push_cast at h3; omega
        have hc' := (hi.mn p nd h2).ok' (decide (2 ^ g ≤ row)) (decide (2 ^ g ≤ col)) hv
        obtain ⟨e', h4, h5⟩ := ih (n := m) (row := row % 2 ^ g) (col := col % 2 ^ g)
          (e := ⟨WOps.mul (nd.child (decide (2 ^ g ≤ row)) (decide (2 ^ g ≤ col))).w e.w,
            (nd.child (decide (2 ^ g ≤ row)) (decide (2 ^ g ≤ col))).n⟩) (F := blk F m (row / 2 ^ g) (col / 2 ^ g)) (by omega)
          ⟨hc', fun i hi j hj => by
            show mden _ _ _ _ _ = F _ _
            have hi : i < 2 ^ m := hi
            have hj : j < 2 ^ m := hj
            rw [split_row hr, split_row hc, ← bidx_eq, ← bidx_eq, ← hmF _ (bidx_lt hi _) _ (bidx_lt hj _)]
            unfold mden
            rw [hn, mptr_top h2.1 hv _ _ hi hj, mul_eq]
            unfold mden
            ring⟩
          (Nat.mod_lt _ hpos) (Nat.mod_lt _ hpos) (Aligned.tail (by omega) ha)
        refine ⟨e', ?_, ?_⟩
        · unfold getMPIGate
          have hhalf : 2 ^ (g + 1) / 2 = 2 ^ g := by rw [Nat.pow_succ]; omega
          have h1 : ¬ 2 ^ (g + 1) ≤ 1 := by rw [Nat.pow_succ]; omega
          simp only [hn, h1, dif_neg, not_false_iff, pow2_and, ne_eq, not_true, if_false, hr, hc, and_self, h2.1, hhalf,
            mpiChild_eq]
          exact h4
        · have hb := blk_blk F (n := m) (g := g) (d := g) (row := row) (col := col) (le_refl _) (by omega)
          simp only [Nat.sub_self, Nat.pow_zero, Nat.div_one] at hb
          rw [hb] at h5
          rw [show m + 1 - (g + 1) = m - g by omega]
          exact h5
    · -- a multiple of the identity is a terminal edge
      have hn : e = ⟨c, none⟩ := by
        refine mden_canon hi hm.1 (.inl rfl) hw fun i h1 j h2 => ?_
        rw [show mden s.mt.mem (⟨n, F⟩ : Mat K).k e i j = F i j from hmF i h1 j h2, h0 i h1 j h2]
        have hI : MRel env s ⟨0, fun _ _ => c⟩ ⟨c, none⟩ := ⟨.inl rfl, fun i _ j _ => by simp [mden, mptr]⟩
        rw [hI.at (n := n) (Nat.zero_le _) h1 h2]
        simp [Mat.at]
      subst hn
      refine ⟨⟨c, none⟩, by unfold getMPIGate; rfl, .inl rfl, fun i hi' j hj => ?_⟩
      have hI : MRel env s ⟨0, fun _ _ => c⟩ ⟨c, none⟩ := ⟨.inl rfl, fun i _ j _ => by simp [mden, mptr]⟩
      rw [hI.at (n := n - (g + 1)) (Nat.zero_le _) hi' hj]
      show _ = F _ _
      rw [h0 _ (hge _ _ hr hi') _ (hge _ _ hc hj), hrc]
      simp [Mat.at]

end MpiG

/-- **C31, partial.** After any history, for every live matrix `M` read as an `n`-qubit matrix and all `2^g` ranks with
`g ≤ n`: if the path to block `(row, col)` is aligned, `getMPIGate` returns (without error) an edge denoting exactly that
block.  Missing: paths through identity-stripped levels, for which the claim is false (`C31_wrong`). -/
theorem C31_block_partial (cfg : Cfg K) (thr thrM : Nat) (cs : List (Cmd K)) (h : Heap K) (σ : Sys K) (os : List (Obs K))
    (hR : Hist cfg thr thrM cs h σ os) (m : Nat) (M : Mat K) (hM : h.ms[m]? = some M) (n g row col : Nat) (hn : M.k ≤ n)
    (hg : g ≤ n) (hr : row < 2 ^ g) (hc : col < 2 ^ g) (ha : Aligned (M.at n) n g row col) :
    ∃ e e', σ.d.ms[m]? = some e ∧ getMPIGate σ.st.mt.mem e row col (2 ^ g) = .ok e' ∧
      ∀ i < 2 ^ (n - g), ∀ j < 2 ^ (n - g),
        mden σ.st.mt.mem (n - g) e' i j = M.at n (row * 2 ^ (n - g) + i) (col * 2 ^ (n - g) + j) := by
  obtain ⟨e, he, hm⟩ := forall₂_get hR.rel.data.ms hM
  obtain ⟨e', h1, h2⟩ := MpiG.getMPIGate_spec hR.rel.inv (e := e) (F := M.at n) hg
    ⟨hm.1.mono hn, fun i hi j hj => hm.at hn hi hj⟩ hr hc ha
  exact ⟨e, e', he, h1, h2.2⟩

/-- Pauli X on one qubit. -/
def xMat : Mat K := ⟨1, fun i j => if i = j then 0 else 1⟩

/-- A gate on qubit 0 of `n ≥ 2` qubits cut for two ranks: whatever the block, the code returns a multiple of the identity,
with the entry of the 2x2 matrix as factor. -/
theorem MpiG.low_block {env : Env (C K)} {s : St (C K)} (hinv : Inv env s) {M A : Mat K} {e : Edge (C K)} (rel : MRel env s M e)
    (hk : 2 ≤ M.k) (hA : A.k = 1) (hX : ∀ i < 2 ^ M.k, ∀ j < 2 ^ M.k, M.F i j = A.at M.k i j)
    (hns : A.F 0 1 ≠ 0 ∨ A.F 1 0 ≠ 0 ∨ A.F 0 0 ≠ A.F 1 1) (r c : Bool) :
    ∃ e', getMPIGate s.mt.mem e (bit r) (bit c) 2 = .ok e' ∧
      ∀ k, ∀ i < 2 ^ k, ∀ j < 2 ^ k, mden s.mt.mem k e' i j = if i = j then A.F (bit r) (bit c) else 0 := by
  have h2k : 2 ≤ 2 ^ M.k := by
    have := Nat.pow_le_pow_right (n := 2) (by decide) (show 1 ≤ M.k by omega)
    simpa using this
  have hsm : ∀ i < 2, ∀ j < 2, M.F i j = A.F i j := by
    intro i hi j hj
    rw [hX i (by omega) j (by omega)]
    unfold Mat.at
    rw [hA, Nat.pow_one, Nat.div_eq_of_lt hi, Nat.div_eq_of_lt hj, if_pos rfl, Nat.mod_eq_of_lt hi, Nat.mod_eq_of_lt hj]
  have hN : MNonzero M := by
    rcases hns with h | h | h
    · exact ⟨0, by omega, 1, by omega, by rw [hsm 0 (by decide) 1 (by decide)]; exact h⟩
    · exact ⟨1, by omega, 0, by omega, by rw [hsm 1 (by decide) 0 (by decide)]; exact h⟩
    · by_cases h0 : A.F 0 0 = 0
      · refine ⟨1, by omega, 1, by omega, ?_⟩
        rw [hsm 1 (by decide) 1 (by decide)]
        intro h1; exact h (by rw [h0, h1])
      · exact ⟨0, by omega, 0, by omega, by rw [hsm 0 (by decide) 0 (by decide)]; exact h0⟩
  have hlow := no_node_above hinv rel hN (show A.k ≤ M.k by omega) hX
  have hok : MOk env s 1 e.n := by
    rcases rel.1 with hx | ⟨p, nd, h1, h2, h3⟩
    · exact .inl hx
    · exact .inr ⟨p, nd, h1, h2, by have := hlow p nd h1 h2.1; rw [hA] at this; exact_mod_cast this⟩
  have relX : ∀ i < 2, ∀ j < 2, mden s.mt.mem 1 e i j = A.F i j := by
    intro i hi j hj
    have hl : MRel env s ⟨1, mden s.mt.mem 1 e⟩ e := ⟨hok, fun _ _ _ _ => rfl⟩
    have e1 := hl.at (n := M.k) (by show 1 ≤ _; omega) (show i < 2 ^ M.k by omega) (show j < 2 ^ M.k by omega)
    rw [rel.2 i (by omega) j (by omega), hsm i hi j hj] at e1
    unfold Mat.at at e1
    simp only [Nat.pow_one, Nat.div_eq_of_lt hi, Nat.div_eq_of_lt hj, if_true, Nat.mod_eq_of_lt hi, Nat.mod_eq_of_lt hj] at e1
    exact e1.symm
  rcases hok with hx | ⟨p, nd, h1, h2, h3⟩
  · exfalso
    have h01 := relX 0 (by decide) 1 (by decide)
    have h10 := relX 1 (by decide) 0 (by decide)
    have h00 := relX 0 (by decide) 0 (by decide)
    have h11 := relX 1 (by decide) 1 (by decide)
    rw [mden, hx] at h01 h10 h00 h11
    simp [mptr] at h01 h10 h00 h11
    rcases hns with h | h | h
    · exact h h01.symm
    · exact h h10.symm
    · exact h (by rw [← h00, ← h11])
  · obtain ⟨v, hv, _⟩ := hinv.mlevel h2
    have hv0 : nd.v = ((0 : Nat) : Int) := by push_cast at h3 ⊢; omega
    have hch : ∀ r c, (nd.child r c).n = none := by
      intro r c
      rcases (hinv.mn p nd h2).ok' r c hv0 with hn | ⟨p', nd', h4, h5, h6⟩
      · exact hn
      · obtain ⟨v', hv', _⟩ := hinv.mlevel h5
        push_cast at h6; omega
    have hcw : e.w * (nd.child r c).w = A.F (bit r) (bit c) := by
      have hrc := relX (bit r) (by cases r <;> decide) (bit c) (by cases c <;> decide)
      have := mptr_top (k := 0) (i := 0) (j := 0) h2.1 hv0 r c (by decide) (by decide)
      rw [mden, h1, show bit r = bidx 0 r 0 by cases r <;> rfl, show bit c = bidx 0 c 0 by cases c <;> rfl, this] at hrc
      unfold mden at hrc
      rw [hch r c] at hrc
      simp only [mptr, if_true, mul_one] at hrc
      rw [hrc]
      cases r <;> cases c <;> rfl
    refine ⟨⟨WOps.mul (nd.child r c).w e.w, (nd.child r c).n⟩, ?_, fun k i hi j hj => ?_⟩
    · unfold getMPIGate
      simp only [h1, h2.1]
      rw [dif_neg (by decide), if_neg (by decide), if_neg (by cases r <;> cases c <;> decide)]
      have hm : mpiChild nd (bit r) (bit c) (2 / 2) = nd.child r c := by
        rw [mpiChild_eq]
        cases r <;> cases c <;> rfl
      show getMPIGate _ ⟨WOps.mul (mpiChild nd (bit r) (bit c) (2 / 2)).w e.w, (mpiChild nd (bit r) (bit c) (2 / 2)).n⟩ _ _ 1 = _
      rw [hm, hch r c]
      unfold getMPIGate
      rfl
    · have hI : MRel env s ⟨0, fun _ _ => A.F (bit r) (bit c)⟩ ⟨A.F (bit r) (bit c), none⟩ :=
        ⟨.inl rfl, fun i _ j _ => by simp [mden, mptr]⟩
      rw [hch r c, mul_eq, mul_comm, hcw, hI.at (n := k) (Nat.zero_le _) hi hj]
      simp [Mat.at]

/-- **C31 is false.** After any history, for every live handle of the gate `X` on qubit 0 of `n ≥ 2` qubits and two ranks:
block (0, 0) of the gate is `X` on qubit 0 of the remaining qubits (its entry (0, 1) is 1), but `getMPIGate` returns the zero
matrix, because the identity on the top qubits was stripped and the children of the qubit-0 node are taken instead. -/
theorem C31_wrong (cfg : Cfg K) (thr thrM : Nat) (cs : List (Cmd K)) (h : Heap K) (σ : Sys K) (os : List (Obs K))
    (hR : Hist cfg thr thrM cs h σ os) (m : Nat) (M : Mat K) (hM : h.ms[m]? = some M) (hk : 2 ≤ M.k)
    (hX : ∀ i < 2 ^ M.k, ∀ j < 2 ^ M.k, M.F i j = (xMat : Mat K).at M.k i j) :
    ∃ e e', σ.d.ms[m]? = some e ∧ getMPIGate σ.st.mt.mem e 0 0 2 = .ok e' ∧
      M.at M.k 0 1 = 1 ∧ ∀ i < 2 ^ (M.k - 1), ∀ j < 2 ^ (M.k - 1), mden σ.st.mt.mem (M.k - 1) e' i j = 0 := by
  obtain ⟨e, he, rel⟩ := forall₂_get hR.rel.data.ms hM
  obtain ⟨e', h2, h3⟩ := MpiG.low_block hR.rel.inv rel hk rfl hX (.inl (by simp [xMat])) false false
  refine ⟨e, e', he, h2, ?_, fun i hi j hj => ?_⟩
  · rw [at_self M (Nat.two_pow_pos _) (Nat.one_lt_two_pow (by omega)), hX 0 (Nat.two_pow_pos _) 1 (Nat.one_lt_two_pow (by omega))]
    simp [Mat.at, xMat]
  · rw [h3 _ i hi j hj]
    simp [xMat]

/-- C31's hypotheses are met: the controlled X of `demo_hist` on two qubits cut for two ranks, block (1, 0), which is not
zero. -/
example (cfg : Cfg ℚ) : ∃ σ, Hist cfg 5 5 demoCmds demoHeap σ [.unit, .unit, .unit, .unit, .unit] ∧
    demoHeap.ms[0]? = some demoM0 ∧ Aligned (demoM0.at 2) 2 1 1 0 ∧ demoM0.at 2 (1 * 2 ^ 1 + 0) (0 * 2 ^ 1 + 0) = 1 := by
  obtain ⟨σ, hσ⟩ := demo_hist cfg 5 5
  have hF : ∀ i < 2 ^ 2, ∀ j < 2 ^ 2, demoM0.at 2 i j = demoM0.F i j := fun i hi j hj => at_self demoM0 hi hj
  refine ⟨σ, hσ, rfl, ?_, ?_⟩
  · intro d hd
    obtain rfl : d = 0 := by omega
    refine .inr (.inl ?_)
    rintro ⟨G, hG, h⟩
    refine demoM0_not_top ⟨G, hG, fun i hi j hj => ?_⟩
    have h := h i hi j hj
    have e : blk (demoM0.at 2) 2 (1 / 2) (0 / 2) i j = demoM0.F i j := by
      simp only [blk, Nat.reduceDiv, Nat.zero_mul, Nat.zero_add]
      exact hF i hi j hj
    exact e.symm.trans h
  · rw [hF _ (by decide) _ (by decide)]
    show Spec.gate1 2 demoX 1 [⟨0, true⟩] 2 0 = 1
    unfold Spec.gate1
    rw [if_pos (by decide), if_pos (by decide)]
    rfl

theorem MpiG.x0_eq (i : Nat) (hi : i < 4) (j : Nat) (hj : j < 4) :
    Spec.gate1 2 demoX 0 [] i j = (xMat : Mat ℚ).at 2 i j := by
  have hs : Spec.sat ([] : List Ctrl) 2 i = true := by simp [Spec.sat]
  have hb : (∀ b < 2, b ≠ 0 → i.testBit b = j.testBit b) ↔ i.testBit 1 = j.testBit 1 := by
    constructor
    · intro h; exact h 1 (by decide) (by decide)
    · intro h b hb hb0
      obtain rfl : b = 1 := by omega
      exact h
  unfold Spec.gate1 Mat.at
  simp only [hb, hs, if_true, xMat, Nat.pow_one, demoX]
  interval_cases i <;> interval_cases j <;> simp [bit, Nat.testBit]

/-- `C31_wrong`'s hypotheses are met: X on qubit 0 of two qubits. -/
example (cfg : Cfg ℚ) : ∃ cs h σ os M, Hist cfg 5 5 cs h σ os ∧ h.ms[0]? = some M ∧ 2 ≤ M.k ∧
    ∀ i < 2 ^ M.k, ∀ j < 2 ^ M.k, M.F i j = (xMat : Mat ℚ).at M.k i j := by
  have r0 : Runs cfg.sqrt NQUBITS ([] : List (Cmd ℚ)) ⟨[], []⟩ [] := .nil
  have r1 := r0.cons (c := .gate 2 demoX 0 []) ⟨by decide, by decide, by simp, by simp⟩ rfl
  obtain ⟨σ, hσ⟩ := Hist.of_runs cfg 5 5 r1
  exact ⟨_, _, σ, _, _, hσ, rfl, le_refl _, fun i hi j hj => MpiG.x0_eq i hi j hj⟩

end Props
end QDD
