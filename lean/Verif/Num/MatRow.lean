import Verif.Num.MatMul
/-!
# Rows of products of matrices

Row-wise accuracy of `mm_multiply` and accuracy of `mm_add`, from the entry-wise bounds and the number of non-zero entries in
a row.
-/

set_option linter.unusedSectionVars false
set_option linter.unusedVariables false
set_option linter.unusedSimpArgs false

namespace QDD
namespace Num
open RoundW NumW Prog Safe
variable {W : Type} [WOps W] [RoundW W] [NumW W] {env : Env W}

local notation "ε" => NumW.eps W

open Classical in
/-- One if not zero. -/
noncomputable def ind (z : ℂ) : ℝ := if z = 0 then 0 else 1

theorem ind_nn (z : ℂ) : 0 ≤ ind z := by unfold ind; split <;> norm_num
theorem ind_le (z : ℂ) : ind z ≤ 1 := by unfold ind; split <;> norm_num
theorem ind_zero : ind 0 = 0 := if_pos rfl
theorem ind_mul (x y : ℂ) : ind (x * y) ≤ ind y := by
  unfold ind
  by_cases h : y = 0
  · simp [h]
  · simp only [h, if_false]; split <;> norm_num
theorem ind_mul' (x y : ℂ) : ind (x * y) = ind x * ind y := by
  unfold ind
  by_cases h : y = 0 <;> by_cases h' : x = 0 <;> simp [h, h']

/-- The number of non-zero entries in a row. -/
noncomputable def rowC (s : St W) (k : Nat) (n : Option Nat) (i : Nat) : ℝ := bsum k fun j => ind (mp s.mt.mem k n i j)

theorem rowC_skip {s : St W} {k : Nat} {n : Option Nat}
    (h : n = none ∨ ∃ p nd, n = some p ∧ s.mt.mem p = some nd ∧ nd.v ≠ (k : Int)) (i : Nat) :
    rowC s (k + 1) n i = rowC s k n i := by
  have hm : ∀ j, mp s.mt.mem (k + 1) n i j = if i.testBit k = j.testBit k then mp s.mt.mem k n i j else 0 := by
    intro j
    rcases h with rfl | ⟨p, nd, rfl, h1, h2⟩
    · rfl
    · simp only [mp, h1, if_neg h2]
  unfold rowC
  simp only [bsum, hm]
  have h0 : ∀ j < 2 ^ k, j.testBit k = false := fun j hj => testBit_lt hj
  have h1 : ∀ j < 2 ^ k, (2 ^ k + j).testBit k = true := fun j hj => testBit_add hj
  have hc : ∀ j, mp s.mt.mem k n i (2 ^ k + j) = mp s.mt.mem k n i j := fun j =>
    mp_congr _ _ _ (fun _ _ => rfl) (lowEq_add k j)
  cases hb : i.testBit k
  · have e1 : bsum k (fun j => ind (if false = j.testBit k then mp s.mt.mem k n i j else 0)) =
        bsum k fun j => ind (mp s.mt.mem k n i j) := bsum_congr fun j hj => by simp [h0 j hj]
    have e2 : bsum k (fun j => ind (if false = (2 ^ k + j).testBit k then mp s.mt.mem k n i (2 ^ k + j) else 0)) =
        bsum k fun _ => (0 : ℝ) := bsum_congr fun j hj => by simp [h1 j hj, ind_zero]
    rw [e1, e2]; simp
  · have e1 : bsum k (fun j => ind (if true = j.testBit k then mp s.mt.mem k n i j else 0)) =
        bsum k fun _ => (0 : ℝ) := bsum_congr fun j hj => by simp [h0 j hj, ind_zero]
    have e2 : bsum k (fun j => ind (if true = (2 ^ k + j).testBit k then mp s.mt.mem k n i (2 ^ k + j) else 0)) =
        bsum k fun j => ind (mp s.mt.mem k n i j) := bsum_congr fun j hj => by simp [h1 j hj, hc]
    rw [e1, e2]; simp

theorem rowC_node {s : St W} {k : Nat} {p : Nat} {nd : MNode W} (h : s.mt.mem p = some nd) (hv : nd.v = (k : Int)) (i : Nat) :
    rowC s (k + 1) (some p) i =
      ind (val (nd.child (i.testBit k) false).w) * rowC s k (nd.child (i.testBit k) false).n i +
      ind (val (nd.child (i.testBit k) true).w) * rowC s k (nd.child (i.testBit k) true).n i := by
  unfold rowC
  simp only [bsum, mp, h, if_pos hv]
  rw [← bsum_mul, ← bsum_mul]
  congr 1
  · refine bsum_congr fun j hj => ?_
    rw [testBit_lt hj, ind_mul']
  · refine bsum_congr fun j hj => ?_
    rw [testBit_add hj, ind_mul', mp_congr _ _ _ (fun _ _ => rfl) (lowEq_add k j)]

/-- A diagram of row support `N` has at most `N` non-zero entries in each row. -/
theorem rowC_le {s : St W} : ∀ {k n N}, Sup env s k n N → ∀ i, rowC s k n i ≤ N
  | 0, n, N, h, i => by
    have : (1 : ℝ) ≤ N := by exact_mod_cast h.2
    simpa [rowC, bsum, mp, ind] using this
  | k + 1, n, N, h, i => by
    rcases h with ⟨h1, h2⟩ | ⟨p, nd, rfl, h2, h3, h0, M, h4, h5⟩
    · rw [rowC_skip (by
        rcases h1 with h1 | ⟨p, nd, h1, h3, h4⟩
        · exact .inl h1
        · exact .inr ⟨p, nd, h1, h3.1, by omega⟩)]
      exact rowC_le h2 i
    · rw [rowC_node h2.1 h3]
      have key : ∀ c, ind (val (nd.child (i.testBit k) c).w) * rowC s k (nd.child (i.testBit k) c).n i ≤ M (i.testBit k) c := by
        intro c
        rcases h4 (i.testBit k) c with h | h
        · rw [h, zeroE, val_zero, ind_zero, zero_mul]
          exact Nat.cast_nonneg _
        · refine (mul_le_of_le_one_left (bsum_nonneg _ fun j => ind_nn _) (ind_le _)).trans (rowC_le h i)
      refine (add_le_add (key false) (key true)).trans ?_
      exact_mod_cast h5 (i.testBit k)

theorem mrowC_le {s : St W} {k : Nat} {e : Edge W} {N : Nat} (h : MOk env s k e N) (i : Nat) :
    bsum k (fun j => ind (md s k e i j)) ≤ N := by
  rcases h with h | h
  · have : ∀ j, ind (md s k e i j) = 0 := fun j => by
      unfold md
      rw [val_z h.1, MulZeroClass.zero_mul, ind_zero]
    rw [bsum_congr (g := fun _ => (0 : ℝ)) fun j _ => this j]
    rw [bsum_eq]; simp
  · exact (bsum_le k fun j _ => ind_mul _ _).trans (rowC_le h i)

/-- At most `Nl * Nr` entries of a row of a product are not zero. -/
theorem mmF_row {s : St W} {k : Nat} {l r : Edge W} {Nl Nr : Nat} (hl : MOk env s k l Nl) (hr : MOk env s k r Nr) (i : Nat) :
    bsum k (fun j => ind (mmF s k l r i j)) ≤ Nl * Nr := by
  have h1 : ∀ j, ind (mmF s k l r i j) ≤ ∑ c ∈ Finset.range (2 ^ k), ind (md s k l i c) * ind (md s k r c j) := by
    intro j
    by_cases h : mmF s k l r i j = 0
    · rw [h, ind_zero]
      exact Finset.sum_nonneg fun c _ => mul_nonneg (ind_nn _) (ind_nn _)
    · unfold mmF at h
      rw [bsum_eq] at h
      obtain ⟨c, hc, hne⟩ := Finset.exists_ne_zero_of_sum_ne_zero h
      have h2 : ind (md s k l i c) * ind (md s k r c j) = 1 := by
        rw [← ind_mul']; exact if_neg hne
      refine (ind_le _).trans ?_
      rw [← h2]
      exact Finset.single_le_sum (f := fun c => ind (md s k l i c) * ind (md s k r c j))
        (fun c _ => mul_nonneg (ind_nn _) (ind_nn _)) hc
  refine (bsum_le k fun j _ => h1 j).trans ?_
  rw [bsum_eq, Finset.sum_comm]
  have h2 : ∀ c ∈ Finset.range (2 ^ k), ∑ j ∈ Finset.range (2 ^ k), ind (md s k l i c) * ind (md s k r c j) ≤
      ind (md s k l i c) * Nr := by
    intro c _
    rw [← Finset.mul_sum, ← bsum_eq]
    exact mul_le_mul_of_nonneg_left (mrowC_le hr c) (ind_nn _)
  refine (Finset.sum_le_sum h2).trans ?_
  rw [← Finset.sum_mul, ← bsum_eq]
  exact mul_le_mul_of_nonneg_right (mrowC_le hl i) (Nat.cast_nonneg _)

/-- Entry-wise errors summed over a row in which few entries are not zero. -/
theorem row_of_entry {k : Nat} {f g : Nat → ℂ} {N M : ℝ} {δ : ℝ} (hδ : 0 ≤ δ) (hf : bsum k (fun j => ind (f j)) ≤ N)
    (hg : bsum k (fun j => ind (g j)) ≤ M) (h : ∀ j, ‖f j - g j‖ ≤ δ) : bsum k (fun j => ‖f j - g j‖) ≤ (N + M) * δ := by
  have h1 : ∀ j, ‖f j - g j‖ ≤ δ * (ind (f j) + ind (g j)) := by
    intro j
    have := h j
    unfold ind
    by_cases a : f j = 0 <;> by_cases b : g j = 0 <;> simp only [a, b, if_true, if_false]
    · simp
    · rw [a] at this; linarith
    · rw [b] at this; linarith
    · linarith
  refine (bsum_le k fun j _ => h1 j).trans ?_
  rw [bsum_mul, bsum_add, mul_comm]
  exact mul_le_mul_of_nonneg_right (by linarith) hδ

/-- Rows of a product. -/
theorem MulEdge.row {s : St W} {k : Nat} {l r e : Edge W} {Nl Nr : Nat} {L R : ℝ} (h : MulEdge env s k l r e)
    (hl : MOk env s k l Nl) (hr : MOk env s k r Nr) (hL : ‖val l.w‖ ≤ L) (hR : ‖val r.w‖ ≤ R) (hL2 : L ≤ 2) (hR2 : R ≤ 2) (i : Nat) :
    bsum k (fun j => ‖md s k e i j - mmF s k l r i j‖) ≤ 2 * (Nl * Nr) * (L * R * Nl * D W k + 20 * Nl * ε) := by
  obtain ⟨h1, h2⟩ := h Nl Nr L R hl hr hL hR hL2 hR2
  have e0 := eps_nn (W := W)
  have hD := D_nn (W := W) k
  have hL0 : 0 ≤ L := (norm_nonneg _).trans hL
  have hR0 : 0 ≤ R := (norm_nonneg _).trans hR
  refine (row_of_entry (by positivity) (mrowC_le h2 i) (mmF_row hl hr i) fun j => h1 i j).trans (le_of_eq ?_)
  push_cast
  ring

/-- `mm_multiply` (dd.cpp 1045-1053). -/
theorem mmMul_num {s : St W} {l r : Edge W} (hs : NInv env s) (hl : MReg env s l.n) (hr : MReg env s r.n) {e s'}
    (h : (mmMul env l r).run s = .ok (e, s')) :
    NInv env s' ∧ ∀ m ≤ NQUBITS, MLv env s' m l.n → MLv env s' m r.n → MulEdge env s' m l r e := by
  unfold mmMul at h
  by_cases hn : l.n = none ∧ r.n = none
  · rw [if_pos hn] at h
    cases h
    refine ⟨hs, fun m hm a b => ?_⟩
    by_cases hzl : Z l.w
    · intro Nl Nr L R h1 h2 h3 h4 h5 h6
      have e0 := eps_nn (W := W)
      have hD := D_nn (W := W) m
      have hL0 : 0 ≤ L := (norm_nonneg _).trans h3
      have hR0 : 0 ≤ R := (norm_nonneg _).trans h4
      refine ⟨fun i j => ?_, .inl ⟨z_mul_left _ hzl, rfl⟩⟩
      have hv : val (WOps.mul l.w r.w) = 0 := val_z (z_mul_left _ hzl)
      rw [mmF_zL _ _ _ (val_z hzl)]
      unfold md
      dsimp only
      rw [hv, MulZeroClass.zero_mul, sub_zero, norm_zero]
      positivity
    by_cases hzr : Z r.w
    · intro Nl Nr L R h1 h2 h3 h4 h5 h6
      have e0 := eps_nn (W := W)
      have hD := D_nn (W := W) m
      have hL0 : 0 ≤ L := (norm_nonneg _).trans h3
      have hR0 : 0 ≤ R := (norm_nonneg _).trans h4
      refine ⟨fun i j => ?_, .inl ⟨z_mul_right _ hzr, rfl⟩⟩
      have hv : val (WOps.mul l.w r.w) = 0 := val_z (z_mul_right _ hzr)
      rw [mmF_eq, val_z hzr, MulZeroClass.mul_zero, MulZeroClass.zero_mul]
      unfold md
      dsimp only
      rw [hv, MulZeroClass.zero_mul, sub_zero, norm_zero]
      positivity
    have := mulEdge_right hs hm a (fun h => hzl h.1) (fun h => hzr h.1) hn.2
    rwa [hn.1] at this
  rw [if_neg hn] at h
  obtain ⟨nl, h1, h2⟩ := readM_run hl
  obtain ⟨nr, g1, g2⟩ := readM_run hr
  obtain ⟨a, b, c⟩ := Safe.rootVar_ok hs.base h2 g2 hn
  rw [run_ok h1, run_ok g1] at h
  have := mmMul2_num a hs b c h
  exact ⟨this.1, this.2.1⟩

/-- `mm_add` (dd.cpp 942-949). -/
theorem mmAdd_num {s : St W} {l r : Edge W} (hs : NInv env s) (hl : MReg env s l.n) (hr : MReg env s r.n) {e s'}
    (h : (mmAdd env l r).run s = .ok (e, s')) :
    NInv env s' ∧ ∀ m ≤ NQUBITS, MLv env s' m l.n → MLv env s' m r.n → AddApx env s' m l r e (A W m) := by
  unfold mmAdd at h
  by_cases hn : l.n = none ∧ r.n = none
  · rw [if_pos hn] at h
    cases h
    refine ⟨hs, fun m hm a b => ?_⟩
    have e0 := eps_nn (W := W)
    refine ⟨fun M c d i j => ?_, fun Nl Nr c d => ?_⟩
    · unfold md
      dsimp only
      rw [hn.1, hn.2, ← add_mul, ← sub_mul, norm_mul]
      have h1 := add_err l.w r.w
      have h2 := mp_le' hs hm (.inl rfl : MLv env s m none) i j
      have hM : 0 ≤ M := (norm_nonneg _).trans c
      have h3 : ε * (1 + ‖val l.w‖ + ‖val r.w‖) ≤ ε * (1 + M + M) := mul_le_mul_of_nonneg_left (by linarith) e0
      have h4 : ‖val (WOps.add l.w r.w) - (val l.w + val r.w)‖ * ‖mp s.mt.mem m none i j‖ ≤ ε * (1 + M + M) * (1001 / 1000) :=
        mul_le_mul (h1.trans h3) h2 (norm_nonneg _) (by positivity)
      have hA := A_ge (W := W) m
      have : 0 ≤ ε * M := mul_nonneg e0 hM
      have : 40 * ε * (1 + M) ≤ A W m * (1 + M) := mul_le_mul_of_nonneg_right hA (by linarith)
      linarith
    · by_cases hzl : Z l.w
      · by_cases hzr : Z r.w
        · exact .inl ⟨z_add hzl hzr, rfl⟩
        · have := d.resolve_left fun h => hzr h.1
          rw [hn.2] at this
          exact .inr (this.mono (Nat.le_add_left _ _))
      · have := c.resolve_left fun h => hzl h.1
        rw [hn.1] at this
        exact .inr (this.mono (Nat.le_add_right _ _))
  rw [if_neg hn] at h
  obtain ⟨nl, h1, h2⟩ := readM_run hl
  obtain ⟨nr, g1, g2⟩ := readM_run hr
  obtain ⟨a, b, c⟩ := Safe.rootVar_ok hs.base h2 g2 hn
  rw [run_ok h1, run_ok g1] at h
  have := mmAdd2_num a hs b c h
  exact ⟨this.1, fun m hm x y => this.apx hm x y⟩

end Num
end QDD
