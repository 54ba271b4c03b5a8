import Verif.Py.EstMean
/-!
# Statistics of independent executions
-/

set_option linter.unusedSectionVars false
set_option linter.unusedVariables false
set_option linter.unusedSimpArgs false

namespace QDD.Py
open Spec Api Gate Finset Props Client

theorem expect_nonneg (n : Nat) {φ : (Nat → Bool) → ℝ} (hφ : ∀ v, 0 ≤ φ v) : ∀ (xs : List Inst) (f : Nat → CR) (val : Nat → Bool),
    0 ≤ expect n φ xs f val := by
  intro xs
  induction xs with
  | nil => intro f val; exact mul_nonneg (nrm_nonneg n f) (hφ val)
  | cons x xs ih =>
    intro f val
    unfold expect
    split
    · rcases hop : x.op with ⟨g, ctl⟩ | _ | ⟨hd, k, M⟩ | _ | _ | _ | _ <;> dsimp only
      · cases x.oper n with
        | none => simp
        | some A => exact ih _ _
      · cases x.oper n with
        | none => simp
        | some A => exact ih _ _
      · cases x.oper n with
        | none => simp
        | some A => exact ih _ _
      · exact ih _ _
      · exact add_nonneg (ih _ _) (ih _ _)
      · exact add_nonneg (ih _ _) (ih _ _)
      · cases x.oper n with
        | none => simp
        | some A => exact ih _ _
    · exact ih _ _

theorem expect_sum (n : Nat) {ι : Type} (S : Finset ι) (φ : ι → (Nat → Bool) → ℝ) : ∀ (xs : List Inst) (f : Nat → CR) (val : Nat → Bool),
    expect n (fun v => ∑ i ∈ S, φ i v) xs f val = ∑ i ∈ S, expect n (φ i) xs f val := by
  intro xs
  induction xs with
  | nil => intro f val; exact Finset.mul_sum _ _ _
  | cons x xs ih =>
    intro f val
    simp only [expect]
    split
    · rcases hop : x.op with ⟨g, ctl⟩ | _ | ⟨hd, k, M⟩ | _ | _ | _ | _ <;> dsimp only
      · cases x.oper n with
        | none => simp
        | some A => exact ih _ _
      · cases x.oper n with
        | none => simp
        | some A => exact ih _ _
      · cases x.oper n with
        | none => simp
        | some A => exact ih _ _
      · exact ih _ _
      · rw [ih, ih, Finset.sum_add_distrib]
      · rw [ih, ih, Finset.sum_add_distrib]
      · cases x.oper n with
        | none => simp
        | some A => exact ih _ _
    · exact ih _ _

theorem nrm_flip {n q : Nat} (hq : q < n) (f : Nat → CR) : nrm n (flip q f) = nrm n f := by
  unfold nrm flip
  refine Finset.sum_nbij' (fun i => i ^^^ 2 ^ q) (fun i => i ^^^ 2 ^ q) ?_ ?_ ?_ ?_ ?_
  · intro i hi; exact mem_range.2 (flip_lt hq (mem_range.1 hi))
  · intro i hi; exact mem_range.2 (flip_lt hq (mem_range.1 hi))
  · intro i _; simp [Nat.xor_assoc]
  · intro i _; simp [Nat.xor_assoc]
  · intro i _; rfl

/-- Supported instructions keep the total probability. -/
theorem expect_one {n nc : Nat} {ms} : ∀ (xs : List Inst), (∀ x ∈ xs, Fine n nc ms x) → ∀ (f : Nat → CR) (val : Nat → Bool),
    expect n (fun _ => 1) xs f val = nrm n f := by
  intro xs
  induction xs with
  | nil => intro _ f val; exact mul_one _
  | cons x xs ih =>
    intro hfine f val
    have hx := hfine x (by simp)
    have ih := ih fun y hy => hfine y (by simp [hy])
    by_cases hen : x.enabled val = true
    · rcases hop : x.op with ⟨g, ctl⟩ | _ | ⟨hd', k, M⟩ | _ | _ | _ | _
      · obtain ⟨A, hA, hiso⟩ := gate_oper hx hop
        rw [expect, if_pos hen, hop]
        dsimp only
        rw [hA]
        dsimp only
        rw [ih]
        exact hiso.norm2 f
      · have := hx.op; rw [hop] at this; exact this.elim
      · have hA : x.oper n = some (onQubits n M x.qargs) := by unfold Inst.oper; rw [hop]
        have hf := hx.op
        rw [hop] at hf
        obtain ⟨h1, h2, _, h4⟩ := hf
        rw [expect, if_pos hen, hop]
        dsimp only
        rw [hA]
        dsimp only
        rw [ih, h1]
        exact (onQubits_isometry h2 h4).norm2 f
      · rw [expect, if_pos hen, hop]; exact ih _ _
      · rw [expect, if_pos hen, hop]
        dsimp only
        rw [ih, ih, nrm_split]
      · have har := hx.arity
        rw [hop] at har
        obtain ⟨har1, har2⟩ := har
        obtain ⟨q, hq⟩ := List.length_eq_one_iff.1 har1
        have hqn : q < n := hx.qubits q (by rw [hq]; simp)
        rw [expect, if_pos hen, hop, hq]
        dsimp only [List.headD_cons]
        rw [ih, ih, nrm_flip hqn, nrm_split]
      · have := hx.op; rw [hop] at this; exact this.elim
    · rw [expect, if_neg hen]; exact ih _ _

theorem Circ.prob_nonneg (c : Circ) (k : List Bool) : 0 ≤ c.prob k := by
  classical
  unfold Circ.prob
  exact expect_nonneg _ (fun v => by split <;> norm_num) _ _ _

/-- The probabilities of the outcomes of a supported circuit sum to 1. -/
theorem Circ.prob_total {ms} {c : Circ} (hc : ∀ x ∈ c.data, Fine c.nq c.nc ms x) : ∑ k ∈ allKeys c.nc, c.prob k = 1 := by
  classical
  unfold Circ.prob
  rw [← expect_sum]
  have : (fun v : Nat → Bool => ∑ k ∈ allKeys c.nc, (if k = ((List.range c.nc).map v).reverse then (1 : ℝ) else 0)) = fun _ => 1 := by
    funext v
    rw [Finset.sum_ite_eq' (allKeys c.nc) (((List.range c.nc).map v).reverse) (fun _ => (1 : ℝ)), if_pos (mem_allKeys.2 (by simp))]
  rw [this, expect_one c.data hc]
  exact nrm_zeroState c.nq

/-- Outcomes of another length do not occur. -/
theorem Circ.prob_length {c : Circ} {k : List Bool} (h : k.length ≠ c.nc) : c.prob k = 0 := by
  classical
  unfold Circ.prob
  have := expect_const_mul c.nq 0 (fun _ => 1) c.data zeroState (fun _ => false)
  rw [zero_mul (expect _ _ _ _ _)] at this
  refine Eq.trans ?_ this
  congr 1
  funext v
  rw [if_neg, zero_mul]
  rintro rfl
  simp at h

/-! ## Independent draws from a finite distribution -/

section Indep
variable {K : Type} [DecidableEq K] {S : Finset K} {w : K → ℝ} {ι : Type} [Fintype ι] [DecidableEq ι] {t : ι → Finset K} {ws : ι → K → ℝ}

/-- Two positions are independent. -/
theorem prod_marginal2 (hw : ∀ i, ∑ k ∈ t i, ws i k = 1) {i0 i1 : ι} (hne : i0 ≠ i1) (g g' : K → ℝ) :
    ∑ ω ∈ Fintype.piFinset t, (∏ i, ws i (ω i)) * (g (ω i0) * g' (ω i1)) = (∑ k ∈ t i0, ws i0 k * g k) * ∑ k ∈ t i1, ws i1 k * g' k := by
  have e : ∀ ω : ι → K, (∏ i, ws i (ω i)) * (g (ω i0) * g' (ω i1)) = ∏ i, ws i (ω i) * ((if i = i0 then g (ω i) else 1) * if i = i1 then g' (ω i) else 1) := by
    intro ω
    rw [Finset.prod_mul_distrib, Finset.prod_mul_distrib]
    congr 1
    rw [Finset.prod_ite_eq' Finset.univ i0 (fun i => g (ω i)), Finset.prod_ite_eq' Finset.univ i1 (fun i => g' (ω i)), if_pos (Finset.mem_univ i0),
      if_pos (Finset.mem_univ i1)]
  simp only [e]
  rw [← Finset.prod_univ_sum t (fun i k => ws i k * ((if i = i0 then g k else 1) * if i = i1 then g' k else 1)),
    Finset.prod_eq_mul i0 i1 hne]
  · simp [hne, hne.symm]
  · intro i _ hi
    simp only [if_neg hi.1, if_neg hi.2, mul_one]
    exact hw i
  · intro h; exact absurd (Finset.mem_univ i0) h
  · intro h; exact absurd (Finset.mem_univ i1) h

/-- The variance of an average over the positions `a 0`, …, `a (s-1)`. -/
theorem var_average (hw : ∀ i, ∑ k ∈ t i, ws i k = 1) {s : Nat} (hs : 0 < s) {a : Fin s → ι} (ha : Function.Injective a) (hS : ∀ j, t (a j) = S)
    (hws : ∀ j, ws (a j) = w) (g : K → ℝ) (hμ : ∑ k ∈ S, w k * g k = 0) :
    ∑ ω ∈ Fintype.piFinset t, (∏ i, ws i (ω i)) * ((∑ j, g (ω (a j))) / s) ^ 2 = (∑ k ∈ S, w k * g k ^ 2) / s := by
  have hs' : (s : ℝ) ≠ 0 := by exact_mod_cast hs.ne'
  have e : ∀ ω : ι → K, (∏ i, ws i (ω i)) * ((∑ j, g (ω (a j))) / s) ^ 2 = (∑ i, ∑ j, (∏ l, ws l (ω l)) * (g (ω (a i)) * g (ω (a j)))) * ((s : ℝ) ^ 2)⁻¹ := by
    intro ω
    rw [div_pow, pow_two (∑ j, g (ω (a j))), Finset.sum_mul_sum, div_eq_mul_inv, ← mul_assoc, Finset.mul_sum]
    congr 1
    exact Finset.sum_congr rfl fun i _ => Finset.mul_sum _ _ _
  simp only [e]
  rw [← Finset.sum_mul, Finset.sum_comm]
  have h1 : ∀ i : Fin s, ∑ ω ∈ Fintype.piFinset t, ∑ j, (∏ l, ws l (ω l)) * (g (ω (a i)) * g (ω (a j))) = ∑ k ∈ S, w k * g k ^ 2 := by
    intro i
    rw [Finset.sum_comm, Finset.sum_eq_single i]
    · have := prod_marginal hw (a i) (fun k => g k ^ 2)
      rw [hS, hws] at this
      rw [← this]
      exact Finset.sum_congr rfl fun ω _ => by ring
    · intro j _ hj
      rw [prod_marginal2 hw (fun h => hj (ha h).symm), hS, hws, hμ, zero_mul]
    · intro h; exact absurd (Finset.mem_univ i) h
  simp only [h1]
  rw [Finset.sum_const, Finset.card_univ, Fintype.card_fin, nsmul_eq_mul]
  field_simp

open Classical in
/-- **Chebyshev's inequality.** -/
theorem chebyshev (hw : ∀ i, ∑ k ∈ t i, ws i k = 1) (h0 : ∀ i k, 0 ≤ ws i k) {s : Nat} (hs : 0 < s) {a : Fin s → ι} (ha : Function.Injective a)
    (hS : ∀ j, t (a j) = S) (hws : ∀ j, ws (a j) = w) (g : K → ℝ) {ε : ℝ} (hε : 0 < ε) :
    1 - (∑ k ∈ S, w k * (g k - ∑ k ∈ S, w k * g k) ^ 2) / (s * ε ^ 2) ≤
      ∑ ω ∈ (Fintype.piFinset t).filter (fun ω => |(∑ j, g (ω (a j))) / s - ∑ k ∈ S, w k * g k| < ε), ∏ i, ws i (ω i) := by
  set μ := ∑ k ∈ S, w k * g k with hμ
  have hs' : (0 : ℝ) < s := by exact_mod_cast hs
  have hw1 : ∑ k ∈ S, w k = 1 := by rw [← hS ⟨0, hs⟩, ← hws ⟨0, hs⟩]; exact hw _
  have hv := var_average hw hs ha hS hws (fun k => g k - μ) (by
    simp only [mul_sub]
    rw [Finset.sum_sub_distrib, ← hμ, ← Finset.sum_mul, hw1, one_mul, sub_self])
  have htot := prod_total hw
  have hsplit := Finset.sum_filter_add_sum_filter_not (Fintype.piFinset t)
    (fun ω => |(∑ j, g (ω (a j))) / s - μ| < ε) (fun ω => ∏ i, ws i (ω i))
  rw [htot] at hsplit
  have hb : ∑ ω ∈ (Fintype.piFinset t).filter (fun ω => ¬ |(∑ j, g (ω (a j))) / s - μ| < ε), ∏ i, ws i (ω i) ≤
      (∑ k ∈ S, w k * (g k - μ) ^ 2) / (s * ε ^ 2) := by
    rw [← div_div, ← hv, Finset.sum_div]
    refine le_trans ?_ (Finset.sum_le_sum_of_subset_of_nonneg (Finset.filter_subset (fun ω => ¬ |(∑ j, g (ω (a j))) / s - μ| < ε) _) fun ω _ _ => by
      have : 0 ≤ ∏ i, ws i (ω i) := Finset.prod_nonneg fun i _ => h0 _ _
      positivity)
    refine Finset.sum_le_sum fun ω hω => ?_
    rw [mem_filter, not_lt] at hω
    have hp : 0 ≤ ∏ i, ws i (ω i) := Finset.prod_nonneg fun i _ => h0 _ _
    have hd : (∑ j, (g (ω (a j)) - μ)) / s = (∑ j, g (ω (a j))) / s - μ := by
      rw [Finset.sum_sub_distrib, Finset.sum_const, Finset.card_univ, Fintype.card_fin, nsmul_eq_mul]
      field_simp
    rw [hd, le_div_iff₀ (by positivity)]
    refine mul_le_mul_of_nonneg_left ?_ hp
    rw [← sq_abs ((∑ j, g (ω (a j))) / s - μ)]
    exact pow_le_pow_left₀ hε.le hω.2 2
  linarith

open Classical in
/-- The frequency of `key`. -/
theorem chebyshev_count [BEq K] [LawfulBEq K] (hw : ∀ i, ∑ k ∈ t i, ws i k = 1) (h0 : ∀ i k, 0 ≤ ws i k) {s : Nat} (hs : 0 < s) {a : Fin s → ι} (ha : Function.Injective a)
    (hS : ∀ j, t (a j) = S) (hws : ∀ j, ws (a j) = w) (key : K) (hkey : key ∉ S → w key = 0) {ε : ℝ} (hε : 0 < ε) :
    1 - 1 / (4 * s * ε ^ 2) ≤
      ∑ ω ∈ (Fintype.piFinset t).filter (fun ω => |((List.ofFn fun j => ω (a j)).count key : ℝ) / s - w key| < ε), ∏ i, ws i (ω i) := by
  have hw1 : ∑ k ∈ S, w k = 1 := by rw [← hS ⟨0, hs⟩, ← hws ⟨0, hs⟩]; exact hw _
  have hx := chebyshev hw h0 hs ha hS hws (fun k => if k = key then (1 : ℝ) else 0) hε
  have hμ : ∑ k ∈ S, w k * (if k = key then (1 : ℝ) else 0) = w key := by
    simp only [mul_ite, mul_one, mul_zero]
    rw [Finset.sum_ite_eq' S key]
    by_cases h : key ∈ S
    · rw [if_pos h]
    · rw [if_neg h, hkey h]
  have hcount : ∀ keys : List K, (keys.map fun k => if k = key then (1 : ℝ) else 0).sum = keys.count key := by
    intro keys
    induction keys with
    | nil => simp
    | cons a l ih =>
      rw [List.map_cons, List.sum_cons, ih, List.count_cons]
      by_cases ha : a = key
      · simp [ha]; ring
      · simp [ha]
  rw [hμ] at hx
  have hfil : ∀ ω : ι → K, (∑ j, if ω (a j) = key then (1 : ℝ) else 0) = (List.ofFn fun j => ω (a j)).count key := by
    intro ω
    rw [← hcount, List.map_ofFn, List.sum_ofFn]
    rfl
  simp only [hfil] at hx
  refine le_trans ?_ hx
  have hs' : (0 : ℝ) < s := by exact_mod_cast hs
  have hvar : ∑ k ∈ S, w k * ((if k = key then (1 : ℝ) else 0) - w key) ^ 2 ≤ 1 / 4 := by
    have e : ∀ k, w k * ((if k = key then (1 : ℝ) else 0) - w key) ^ 2 =
        w k * (if k = key then (1 : ℝ) else 0) * (1 - 2 * w key) + w k * w key ^ 2 := by
      intro k
      split <;> ring
    simp only [e]
    rw [Finset.sum_add_distrib, ← Finset.sum_mul, hμ, ← Finset.sum_mul, hw1]
    nlinarith [sq_nonneg (w key - 1 / 2)]
  have : (∑ k ∈ S, w k * ((if k = key then (1 : ℝ) else 0) - w key) ^ 2) / (s * ε ^ 2) ≤ 1 / 4 / (s * ε ^ 2) :=
    div_le_div_of_nonneg_right hvar (by positivity)
  have e2 : (1 : ℝ) / (4 * s * ε ^ 2) = 1 / 4 / (s * ε ^ 2) := by field_simp
  rw [e2]; linarith

open Classical in
/-- The probability that at least one draw is in `G`. -/
theorem some_draw (hw : ∑ k ∈ S, w k = 1) (s : Nat) (G : K → Prop) :
    ∑ ω ∈ (Fintype.piFinset fun _ : Fin s => S).filter (fun ω => ∃ i, G (ω i)), ∏ i, w (ω i) = 1 - (1 - ∑ k ∈ S.filter G, w k) ^ s := by
  have htot := prod_total (ι := Fin s) (t := fun _ => S) (w := fun _ => w) fun _ => hw
  have hsplit := Finset.sum_filter_add_sum_filter_not (Fintype.piFinset fun _ : Fin s => S) (fun ω => ∃ i, G (ω i)) (fun ω => ∏ i, w (ω i))
  have hf : (Fintype.piFinset fun _ : Fin s => S).filter (fun ω => ¬ ∃ i, G (ω i)) = Fintype.piFinset fun _ : Fin s => S.filter fun k => ¬ G k := by
    ext ω
    simp only [mem_filter, Fintype.mem_piFinset, not_exists]
    exact ⟨fun h i => ⟨h.1 i, h.2 i⟩, fun h => ⟨fun i => (h i).1, fun i => (h i).2⟩⟩
  rw [htot, hf, ← Finset.prod_univ_sum (fun _ : Fin s => S.filter fun k => ¬ G k) (fun _ => w), Finset.prod_const, Finset.card_univ,
    Fintype.card_fin] at hsplit
  have hs := Finset.sum_filter_add_sum_filter_not S G w
  rw [hw] at hs
  rw [show ∑ k ∈ S.filter (fun k => ¬ G k), w k = 1 - ∑ k ∈ S.filter G, w k by linarith] at hsplit
  linarith

end Indep

end QDD.Py
