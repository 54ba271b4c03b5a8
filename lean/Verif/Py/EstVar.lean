import Verif.Py.Stats
/-!
# Mean squared errors of averages over independent executions
-/

set_option linter.unusedSectionVars false
set_option linter.unusedVariables false
set_option linter.unusedSimpArgs false

namespace QDD.Py
open Spec Api Gate Finset Props Client

theorem Mean_mono {E : List Circ} {N : Nat} {V V' : List (List (List Bool)) → ℝ} (h : ∀ k, V k ≤ V' k) : Mean E N V ≤ Mean E N V' := by
  unfold Mean
  exact Finset.sum_le_sum fun ω _ => mul_le_mul_of_nonneg_left (h _) (Finset.prod_nonneg fun x _ => Circ.prob_nonneg _ _)

theorem cauchy_list {ι : Type} (l : List ι) (c a : ι → ℝ) :
    (l.map fun i => a i * c i).sum ^ 2 ≤ (l.map fun i => |c i|).sum * (l.map fun i => a i ^ 2 * |c i|).sum := by
  induction l with
  | nil => simp
  | cons i l ih =>
    simp only [List.map_cons, List.sum_cons]
    have hC : 0 ≤ (l.map fun i => |c i|).sum := List.sum_nonneg (by simp)
    have hQ : 0 ≤ (l.map fun i => a i ^ 2 * |c i|).sum := List.sum_nonneg (by simp; intro i _; positivity)
    generalize (l.map fun i => a i * c i).sum = S at *
    generalize (l.map fun i => |c i|).sum = C at *
    generalize (l.map fun i => a i ^ 2 * |c i|).sum = Q at *
    have h1 : |2 * a i * S| ≤ Q + C * a i ^ 2 := by
      refine abs_le_of_sq_le_sq ?_ (by positivity)
      nlinarith [sq_nonneg (Q - C * a i ^ 2), mul_le_mul_of_nonneg_left ih (sq_nonneg (a i))]
    have h2 : c i * (2 * a i * S) ≤ |c i| * (Q + C * a i ^ 2) :=
      (le_abs_self _).trans (by rw [abs_mul]; exact mul_le_mul_of_nonneg_left h1 (abs_nonneg _))
    nlinarith [sq_abs (c i)]

/-- The mean squared error of an average over the shots of one circuit of a function bounded by 1. -/
theorem Mean_average_sq {E : List Circ} {N : Nat} (hN : 0 < N) (hE : ∀ c ∈ E, ∑ k ∈ allKeys c.nc, c.prob k = 1) {e : Nat} (he : e < E.length)
    (g : List Bool → ℝ) (hg : ∀ k, g k ^ 2 ≤ 1) :
    Mean E N (fun keyss => (((keyss.getD e []).map g).sum / ((keyss.getD e []).length : ℝ) - ∑ k ∈ allKeys E[e].nc, E[e].prob k * g k) ^ 2) ≤ 1 / N := by
  classical
  have hN' : (N : ℝ) ≠ 0 := by exact_mod_cast (by omega : N ≠ 0)
  have hw1 := hE _ (List.getElem_mem he)
  set μ := ∑ k ∈ allKeys E[e].nc, E[e].prob k * g k with hμ
  have hv := var_average (K := List Bool) (ι := Fin E.length × Fin N) (t := fun x => allKeys E[x.1].nc) (ws := fun x => E[x.1].prob)
    (fun x => hE _ (List.getElem_mem _)) hN (a := fun j => (⟨e, he⟩, j)) (fun a b hab => (Prod.ext_iff.1 hab).2) (S := allKeys E[e].nc) (w := E[e].prob)
    (fun _ => rfl) (fun _ => rfl) (fun k => g k - μ) (by
      simp only [mul_sub]
      rw [Finset.sum_sub_distrib, ← hμ, ← Finset.sum_mul, hw1, one_mul, sub_self])
  have h1 : Mean E N (fun keyss => (((keyss.getD e []).map g).sum / ((keyss.getD e []).length : ℝ) - μ) ^ 2) =
      (∑ k ∈ allKeys E[e].nc, E[e].prob k * (g k - μ) ^ 2) / N := by
    rw [← hv]
    unfold Mean
    refine Finset.sum_congr rfl fun ω _ => ?_
    have : (memories ω).getD e [] = List.ofFn fun j => ω (⟨e, he⟩, j) := by
      unfold memories
      rw [List.getD_eq_getElem?_getD, List.getElem?_eq_getElem (by simpa using he)]
      simp
    dsimp only
    rw [this, List.map_ofFn, List.sum_ofFn, List.length_ofFn, Finset.sum_sub_distrib, Finset.sum_const, Finset.card_univ, Fintype.card_fin,
      nsmul_eq_mul]
    congr 2
    dsimp only [Function.comp]
    field_simp
  rw [h1]
  have h2 : ∑ k ∈ allKeys E[e].nc, E[e].prob k * (g k - μ) ^ 2 ≤ 1 := by
    have e1 : ∀ k, E[e].prob k * (g k - μ) ^ 2 = E[e].prob k * g k ^ 2 - 2 * μ * (E[e].prob k * g k) + E[e].prob k * μ ^ 2 := fun k => by ring
    simp only [e1]
    rw [Finset.sum_add_distrib, Finset.sum_sub_distrib, ← Finset.mul_sum, ← hμ, ← Finset.sum_mul, hw1]
    have h3 : ∑ k ∈ allKeys E[e].nc, E[e].prob k * g k ^ 2 ≤ ∑ k ∈ allKeys E[e].nc, E[e].prob k :=
      Finset.sum_le_sum fun k _ => by nlinarith [Circ.prob_nonneg E[e] k, hg k]
    rw [hw1] at h3
    nlinarith [sq_nonneg μ]
  exact div_le_div_of_nonneg_right h2 (by positivity)

open Classical in
/-- Markov's inequality for a value of the memories. -/
theorem Mean_markov {E : List Circ} {N : Nat} (hE : Mean E N (fun _ => 1) = 1) {ι : Type} (I : Finset ι)
    {D : ι → List (List (List Bool)) → ℝ} {B : ι → ℝ}
    (hD : ∀ i ∈ I, Mean E N (fun k => D i k ^ 2) ≤ B i) {ε : ℝ} (hε : 0 < ε) :
    1 - (∑ i ∈ I, B i) / ε ^ 2 ≤ ∑ ω ∈ (Fintype.piFinset fun x : Fin E.length × Fin N => allKeys E[x.1].nc).filter
      (fun ω => ∀ i ∈ I, |D i (memories ω)| < ε), ∏ x : Fin E.length × Fin N, E[x.1].prob (ω x) := by
  have htot : ∑ ω ∈ Fintype.piFinset fun x : Fin E.length × Fin N => allKeys E[x.1].nc, ∏ x : Fin E.length × Fin N, E[x.1].prob (ω x) = 1 := by
    unfold Mean at hE; simpa only [mul_one] using hE
  have hsplit := Finset.sum_filter_add_sum_filter_not (Fintype.piFinset fun x : Fin E.length × Fin N => allKeys E[x.1].nc)
    (fun ω => ∀ i ∈ I, |D i (memories ω)| < ε) (fun ω => ∏ x : Fin E.length × Fin N, E[x.1].prob (ω x))
  rw [htot] at hsplit
  have hp : ∀ ω : Fin E.length × Fin N → List Bool, 0 ≤ ∏ x : Fin E.length × Fin N, E[x.1].prob (ω x) :=
    fun ω => Finset.prod_nonneg fun x _ => Circ.prob_nonneg _ _
  have hb : ∑ ω ∈ (Fintype.piFinset fun x : Fin E.length × Fin N => allKeys E[x.1].nc).filter (fun ω => ¬ ∀ i ∈ I, |D i (memories ω)| < ε),
      ∏ x : Fin E.length × Fin N, E[x.1].prob (ω x) ≤ (∑ i ∈ I, B i) / ε ^ 2 := by
    have h1 : ∑ i ∈ I, Mean E N (fun k => D i k ^ 2) ≤ ∑ i ∈ I, B i := Finset.sum_le_sum hD
    refine le_trans ?_ (div_le_div_of_nonneg_right h1 (by positivity))
    unfold Mean
    rw [Finset.sum_comm, Finset.sum_div]
    refine le_trans ?_ (Finset.sum_le_sum_of_subset_of_nonneg (Finset.filter_subset (fun ω => ¬ ∀ i ∈ I, |D i (memories ω)| < ε) _) fun ω _ _ => ?_)
    · refine Finset.sum_le_sum fun ω hω => ?_
      rw [mem_filter] at hω
      have hω := hω.2
      push Not at hω
      obtain ⟨i, hi, hd⟩ := hω
      rw [le_div_iff₀ (by positivity)]
      refine le_trans ?_ (Finset.single_le_sum (f := fun i => (∏ x : Fin E.length × Fin N, E[x.1].prob (ω x)) * D i (memories ω) ^ 2)
        (fun i _ => mul_nonneg (hp ω) (sq_nonneg _)) hi)
      refine mul_le_mul_of_nonneg_left ?_ (hp ω)
      rw [← sq_abs (D i (memories ω))]
      exact pow_le_pow_left₀ hε.le hd 2
    · exact div_nonneg (Finset.sum_nonneg fun i _ => mul_nonneg (hp ω) (sq_nonneg _)) (by positivity)
  linarith

end QDD.Py
