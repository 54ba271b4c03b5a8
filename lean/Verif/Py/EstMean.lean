import Verif.Py.EstBook
import Mathlib.Algebra.BigOperators.Ring.Finset
/-!
# Means over independent executions
-/

set_option linter.unusedSectionVars false
set_option linter.unusedVariables false
set_option linter.unusedSimpArgs false

namespace QDD.Py
open Spec Api Gate Finset Props Client

noncomputable section

/-- The memories of `N` shots of each circuit: `ω (e, j)` is the outcome of shot `j` of circuit `e`. -/
def memories {m N : Nat} (ω : Fin m × Fin N → List Bool) : List (List (List Bool)) := List.ofFn fun e => List.ofFn fun j => ω (e, j)

/-- **The mean** of a function of the memories of `N` independent executions of each of the circuits `E`. -/
def Mean (E : List Circ) (N : Nat) (V : List (List (List Bool)) → ℝ) : ℝ :=
  ∑ ω ∈ Fintype.piFinset fun x : Fin E.length × Fin N => allKeys E[x.1].nc, (∏ x : Fin E.length × Fin N, E[x.1].prob (ω x)) * V (memories ω)

/-- `⟨O⟩` in the final state of the circuit. -/
def energy (o : Observ) (c : Circ) : ℝ := (o.map fun t => t.2 * expVal c.nq t.1 (evol c.nq c.data zeroState)).sum

end

theorem Mean_congr {E : List Circ} {N : Nat} {V V' : List (List (List Bool)) → ℝ}
    (h : ∀ keyss, keyss.length = E.length → (∀ k ∈ keyss, k.length = N) → V keyss = V' keyss) : Mean E N V = Mean E N V' := by
  unfold Mean
  refine Finset.sum_congr rfl fun ω _ => ?_
  rw [h]
  · simp [memories]
  · intro k hk
    obtain ⟨e, rfl⟩ := (List.mem_ofFn' _ _).1 hk
    simp

theorem Mean_sum {E : List Circ} {N : Nat} {ι : Type} (l : List ι) (V : ι → List (List (List Bool)) → ℝ) :
    Mean E N (fun k => (l.map fun i => V i k).sum) = (l.map fun i => Mean E N (V i)).sum := by
  induction l with
  | nil => simp [Mean]
  | cons a l ih =>
    rw [List.map_cons, List.sum_cons, ← ih]
    unfold Mean
    rw [← Finset.sum_add_distrib]
    refine Finset.sum_congr rfl fun ω _ => ?_
    dsimp only
    rw [List.map_cons, List.sum_cons, mul_add]

theorem Mean_mul {E : List Circ} {N : Nat} (V : List (List (List Bool)) → ℝ) (a : ℝ) : Mean E N (fun k => V k * a) = Mean E N V * a := by
  unfold Mean
  rw [Finset.sum_mul]
  exact Finset.sum_congr rfl fun ω _ => by ring

theorem prod_marginal {ι : Type} [Fintype ι] [DecidableEq ι] {K : Type} [DecidableEq K] {t : ι → Finset K} {w : ι → K → ℝ} (hw : ∀ i, ∑ k ∈ t i, w i k = 1)
    (i0 : ι) (g : K → ℝ) : ∑ ω ∈ Fintype.piFinset t, (∏ i, w i (ω i)) * g (ω i0) = ∑ k ∈ t i0, w i0 k * g k := by
  have e : ∀ ω : ι → K, (∏ i, w i (ω i)) * g (ω i0) = ∏ i, w i (ω i) * if i = i0 then g (ω i) else 1 := by
    intro ω
    rw [Finset.prod_mul_distrib]
    congr 1
    rw [Finset.prod_ite_eq' Finset.univ i0 (fun i => g (ω i)), if_pos (Finset.mem_univ i0)]
  simp only [e]
  rw [← Finset.prod_univ_sum t (fun i k => w i k * if i = i0 then g k else 1), Finset.prod_eq_single i0]
  · simp
  · intro i _ hi
    simp only [if_neg hi, mul_one]
    exact hw i
  · intro h; exact absurd (Finset.mem_univ i0) h

theorem prod_total {ι : Type} [Fintype ι] [DecidableEq ι] {K : Type} [DecidableEq K] {t : ι → Finset K} {w : ι → K → ℝ} (hw : ∀ i, ∑ k ∈ t i, w i k = 1) :
    ∑ ω ∈ Fintype.piFinset t, (∏ i, w i (ω i)) = 1 := by
  rw [← Finset.prod_univ_sum t w]
  exact Finset.prod_eq_one fun i _ => hw i

theorem Mean_one {E : List Circ} {N : Nat} (hE : ∀ c ∈ E, ∑ k ∈ allKeys c.nc, c.prob k = 1) : Mean E N (fun _ => 1) = 1 := by
  classical
  unfold Mean
  simp only [mul_one]
  exact prod_total (t := fun x : Fin E.length × Fin N => allKeys E[x.1].nc) (w := fun x => E[x.1].prob) fun x => hE _ (List.getElem_mem _)

/-- The mean of an average over the shots of one circuit. -/
theorem Mean_average {E : List Circ} {N : Nat} (hN : 0 < N) (hE : ∀ c ∈ E, ∑ k ∈ allKeys c.nc, c.prob k = 1) {e : Nat} (he : e < E.length)
    (g : List Bool → ℝ) : Mean E N (fun keyss => ((keyss.getD e []).map g).sum / ((keyss.getD e []).length : ℝ)) =
      ∑ k ∈ allKeys E[e].nc, E[e].prob k * g k := by
  classical
  have h1 : Mean E N (fun keyss => ((keyss.getD e []).map g).sum / ((keyss.getD e []).length : ℝ)) =
      ∑ ω ∈ Fintype.piFinset fun x : Fin E.length × Fin N => allKeys E[x.1].nc,
        (∏ x : Fin E.length × Fin N, E[x.1].prob (ω x)) * ((∑ j : Fin N, g (ω (⟨e, he⟩, j))) / (N : ℝ)) := by
    unfold Mean
    refine Finset.sum_congr rfl fun ω _ => ?_
    have : (memories ω).getD e [] = List.ofFn fun j => ω (⟨e, he⟩, j) := by
      unfold memories
      rw [List.getD_eq_getElem?_getD, List.getElem?_eq_getElem (by simpa using he)]
      simp
    dsimp only
    rw [this, List.map_ofFn, List.sum_ofFn, List.length_ofFn]
    rfl
  rw [h1]
  have h2 : ∀ ω : Fin E.length × Fin N → List Bool, (∏ x : Fin E.length × Fin N, E[x.1].prob (ω x)) * ((∑ j : Fin N, g (ω (⟨e, he⟩, j))) / (N : ℝ)) =
      ∑ j : Fin N, ((∏ x : Fin E.length × Fin N, E[x.1].prob (ω x)) * g (ω (⟨e, he⟩, j))) * (N : ℝ)⁻¹ := by
    intro ω
    rw [div_eq_mul_inv, ← mul_assoc, Finset.mul_sum, Finset.sum_mul]
  simp only [h2]
  rw [Finset.sum_comm]
  have h3 : ∀ j : Fin N, ∑ ω ∈ Fintype.piFinset fun x : Fin E.length × Fin N => allKeys E[x.1].nc,
      ((∏ x : Fin E.length × Fin N, E[x.1].prob (ω x)) * g (ω (⟨e, he⟩, j))) * (N : ℝ)⁻¹ = (∑ k ∈ allKeys E[e].nc, E[e].prob k * g k) * (N : ℝ)⁻¹ := by
    intro j
    rw [← Finset.sum_mul]
    congr 1
    exact prod_marginal (t := fun x : Fin E.length × Fin N => allKeys E[x.1].nc) (w := fun x => E[x.1].prob)
      (fun x => hE _ (List.getElem_mem _)) (⟨e, he⟩, j) g
  simp only [h3]
  rw [Finset.sum_const, Finset.card_univ, Fintype.card_fin, nsmul_eq_mul]
  have : (N : ℝ) ≠ 0 := by exact_mod_cast (by omega : N ≠ 0)
  field_simp

theorem expVal_id {c : Circ} (hc : GateCirc c) (h0 : c.nc = 0) {p : Pauli} (hp : p.length = c.nq) (hid : p.isId = true) :
    expVal c.nq p (evol c.nq c.data zeroState) = 1 := by
  rw [← mean_sgn hc h0 hp hp fun _ _ => rfl, ← sum_prob hc h0 hp]
  refine Finset.sum_congr rfl fun k _ => ?_
  have hs : p.support = [] := by
    unfold Pauli.support
    rw [List.filter_eq_nil_iff]
    intro q hq h
    unfold Pauli.acts Pauli.on at h
    rw [List.mem_range] at hq
    rw [List.getD_eq_getElem?_getD, List.getElem?_eq_getElem hq] at h
    have := (List.all_eq_true.1 hid) _ (List.getElem_mem hq)
    simp at this h
    simp [this] at h
  unfold sgn
  rw [hs]
  simp [hits]

end QDD.Py
