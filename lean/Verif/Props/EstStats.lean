import Verif.Props.Stats
import Verif.Props.EstDemo
/-!
# C48: how close the estimator's values are
-/

set_option linter.unusedSectionVars false
set_option linter.unusedVariables false
set_option linter.unusedSimpArgs false

namespace QDD.Props
open Spec Api Gate Finset Py Py.Client

variable {cfg : Cfg ℝ} {thr thrM : Nat} {cs : List (Cmd ℝ)} {h : Heap ℝ} {σ : Sys ℝ} {os : List (Obs ℝ)}
variable {Key : Type} [DecidableEq Key] {key : PCirc → Key} {P : PCirc → Prop}
variable {groups : List Py.Pauli → List (List Py.Pauli)} {prep : PCirc → Py.Pauli → PCirc}

/-- `T` has probability at least `y`: it contains an event of probability at least `y`. -/
def AtLeast {α : Type} (cfg : Cfg ℝ) (p : Client α) (σ : Sys ℝ) (T : Option α → Prop) (y : ℝ) : Prop :=
  ∃ (T' : Option α → Prop) (x : ℝ), (∀ r, T' r → T r) ∧ Yields cfg p σ T' x ∧ y ≤ x

open Classical in
/-- The values of a call as in `C48_partial` are close to the expectation values. -/
theorem Unbiased.close {N : Nat} {calls : List (PCirc × Observ × List ℝ)} {r : Client (List Result × List ℝ)} (hu : Unbiased cfg σ N calls r)
    (I : Finset (Fin calls.length)) {ε : ℝ} (hε : 0 < ε) :
    AtLeast cfg r σ (fun r => ∃ rs vs, r = some (rs, vs) ∧ vs.length = calls.length ∧
        ∀ i ∈ I, |vs.getD i 0 - energy calls[i].2.1 (PCirc.withValues calls[i].1 calls[i].2.2)| < ε)
      (1 - (∑ i ∈ I, (calls[i].2.1.map fun x => |x.2|).sum ^ 2) / (N * ε ^ 2)) := by
  obtain ⟨E, V, h1, h2, h3, h4⟩ := hu
  have hmk := Mean_markov h1 I (D := fun i keyss => (V keyss).getD i 0 - energy calls[i].2.1 (PCirc.withValues calls[i].1 calls[i].2.2))
    (B := fun i => (calls[i].2.1.map fun x => |x.2|).sum ^ 2 / N) (fun i _ => h4 i i.2) hε
  have hy : ∀ ω : Fin E.length × Fin N → List Bool, Yields cfg r σ (Estimates (memories ω) (V (memories ω)))
      (∏ x : Fin E.length × Fin N, E[x.1].prob (ω x)) := by
    intro ω
    have := (h2 (memories ω) (by simp [memories]) (by
      intro k hk
      obtain ⟨e, rfl⟩ := (List.mem_ofFn' _ _).1 hk
      simp)).2
    have hz : List.zipWith (fun c keys => (keys.map (Circ.prob c)).prod) E (memories ω) = List.ofFn fun e : Fin E.length => ∏ j : Fin N, E[e].prob (ω (e, j)) := by
      rw [memories, zipWith_ofFn]
      congr 1
      funext e
      rw [List.map_ofFn, List.prod_ofFn]
      rfl
    rw [hz, List.prod_ofFn] at this
    rwa [Fintype.prod_prod_type]
  have hsum := Yields.sum (hy fun _ => []) (T := fun ω r => Estimates (memories ω) (V (memories ω)) r)
    (x := fun ω => ∏ x : Fin E.length × Fin N, E[x.1].prob (ω x)) ?_
    ((Fintype.piFinset fun x : Fin E.length × Fin N => allKeys E[x.1].nc).filter (fun ω => ∀ i ∈ I,
      |(V (memories ω)).getD i 0 - energy calls[i].2.1 (PCirc.withValues calls[i].1 calls[i].2.2)| < ε)) fun ω _ => hy ω
  · refine ⟨_, _, ?_, hsum, ?_⟩
    · rintro r ⟨ω, hω, rs, rfl, hmem⟩
      rw [mem_filter] at hω
      refine ⟨rs, _, rfl, (h2 (memories ω) (by simp [memories]) (by
        intro k hk
        obtain ⟨e, rfl⟩ := (List.mem_ofFn' _ _).1 hk
        simp)).1, hω.2⟩
    · refine le_trans (le_of_eq ?_) (hmk.trans (le_of_eq ?_))
      · rw [← Finset.sum_div, div_div]
      · congr!
  · rintro ω ω' r ⟨rs, rfl, h1⟩ ⟨rs', h2, h3⟩
    have h2' := (Prod.ext_iff.1 (Option.some.inj h2)).1
    dsimp only at h2'
    subst h2'
    rw [h1] at h3
    have := List.map_injective_iff.2 (Option.some_injective _) h3
    unfold memories at this
    have h4 := List.ofFn_injective this
    funext ⟨e, j⟩
    exact congrFun (List.ofFn_injective (congrFun h4 e)) j

open Classical in
/-- **C48 (accuracy).**  Under the hypotheses of `C48_partial`, with probability at least `1 - ∑ (∑ |coefficients|)^2 / (N ε^2)` the call returns
one value per entry, and the values of the entries in `I` are all within `ε` of the expectation values. -/
theorem C48_close_partial (hR : Hist cfg thr thrM cs h σ os) (hsq : ∀ x, 0 ≤ x → cfg.sqrt x * cfg.sqrt x = x)
    (hQ : QiskitE h.ms key prep P) (hG : Grouping groups) {s : Est Key} (hs : EReach key groups prep P s)
    {calls : List (PCirc × Observ × List ℝ)} (hne : calls ≠ []) (hP : ∀ a ∈ calls, P a.1)
    (hv : ∀ a ∈ calls, a.2.2.length = a.1.params.length)
    (hobs : ∀ a ∈ calls, a.2.1 ≠ [] ∧ ∀ x ∈ a.2.1, x.1.length = (PCirc.withValues a.1 a.2.2).nq)
    (hone : ∀ a ∈ calls, Plain key calls a)
    (hid : ∀ a ∈ calls, ∃ b ∈ calls, key b.1 = key a.1 ∧ ∃ x ∈ b.2.1, x.1.isId = false)
    {shots : Shots} {others : List String} {N : Nat}
    (hN : ((shots = .absent ∨ shots = .none) ∧ N = 1024) ∨ (shots = .int N ∧ 0 < N ∧ N ≤ 10 ^ 6))
    (I : Finset (Fin calls.length)) {ε : ℝ} (hε : 0 < ε) :
    AtLeast cfg (estRun key groups prep s (calls.map fun a => a.1) (calls.map fun a => a.2.1) (calls.map fun a => a.2.2) shots others).2 σ
      (fun r => ∃ rs vs, r = some (rs, vs) ∧ vs.length = calls.length ∧
        ∀ i ∈ I, |vs.getD i 0 - energy calls[i].2.1 (PCirc.withValues calls[i].1 calls[i].2.2)| < ε)
      (1 - (∑ i ∈ I, (calls[i].2.1.map fun x => |x.2|).sum ^ 2) / (N * ε ^ 2)) :=
  (C48_partial hR hsq hQ hG hs hne hP hv hobs hone hid hN).close I hε

open Classical in
/-- The call of `EstDemo`: all four values are within 1/2 of the expectation values with probability at least 9/10. -/
example (hR : Hist cfg thr thrM cs h σ os) (hsq : ∀ x, 0 ≤ x → cfg.sqrt x * cfg.sqrt x = x) (a b : ℝ) :
    AtLeast cfg (estRun (id : PCirc → PCirc) groupsD prepD (estRun (id : PCirc → PCirc) groupsD prepD (.new : Est PCirc) [rxG] [[(pX, 1)]] [[0]] .absent []).1
        [rxG, xG, rxG, xG] [[(pZ, 2), (pI, 1)], [(pX, 1), (pZZ, -1)], [(pZ, 2), (pI, 1)], [(pZ, 1)]] [[a], [], [b], []] (.int 1000) []).2 σ
      (fun r => ∃ rs vs, r = some (rs, vs) ∧ vs.length = 4 ∧ |vs.getD 0 0 - energy [(pZ, 2), (pI, 1)] (PCirc.withValues rxG [a])| < 1 / 2 ∧
        |vs.getD 1 0 - energy [(pX, 1), (pZZ, -1)] (PCirc.withValues xG [])| < 1 / 2) (9 / 10) := by
  obtain ⟨T', x, h1, h2, h3⟩ := (unbiased_demo hR hsq a b).close (Finset.univ) (ε := 1 / 2) (by norm_num)
  refine ⟨T', x, fun r hr => ?_, h2, le_trans ?_ h3⟩
  · obtain ⟨rs, vs, rfl, hl, hc⟩ := h1 r hr
    exact ⟨rs, vs, rfl, hl, hc ⟨0, by simp⟩ (mem_univ _), hc ⟨1, by simp⟩ (mem_univ _)⟩
  · simp [Fin.sum_univ_succ]
    norm_num

end QDD.Props
