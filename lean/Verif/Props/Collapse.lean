import Verif.Props.Safe
import Verif.Py.Iso
/-!
# C58: the absolute tolerance erases wide uniform superpositions

A counterexample: the engine's zero test compares with an absolute tolerance (dd.h 23, 43-50), and the weight of a uniform
superposition of `n` qubits is `2^(-n/2)`.
-/

set_option linter.unusedSectionVars false
set_option linter.unusedVariables false
set_option linter.unusedSimpArgs false

namespace QDD.Props
open QDD.Safe Prog Rounding
open Spec (C Vec Mat bit)
open QDD.Props

/-- Exact rational arithmetic (no rounding at all) with `TOLERANCE = 2^-42`. -/
abbrev EC : Type := FCx Safe.exact (1 / 2 ^ 42 : ℚ)
@[reducible] instance : ROps Safe.exact.Num EC := measOps Safe.exact (1 / 2 ^ 42) id

/-- `H ⊗ H` has the entries `± 1/2`. -/
def hhQ (r c : Nat) : ℚ := if ((r % 2 = 1 ∧ c % 2 = 1) ↔ (r / 2 = 1 ∧ c / 2 = 1)) then 1 / 2 else -1 / 2
def hhE : Nat → Nat → EC := fun r c => ⟨⟨hhQ r c, rfl⟩, f0⟩
noncomputable def hhR : Nat → Nat → C ℝ := fun r c => ⟨(hhQ r c : ℝ), 0⟩

def exEnv : Env EC :=
  ⟨fun nd => nd.v.toNat, fun nd => nd.v.toNat, fun _ _ => 0, fun _ _ => 0, fun x => x, fun _ _ _ => false, fun _ _ _ => false⟩

/-- `|00>`, `H ⊗ H` on it, then Kronecker products: 4, 6, .., 80 qubits of `|+>`; four more qubits in `|0>`; `H ⊗ H` on
qubits 80, 81 and on qubits 82, 83. -/
def plusCalls : List (Safe.Call Safe.exact.Num EC) :=
  [.zero 2, .gate2 2 hhE 0 1 [], .mv 0 0] ++ (List.range 39).map (fun i => .vkron 1 (i + 1)) ++
    [.vkron 0 40, .vkron 0 41, .gate2 84 hhE 80 81 [], .mv 1 42, .gate2 84 hhE 82 83 [], .mv 2 43]

/-- The exact calls. -/
noncomputable def plusCmds : List (Spec.Cmd ℝ) :=
  [.zero 2, .gate2 2 hhR 0 1 [], .mv 0 0] ++ (List.range 39).map (fun i => .vkron 1 (i + 1)) ++
    [.vkron 0 40, .vkron 0 41, .gate2 84 hhR 80 81 [], .mv 1 42, .gate2 84 hhR 82 83 [], .mv 2 43]

theorem hh_iso (b b' c c' : Bool) : ∑ x : Bool × Bool, conj (hhR (2 * bit x.1 + bit x.2) (2 * bit b + bit b')) *
    hhR (2 * bit x.1 + bit x.2) (2 * bit c + bit c') = if b = c ∧ b' = c' then 1 else 0 := by
  rw [Fintype.sum_prod_type]
  simp only [Fintype.sum_bool]
  cases b <;> cases b' <;> cases c <;> cases c' <;> apply Cx.ext <;> simp [hhR, hhQ, conj, bit] <;> norm_num

theorem hhM_iso {n t : Nat} (ht : t + 1 < n) : Isometry n (Spec.gate2 n hhR t (t + 1) []) :=
  Py.gate2_isometry (by omega) ht (by omega) (by simp) hh_iso

theorem basis_norm (n : Nat) : (Spec.basis n 0 : Vec ℝ).norm2 = 1 := by
  show ∑ i ∈ Finset.range (2 ^ n), (if i = 0 then (1 : C ℝ) else 0).mag2 = 1
  rw [Finset.sum_eq_single 0]
  · simp [Cx.mag2]
  · intro i _ h; rw [if_neg h]; simp [Cx.mag2]
  · intro h; simp at h

theorem apply_norm {M : Mat ℝ} {V : Vec ℝ} (hk : M.k = V.k) (hM : Isometry M.k M.F) (hV : V.norm2 = 1) :
    (M.apply V).norm2 = 1 := by
  rw [← hV]
  show norm2 V.k (M.apply V).f = norm2 V.k V.f
  rw [hk] at hM
  rw [← hM.norm2 V.f]
  refine norm2_congr fun i hi => ?_
  show ∑ j ∈ Finset.range (2 ^ V.k), M.at V.k i j * V.f j = _
  refine Finset.sum_congr rfl fun j hj => ?_
  rw [← hk] at hi hj ⊢
  rw [at_self M hi (Finset.mem_range.1 hj)]

theorem kron_norm {a b : Vec ℝ} (ha : a.norm2 = 1) (hb : b.norm2 = 1) : (a.kron b).norm2 = 1 := by
  unfold Vec.norm2 at *
  show ∑ i ∈ Finset.range (2 ^ (a.k + b.k)), (a.f (i / 2 ^ b.k) * b.f (i % 2 ^ b.k)).mag2 = 1
  rw [Py.sum_blocks (k := b.k) (by omega), Nat.add_sub_cancel, ← ha]
  refine Finset.sum_congr rfl fun i hi => ?_
  rw [← mul_one (a.f i).mag2, ← hb, Finset.mul_sum]
  refine Finset.sum_congr rfl fun j hj => ?_
  have hj := Finset.mem_range.1 hj
  rw [Nat.mul_comm i, Nat.mul_add_div (Nat.two_pow_pos _), Nat.div_eq_of_lt hj, Nat.add_zero, Nat.mul_add_mod,
    Nat.mod_eq_of_lt hj, Cx.mag2_mul]

/-- The exact states. -/
noncomputable def z2 : Vec ℝ := Spec.basis 2 0
noncomputable def hM (n t : Nat) : Mat ℝ := ⟨n, Spec.gate2 n hhR t (t + 1) []⟩
noncomputable def plus2 : Vec ℝ := (hM 2 0).apply z2
noncomputable def plusN : Nat → Vec ℝ
  | 0 => plus2
  | i + 1 => plus2.kron (plusN i)
noncomputable def plus82z : Vec ℝ := z2.kron (plusN 39)
noncomputable def plus84z : Vec ℝ := z2.kron plus82z
noncomputable def plus82 : Vec ℝ := (hM 84 80).apply plus84z
noncomputable def plus84 : Vec ℝ := (hM 84 82).apply plus82

theorem plusN_k : ∀ i, (plusN i).k = 2 * (i + 1)
  | 0 => rfl
  | i + 1 => by
    show 2 + (plusN i).k = _
    rw [plusN_k i]; omega

theorem plusN_norm : ∀ i, (plusN i).norm2 = 1
  | 0 => apply_norm rfl (hhM_iso (n := 2) (t := 0) (by decide)) (basis_norm 2)
  | i + 1 => kron_norm (plusN_norm 0) (plusN_norm i)

theorem plus84z_k : plus84z.k = 84 := by
  show 2 + (2 + (plusN 39).k) = 84
  rw [plusN_k]

theorem plus84z_norm : plus84z.norm2 = 1 := kron_norm (basis_norm 2) (kron_norm (basis_norm 2) (plusN_norm 39))

theorem plus82_norm : plus82.norm2 = 1 :=
  apply_norm plus84z_k.symm (hhM_iso (n := 84) (t := 80) (by decide)) plus84z_norm

/-- The exact states are unit vectors. -/
theorem plus84_norm : plus84.norm2 = 1 :=
  apply_norm plus84z_k.symm (hhM_iso (n := 84) (t := 82) (by decide)) plus82_norm

theorem nonzero_of_norm {V : Vec ℝ} (hV : V.norm2 = 1) : V.Nonzero := by
  by_contra hc
  have : V.norm2 = 0 := Finset.sum_eq_zero fun i hi => by
    have : V.f i = 0 := by
      by_contra h0
      exact hc ⟨i, Finset.mem_range.1 hi, h0⟩
    rw [this]; simp [Cx.mag2]
  rw [hV] at this
  exact one_ne_zero this

/-- The heap after the Kronecker products. -/
noncomputable def plusVs (j : Nat) : List (Vec ℝ) := z2 :: (List.range (j + 1)).map plusN

theorem plusVs_get {j i : Nat} (h : i ≤ j) : (plusVs j)[i + 1]? = some (plusN i) := by
  simp [plusVs, List.getElem?_map, List.getElem?_range (show i < j + 1 by omega)]

theorem plusVs_succ (j : Nat) : plusVs (j + 1) = plusVs j ++ [(plusN 0).kron (plusN j)] := by
  unfold plusVs
  rw [List.range_succ (n := j + 1), List.map_append]
  rfl

theorem plusVs_len (j : Nat) : (plusVs j).length = j + 2 := by simp [plusVs]

theorem plus_spec_kron : ∀ j ≤ 39, ∃ os, Spec.Runs Real.sqrt NQUBITS
    ([.zero 2, .gate2 2 hhR 0 1 [], .mv 0 0] ++ (List.range j).map fun i => .vkron 1 (i + 1)) ⟨plusVs j, [hM 2 0]⟩ os
  | 0, _ => by
    have r0 : Spec.Runs Real.sqrt NQUBITS [] (⟨[], []⟩ : Spec.Heap ℝ) [] := .nil
    have r1 := Spec.Runs.cons (c := .zero 2) (h' := ⟨[z2], []⟩) (o := .unit) r0 ⟨by decide, by decide⟩ rfl
    have r2 := Spec.Runs.cons (c := .gate2 2 hhR 0 1 []) (h' := ⟨[z2], [hM 2 0]⟩) (o := .unit) r1
      ⟨by decide, by decide, by decide, by decide, .nil, by simp⟩ rfl
    have r3 := Spec.Runs.cons (c := .mv 0 0) (h' := ⟨[z2, plusN 0], [hM 2 0]⟩) (o := .unit) r2 ⟨_, _, rfl, rfl, le_rfl⟩ rfl
    exact ⟨_, r3⟩
  | j + 1, hj => by
    obtain ⟨os, ih⟩ := plus_spec_kron j (by omega)
    have h1 := plusVs_get (j := j) (i := 0) (by omega)
    have h2 := plusVs_get (j := j) (i := j) le_rfl
    have hst : Spec.step Real.sqrt (⟨plusVs j, [hM 2 0]⟩ : Spec.Heap ℝ) (.vkron 1 (j + 1)) =
        some (⟨plusVs (j + 1), [hM 2 0]⟩, .unit) := by
      simp only [Spec.step, h2, show (plusVs j)[1]? = some (plusN 0) from h1, Option.bind_eq_bind, Option.bind_some,
        Spec.Heap.addV, plusVs_succ]
    have r := Spec.Runs.cons (c := .vkron 1 (j + 1)) ih
      ⟨_, _, h1, h2, nonzero_of_norm (plusN_norm 0), nonzero_of_norm (plusN_norm j), by
        rw [plusN_k, plusN_k]; unfold NQUBITS; omega⟩ hst
    refine ⟨os ++ [.unit], ?_⟩
    rw [List.range_succ, List.map_append, ← List.append_assoc]
    exact r

/-- The specification of the calls. -/
theorem plus_spec : ∃ (h : Spec.Heap ℝ) (os : _), Spec.Runs Real.sqrt NQUBITS plusCmds h os ∧
    h.vs[43]? = some plus82 ∧ h.vs[44]? = some plus84 := by
  obtain ⟨os, r⟩ := plus_spec_kron 39 le_rfl
  have l := plusVs_len 39
  have g0 : (plusVs 39)[0]? = some z2 := rfl
  have g1 := plusVs_get (j := 39) (i := 39) le_rfl
  generalize plusVs 39 = vs at *
  have e : ∀ (l1 l2 : List (Vec ℝ)) (i : Nat) (x), l1[i]? = some x → (l1 ++ l2)[i]? = some x := by
    intro l1 l2 i x h
    rw [List.getElem?_append_left (List.getElem?_eq_some_iff.1 h).1]; exact h
  have e' : ∀ (l1 : List (Vec ℝ)) (i : Nat) (x), l1.length = i → (l1 ++ [x])[i]? = some x := by
    rintro l1 i x rfl; simp
  have z := nonzero_of_norm (basis_norm 2)
  have r1 := Spec.Runs.cons (c := .vkron 0 40) (h' := ⟨vs ++ [plus82z], [hM 2 0]⟩) (o := .unit) r
    ⟨z2, plusN 39, g0, g1, z, nonzero_of_norm (plusN_norm 39), by rw [plusN_k]; decide⟩
    (by simp only [Spec.step, g0, show vs[40]? = _ from g1, Option.bind_eq_bind, Option.bind_some]; rfl)
  have g2 : (vs ++ [plus82z])[41]? = some plus82z := e' _ _ _ l
  have r2 := Spec.Runs.cons (c := .vkron 0 41) (h' := ⟨(vs ++ [plus82z]) ++ [plus84z], [hM 2 0]⟩) (o := .unit) r1
    ⟨z2, plus82z, e _ _ _ _ g0, g2, z, nonzero_of_norm (kron_norm (basis_norm 2) (plusN_norm 39)), by
      show 2 + (2 + (plusN 39).k) ≤ _; rw [plusN_k]; decide⟩
    (by simp only [Spec.step, e _ [plus82z] _ _ g0, g2, Option.bind_eq_bind, Option.bind_some]; rfl)
  have r3 := Spec.Runs.cons (c := .gate2 84 hhR 80 81 []) (h' := ⟨(vs ++ [plus82z]) ++ [plus84z], [hM 2 0, hM 84 80]⟩)
    (o := .unit) r2 ⟨by decide, by decide, by decide, by decide, .nil, by simp⟩ rfl
  have g3 : ((vs ++ [plus82z]) ++ [plus84z])[42]? = some plus84z := e' _ _ _ (by simp [l])
  have r4 := Spec.Runs.cons (c := .mv 1 42) (h' := ⟨((vs ++ [plus82z]) ++ [plus84z]) ++ [plus82], [hM 2 0, hM 84 80]⟩)
    (o := .unit) r3 ⟨hM 84 80, plus84z, rfl, g3, plus84z_k.symm.le⟩
    (by simp only [Spec.step, g3, Option.bind_eq_bind, Option.bind_some]; rfl)
  have r5 := Spec.Runs.cons (c := .gate2 84 hhR 82 83 [])
    (h' := ⟨((vs ++ [plus82z]) ++ [plus84z]) ++ [plus82], [hM 2 0, hM 84 80, hM 84 82]⟩)
    (o := .unit) r4 ⟨by decide, by decide, by decide, by decide, .nil, by simp⟩ rfl
  have g4 : (((vs ++ [plus82z]) ++ [plus84z]) ++ [plus82])[43]? = some plus82 := e' _ _ _ (by simp [l])
  have r6 := Spec.Runs.cons (c := .mv 2 43)
    (h' := ⟨(((vs ++ [plus82z]) ++ [plus84z]) ++ [plus82]) ++ [plus84], [hM 2 0, hM 84 80, hM 84 82]⟩)
    (o := .unit) r5 ⟨hM 84 82, plus82, rfl, g4, plus84z_k.symm.le⟩
    (by simp only [Spec.step, g4, Option.bind_eq_bind, Option.bind_some]; rfl)
  have ec : plusCmds = (((((([.zero 2, .gate2 2 hhR 0 1 [], .mv 0 0] ++ (List.range 39).map (fun i => .vkron 1 (i + 1))) ++
      [.vkron 0 40]) ++ [.vkron 0 41]) ++ [.gate2 84 hhR 80 81 []]) ++ [.mv 1 42]) ++ [.gate2 84 hhR 82 83 []]) ++ [.mv 2 43] := by
    simp [plusCmds]
  have g5 : ((((vs ++ [plus82z]) ++ [plus84z]) ++ [plus82]) ++ [plus84])[44]? = some plus84 := e' _ _ _ (by simp [l])
  rw [← ec] at r6
  exact ⟨_, _, r6, e _ _ _ _ g4, g5⟩

/-! ## The engine's run -/

/-- Kronecker operands are not the zero vector. -/
def operandsLive {R W : Type} (d : Safe.Data R W) : Safe.Call R W → Bool
  | .vkron a b => (d.vs[a]?.any fun e => e.n.isSome) && (d.vs[b]?.any fun e => e.n.isSome)
  | _ => true

/-- `runAll`, stopping when a Kronecker operand is the zero vector. -/
def runLive {R W : Type} [WOps W] [ROps R W] (env : Env W) : List (Safe.Call R W) → Safe.Sys R W → Except Err (Safe.Sys R W)
  | [], σ => .ok σ
  | c :: cs, σ =>
    if operandsLive σ.d c then match run1 env c σ with
      | .error er => .error er
      | .ok (_, σ) => runLive env cs σ
    else .error .badNode

theorem live_of {R W : Type} {d : Safe.Data R W} {a : Nat} (h : (d.vs[a]?.any fun e => e.n.isSome) = true) : d.live a := by
  obtain ⟨e, h1, h2⟩ := Option.any_eq_true _ _ |>.1 h
  exact ⟨e, h1, by rintro h; rw [h] at h2; cases h2⟩

theorem hist_runLive {R W : Type} [WOps W] [ROps R W] {env : Env W} {thr thrM : Nat} : ∀ {ds cs : List (Safe.Call R W)}
    {sh : Shape} {σ σ' : Safe.Sys R W}, Safe.Hist env false thr thrM cs sh σ → runLive env ds σ = .ok σ' →
    (∀ (i : Nat) (d : Safe.Data R W) c, ds[i]? = some c → (∀ a b, c = .vkron a b → d.live a ∧ d.live b) →
      Safe.pre ((ds.take i).foldl Shape.after sh) d c) →
    Safe.Hist env false thr thrM (cs ++ ds) (ds.foldl Shape.after sh) σ' := by
  intro ds
  induction ds with
  | nil => intro cs sh σ σ' h hr _; cases hr; rw [List.append_nil]; exact h
  | cons c ds ih =>
    intro cs sh σ σ' h hr hp
    unfold runLive at hr
    by_cases hok : operandsLive σ.d c = true
    · rw [if_pos hok] at hr
      rcases h1 : run1 env c σ with er | ⟨o, σ1⟩
      · rw [h1] at hr; cases hr
      · rw [h1] at hr
        have hl : ∀ a b, c = .vkron a b → σ.d.live a ∧ σ.d.live b := by
          intro a b hab
          rw [hab] at hok
          unfold operandsLive at hok
          rw [Bool.and_eq_true] at hok
          exact ⟨live_of hok.1, live_of hok.2⟩
        have := ih (hist_run1 h (hp 0 σ.d c rfl hl) h1) hr fun i d c' hc => hp (i + 1) d c' hc
        rwa [List.append_assoc] at this
    · rw [if_neg hok] at hr; cases hr

/-- The run: handle 43 is a proper vector, handle 44 is the zero vector, and sampling it returns the empty string. -/
def plusTest : Bool := match runLive exEnv plusCalls (Safe.Sys.init 5 5) with
  | .error _ => false
  | .ok σ => (σ.d.vs[43]?.any fun e => e.n.isSome) && (match σ.d.vs[44]? with
      | some e => e.n.isNone && decide (e.w.r.1 = 0) && decide (e.w.i.1 = 0)
      | none => false) && match run1 exEnv (.measureAll 44 false fun _ => ⟨0, rfl⟩) σ with
        | .ok (.str [], _) => true
        | _ => false

theorem plusTest_eq : plusTest = true := by decide +kernel

/-- The bookkeeping after the Kronecker products. -/
theorem plus_shape : ∀ j, ([.zero 2, .gate2 2 hhE 0 1 [], .mv 0 0] ++ (List.range j).map fun i => .vkron 1 (i + 1) :
    List (Safe.Call Safe.exact.Num EC)).foldl Shape.after ⟨[], []⟩ = ⟨2 :: (List.range (j + 1)).map (fun i => 2 * (i + 1)), [2]⟩
  | 0 => rfl
  | j + 1 => by
    rw [List.range_succ, List.map_append, ← List.append_assoc, List.foldl_append, plus_shape j]
    simp only [List.map_cons, List.map_nil, List.foldl_cons, List.foldl_nil, Shape.after]
    rw [List.range_succ (n := j + 1), List.map_append]
    congr 1
    rw [List.getD_eq_getElem?_getD, List.getD_eq_getElem?_getD]
    simp [List.getElem?_map, List.getElem?_range]
    omega

theorem plus_pre (i : Nat) (d : Safe.Data Safe.exact.Num EC) (c) (hc : plusCalls[i]? = some c)
    (hl : ∀ a b, c = .vkron a b → d.live a ∧ d.live b) :
    Safe.pre ((plusCalls.take i).foldl Shape.after ⟨[], []⟩) d c := by
  match i with
  | 0 => cases hc; exact ⟨by decide, by decide⟩
  | 1 => cases hc; exact ⟨by decide, by decide, by decide, by decide⟩
  | 2 => cases hc; exact ⟨2, 2, rfl, rfl, le_rfl⟩
  | i + 3 =>
    by_cases hi : i < 39
    · have e1 : plusCalls.take (i + 3) = [.zero 2, .gate2 2 hhE 0 1 [], .mv 0 0] ++ (List.range i).map fun i => .vkron 1 (i + 1) := by
        unfold plusCalls
        rw [List.take_append_of_le_length (by simp; omega)]
        show Safe.Call.zero 2 :: .gate2 2 hhE 0 1 [] :: .mv 0 0 :: List.take i ((List.range 39).map fun i => .vkron 1 (i + 1)) = _
        rw [← List.map_take, List.take_range, show min i 39 = i by omega]
        rfl
      have e2 : c = .vkron 1 (i + 1) := by
        unfold plusCalls at hc
        rw [List.getElem?_append_left (by simp; omega)] at hc
        simp [List.getElem?_map, List.getElem?_range, hi] at hc
        exact hc.symm
      subst e2
      rw [e1, plus_shape]
      refine ⟨2, 2 * (i + 1), ?_, ?_, by unfold NQUBITS; omega, hl _ _ rfl⟩
      · simp [List.getElem?_map, List.getElem?_range]
      · simp [List.getElem?_map, List.getElem?_range]
    · match i, hi with
      | 39, _ => cases hc; exact ⟨2, 80, rfl, rfl, by decide, hl _ _ rfl⟩
      | 40, _ => cases hc; exact ⟨2, 82, rfl, rfl, by decide, hl _ _ rfl⟩
      | 41, _ => cases hc; exact ⟨by decide, by decide, by decide, by decide⟩
      | 42, _ => cases hc; exact ⟨84, 84, rfl, rfl, le_rfl⟩
      | 43, _ => cases hc; exact ⟨by decide, by decide, by decide, by decide⟩
      | 44, _ => cases hc; exact ⟨84, 84, rfl, rfl, le_rfl⟩
      | n + 45, _ => simp [plusCalls] at hc

/-- **C58 (counterexample).**  Calls that build the uniform superposition of 84 qubits, in exact arithmetic with the
engine's tolerance.  In the specification the state before and the state after the last gate have norm one; in the engine
the state before the last gate is a proper vector, the state after it is the zero vector, and measuring all 84 qubits of it
returns a string of no bits. -/
theorem C58_collapse :
    (∃ (h : Spec.Heap ℝ) (os : _), Spec.Runs Real.sqrt NQUBITS plusCmds h os ∧
      ∃ U V, h.vs[43]? = some U ∧ h.vs[44]? = some V ∧ V.k = 84 ∧ U.norm2 = 1 ∧ V.norm2 = 1) ∧
    (∀ r c, (((hhE r c).r.1 : ℚ) : ℝ) = (hhR r c).r ∧ (((hhE r c).i.1 : ℚ) : ℝ) = (hhR r c).i) ∧
    ∃ σ : Safe.Sys Safe.exact.Num EC, ∃ sh, Safe.Hist exEnv false 5 5 plusCalls sh σ ∧ σ.d.live 43 ∧
      (∃ e, σ.d.vs[44]? = some e ∧ e.n = none ∧ e.w.r.1 = 0 ∧ e.w.i.1 = 0) ∧
      ∃ σ', Safe.Exec exEnv false σ (.measureAll 44 false fun _ => ⟨0, rfl⟩) (.str []) σ' := by
  obtain ⟨h, os, g1, g2, g3⟩ := plus_spec
  refine ⟨⟨h, os, g1, _, _, g2, g3, plus84z_k, plus82_norm, plus84_norm⟩, fun r c => ⟨rfl, by simp [hhE, hhR, f0_val]⟩, ?_⟩
  have ht := plusTest_eq
  unfold plusTest at ht
  rcases hr : runLive exEnv plusCalls (Safe.Sys.init 5 5) with er | σ
  · rw [hr] at ht; cases ht
  rw [hr] at ht
  dsimp only at ht
  rw [Bool.and_eq_true, Bool.and_eq_true] at ht
  obtain ⟨⟨h0, h1⟩, h2⟩ := ht
  have hh := hist_runLive (cs := []) .init hr plus_pre
  refine ⟨σ, _, hh, live_of h0, ?_, ?_⟩
  · rcases he : σ.d.vs[44]? with _ | e
    · rw [he] at h1; cases h1
    · rw [he] at h1
      simp only [Bool.and_eq_true, decide_eq_true_eq, Option.isNone_iff_eq_none] at h1
      exact ⟨e, rfl, h1.1.1, h1.1.2, h1.2⟩
  · rcases hm : run1 exEnv (.measureAll 44 false fun _ => ⟨0, rfl⟩) σ with er | ⟨o, σ'⟩
    · rw [hm] at h2; cases h2
    · rw [hm] at h2
      refine ⟨σ', ?_⟩
      have : o = .str [] := by
        cases o with
        | str l => cases l with
          | nil => rfl
          | cons _ _ => cases h2
        | _ => cases h2
      rw [this] at hm
      exact exec_run1 hm

end QDD.Props
