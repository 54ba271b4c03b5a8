import Verif.Py.Batch
/-!
# Model of qdd/qdd_sampler.py

`_run` (140-167) registers circuits, `_transpile` (169-184), `_call` (86-138) runs one job.  The job runs in a thread of
its own (`PrimitiveJob`); overlapping calls are not modelled.
-/

set_option linter.unusedSectionVars false
set_option linter.unusedVariables false
set_option linter.unusedSimpArgs false

namespace QDD.Py
open Spec Api Gate Finset Props Client

noncomputable section

variable {Key : Type} [DecidableEq Key]

/-- `Sampler` (qdd_sampler.py 58-84): `_circuits` (with `_parameters`, which is extended at the same place),
`_circuit_ids`, `_transpiled_circuits`. -/
structure Sampler (Key : Type) where
  circuits : List PCirc
  ids : List (Key × Nat)
  transpiled : List (Nat × PCirc)

/-- A new sampler. -/
def Sampler.new : Sampler Key := ⟨[], [], []⟩

/-- The loop of `_run` (qdd_sampler.py 150-164); `key` is Qiskit's `_circuit_key`. -/
def register (key : PCirc → Key) : List PCirc → Sampler Key → Sampler Key × List Nat
  | [], s => (s, [])
  | p :: ps, s => match s.ids.lookup (key p) with
    | some i => let r := register key ps s; (r.1, i :: r.2)
    | none =>
      let r := register key ps ⟨s.circuits ++ [p], (key p, s.circuits.length) :: s.ids, s.transpiled⟩
      (r.1, s.circuits.length :: r.2)

/-- `_transpile` (qdd_sampler.py 169-184): `tr` is Qiskit's `transpile` on one circuit (the identity with
`skip_transpilation`); a list is transpiled circuit by circuit. -/
def Sampler.transpile (tr : PCirc → PCirc) (idx : List Nat) (s : Sampler Key) : Sampler Key :=
  { s with transpiled := s.transpiled ++ (idx.dedup.filter fun i => (s.transpiled.lookup i).isNone).filterMap fun i =>
    (s.circuits[i]?).map fun p => (i, tr p) }

/-- `_ExperimentManager` (qdd_sampler.py 187-218). -/
structure EM where
  keys : List Nat
  circs : List PCirc
  binds : List (List (Nat × ℝ))
  inputs : List (List Nat)
  num : Nat

/-- `append` (qdd_sampler.py 203-218).  Values are floats, which have no `append`: `vs.append(…)` raises (`none`). -/
def EM.append (e : EM) (key : Nat) (bind : List (Nat × ℝ)) (c : PCirc) : Option EM :=
  if bind ≠ [] ∧ key ∈ e.keys then
    let j := e.keys.idxOf key
    if e.binds.getD j [] ≠ [] then none
    else some { e with inputs := e.inputs.set j (e.inputs.getD j [] ++ [e.num]), num := e.num + 1 }
  else some ⟨e.keys ++ [key], e.circs ++ [c], e.binds ++ [bind], e.inputs ++ [[e.num]], e.num + 1⟩

/-- `np.argsort` (of distinct numbers). -/
def argsort' (l : List Nat) : List Nat := (List.range l.length).mergeSort fun a b => decide (l.getD a 0 ≤ l.getD b 0)

/-- `experiment_indices` (qdd_sampler.py 198-201). -/
def EM.indices (e : EM) : List Nat := argsort' e.inputs.flatten

/-- The loop of `_call` (qdd_sampler.py 99-111).  `none` is an exception. -/
def collectExps (s : Sampler Key) : List (Nat × List ℝ) → EM → Option EM
  | [], e => some e
  | (i, v) :: r, e => do
    let p ← s.circuits[i]?
    if v.length ≠ p.params.length then none
    else
      let t ← s.transpiled.lookup i
      let e ← e.append i (p.params.zip v) t
      collectExps s r e

/-- Post-processing (qdd_sampler.py 119-138): the results at the experiment indices. -/
def pick (idx : List Nat) (j : Job) : Client (List Result) :=
  match idx.mapM (j.results[·]?) with
  | some l => .ret l
  | none => .raise

/-- `_call` (qdd_sampler.py 86-138).  The seed among the run options is not passed on to the model: the backend ignores it (C61). -/
def samplerCall (s : Sampler Key) (idx : List Nat) (vals : List (List ℝ)) (shots : Shots) (others : List String) : Client (List Result) :=
  match collectExps s (idx.zip vals) ⟨[], [], [], [], 0⟩ with
  | none => .raise
  | some e => (runJob e.circs ⟨shots, some e.binds, others, false, none⟩).bind' (pick e.indices)

/-- `run` with lists of circuits and parameter values. -/
def samplerRun (key : PCirc → Key) (tr : PCirc → PCirc) (s : Sampler Key) (ps : List PCirc) (vals : List (List ℝ)) (shots : Shots)
    (others : List String) : Sampler Key × Client (List Result) :=
  let r := register key ps s
  let s' := r.1.transpile tr r.2
  (s', samplerCall s' r.2 vals shots others)

/-- The quasi-distribution of a result (qdd_sampler.py 129-135). -/
def quasi (r : Result) (k : List Bool) : ℝ := match r.memory with
  | some m => (m.count k : ℝ) / (m.length : ℝ)
  | none => 0

/-- The samplers that can be reached: by any sequence of calls with circuits satisfying `P`. -/
inductive SReach (key : PCirc → Key) (tr : PCirc → PCirc) (P : PCirc → Prop) : Sampler Key → Prop
  | new : SReach key tr P .new
  | call {s ps vals sh ot} : SReach key tr P s → (∀ p ∈ ps, P p) → SReach key tr P (samplerRun key tr s ps vals sh ot).1

/-! ## Proofs -/

variable {key : PCirc → Key} {tr : PCirc → PCirc} {P : PCirc → Prop}

structure SamplerInv (key : PCirc → Key) (tr : PCirc → PCirc) (P : PCirc → Prop) (s : Sampler Key) : Prop where
  good : ∀ p ∈ s.circuits, P p
  ids : ∀ k i, s.ids.lookup k = some i → ∃ p, s.circuits[i]? = some p ∧ key p = k
  inv : ∀ i p, s.circuits[i]? = some p → s.ids.lookup (key p) = some i
  trans : ∀ i q, s.transpiled.lookup i = some q → ∃ p, s.circuits[i]? = some p ∧ q = tr p

theorem SamplerInv.new : SamplerInv key tr P (.new : Sampler Key) where
  good := by simp [Sampler.new]
  ids := by simp [Sampler.new]
  inv := by simp [Sampler.new]
  trans := by simp [Sampler.new]

/-- Circuits are only added. -/
def Ext (s s' : Sampler Key) : Prop := ∀ (i : Nat) p, s.circuits[i]? = some p → s'.circuits[i]? = some p

theorem register_spec : ∀ (ps : List PCirc) (s : Sampler Key), SamplerInv key tr P s → (∀ p ∈ ps, P p) →
    SamplerInv key tr P (register key ps s).1 ∧ Ext s (register key ps s).1 ∧
    List.Forall₂ (fun p i => ∃ q, (register key ps s).1.circuits[i]? = some q ∧ key q = key p) ps (register key ps s).2 := by
  intro ps
  induction ps with
  | nil => intro s hs _; exact ⟨hs, fun _ _ h => h, .nil⟩
  | cons p ps ih =>
    intro s hs hP
    unfold register
    cases hl : s.ids.lookup (key p) with
    | some i =>
      dsimp only
      obtain ⟨h1, h2, h3⟩ := ih s hs fun q hq => hP q (by simp [hq])
      obtain ⟨q, hq, hk⟩ := hs.ids _ _ hl
      exact ⟨h1, h2, .cons ⟨q, h2 _ _ hq, hk⟩ h3⟩
    | none =>
      dsimp only
      have hs1 : SamplerInv key tr P (⟨s.circuits ++ [p], (key p, s.circuits.length) :: s.ids, s.transpiled⟩ : Sampler Key) := by
        have hmono : ∀ (i : Nat) q, s.circuits[i]? = some q → (s.circuits ++ [p])[i]? = some q := by
          intro i q h
          rw [List.getElem?_append_left]
          · exact h
          · by_contra hn
            rw [List.getElem?_eq_none (by omega)] at h
            cases h
        constructor
        · intro q hq
          rcases List.mem_append.1 hq with h | h
          · exact hs.good q h
          · simp only [List.mem_singleton] at h; subst h; exact hP _ (by simp)
        · intro k i h
          dsimp only at h
          rw [List.lookup_cons] at h
          by_cases hk : k == key p
          · rw [hk] at h
            simp only [Option.some.injEq] at h
            subst h
            exact ⟨p, by simp, (by simpa using hk : k = key p).symm⟩
          · rw [show (k == key p) = false by simpa using hk] at h
            obtain ⟨q, h1, h2⟩ := hs.ids k i h
            exact ⟨q, hmono _ _ h1, h2⟩
        · intro i q h
          dsimp only at h ⊢
          rw [List.lookup_cons]
          by_cases hi : i < s.circuits.length
          · rw [List.getElem?_append_left hi] at h
            have := hs.inv i q h
            have hne : (key q == key p) = false := by
              by_contra hc
              have hc : key q = key p := by simpa using hc
              rw [hc, hl] at this
              cases this
            rw [hne]
            exact this
          · rw [List.getElem?_append_right (by omega)] at h
            have : i - s.circuits.length = 0 := by
              by_contra hn
              rw [List.getElem?_eq_none (by simp; omega)] at h
              cases h
            rw [this] at h
            simp only [List.getElem?_cons_zero, Option.some.injEq] at h
            subst h
            have hi : i = s.circuits.length := by omega
            subst hi
            simp
        · intro i q h
          obtain ⟨p', h1, h2⟩ := hs.trans i q h
          exact ⟨p', hmono _ _ h1, h2⟩
      obtain ⟨h1, h2, h3⟩ := ih _ hs1 fun q hq => hP q (by simp [hq])
      refine ⟨h1, fun i q h => h2 i q ?_, .cons ⟨p, h2 _ _ (by simp), rfl⟩ h3⟩
      dsimp only
      rw [List.getElem?_append_left]
      · exact h
      · by_contra hn
        rw [List.getElem?_eq_none (by omega)] at h
        cases h

theorem lookup_append {α β : Type} [DecidableEq α] (l l' : List (α × β)) (a : α) :
    (l ++ l').lookup a = (l.lookup a).or (l'.lookup a) := by
  induction l with
  | nil => simp
  | cons x l ih =>
    obtain ⟨b, c⟩ := x
    simp only [List.cons_append, List.lookup_cons]
    split <;> simp [*]

theorem lookup_filterMap {f : Nat → Option PCirc} : ∀ (l : List Nat) (i : Nat),
    (l.filterMap fun i => (f i).map fun p => (i, p)).lookup i = if i ∈ l then f i else none := by
  intro l
  induction l with
  | nil => intro i; simp
  | cons a l ih =>
    intro i
    rw [List.filterMap_cons]
    cases ha : f a with
    | none =>
      simp only [Option.map_none]
      rw [ih]
      by_cases h : i = a
      · subst h; simp [ha]
      · simp [h]
    | some p =>
      simp only [Option.map_some]
      rw [List.lookup_cons]
      by_cases h : i = a
      · subst h; simp [ha]
      · rw [show (i == a) = false by simpa using h]
        dsimp only
        rw [ih]
        simp [h]

theorem transpile_spec {s : Sampler Key} (hs : SamplerInv key tr P s) (idx : List Nat) :
    SamplerInv key tr P (s.transpile tr idx) ∧ (s.transpile tr idx).circuits = s.circuits ∧
    ∀ i ∈ idx, ∀ p, s.circuits[i]? = some p → (s.transpile tr idx).transpiled.lookup i = some (tr p) := by
  have hl : ∀ i, (s.transpile tr idx).transpiled.lookup i = (s.transpiled.lookup i).or
      (if i ∈ idx.dedup.filter (fun i => (s.transpiled.lookup i).isNone) then (s.circuits[i]?).map tr else none) := by
    intro i
    unfold Sampler.transpile
    dsimp only
    rw [lookup_append]
    congr 1
    rw [← lookup_filterMap (f := fun i => (s.circuits[i]?).map tr)]
    congr 2
    funext i
    simp only [Option.map_map]
    rfl
  refine ⟨⟨hs.good, hs.ids, hs.inv, fun i q h => ?_⟩, rfl, fun i hi p hp => ?_⟩
  · rw [hl] at h
    cases ht : s.transpiled.lookup i with
    | some q' =>
      rw [ht] at h
      rw [Option.some_or, Option.some.injEq] at h
      subst h
      exact hs.trans i _ ht
    | none =>
      rw [ht] at h
      simp only [Option.none_or] at h
      split at h
      · cases hc : s.circuits[i]? with
        | none => rw [hc] at h; cases h
        | some p =>
          rw [hc] at h
          simp only [Option.map_some, Option.some.injEq] at h
          exact ⟨p, hc, h.symm⟩
      · cases h
  · rw [hl]
    cases ht : s.transpiled.lookup i with
    | some q' =>
      obtain ⟨p', h1, h2⟩ := hs.trans i _ ht
      rw [hp] at h1
      cases h1
      simp [h2]
    | none =>
      simp [hi, ht, hp]

theorem SReach.inv {s : Sampler Key} (hs : SReach key tr P s) : SamplerInv key tr P s := by
  induction hs with
  | new => exact SamplerInv.new
  | call _ hP ih => exact (transpile_spec (register_spec _ _ ih hP).1 _).1

/-- Circuit, transpiled circuit and binding of an entry. -/
def Entry (s : Sampler Key) (x : Nat × List ℝ) (y : Nat × PCirc × List (Nat × ℝ)) : Prop :=
  ∃ p, s.circuits[x.1]? = some p ∧ x.2.length = p.params.length ∧ s.transpiled.lookup x.1 = some y.2.1 ∧ y.2.2 = p.params.zip x.2 ∧
    y.1 = x.1

/-- No repetition: every experiment is appended. -/
theorem collectExps_plain {s : Sampler Key} : ∀ (l : List (Nat × List ℝ)) (m : List (Nat × PCirc × List (Nat × ℝ))) (e : EM),
    List.Forall₂ (Entry s) l m → (m.Pairwise fun a b => b.2.2 ≠ [] → a.1 ≠ b.1) → (∀ b ∈ m, b.2.2 ≠ [] → b.1 ∉ e.keys) →
    collectExps s l e = some ⟨e.keys ++ m.map (·.1), e.circs ++ m.map (·.2.1), e.binds ++ m.map (·.2.2),
      e.inputs ++ (List.range m.length).map (fun i => [e.num + i]), e.num + m.length⟩ := by
  intro l
  induction l with
  | nil =>
    intro m e hf _ _
    cases hf
    simp [collectExps]
  | cons x l ih =>
    intro m e hf hp hk
    cases hf with
    | @cons _ y _ m' hxy hf =>
    obtain ⟨i, v⟩ := x
    obtain ⟨i', t, b⟩ := y
    obtain ⟨p, h1, h2, h3, h4, h5⟩ := hxy
    dsimp only at h1 h2 h3 h4 h5
    subst h5
    have happ : e.append i' (p.params.zip v) t = some ⟨e.keys ++ [i'], e.circs ++ [t], e.binds ++ [p.params.zip v], e.inputs ++ [[e.num]], e.num + 1⟩ := by
      unfold EM.append
      rw [if_neg]
      rintro ⟨a1, a2⟩
      exact hk (i', t, b) (by simp) (by rw [show (i', t, b).2.2 = b from rfl, h4]; exact a1) a2
    unfold collectExps
    simp only [Option.bind_eq_bind, h1, Option.bind_some, h3, happ]
    rw [if_neg (by simpa using h2)]
    rw [List.pairwise_cons] at hp
    rw [ih m' _ hf hp.2 (by
      intro c hc hne hmem
      rcases List.mem_append.1 hmem with h | h
      · exact hk c (by simp [hc]) hne h
      · simp only [List.mem_singleton] at h
        exact hp.1 c hc hne h.symm)]
    simp only [List.append_assoc, List.singleton_append, List.map_cons, List.length_cons, h4, Option.some.injEq, EM.mk.injEq, true_and]
    refine ⟨?_, by omega⟩
    rw [List.range_succ_eq_map, List.map_cons, List.map_map]
    simp only [Nat.add_zero, List.cons.injEq, List.append_cancel_left_eq, true_and]
    refine List.map_congr_left fun j _ => ?_
    simp only [Function.comp_apply]
    congr 1
    omega

/-- A repetition of a parametrised circuit raises. -/
theorem collectExps_raise {s : Sampler Key} : ∀ (l : List (Nat × List ℝ)) (m : List (Nat × PCirc × List (Nat × ℝ))) (e : EM),
    List.Forall₂ (Entry s) l m →
    (∀ j (hj : j < e.keys.length), ∃ b v p, e.binds[j]? = some b ∧ s.circuits[e.keys[j]]? = some p ∧ v.length = p.params.length ∧ b = p.params.zip v) →
    (¬ (m.Pairwise fun a b => b.2.2 ≠ [] → a.1 ≠ b.1) ∨ ∃ b ∈ m, b.2.2 ≠ [] ∧ b.1 ∈ e.keys) →
    e.binds.length = e.keys.length →
    collectExps s l e = none := by
  intro l
  induction l with
  | nil =>
    intro m e hf _ h
    cases hf
    rcases h with h | ⟨b, hb, _⟩
    · exact absurd .nil h
    · cases hb
  | cons x l ih =>
    intro m e hf hk h hlen
    cases hf with
    | @cons _ y _ m' hxy hf =>
    obtain ⟨i, v⟩ := x
    obtain ⟨i', t, b⟩ := y
    obtain ⟨p, h1, h2, h3, h4, h5⟩ := hxy
    dsimp only at h1 h2 h3 h4 h5
    subst h5
    unfold collectExps
    simp only [Option.bind_eq_bind, h1, Option.bind_some, h3]
    rw [if_neg (by simpa using h2)]
    by_cases hc : p.params.zip v ≠ [] ∧ i' ∈ e.keys
    · unfold EM.append
      rw [if_pos hc]
      have hj : e.keys.idxOf i' < e.keys.length := List.idxOf_lt_length_iff.2 hc.2
      obtain ⟨b', v', p', hb', hp', hl', hz⟩ := hk _ hj
      rw [List.getElem_idxOf hj, h1] at hp'
      cases hp'
      rw [if_pos]
      · rfl
      · rw [List.getD_eq_getElem?_getD, hb', Option.getD_some, hz]
        intro h0
        have hz0 := congrArg List.length h0
        simp only [List.length_zip, List.length_nil] at hz0
        refine hc.1 (List.eq_nil_of_length_eq_zero ?_)
        rw [List.length_zip]
        omega
    · unfold EM.append
      rw [if_neg hc]
      simp only [Option.bind_some]
      refine ih m' _ hf ?_ ?_ (by simp [hlen])
      · intro j hj
        dsimp only at hj ⊢
        rw [List.length_append, List.length_singleton] at hj
        by_cases hj' : j < e.keys.length
        · obtain ⟨b', v', p', q1, q2, q3⟩ := hk j hj'
          refine ⟨b', v', p', ?_, ?_, q3⟩
          · rw [List.getElem?_append_left (by omega)]; exact q1
          · rw [List.getElem_append_left hj']; exact q2
        · have : j = e.keys.length := by omega
          subst this
          refine ⟨_, v, p, ?_, ?_, h2, rfl⟩
          · rw [← hlen]; simp
          · simp [h1]
      · rcases h with h | ⟨c, hcm, hne, hmem⟩
        · rw [List.pairwise_cons] at h
          by_cases hpw : m'.Pairwise fun a b => b.2.2 ≠ [] → a.1 ≠ b.1
          · right
            have : ¬ ∀ a' ∈ m', a'.2.2 ≠ [] → (i', t, b).1 ≠ a'.1 := fun hh => h ⟨hh, hpw⟩
            push Not at this
            obtain ⟨c, hcm, hne, heq⟩ := this
            exact ⟨c, hcm, hne, by simp [← heq]⟩
          · exact .inl hpw
        · rcases List.mem_cons.1 hcm with rfl | hcm
          · exact absurd ⟨by rw [← h4]; exact hne, hmem⟩ hc
          · exact .inr ⟨c, hcm, hne, by simp [hmem]⟩

theorem argsort_range (n : Nat) : argsort' (List.range n) = List.range n := by
  unfold argsort'
  rw [List.length_range]
  apply List.mergeSort_of_pairwise
  rw [List.pairwise_iff_getElem]
  intro i j hi hj hij
  simp only [List.length_range] at hi hj
  simp only [List.getElem_range, decide_eq_true_eq]
  rw [List.getD_eq_getElem?_getD, List.getD_eq_getElem?_getD, List.getElem?_range hi, List.getElem?_range hj]
  simp
  omega

theorem indices_plain (n : Nat) : ((List.range n).map fun i => [0 + i]).flatten = List.range n := by
  rw [← List.flatMap_def]
  simp only [Nat.zero_add]
  induction List.range n with
  | nil => rfl
  | cons a l ih => rw [List.flatMap_cons, ih]; rfl

end
end QDD.Py
