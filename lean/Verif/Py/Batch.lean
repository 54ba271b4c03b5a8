import Verif.Py.Run
/-!
# Several circuits in one job (qdd_backend.py 262-400, 1133-1169, qdd_job.py, qdd_failed_job.py)
-/

set_option linter.unusedSectionVars false
set_option linter.unusedVariables false
set_option linter.unusedSimpArgs false

namespace QDD.Py
open Spec Api Gate Finset Props Client

noncomputable section

/-! ## Model -/

/-- `try: … except Exception` (qdd_backend.py 265-345): an exception becomes `none`. -/
def Client.attempt {α : Type} : Client α → Client (Option α)
  | .ret a => .ret (some a)
  | .raise => .ret none
  | .draw k => .draw fun u => (k u).attempt
  | .call c k => .call c fun o a b => (k o a b).attempt

/-- The comprehension over the experiments in `_run_experiment` (qdd_backend.py 380-383); `zip` cannot truncate, there is
one property per circuit.  Multi-threading is not modelled here. -/
def evalAll (o : Opts) : List (Circ × CircProp) → Client (List Result)
  | [] => .ret []
  | (c, cp) :: r => (evaluate c cp o).bind' fun a => (evalAll o r).bind' fun as => .ret (a :: as)

/-- The value of the option `shots`, if given: `bool` is `int` in Python; `other` cannot be compared with 0. -/
inductive Shots where
  | absent | none | int (z : Int) | float (x : ℝ) | other

/-- A circuit with parameters (numbered). -/
structure PCirc where
  params : List Nat
  at_ : (Nat → ℝ) → Circ

/-- `assign_parameters(binds)` (qdd_backend.py 367) of Qiskit: raises when a key is not a parameter of the circuit.
Simplified: parameters left unbound raise here, instead of when the gate is built. -/
def assign (p : PCirc) (b : List (Nat × ℝ)) : Option Circ :=
  if (∀ k ∈ b.map Prod.fst, k ∈ p.params) ∧ ∀ k ∈ p.params, k ∈ b.map Prod.fst then
    some (p.at_ fun k => (b.lookup k).getD 0)
  else none

/-- The options of `run` that matter here.  `others` are the names of the remaining ones given.  `seed` is
`seed_simulator`: stored in the options of the job (qdd_backend.py 328-330) and read nowhere. -/
structure RunOpts where
  shots : Shots
  binds : Option (List (List (Nat × ℝ)))
  others : List String
  saveSV : Bool
  seed : Option Int := none

/-- `max_shots` (qdd_backend.py 186). -/
def maxShots : Int := 1000000

/-- The test on `shots` in `_validate_run_options` (1137-1145); `false` is an exception. -/
def Shots.valid : Shots → Prop
  | .absent => True
  | .none => True
  | .int z => 0 < z ∧ z ≤ maxShots
  | .float x => 0 < x ∧ x ≤ maxShots
  | .other => False

open Classical in
/-- The value used (349): the default of the backend is 1024.  `none` in the outer option: not an `int`, so that
`[None] * shots` raises (688). -/
def Shots.value : Shots → Option (Option Nat)
  | .absent => some (some 1024)
  | .none => some Option.none
  | .int z => some (some z.toNat)
  | .float _ => Option.none
  | .other => Option.none

/-- The default options (219-230) and those ignored without a warning (196-202). -/
def knownOptions : List String := ["shots", "memory", "seed_simulator", "use_mpi", "use_bcast", "use_auto_swap", "swap_ver",
  "n_threads", "show_progress", "show_progress_frequency", "parameter_binds", "max_credits"]

/-- The options warned about (1150-1169). -/
def RunOpts.warned (o : RunOpts) : List String := o.others.filter fun x => !knownOptions.contains x

/-- What `run` returns: `QddJob` with its results, or `QddFailedJob`. -/
inductive Job where
  | done (rs : List Result)
  | failed

/-- `status()` (qdd_job.py 27-31, qdd_failed_job.py 22-23). -/
inductive Status | DONE | ERROR
def Job.status : Job → Status
  | .done _ => .DONE
  | .failed => .ERROR
/-- `result().success` (qdd_backend.py 331, 393). -/
def Job.success : Job → Bool
  | .done _ => true
  | .failed => false
/-- `result().results`. -/
def Job.results : Job → List Result
  | .done rs => rs
  | .failed => []

/-- Binding the parameters (362-372): `zip` stops at the shorter list. -/
def bound (ps : List PCirc) : Option (List (List (Nat × ℝ))) → Option (List Circ)
  | some bs => (ps.zip bs).mapM fun (p, b) => assign p b
  | none => ps.mapM fun p => assign p []

/-- The end of `run` (262-345): an exception gives a failed job. -/
def finish : Option (List Result) → Client Job
  | none => .ret .failed
  | some rs => .ret (.done rs)

open Classical in
/-- `QddBackend.run` (262-400) of a list of circuits: an exception anywhere gives a failed job. -/
def runJob (ps : List PCirc) (o : RunOpts) : Client Job :=
  if o.shots.valid then
    match bound ps o.binds with
    | none => .ret .failed
    | some cs =>
      match cs.mapM fun c => (circProp c (!o.saveSV)).map fun cp => (c, cp) with
      | none => .ret .failed
      | some l =>
        match o.shots.value with
        | none => if l = [] then .ret (.done []) else .ret .failed
        | some sh => (evalAll ⟨sh, o.saveSV⟩ l).attempt.bind' finish
  else .ret .failed

end

/-! ## Composition -/

variable {sqrt : ℝ → ℝ} {α β : Type}

/-- The calls a program makes leave the matrices in place. -/
def Keeps : Client α → Prop
  | .ret _ => True
  | .raise => True
  | .draw k => ∀ u, Keeps (k u)
  | .call c k => (∀ h h1 o, Spec.step sqrt h c = some (h1, o) → ∃ tl, h1.ms = h.ms ++ tl) ∧ ∀ o a b, Keeps (k o a b)

/-- The matrices `ms` are there. -/
def Has (ms : List (Mat ℝ)) (h : Heap ℝ) : Prop := ∃ tl, h.ms = ms ++ tl

open Classical in
theorem bind_meets {ms : List (Mat ℝ)} {T1 : Option α → Prop} {T : Option β → Prop} {f : α → Client β} {y : ℝ}
    (hT1 : ¬ T1 none) (hT : ¬ T none)
    (hf : ∀ a h', Has ms h' → Meets sqrt (f a) h' T (if T1 (some a) then y else 0)) : ∀ (p : Client α), Keeps (sqrt := sqrt) p → ∀ h, Has ms h →
    Safe sqrt p h ∧ Fair sqrt T1 p h → Meets sqrt (p.bind' f) h T (prob sqrt p h T1 * y) := by
  intro p
  induction p with
  | ret a =>
    intro _ h hh _
    refine cast (congrArg _ ?_) (hf a h hh)
    rw [prob]
    split <;> simp
  | raise =>
    intro _ h hh _
    refine ⟨trivial, trivial, ?_⟩
    show prob sqrt (.raise : Client β) h T = _
    rw [prob, prob, if_neg hT, if_neg hT1, zero_mul]
  | draw k ih =>
    intro hk h hh hs
    have := Meets.draw (sqrt := sqrt) (T := T) (k := fun u => (k u).bind' f) (h := h) (F := fun u => prob sqrt (k u) h T1 * y)
      (hs.2.2.mul_const y) fun u h0 h1 => ih u (hk u) h hh ⟨hs.1 u h0 h1, hs.2.1 u h0 h1⟩
    rw [MeasureTheory.integral_mul_const] at this
    exact this
  | call c k ih =>
    intro hk h hh hs
    obtain ⟨h1, o, hst⟩ := step_defined sqrt hs.1.1
    have hh1 : Has ms h1 := by
      obtain ⟨tl, htl⟩ := hh
      obtain ⟨tl', htl'⟩ := hk.1 h h1 o hst
      exact ⟨tl ++ tl', by rw [htl', htl, List.append_assoc]⟩
    refine Meets.call hs.1.1 hst (cast (congrArg _ ?_) (ih _ _ _ (hk.2 _ _ _) h1 hh1 ⟨hs.1.2 _ _ hst, hs.2 _ _ hst⟩))
    conv_rhs => rw [prob, hst]

theorem attempt_meets {T : Option (Option α) → Prop} : ∀ (p : Client α) (h : Heap ℝ) {x : ℝ},
    Meets sqrt p h (fun r => T (some r)) x → Meets sqrt p.attempt h T x := by
  intro p
  induction p with
  | ret a => intro h x hx; exact ⟨trivial, trivial, hx.2.2⟩
  | raise => intro h x hx; exact ⟨trivial, trivial, hx.2.2⟩
  | draw k ih =>
    rintro h x ⟨hs, hfr, rfl⟩
    exact Meets.draw hfr.2 fun u h0 h1 => ih u h ⟨hs u h0 h1, hfr.1 u h0 h1, rfl⟩
  | call c k ih =>
    rintro h x ⟨hs, hfr, rfl⟩
    obtain ⟨h1, o, hst⟩ := step_defined sqrt hs.1
    refine Meets.call hs.1 hst (ih _ _ _ h1 ⟨hs.2 _ _ hst, hfr _ _ hst, ?_⟩)
    conv_rhs => rw [prob, hst]

theorem Keeps.bind {f : α → Client β} (hf : ∀ a, Keeps (sqrt := sqrt) (f a)) : ∀ (p : Client α), Keeps (sqrt := sqrt) p → Keeps (sqrt := sqrt) (p.bind' f) := by
  intro p
  induction p with
  | ret a => intro _; exact hf a
  | raise => intro _; exact trivial
  | draw k ih => intro h u; exact ih u (h u)
  | call c k ih => intro h; exact ⟨h.1, fun o a b => ih _ _ _ (h.2 o a b)⟩

theorem Keeps.attempt : ∀ (p : Client α), Keeps (sqrt := sqrt) p → Keeps (sqrt := sqrt) p.attempt := by
  intro p
  induction p with
  | ret a => intro _; exact trivial
  | raise => intro _; exact trivial
  | draw k ih => intro h u; exact ih u (h u)
  | call c k ih => intro h; exact ⟨h.1, fun o a b => ih _ _ _ (h.2 o a b)⟩

/-! ## The engine calls of an experiment keep the matrices -/

theorem Keeps.gc {b keep} {k : Obs ℝ → Nat → Nat → Client α} (hk : ∀ o a b, Keeps (sqrt := sqrt) (k o a b)) :
    Keeps (sqrt := sqrt) (.call (.gc b keep) k) := by
  refine ⟨fun h h1 o hs => ⟨[], ?_⟩, hk⟩
  simp only [Spec.step, Option.bind_eq_bind] at hs
  cases hm : List.mapM (fun x => h.vs[x]?) keep with
  | none => rw [hm] at hs; simp at hs
  | some l => rw [hm] at hs; simp at hs; rw [← hs.1]; simp

theorem Keeps.mv {m v} {k : Obs ℝ → Nat → Nat → Client α} (hk : ∀ o a b, Keeps (sqrt := sqrt) (k o a b)) :
    Keeps (sqrt := sqrt) (.call (.mv m v) k) := by
  refine ⟨fun h h1 o hs => ⟨[], ?_⟩, hk⟩
  simp only [Spec.step, Option.bind_eq_bind] at hs
  cases hm : h.ms[m]? with
  | none => rw [hm] at hs; simp at hs
  | some l =>
    rw [hm] at hs
    cases hv : h.vs[v]? with
    | none => rw [hv] at hs; simp at hs
    | some l => rw [hv] at hs; simp at hs; rw [← hs.1]; simp [Heap.addV]

theorem Keeps.scale {v c} {k : Obs ℝ → Nat → Nat → Client α} (hk : ∀ o a b, Keeps (sqrt := sqrt) (k o a b)) :
    Keeps (sqrt := sqrt) (.call (.scale v c) k) := by
  refine ⟨fun h h1 o hs => ⟨[], ?_⟩, hk⟩
  simp only [Spec.step, Option.bind_eq_bind] at hs
  cases hv : h.vs[v]? with
  | none => rw [hv] at hs; simp at hs
  | some l => rw [hv] at hs; simp at hs; rw [← hs.1]; simp [Heap.addV]

theorem Keeps.readout {c : Cmd ℝ} {v} (hc : c = .getVector v ∨ c = .probabilities v ∨ (∃ q e, c = .measureOne v q e) ∨
    (∃ q e u, c = .measureOneCollapsing v q e u) ∨ ∃ b u, c = .measureAll v b u)
    {k : Obs ℝ → Nat → Nat → Client α} (hk : ∀ o a b, Keeps (sqrt := sqrt) (k o a b)) :
    Keeps (sqrt := sqrt) (.call c k) := by
  refine ⟨fun h h1 o hs => ⟨[], ?_⟩, hk⟩
  rcases hc with rfl | rfl | ⟨q, e, rfl⟩ | ⟨q, e, u, rfl⟩ | ⟨b, u, rfl⟩ <;> simp only [Spec.step, Option.bind_eq_bind] at hs <;>
  cases hv : h.vs[v]? with
  | none => rw [hv] at hs; simp at hs
  | some l =>
    rw [hv] at hs
    simp only [Option.bind_some] at hs
    try split at hs
    all_goals
      simp at hs
      rw [← hs.1]
      try simp

theorem Keeps.adds {c : Cmd ℝ} (hc : (∃ n, c = .zero n) ∨ (∃ n g t cs, c = .gate n g t cs) ∨ ∃ n g t t' cs, c = .gate2 n g t t' cs)
    {k : Obs ℝ → Nat → Nat → Client α} (hk : ∀ o a b, Keeps (sqrt := sqrt) (k o a b)) :
    Keeps (sqrt := sqrt) (.call c k) := by
  refine ⟨fun h h1 o hs => ?_, hk⟩
  rcases hc with ⟨n, rfl⟩ | ⟨n, g, t, cs, rfl⟩ | ⟨n, g, t, t', cs, rfl⟩ <;> simp only [Spec.step, Option.some.injEq, Prod.mk.injEq] at hs
  · exact ⟨[], by rw [← hs.1]; simp [Heap.addV]⟩
  · exact ⟨_, by rw [← hs.1]; rfl⟩
  · exact ⟨_, by rw [← hs.1]; rfl⟩

theorem Keeps.applyLast {s : Loc} {nm : Nat} {k : Loc → Client α} (hk : ∀ s, Keeps (sqrt := sqrt) (k s)) :
    Keeps (sqrt := sqrt) (applyLast s nm k) := Keeps.mv fun _ _ _ => Keeps.gc fun _ _ _ => hk _

theorem Keeps.collect {s : Loc} {k : Loc → Client α} (hk : ∀ s, Keeps (sqrt := sqrt) (k s)) :
    Keeps (sqrt := sqrt) (collect s k) := Keeps.gc fun _ _ _ => hk _

theorem Keeps.instr {n : Nat} {st sh : Bool} {x : Inst} {s : Loc} {k : Loc → Client α} (hk : ∀ s, Keeps (sqrt := sqrt) (k s)) :
    Keeps (sqrt := sqrt) (instr n st sh x s k) := by
  unfold QDD.Py.instr
  split
  · exact hk s
  · split
    · exact hk s
    · split
      · exact hk s
      · dsimp only
        split
        · intro u
          refine Keeps.readout (.inr (.inr (.inr (.inl ⟨_, _, _, rfl⟩)))) fun o _ _ => ?_
          split
          · exact Keeps.collect hk
          · exact trivial
        · refine Keeps.readout (.inr (.inr (.inl ⟨_, _, rfl⟩))) fun o _ _ => ?_
          split
          · exact Keeps.collect hk
          · exact trivial
    · split
      · exact trivial
      · intro u
        refine Keeps.readout (.inr (.inr (.inr (.inl ⟨_, _, _, rfl⟩)))) fun o _ _ => ?_
        split
        · split
          · exact Keeps.adds (.inr (.inl ⟨_, _, _, _, rfl⟩)) fun _ _ _ => Keeps.applyLast hk
          · exact Keeps.collect hk
        · exact trivial
    · split
      · exact trivial
      · split
        · split
          · exact Keeps.adds (.inr (.inl ⟨_, _, _, _, rfl⟩)) fun _ _ _ => Keeps.applyLast hk
          · exact trivial
        · split
          · split
            · exact Keeps.adds (.inr (.inr ⟨_, _, _, _, _, rfl⟩)) fun _ _ _ => Keeps.applyLast hk
            · exact trivial
          · exact trivial
    · exact Keeps.mv fun _ _ _ => Keeps.gc fun _ _ _ => hk _
    · exact trivial
    · exact trivial

theorem Keeps.insts {n : Nat} {st sh : Bool} {k : Loc → Client α} (hk : ∀ s, Keeps (sqrt := sqrt) (k s)) : ∀ (xs : List Inst) (s : Loc),
    Keeps (sqrt := sqrt) (insts n st sh xs s k) := by
  intro xs
  induction xs with
  | nil => intro s; exact hk s
  | cons x xs ih => intro s; exact Keeps.instr ih

theorem Keeps.trip {c : Circ} {st sh : Bool} {pc} {k : Loc → Client α} (hk : ∀ s, Keeps (sqrt := sqrt) (k s)) :
    Keeps (sqrt := sqrt) (trip c st sh pc k) := Keeps.adds (.inl ⟨_, rfl⟩) fun _ _ _ => Keeps.insts hk _ _

theorem Keeps.shotLoop {c : Circ} {k : Loc → List (List Bool) → Client α} (hk : ∀ s l, Keeps (sqrt := sqrt) (k s l)) : ∀ r s acc,
    Keeps (sqrt := sqrt) (shotLoop c r s acc k) := by
  intro r
  induction r with
  | zero => intro s acc; exact hk s acc
  | succ r ih => intro s acc; exact Keeps.trip fun s => ih s _

theorem Keeps.drawN {k : List ℝ → Client α} (n : Nat) : (∀ l, Keeps (sqrt := sqrt) (k l)) → Keeps (sqrt := sqrt) (drawN n k) := by
  induction n generalizing k with
  | zero => intro h; exact h _
  | succ n ih => intro h u; exact ih fun l => h _

theorem Keeps.sampleLoop {c : Circ} {final} {k : List (List Bool) → Client α} (hk : ∀ l, Keeps (sqrt := sqrt) (k l)) : ∀ r cur acc,
    Keeps (sqrt := sqrt) (sampleLoop c final r cur acc k) := by
  intro r
  induction r with
  | zero => intro s acc; exact hk acc
  | succ r ih =>
    intro s acc
    refine Keeps.drawN _ fun us => Keeps.readout (.inr (.inr (.inr (.inr ⟨_, _, rfl⟩)))) fun o _ _ => ?_
    split
    · exact ih _ _
    · exact trivial

theorem Keeps.withSV {sv cur r} : Keeps (sqrt := sqrt) (withSV sv cur r) := by
  unfold QDD.Py.withSV
  split
  · refine Keeps.readout (.inl rfl) fun o _ _ => ?_
    split <;> exact trivial
  · exact trivial

theorem Keeps.evaluate (c : Circ) (cp : CircProp) (o : Opts) : Keeps (sqrt := sqrt) (evaluate c cp o) := by
  unfold QDD.Py.evaluate
  split
  · split
    · exact Keeps.trip fun s => Keeps.scale fun _ _ _ => Keeps.sampleLoop (fun _ => Keeps.withSV) _ _ _
    · exact Keeps.shotLoop (fun s l => Keeps.scale fun _ _ _ => Keeps.withSV) _ _ _
  · split
    · exact trivial
    · refine Keeps.trip fun s => Keeps.scale fun _ _ _ => ?_
      split
      · refine Keeps.readout (.inr (.inl rfl)) fun o _ _ => ?_
        split
        · exact Keeps.withSV
        · exact trivial
      · exact Keeps.withSV

theorem Keeps.evalAll (o : Opts) : ∀ l, Keeps (sqrt := sqrt) (evalAll o l) := by
  intro l
  induction l with
  | nil => exact trivial
  | cons a l ih => exact Keeps.bind (fun a => Keeps.bind (f := fun as => (.ret (a :: as) : Client (List Result))) (fun _ => trivial) _ ih) _ (Keeps.evaluate _ _ _)

/-! ## Batches -/

/-- One result per entry, each satisfying its condition. -/
def Each {α : Type} (Ts : List (Option α → Prop)) (r : Option (List α)) : Prop :=
  ∃ rs, r = some rs ∧ List.Forall₂ (fun (T : Option α → Prop) a => T (some a)) Ts rs

open Classical in
theorem evalAll_meets {ms : List (Mat ℝ)} {o : Opts} : ∀ (l : List (Circ × CircProp)) (Ts : List (Option Result → Prop)) (xs : List ℝ),
    l.length = Ts.length → Ts.length = xs.length →
    (∀ i (h1 : i < l.length) (h2 : i < Ts.length) (h3 : i < xs.length), ¬ Ts[i] none ∧ ∀ h, Has ms h → Meets sqrt (evaluate l[i].1 l[i].2 o) h Ts[i] xs[i]) →
    ∀ h, Has ms h → Meets sqrt (evalAll o l) h (Each Ts) xs.prod := by
  intro l
  induction l with
  | nil =>
    intro Ts xs hl1 hl2 _ h hh
    have : Ts = [] := List.eq_nil_of_length_eq_zero (by simpa using hl1.symm)
    subst this
    have : xs = [] := List.eq_nil_of_length_eq_zero (by simpa using hl2.symm)
    subst this
    refine ⟨trivial, trivial, ?_⟩
    show prob sqrt (.ret [] : Client (List Result)) h _ = _
    rw [prob, if_pos ⟨[], rfl, .nil⟩]; simp
  | cons a l ih =>
    intro Ts xs hl1 hl2 H h hh
    obtain ⟨c, cp⟩ := a
    obtain ⟨T, Ts, rfl⟩ : ∃ T Ts', Ts = T :: Ts' := List.exists_cons_of_length_pos (by rw [← hl1]; simp)
    obtain ⟨x, xs, rfl⟩ : ∃ x xs', xs = x :: xs' := List.exists_cons_of_length_pos (by rw [← hl2]; simp)
    simp only [List.length_cons, Nat.add_right_cancel_iff] at hl1 hl2
    have H0 := H 0 (by simp) (by simp) (by simp)
    simp only [List.getElem_cons_zero] at H0
    have ih := ih Ts xs hl1 hl2 fun i h1 h2 h3 => by
      have := H (i + 1) (by simpa using h1) (by simpa using h2) (by simpa using h3)
      simpa using this
    have hE : ¬ Each (T :: Ts) none := by rintro ⟨rs, h, _⟩; cases h
    have hE' : ¬ Each Ts none := by rintro ⟨rs, h, _⟩; cases h
    have := bind_meets (sqrt := sqrt) (ms := ms) (T1 := T) (T := Each (T :: Ts)) (y := xs.prod)
      (f := fun a => (evalAll o l).bind' fun as => .ret (a :: as)) H0.1 hE
      (fun a h' hh' => by
        have e := ih h' hh'
        have := bind_meets (sqrt := sqrt) (ms := ms) (T1 := Each Ts) (T := Each (T :: Ts)) (y := if T (some a) then 1 else 0)
          (f := fun as => (.ret (a :: as) : Client (List Result))) hE' hE (fun as h'' _ => by
            refine ⟨trivial, trivial, ?_⟩
            rw [prob]
            by_cases ha : T (some a)
            · by_cases has : Each Ts (some as)
              · rw [if_pos has, if_pos ha, if_pos]
                obtain ⟨rs, hr, hF⟩ := has
                cases hr
                exact ⟨_, rfl, .cons ha hF⟩
              · rw [if_neg has, if_neg]
                rintro ⟨rs, hr, hF⟩
                cases hr
                cases hF with
                | cons _ hF => exact has ⟨_, rfl, hF⟩
            · rw [if_neg ha, if_neg]
              · split <;> rfl
              · rintro ⟨rs, hr, hF⟩
                cases hr
                cases hF with
                | cons h' _ => exact ha h') (evalAll o l) (Keeps.evalAll o l) h' hh' ⟨e.1, e.2.1⟩
        refine cast (congrArg _ ?_) this
        rw [e.2.2]
        split <;> simp) (evaluate c cp o) (Keeps.evaluate _ _ _) h hh ⟨(H0.2 h hh).1, (H0.2 h hh).2.1⟩
    refine cast (congrArg _ ?_) this
    rw [(H0.2 h hh).2.2, List.prod_cons]

/-- The job finished, with one result per entry, each satisfying its condition. -/
def Finished (Ts : List (Option Result → Prop)) (r : Option Job) : Prop :=
  ∃ rs, r = some (.done rs) ∧ List.Forall₂ (fun (T : Option Result → Prop) a => T (some a)) Ts rs

theorem mapM_circProp {f : Circ → Option (Circ × CircProp)} {g : Circ → Circ × CircProp} {cs : List Circ} (h : ∀ c ∈ cs, f c = some (g c)) :
    cs.mapM f = some (cs.map g) := by
  induction cs with
  | nil => rfl
  | cons c cs ih =>
    rw [List.mapM_cons, h c (by simp), ih fun c hc => h c (by simp [hc])]
    rfl

theorem mapM_none {α β : Type} {f : α → Option β} {cs : List α} {c : α} (hc : c ∈ cs) (h : f c = none) : cs.mapM f = none := by
  induction cs with
  | nil => cases hc
  | cons a cs ih =>
    rw [List.mapM_cons]
    rcases List.mem_cons.1 hc with rfl | hc
    · rw [h]; rfl
    · rw [ih hc]
      cases f a <;> rfl

theorem circProp_some {c : Circ} {req : Bool} (hn : c.nq ≤ NQUBITS)
    (hms : req = false ∨ (propLoop c.data ⟨true, [], []⟩).measured ≠ []) :
    circProp c req = some (propLoop c.data ⟨true, [], []⟩) := by
  unfold circProp
  rw [if_neg (by unfold NQUBITS at hn; omega)]
  dsimp only
  rw [if_neg]
  simp only [Bool.and_eq_true, List.isEmpty_iff, not_and, Bool.not_eq_true]
  intro h
  rcases hms with h' | h'
  · exact h'
  · exact absurd h h'

open Classical in
/-- A job of circuits that are all accepted. -/
theorem runJob_meets {ms : List (Mat ℝ)} {ps : List PCirc} {o : RunOpts} {sh : Option Nat} (hv : o.shots.valid)
    (hsh : o.shots.value = some sh) {cs : List Circ} (hb : bound ps o.binds = some cs)
    (hacc : ∀ c ∈ cs, c.nq ≤ NQUBITS ∧ (o.saveSV = true ∨ (propLoop c.data ⟨true, [], []⟩).measured ≠ []))
    (Ts : List (Option Result → Prop)) (xs : List ℝ) (hl1 : cs.length = Ts.length) (hl2 : Ts.length = xs.length)
    (H : ∀ i (h1 : i < cs.length) (h2 : i < Ts.length) (h3 : i < xs.length), ¬ Ts[i] none ∧
      ∀ h, Has ms h → Meets sqrt (run cs[i] ⟨sh, o.saveSV⟩) h Ts[i] xs[i]) (h : Heap ℝ) (hh : Has ms h) :
    Meets sqrt (runJob ps o) h (Finished Ts) xs.prod := by
  unfold runJob
  rw [if_pos hv, hb]
  dsimp only
  rw [mapM_circProp (g := fun c => (c, propLoop c.data ⟨true, [], []⟩)) (fun c hc => by
    rw [circProp_some (hacc c hc).1]
    · rfl
    · rcases (hacc c hc).2 with h | h
      · left; simp [h]
      · exact .inr h)]
  dsimp only
  rw [hsh]
  dsimp only
  have he := evalAll_meets (sqrt := sqrt) (ms := ms) (o := ⟨sh, o.saveSV⟩)
    (cs.map fun c => (c, propLoop c.data ⟨true, [], []⟩)) Ts xs (by simpa using hl1) hl2 (fun i h1 h2 h3 => by
      have hi : i < cs.length := by simpa using h1
      have := H i hi h2 h3
      refine ⟨this.1, fun h hh => ?_⟩
      have := this.2 h hh
      rw [run_some (hacc _ (List.getElem_mem hi)).1 (hacc _ (List.getElem_mem hi)).2] at this
      simpa using this) h hh
  have ha := attempt_meets (sqrt := sqrt) (T := fun r => ∃ r', r = some r' ∧ Each Ts r') _ h
    (x := xs.prod) (by
      refine cast (congrArg (fun T => Meets sqrt _ h T xs.prod) ?_) he
      funext r
      exact propext ⟨fun hr => ⟨r, rfl, hr⟩, by rintro ⟨r', h1, h2⟩; cases h1; exact h2⟩)
  have := bind_meets (sqrt := sqrt) (ms := ms) (T1 := fun r => ∃ r', r = some r' ∧ Each Ts r') (T := Finished Ts) (y := 1)
    (f := finish) (by rintro ⟨r', h, _⟩; cases h) (by rintro ⟨rs, h, _⟩; cases h) (fun a h' _ => by
        cases a with
        | none =>
          refine ⟨trivial, trivial, ?_⟩
          rw [finish, prob, if_neg, if_neg]
          · rintro ⟨r', h1, ⟨rs, h2, _⟩⟩; cases h1; cases h2
          · rintro ⟨rs, h, _⟩; cases h
        | some rs =>
          refine ⟨trivial, trivial, ?_⟩
          rw [finish, prob]
          by_cases hF : List.Forall₂ (fun (T : Option Result → Prop) a => T (some a)) Ts rs
          · rw [if_pos ⟨rs, rfl, hF⟩, if_pos ⟨some rs, rfl, rs, rfl, hF⟩]
          · rw [if_neg, if_neg]
            · rintro ⟨r', h1, rs', h2, h3⟩; cases h1; cases h2; exact hF h3
            · rintro ⟨rs', h2, h3⟩; cases h2; exact hF h3) _
    (Keeps.attempt _ (Keeps.evalAll _ _)) h hh ⟨ha.1, ha.2.1⟩
  refine cast (congrArg _ ?_) this
  rw [ha.2.2, mul_one]

/-! ## What a program can return -/

/-- Whatever the engine answers, a result satisfies `Q`. -/
def Ends (Q : α → Prop) : Client α → Prop
  | .ret a => Q a
  | .raise => True
  | .draw k => ∀ u, Ends Q (k u)
  | .call _ k => ∀ o a b, Ends Q (k o a b)

theorem Ends.mono {Q Q' : α → Prop} (hq : ∀ a, Q a → Q' a) : ∀ {p : Client α}, Ends Q p → Ends Q' p := by
  intro p
  induction p with
  | ret a => exact hq a
  | raise => intro _; exact trivial
  | draw k ih => intro h u; exact ih u (h u)
  | call c k ih => intro h o a b; exact ih o a b (h o a b)

theorem Ends.bind {Q : α → Prop} {Q' : β → Prop} {f : α → Client β} (hf : ∀ a, Q a → Ends Q' (f a)) : ∀ {p : Client α}, Ends Q p →
    Ends Q' (p.bind' f) := by
  intro p
  induction p with
  | ret a => exact hf a
  | raise => intro _; exact trivial
  | draw k ih => intro h u; exact ih u (h u)
  | call c k ih => intro h o a b; exact ih o a b (h o a b)

theorem Ends.attempt {Q : α → Prop} : ∀ {p : Client α}, Ends Q p → Ends (fun r : Option α => ∀ a, r = some a → Q a) p.attempt := by
  intro p
  induction p with
  | ret a => intro h b hb; cases hb; exact h
  | raise => intro _ b hb; cases hb
  | draw k ih => intro h u; exact ih u (h u)
  | call c k ih => intro h o a b; exact ih o a b (h o a b)

theorem Ends.trivial : ∀ (p : Client α), Ends (fun _ => True) p := by
  intro p
  induction p with
  | ret a => exact True.intro
  | raise => exact True.intro
  | draw k ih => exact ih
  | call c k ih => exact ih

theorem evalAll_ends (o : Opts) : ∀ l, Ends (fun rs : List Result => rs.length = l.length) (evalAll o l) := by
  intro l
  induction l with
  | nil => exact rfl
  | cons a l ih =>
    refine Ends.bind (Q := fun _ => True) (fun r _ => Ends.bind (fun rs hrs => ?_) ih) (Ends.trivial _)
    show (r :: rs).length = _
    rw [List.length_cons, List.length_cons, hrs]

theorem mapM_length {f : α → Option β} : ∀ {l : List α} {r : List β}, l.mapM f = some r → r.length = l.length := by
  intro l
  induction l with
  | nil => intro l h; cases h; rfl
  | cons c cs ih =>
    intro l h
    rw [List.mapM_cons] at h
    cases hf : f c with
    | none => rw [hf] at h; cases h
    | some x =>
      rw [hf] at h
      cases hm : cs.mapM f with
      | none => rw [hm] at h; cases h
      | some y =>
        rw [hm] at h
        cases h
        simp [ih hm]

theorem runJob_ends (ps : List PCirc) (o : RunOpts) : Ends (fun j : Job => j = .failed ∨ ∃ rs cs, j = .done rs ∧ bound ps o.binds = some cs ∧
    rs.length = cs.length) (runJob ps o) := by
  unfold runJob
  split
  · split
    · exact .inl rfl
    · rename_i cs hcs
      split
      · exact .inl rfl
      · rename_i l hl
        have hll := mapM_length hl
        split
        · split
          · rename_i h0
            refine .inr ⟨[], cs, rfl, hcs, ?_⟩
            rw [← hll, h0]; rfl
          · exact .inl rfl
        · refine Ends.bind (fun r hr => ?_) (Ends.attempt (evalAll_ends _ l))
          cases r with
          | none => exact .inl rfl
          | some rs => exact .inr ⟨rs, cs, rfl, hcs, by rw [hr rs rfl, hll]⟩
  · exact .inl rfl

open Classical in
/-- `bind_meets` with what is known of the results. -/
theorem bind_meets_ends {ms : List (Mat ℝ)} {Q : α → Prop} {T1 : Option α → Prop} {T : Option β → Prop} {f : α → Client β} {y : ℝ}
    (hT1 : ¬ T1 none) (hT : ¬ T none)
    (hf : ∀ a, Q a → ∀ h', Has ms h' → Meets sqrt (f a) h' T (if T1 (some a) then y else 0)) : ∀ (p : Client α), Ends Q p → Keeps (sqrt := sqrt) p → ∀ h, Has ms h →
    Safe sqrt p h ∧ Fair sqrt T1 p h → Meets sqrt (p.bind' f) h T (prob sqrt p h T1 * y) := by
  intro p
  induction p with
  | ret a =>
    intro hq _ h hh _
    refine cast (congrArg _ ?_) (hf a hq h hh)
    rw [prob]
    split <;> simp
  | raise =>
    intro _ _ h hh _
    refine ⟨True.intro, True.intro, ?_⟩
    show prob sqrt (.raise : Client β) h T = _
    rw [prob, prob, if_neg hT, if_neg hT1, zero_mul]
  | draw k ih =>
    intro hq hk h hh hs
    have := Meets.draw (sqrt := sqrt) (T := T) (k := fun u => (k u).bind' f) (h := h) (F := fun u => prob sqrt (k u) h T1 * y)
      (hs.2.2.mul_const y) fun u h0 h1 => ih u (hq u) (hk u) h hh ⟨hs.1 u h0 h1, hs.2.1 u h0 h1⟩
    rw [MeasureTheory.integral_mul_const] at this
    exact this
  | call c k ih =>
    intro hq hk h hh hs
    obtain ⟨h1, o, hst⟩ := step_defined sqrt hs.1.1
    have hh1 : Has ms h1 := by
      obtain ⟨tl, htl⟩ := hh
      obtain ⟨tl', htl'⟩ := hk.1 h h1 o hst
      exact ⟨tl ++ tl', by rw [htl', htl, List.append_assoc]⟩
    refine Meets.call hs.1.1 hst (cast (congrArg _ ?_) (ih _ _ _ (hq _ _ _) (hk.2 _ _ _) h1 hh1 ⟨hs.1.2 _ _ hst, hs.2 _ _ hst⟩))
    conv_rhs => rw [prob, hst]

theorem Keeps.runJob (ps : List PCirc) (o : RunOpts) : Keeps (sqrt := sqrt) (runJob ps o) := by
  unfold QDD.Py.runJob
  split
  · split
    · exact True.intro
    · split
      · exact True.intro
      · split
        · split <;> exact True.intro
        · refine Keeps.bind (fun r => ?_) _ (Keeps.attempt _ (Keeps.evalAll _ _))
          cases r <;> exact True.intro
  · exact True.intro

theorem Ends.mexec {cfg : Cfg ℝ} {Q : α → Prop} {p : Client α} {σ us r σ'} (hx : MExec cfg p σ us r σ') :
    Ends Q p → ∀ a, r = some a → Q a := by
  induction hx with
  | ret a σ => intro h b hb; cases hb; exact h
  | raise σ => intro _ b hb; cases hb
  | draw _ ih => intro h; exact ih (h _)
  | call _ _ ih => intro h; exact ih (h _ _ _)

/-- Programs without an exception. -/
def NoRaise : Client α → Prop
  | .ret _ => True
  | .raise => False
  | .draw k => ∀ u, NoRaise (k u)
  | .call _ k => ∀ o a b, NoRaise (k o a b)

theorem NoRaise.attempt_bind {f : Option α → Client β} (hf : ∀ a, NoRaise (f a)) : ∀ (p : Client α), NoRaise (p.attempt.bind' f) := by
  intro p
  induction p with
  | ret a => exact hf _
  | raise => exact hf _
  | draw k ih => exact ih
  | call c k ih => exact ih

theorem NoRaise.mexec {cfg : Cfg ℝ} {p : Client α} {σ us r σ'} (hx : MExec cfg p σ us r σ') : NoRaise p → ∃ a, r = some a := by
  induction hx with
  | ret a σ => intro _; exact ⟨a, rfl⟩
  | raise σ => intro h; exact h.elim
  | draw _ ih => intro h; exact ih (h _)
  | call _ _ ih => intro h; exact ih (h _ _ _)

theorem NoRaise.runJob (ps : List PCirc) (o : RunOpts) : NoRaise (runJob ps o) := by
  unfold QDD.Py.runJob
  split
  · split
    · exact True.intro
    · split
      · exact True.intro
      · split
        · split <;> exact True.intro
        · refine NoRaise.attempt_bind (fun r => ?_) _
          cases r <;> exact True.intro
  · exact True.intro

end QDD.Py
