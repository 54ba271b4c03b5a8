import Verif.Py.Dist
/-!
# Circuits with a stable final state

`evol` is the state after all gates, measurements left out; measurements can be deferred when no later instruction
touches their qubits.
-/

set_option linter.unusedSectionVars false
set_option linter.unusedVariables false
set_option linter.unusedSimpArgs false

namespace QDD.Py
open Spec Api Gate Finset Props Client

/-- The state after the gates, in order. -/
noncomputable def evol (n : Nat) : List Inst → (Nat → CR) → Nat → CR
  | [], f => f
  | x :: xs, f => match x.oper n with
    | some A => evol n xs (app n A f)
    | none => evol n xs f

/-- The clbits when the measurements are read off the basis state `i`. -/
def fin : List Inst → (Nat → Bool) → Nat → Nat → Bool
  | [], val, _ => val
  | x :: xs, val, i => match x.op with
    | .measure => fin xs (upd val (x.cargs.headD 0) (i.testBit (x.qargs.headD 0))) i
    | _ => fin xs val i

/-- No conditions, no resets, measured qubits are not touched again except by measurements. -/
def Deferrable : List Nat → List Inst → Prop
  | _, [] => True
  | meas, x :: xs => x.cond = none ∧ match x.op with
    | .measure => Deferrable (x.qargs ++ meas) xs
    | .reset => False
    | _ => (∀ q ∈ x.qargs, q ∉ meas) ∧ Deferrable meas xs

/-- Operators do not change the qubits they are not given. -/
theorem oper_local {n : Nat} {x : Inst} {A : Nat → Nat → CR} (hA : x.oper n = some A) {q : Nat} (hq : q < n)
    (hnq : q ∉ x.qargs) {i j : Nat} (hne : i.testBit q ≠ j.testBit q) : A i j = 0 := by
  unfold Inst.oper at hA
  split at hA
  · rename_i g ctl hop
    unfold GName.oper at hA
    split at hA
    · rename_i M t cs h1 hr
      simp only [Option.some.injEq] at hA
      subst hA
      unfold Spec.gate1
      rw [if_neg]
      intro hall
      refine hne (hall q hq ?_)
      rintro rfl
      exact hnq (by rw [← List.mem_reverse, hr]; simp)
    · rename_i M t1 t0 cs h1 h2 hr
      simp only [Option.some.injEq] at hA
      subst hA
      unfold Spec.gate2
      rw [if_neg]
      intro hall
      refine hne (hall q hq ?_ ?_)
      · rintro rfl
        exact hnq (by rw [← List.mem_reverse, hr]; simp)
      · rintro rfl
        exact hnq (by rw [← List.mem_reverse, hr]; simp)
    · cases hA
  · simp only [Option.some.injEq] at hA
    subst hA
    unfold onQubits
    rw [if_neg]
    intro hall
    exact hne (hall q hq hnq)
  · cases hA

theorem app_proj {n : Nat} {x : Inst} {A : Nat → Nat → CR} (hA : x.oper n = some A) {q : Nat} (hq : q < n)
    (hnq : q ∉ x.qargs) (b : Bool) (f : Nat → CR) : app n A (proj q b f) = proj q b (app n A f) := by
  funext i
  show ∑ j ∈ range (2 ^ n), A i j * (if j.testBit q = b then f j else 0) =
    if i.testBit q = b then ∑ j ∈ range (2 ^ n), A i j * f j else 0
  by_cases hi : i.testBit q = b
  · rw [if_pos hi]
    refine Finset.sum_congr rfl fun j _ => ?_
    by_cases hj : j.testBit q = b
    · rw [if_pos hj]
    · rw [if_neg hj, oper_local hA hq hnq (i := i) (j := j) (by rw [hi]; exact Ne.symm hj), zero_mul, zero_mul]
  · rw [if_neg hi]
    refine Finset.sum_eq_zero fun j _ => ?_
    by_cases hj : j.testBit q = b
    · rw [oper_local hA hq hnq (i := i) (j := j) (by rw [hj]; exact hi), zero_mul]
    · rw [if_neg hj, mul_zero]

theorem evol_proj {n q : Nat} (hq : q < n) (b : Bool) : ∀ (xs : List Inst),
    (∀ x ∈ xs, ∀ A, x.oper n = some A → q ∉ x.qargs) → ∀ f, evol n xs (proj q b f) = proj q b (evol n xs f) := by
  intro xs
  induction xs with
  | nil => intro _ f; rfl
  | cons x xs ih =>
    intro h f
    have ih := ih fun y hy => h y (by simp [hy])
    unfold evol
    cases hA : x.oper n with
    | none => exact ih f
    | some A =>
      dsimp only
      rw [app_proj hA hq (h x (by simp) A hA), ih]

theorem Deferrable.untouched {n q : Nat} : ∀ {xs : List Inst} {meas : List Nat}, Deferrable meas xs → q ∈ meas →
    ∀ x ∈ xs, ∀ A, x.oper n = some A → q ∉ x.qargs := by
  intro xs
  induction xs with
  | nil => intro meas _ _ x hx; cases hx
  | cons y ys ih =>
    intro meas hd hq x hx A hA
    obtain ⟨_, hd⟩ := hd
    rcases List.mem_cons.1 hx with rfl | hx
    · rcases hop : x.op with ⟨g, ctl⟩ | _ | ⟨hd', k, M⟩ | _ | _ | _ | _ <;> rw [hop] at hd
      · exact fun hc => hd.1 q hc hq
      · exact fun hc => hd.1 q hc hq
      · exact fun hc => hd.1 q hc hq
      · exact fun hc => hd.1 q hc hq
      · unfold Inst.oper at hA; rw [hop] at hA; cases hA
      · exact hd.elim
      · exact fun hc => hd.1 q hc hq
    · rcases hop : y.op with ⟨g, ctl⟩ | _ | ⟨hd', k, M⟩ | _ | _ | _ | _ <;> rw [hop] at hd
      · exact ih hd.2 hq x hx A hA
      · exact ih hd.2 hq x hx A hA
      · exact ih hd.2 hq x hx A hA
      · exact ih hd.2 hq x hx A hA
      · exact ih hd (List.mem_append_right _ hq) x hx A hA
      · exact hd.elim
      · exact ih hd.2 hq x hx A hA

/-- **Deferred measurement.** -/
theorem expect_deferred {n nc : Nat} {ms} (φ : (Nat → Bool) → ℝ) : ∀ (xs : List Inst), (∀ x ∈ xs, Fine n nc ms x) →
    ∀ (meas : List Nat), Deferrable meas xs → ∀ (f : Nat → CR) (val : Nat → Bool),
      expect n φ xs f val = ∑ i ∈ range (2 ^ n), (evol n xs f i).mag2 * φ (fin xs val i) := by
  intro xs
  induction xs with
  | nil =>
    intro _ _ _ f val
    show nrm n f * φ val = _
    unfold nrm
    rw [Finset.sum_mul]; rfl
  | cons x xs ih =>
    intro hfine meas hd f val
    have hx := hfine x (by simp)
    have ih := ih fun y hy => hfine y (by simp [hy])
    obtain ⟨hc, hd⟩ := hd
    have hen : x.enabled val = true := by unfold Inst.enabled; rw [hc]
    have hgate : ∀ A, x.oper n = some A → Deferrable meas xs → (∀ v i, fin (x :: xs) v i = fin xs v i) →
        expect n φ xs (app n A f) val = ∑ i ∈ range (2 ^ n), (evol n (x :: xs) f i).mag2 * φ (fin (x :: xs) val i) := by
      intro A hA hd hf
      rw [ih meas hd]
      simp only [hf]
      refine Finset.sum_congr rfl fun i _ => ?_
      rw [evol, hA]
    rcases hop : x.op with ⟨g, ctl⟩ | _ | ⟨hd', k, M⟩ | _ | _ | _ | _ <;> rw [hop] at hd
    · obtain ⟨A, hA, _⟩ := gate_oper hx hop
      rw [expect, if_pos hen, hop]
      dsimp only
      rw [hA]
      dsimp only
      exact hgate A hA hd.2 (by intro v i; rw [fin, hop])
    · have := hx.op; rw [hop] at this; exact this.elim
    · have hA : x.oper n = some (onQubits n M x.qargs) := by unfold Inst.oper; rw [hop]
      rw [expect, if_pos hen, hop]
      dsimp only
      rw [hA]
      dsimp only
      exact hgate _ hA hd.2 (by intro v i; rw [fin, hop])
    · have hA : x.oper n = none := by unfold Inst.oper; rw [hop]
      rw [expect, if_pos hen, hop]
      dsimp only
      rw [ih meas hd.2]
      refine Finset.sum_congr rfl fun i _ => ?_
      rw [evol, hA, fin, hop]
    · have hA : x.oper n = none := by unfold Inst.oper; rw [hop]
      have har := hx.arity
      rw [hop] at har
      obtain ⟨har1, har2⟩ := har
      obtain ⟨q, hq⟩ := List.length_eq_one_iff.1 har1
      have hqn : q < n := hx.qubits q (by rw [hq]; simp)
      dsimp only at hd
      rw [expect, if_pos hen, hop, hq]
      dsimp only [List.headD_cons]
      rw [hq] at hd
      rw [ih _ hd, ih _ hd, ← Finset.sum_add_distrib]
      have hun : ∀ y ∈ xs, ∀ A, y.oper n = some A → q ∉ y.qargs := hd.untouched (by simp)
      refine Finset.sum_congr rfl fun i _ => ?_
      rw [evol_proj hqn false xs hun, evol_proj hqn true xs hun, evol, hA, fin, hop, hq]
      dsimp only [List.headD_cons]
      unfold proj
      cases i.testBit q <;> simp [Cx.mag2]
    · exact hd.elim
    · have := hx.op; rw [hop] at this; exact this.elim

/-! ## The classification -/

/-- A clbit read off the basis state `i`. -/
def readOff (final : List (Nat × Nat)) (i : Nat) (c : Nat) : Bool :=
  match final.lookup c with | some q => i.testBit q | none => false

theorem readOff_cons (final : List (Nat × Nat)) (i c q : Nat) :
    readOff ((c, q) :: final) i = upd (readOff final i) c (i.testBit q) := by
  funext d
  unfold readOff upd
  rw [List.lookup_cons]
  by_cases h : d = c
  · subst h; simp
  · rw [if_neg h, show (d == c) = false by simpa using h]

theorem propStep_false {x : Inst} {s : CircProp} (h : s.stable = false) : (propStep x s).stable = false := by
  unfold propStep
  split
  · exact h
  · split
    · rfl
    · exact h

theorem propLoop_false : ∀ (xs : List Inst) {s : CircProp}, s.stable = false → (propLoop xs s).stable = false := by
  intro xs
  induction xs with
  | nil => intro s h; exact h
  | cons x xs ih =>
    intro s h
    unfold propLoop
    dsimp only
    split
    · exact propStep_false h
    · exact ih (propStep_false h)

theorem propLoop_true {x : Inst} {xs : List Inst} {s : CircProp} (h : (propLoop (x :: xs) s).stable = true) :
    (propStep x s).stable = true ∧ propLoop (x :: xs) s = propLoop xs (propStep x s) := by
  have hs : (propStep x s).stable = true := by
    by_contra hc
    have hc : (propStep x s).stable = false := by simpa using hc
    unfold propLoop at h
    dsimp only at h
    split at h
    · rw [hc] at h; cases h
    · rw [propLoop_false xs hc] at h; cases h
  refine ⟨hs, ?_⟩
  rw [propLoop]
  rw [hs]
  rfl

/-- Classified as stable, without conditional measurements: the measurements can be deferred, and `final` says which
qubit each clbit reads. -/
theorem propLoop_stable {n nc : Nat} : ∀ (xs : List Inst), (∀ x ∈ xs, x.WF n nc) → (∀ x ∈ xs, x.op = .measure → x.cond = none) →
    ∀ (s : CircProp), (∀ p ∈ s.final, p.2 < n) → (propLoop xs s).stable = true →
      Deferrable s.measured xs ∧ (∀ i, fin xs (readOff s.final i) i = readOff (propLoop xs s).final i) ∧
        ∀ p ∈ (propLoop xs s).final, p.2 < n := by
  intro xs
  induction xs with
  | nil => intro _ _ s hf _; exact ⟨trivial, fun _ => rfl, hf⟩
  | cons x xs ih =>
    intro hwf hm s hf hst
    have hx := hwf x (by simp)
    have ih := ih (fun y hy => hwf y (by simp [hy])) (fun y hy => hm y (by simp [hy]))
    obtain ⟨h1, h2⟩ := propLoop_true hst
    rw [h2] at hst ⊢
    by_cases hop : x.op = .measure
    · have har := hx.arity
      rw [hop] at har
      obtain ⟨har1, har2⟩ := har
      obtain ⟨q, hq⟩ := List.length_eq_one_iff.1 har1
      obtain ⟨c, hc⟩ := List.length_eq_one_iff.1 har2
      have hqn : q < n := hx.qubits q (by rw [hq]; simp)
      have hps : propStep x s = { s with final := (c, q) :: s.final, measured := x.qargs ++ s.measured } := by
        unfold propStep; rw [hop, hq, hc]; rfl
      rw [hps] at hst ⊢
      obtain ⟨a1, a2, a3⟩ := ih _ (by
        intro p hp
        rcases List.mem_cons.1 hp with rfl | hp
        · exact hqn
        · exact hf p hp) hst
      refine ⟨⟨hm x (by simp) hop, by rw [hop]; exact a1⟩, fun i => ?_, a3⟩
      rw [← a2 i, readOff_cons, fin, hop, hq, hc]
      rfl
    · have hps : propStep x s = if destabilises x s.measured then { s with stable := false } else s := by
        unfold propStep
        split
        · rename_i h; exact absurd h hop
        · rfl
      rw [hps] at h1 hst ⊢
      by_cases hds : destabilises x s.measured = true
      · rw [if_pos hds] at h1; cases h1
      · rw [if_neg hds] at hst ⊢
        obtain ⟨a1, a2, a3⟩ := ih s hf hst
        have hds : destabilises x s.measured = false := by simpa using hds
        unfold destabilises at hds
        simp only [Bool.or_eq_false_iff, Option.isSome_eq_false_iff, Option.isNone_iff_eq_none, List.any_eq_false,
          List.contains_eq_mem, decide_eq_true_eq] at hds
        obtain ⟨⟨d1, d2⟩, d3⟩ := hds
        refine ⟨⟨d1, ?_⟩, fun i => ?_, a3⟩
        · rcases hop' : x.op with ⟨g, ctl⟩ | _ | ⟨hd', k, M⟩ | _ | _ | _ | _ <;> dsimp only
          · exact ⟨d2, a1⟩
          · exact ⟨d2, a1⟩
          · exact ⟨d2, a1⟩
          · exact ⟨d2, a1⟩
          · exact absurd hop' hop
          · rw [hop'] at d3; cases d3
          · exact ⟨d2, a1⟩
        · rw [← a2 i, fin]
          rcases hop' : x.op with ⟨g, ctl⟩ | _ | ⟨hd', k, M⟩ | _ | _ | _ | _ <;> dsimp only
          exact absurd hop' hop

variable {sqrt : ℝ → ℝ} {α : Type} {T : Option α → Prop}

theorem evol_congr {n : Nat} : ∀ (xs : List Inst) {f g : Nat → CR}, (∀ i < 2 ^ n, f i = g i) →
    ∀ i < 2 ^ n, evol n xs f i = evol n xs g i := by
  intro xs
  induction xs with
  | nil => intro f g h; exact h
  | cons x xs ih =>
    intro f g h i hi
    unfold evol
    cases x.oper n with
    | none => exact ih h i hi
    | some A => exact ih (fun i hi => app_congr (fun _ _ _ _ => rfl) h hi) i hi

/-- No resets, and only measurements are conditional. -/
def Steady (xs : List Inst) : Prop := ∀ x ∈ xs, (x.op = .measure ∨ x.cond = none) ∧ x.op ≠ .reset

theorem Deferrable.steady : ∀ {xs : List Inst} {meas : List Nat}, Deferrable meas xs → Steady xs := by
  intro xs
  induction xs with
  | nil => intro meas _ x hx; cases hx
  | cons y ys ih =>
    intro meas hd x hx
    obtain ⟨hc, hd⟩ := hd
    rcases List.mem_cons.1 hx with rfl | hx
    · refine ⟨.inr hc, fun e => ?_⟩
      rw [e] at hd
      exact hd
    · rcases hop : y.op with ⟨g, ctl⟩ | _ | ⟨hd', k, M⟩ | _ | _ | _ | _ <;> rw [hop] at hd
      · exact ih hd.2 x hx
      · exact ih hd.2 x hx
      · exact ih hd.2 x hx
      · exact ih hd.2 x hx
      · exact ih hd x hx
      · exact hd.elim
      · exact ih hd.2 x hx

theorem propLoop_steady : ∀ (xs : List Inst) (s : CircProp), (propLoop xs s).stable = true → Steady xs := by
  intro xs
  induction xs with
  | nil => intro s _ x hx; cases hx
  | cons y ys ih =>
    intro s hst x hx
    obtain ⟨h1, h2⟩ := propLoop_true hst
    rw [h2] at hst
    rcases List.mem_cons.1 hx with rfl | hx
    · by_cases hop : x.op = .measure
      · exact ⟨.inl hop, by rw [hop]; intro e; cases e⟩
      · have hps : propStep x s = if destabilises x s.measured then { s with stable := false } else s := by
          unfold propStep
          split
          · rename_i h; exact absurd h hop
          · rfl
        rw [hps] at h1
        by_cases hds : destabilises x s.measured = true
        · rw [if_pos hds] at h1; cases h1
        · have hds : destabilises x s.measured = false := by simpa using hds
          unfold destabilises at hds
          simp only [Bool.or_eq_false_iff, Option.isSome_eq_false_iff, Option.isNone_iff_eq_none, List.any_eq_false,
            List.contains_eq_mem, decide_eq_true_eq] at hds
          refine ⟨.inr hds.1.1, fun e => ?_⟩
          have := hds.2
          rw [e] at this
          cases this
    · exact ih _ hst x hx

/-- The instructions of a stable circuit: the gates are applied, the rest is skipped. -/
theorem insts_stable {n nc : Nat} {ms : List (Mat ℝ)} (sh : Bool) : ∀ (xs : List Inst), (∀ x ∈ xs, Fine n nc ms x) →
    Steady xs → ∀ {k : Loc → Client α} {v : ℝ} (s : Loc) h f, Good n ms h s.cur f →
      (∀ (s' : Loc) h' f', s'.val = s.val → s'.pc = s.pc → (∀ i < 2 ^ n, f' i = evol n xs f i) → Good n ms h' s'.cur f' →
        Meets sqrt (k s') h' T v) →
      Meets sqrt (insts n true sh xs s k) h T v := by
  intro xs
  induction xs with
  | nil => intro _ _ k v s h f hg hk; exact hk s h f rfl rfl (fun _ _ => rfl) hg
  | cons x xs ih =>
    intro hfine hd k v s h f hg hk
    have hx := hfine x (by simp)
    have ih := @ih (fun y hy => hfine y (by simp [hy])) (fun y hy => hd y (by simp [hy])) k v
    obtain ⟨hc, hnr⟩ := hd x (by simp)
    have hs : x.op ≠ .measure → skips s.val x.cond = false := fun h => by rw [hc.resolve_left h]; rfl
    show Meets sqrt (instr n true sh x s fun s => insts n true sh xs s k) h T v
    rcases hop : x.op with ⟨g, ctl⟩ | _ | ⟨hd', kk, M⟩ | _ | _ | _ | _
    · have hs := hs (by rw [hop]; intro e; cases e)
      obtain ⟨A, hA, hiso⟩ := gate_oper hx hop
      refine gate_meets hx hop hg true sh hs ⟨A, hA, hiso, fun h' s' f' hv hpc hf' hg' => ?_⟩
      refine ih s' h' f' hg' fun s'' h'' f'' hv' hpc' hf'' hg'' => ?_
      refine hk s'' h'' f'' (hv'.trans hv) (hpc'.trans hpc) (fun i hi => ?_) hg''
      rw [hf'' i hi, evol, hA]
      exact evol_congr xs hf' i hi
    · have := hx.op; rw [hop] at this; exact this.elim
    · have hs := hs (by rw [hop]; intro e; cases e)
      have hA : x.oper n = some (onQubits n M x.qargs) := by unfold Inst.oper; rw [hop]
      refine qdd_meets hx hop hg true sh hs fun h' s' f' hv hpc hf' hg' => ?_
      refine ih s' h' f' hg' fun s'' h'' f'' hv' hpc' hf'' hg'' => ?_
      refine hk s'' h'' f'' (hv'.trans hv) (hpc'.trans hpc) (fun i hi => ?_) hg''
      rw [hf'' i hi, evol, hA]
      exact evol_congr xs hf' i hi
    · have hs := hs (by rw [hop]; intro e; cases e)
      have hA : x.oper n = none := by unfold Inst.oper; rw [hop]
      unfold instr
      rw [hs, hop]
      refine ih s h f hg fun s'' h'' f'' hv' hpc' hf'' hg'' => ?_
      refine hk s'' h'' f'' hv' hpc' (fun i hi => ?_) hg''
      rw [hf'' i hi, evol, hA]
    · have hA : x.oper n = none := by unfold Inst.oper; rw [hop]
      have key : Meets sqrt (insts n true sh xs s k) h T v := by
        refine ih s h f hg fun s'' h'' f'' hv' hpc' hf'' hg'' => ?_
        refine hk s'' h'' f'' hv' hpc' (fun i hi => ?_) hg''
        rw [hf'' i hi, evol, hA]
      unfold instr
      rw [hop]
      split
      · exact key
      · exact key
    · exact absurd hop hnr
    · have := hx.op; rw [hop] at this; exact this.elim

end QDD.Py
