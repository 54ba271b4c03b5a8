import Verif.Py.Run
/-!
# `merge_circuit` (qdd_backend.py 424-500): a circuit as one matrix
-/

set_option linter.unusedSectionVars false
set_option linter.unusedVariables false
set_option linter.unusedSimpArgs false

namespace QDD.Py
open Spec Api Gate Finset Props Client

noncomputable section

/-! ## Model -/

/-- `current = pyQDD.mm_multiply(gate, current)` with the gate just built (qdd_backend.py 460-488). -/
def mulLast (nm cur : Nat) (k : Nat → Client α) : Client α :=
  .call (.mmul (nm - 1) cur) fun _ _ nm => k (nm - 1)

/-- One instruction of `merge_circuit` (qdd_backend.py 431-498): `count` and the handle of `current` are passed on.
Conditions are not looked at; instructions that are not in the tables (such as `reset`) fall through the `if`;
`UnitaryGate` is handed `Qubit` objects instead of indices, a `TypeError`; a `gc_freq` of 0 is a division by zero.
`show_progress` is left out. -/
def mergeStep (n freq : Nat) (x : Inst) (count cur : Nat) (k : Nat → Nat → Client α) : Client α :=
  let next : Nat → Client α := fun cur =>
    if freq = 0 then .raise else
    if (count + 1) % freq = 0 then .call (.gcMat false [cur]) fun _ _ _ => k (count + 1) 0 else k (count + 1) cur
  match x.op with
  | .barrier => k count cur
  | .measure => k count cur
  | .gate g _ =>
    if !x.cargs.isEmpty then .raise else
    match tab1 g with
    | some m =>
      match x.qargs.reverse with
      | t :: cs => .call (.gate n m t (controls cs.reverse)) fun _ _ nm => mulLast nm cur next
      | [] => .raise
    | none =>
      match tab2 g with
      | some m =>
        match x.qargs.reverse with
        | t1 :: t0 :: cs => .call (.gate2 n m t1 t0 (controls cs.reverse)) fun _ _ nm => mulLast nm cur next
        | _ => .raise
      | none => .raise
  | .qdd hd _ _ => if !x.cargs.isEmpty then .raise else .call (.mmul hd cur) fun _ _ nm => next (nm - 1)
  | .unitary => .raise
  | .reset => if !x.cargs.isEmpty then .raise else next cur
  | .other => if !x.cargs.isEmpty then .raise else next cur

/-- The loop of `merge_circuit` (qdd_backend.py 431-498). -/
def mergeLoop (n freq : Nat) : List Inst → Nat → Nat → (Nat → Client α) → Client α
  | [], _, cur, k => k cur
  | x :: xs, count, cur, k => mergeStep n freq x count cur fun count cur => mergeLoop n freq xs count cur k

/-- `merge_circuit` (qdd_backend.py 424-500); the continuation gets the handle of the merged gate. -/
def merge (c : Circ) (freq : Nat) (k : Nat → Client α) : Client α :=
  .call (.gate c.nq Imat 0 []) fun _ _ nm => mergeLoop c.nq freq c.data 0 (nm - 1) fun cur =>
  .call (.mscale cur ⟨Real.cos c.phase, Real.sin c.phase⟩) fun _ _ nm => k (nm - 1)

/-! ## Specification -/

/-- The basis state `x`. -/
def ket (x : Nat) : Nat → CR := fun i => if i = x then 1 else 0

/-- The matrix of a circuit of gates: column `j` is the circuit applied to basis state `j`. -/
def opMat (c : Circ) (i j : Nat) : CR := evol c.nq c.data (ket j) i * ⟨Real.cos c.phase, Real.sin c.phase⟩

/-- A circuit of unconditional gates (named, with closed controls) and barriers. -/
structure GateCirc (c : Circ) : Prop where
  pos : 0 < c.nq
  lim : c.nq ≤ NQUBITS
  fine : ∀ x ∈ c.data, Fine c.nq c.nc [] x
  gates : ∀ x ∈ c.data, x.cond = none ∧ (x.op = .barrier ∨ ∃ g ctl, x.op = .gate g ctl)

end

/-! ## Linearity and isometry of circuits -/

theorem inner_app {n : Nat} {A : Nat → Nat → CR} (hA : Isometry n A) (f g : Nat → CR) :
    ∑ i ∈ range (2 ^ n), conj (app n A f i) * app n A g i = ∑ i ∈ range (2 ^ n), conj (f i) * g i := by
  unfold app
  calc _ = ∑ i ∈ range (2 ^ n), ∑ j ∈ range (2 ^ n), ∑ k ∈ range (2 ^ n),
        conj (f j) * g k * (conj (A i j) * A i k) := by
          refine Finset.sum_congr rfl fun i _ => ?_
          rw [conj_sum, Finset.sum_mul_sum]
          refine Finset.sum_congr rfl fun j _ => Finset.sum_congr rfl fun k _ => ?_
          rw [Props.conj_mul]; ring
    _ = ∑ j ∈ range (2 ^ n), ∑ k ∈ range (2 ^ n), conj (f j) * g k *
        ∑ i ∈ range (2 ^ n), conj (A i j) * A i k := by
          rw [Finset.sum_comm]
          refine Finset.sum_congr rfl fun j _ => ?_
          rw [Finset.sum_comm]
          exact Finset.sum_congr rfl fun k _ => (Finset.mul_sum _ _ _).symm
    _ = _ := by
          refine Finset.sum_congr rfl fun j hj => ?_
          rw [Finset.sum_congr rfl fun k hk => by rw [hA j (mem_range.1 hj) k (mem_range.1 hk)]]
          simp [hj]

theorem GateCirc.oper {c : Circ} (hc : GateCirc c) {x : Inst} (hx : x ∈ c.data) :
    (x.op = .barrier ∧ x.oper c.nq = none) ∨ ∃ A, x.oper c.nq = some A ∧ Isometry c.nq A := by
  rcases (hc.gates x hx).2 with h | ⟨g, ctl, h⟩
  · left; exact ⟨h, by unfold Inst.oper; rw [h]⟩
  · right; exact gate_oper (hc.fine x hx) h

theorem evol_inner {n : Nat} : ∀ (xs : List Inst), (∀ x ∈ xs, ∀ A, x.oper n = some A → Isometry n A) → ∀ f g,
    ∑ i ∈ range (2 ^ n), conj (evol n xs f i) * evol n xs g i = ∑ i ∈ range (2 ^ n), conj (f i) * g i := by
  intro xs
  induction xs with
  | nil => intro _ f g; rfl
  | cons x xs ih =>
    intro h f g
    have ih := ih fun y hy => h y (by simp [hy])
    unfold evol
    cases hA : x.oper n with
    | none => exact ih f g
    | some A => dsimp only; rw [ih, inner_app (h x (by simp) A hA)]

theorem app_ket (n : Nat) (A : Nat → Nat → CR) {j : Nat} (hj : j < 2 ^ n) (i : Nat) : app n A (ket j) i = A i j := by
  unfold app ket
  rw [Finset.sum_eq_single j]
  · rw [if_pos rfl, mul_one]
  · intro m _ hm; rw [if_neg hm, mul_zero]
  · intro h; exact absurd (mem_range.2 hj) h

theorem evol_linear {n : Nat} : ∀ (xs : List Inst) (f : Nat → CR), ∀ i < 2 ^ n,
    evol n xs f i = ∑ j ∈ range (2 ^ n), evol n xs (ket j) i * f j := by
  intro xs
  induction xs with
  | nil =>
    intro f i hi
    show f i = ∑ j ∈ range (2 ^ n), (if i = j then 1 else 0) * f j
    rw [Finset.sum_eq_single i]
    · rw [if_pos rfl, one_mul]
    · intro m _ hm; rw [if_neg (Ne.symm hm), zero_mul]
    · intro h; exact absurd (mem_range.2 hi) h
  | cons x xs ih =>
    intro f i hi
    unfold evol
    cases hA : x.oper n with
    | none => exact ih f i hi
    | some A =>
      dsimp only
      rw [ih _ i hi]
      have e : ∀ j ∈ range (2 ^ n), evol n xs (app n A (ket j)) i * f j =
          ∑ m ∈ range (2 ^ n), evol n xs (ket m) i * (A m j * f j) := by
        intro j hj
        rw [ih _ i hi, Finset.sum_mul]
        refine Finset.sum_congr rfl fun m _ => ?_
        rw [app_ket n A (mem_range.1 hj)]; ring
      rw [Finset.sum_congr rfl e, Finset.sum_comm]
      refine Finset.sum_congr rfl fun m _ => ?_
      unfold app
      rw [Finset.mul_sum]

theorem opMat_app {c : Circ} (f : Nat → CR) {i : Nat} (hi : i < 2 ^ c.nq) :
    app c.nq (opMat c) f i = phased c.phase (evol c.nq c.data f) i := by
  unfold app opMat phased
  rw [evol_linear _ f i hi, Finset.sum_mul]
  exact Finset.sum_congr rfl fun j _ => by ring

theorem opMat_isometry {c : Circ} (hc : GateCirc c) : Isometry c.nq (opMat c) := by
  intro j hj l hl
  have hI : ∀ x ∈ c.data, ∀ A, x.oper c.nq = some A → Isometry c.nq A := by
    intro x hx A hA
    rcases hc.oper hx with ⟨_, h⟩ | ⟨B, hB, hi⟩
    · rw [h] at hA; cases hA
    · rw [hB] at hA; cases hA; exact hi
  have h1 := evol_inner (n := c.nq) c.data hI (ket j) (ket l)
  have hp : conj (⟨Real.cos c.phase, Real.sin c.phase⟩ : CR) * ⟨Real.cos c.phase, Real.sin c.phase⟩ = 1 := by
    have := Real.sin_sq_add_cos_sq c.phase
    apply Cx.ext
    · simp [conj]; nlinarith
    · simp [conj]; ring
  have h2 : ∑ i ∈ range (2 ^ c.nq), conj (opMat c i j) * opMat c i l =
      ∑ i ∈ range (2 ^ c.nq), conj (evol c.nq c.data (ket j) i) * evol c.nq c.data (ket l) i := by
    refine Finset.sum_congr rfl fun i _ => ?_
    unfold opMat
    rw [Props.conj_mul]
    calc _ = conj (evol c.nq c.data (ket j) i) * evol c.nq c.data (ket l) i *
        (conj (⟨Real.cos c.phase, Real.sin c.phase⟩ : CR) * ⟨Real.cos c.phase, Real.sin c.phase⟩) := by ring
      _ = _ := by rw [hp, mul_one]
  rw [h2, h1, Finset.sum_eq_single j]
  · have c1 : conj (1 : CR) = 1 := by apply Cx.ext <;> simp [conj]
    show conj (if j = j then 1 else 0) * (if j = l then 1 else 0) = _
    rw [if_pos rfl, c1, one_mul]
  · intro m _ hm
    have c0 : conj (0 : CR) = 0 := by apply Cx.ext <;> simp [conj]
    show conj (if m = j then 1 else 0) * _ = _
    rw [if_neg hm, c0, zero_mul]
  · intro h; exact absurd (mem_range.2 hj) h

/-! ## The loop -/

variable {sqrt : ℝ → ℝ} {α : Type} {T : Option α → Prop}

/-- The heap holds the matrix `F` of `n` qubits at handle `cur`. -/
structure Holds (n : Nat) (h : Heap ℝ) (cur : Nat) (F : Nat → Nat → CR) : Prop where
  ex : ∃ F', h.ms[cur]? = some ⟨n, F'⟩ ∧ ∀ i < 2 ^ n, ∀ j < 2 ^ n, F' i j = F i j

theorem mulLast_meets {n : Nat} {h : Heap ℝ} {cur : Nat} {A F : Nat → Nat → CR} {k : Nat → Client α} {v : ℝ}
    (hh : Holds n h cur F)
    (hk : ∀ h' cur', h'.vs = h.vs → Holds n h' cur' (fun i j => app n A (fun m => F m j) i) → Meets sqrt (k cur') h' T v) :
    Meets sqrt (mulLast (h.addM ⟨n, A⟩).ms.length cur k) (h.addM ⟨n, A⟩) T v := by
  obtain ⟨F', hF, hFF⟩ := hh.ex
  unfold mulLast
  have hm : (h.addM ⟨n, A⟩).ms[(h.addM ⟨n, A⟩).ms.length - 1]? = some ⟨n, A⟩ := by
    unfold Heap.addM
    rw [List.length_append, List.length_singleton, Nat.add_sub_cancel]
    simp
  have hc : (h.addM ⟨n, A⟩).ms[cur]? = some ⟨n, F'⟩ := by
    have hlt : cur < h.ms.length := by
      by_contra hc
      rw [List.getElem?_eq_none (by omega)] at hF
      cases hF
    show (h.ms ++ _)[cur]? = _
    rw [List.getElem?_append_left hlt]; exact hF
  let M' : Mat ℝ := (⟨n, A⟩ : Mat ℝ).mul ⟨n, F'⟩
  refine Meets.call (h1 := (h.addM ⟨n, A⟩).addM M') (o := .unit) ⟨_, _, hm, hc⟩ ?_ ?_
  · simp only [Spec.step, hm, hc, Option.bind_eq_bind, Option.bind_some]; rfl
  · refine hk _ _ rfl ⟨M'.F, ?_, ?_⟩
    · have hk : M'.k = n := Nat.max_self n
      have : M' = ⟨n, M'.F⟩ := by rw [← hk]
      rw [← this]
      unfold Heap.addM
      rw [List.length_append (bs := [M']), List.length_singleton, Nat.add_sub_cancel]
      simp
    · intro i hi j hj
      show ∑ m ∈ range (2 ^ max n n), (⟨n, A⟩ : Mat ℝ).at (max n n) i m * (⟨n, F'⟩ : Mat ℝ).at (max n n) m j = _
      rw [Nat.max_self]
      unfold app
      refine Finset.sum_congr rfl fun m hm => ?_
      rw [show (⟨n, A⟩ : Mat ℝ).at n i m = A i m from at_self ⟨n, A⟩ hi (mem_range.1 hm),
        show (⟨n, F'⟩ : Mat ℝ).at n m j = F' m j from at_self ⟨n, F'⟩ (mem_range.1 hm) hj, hFF m (mem_range.1 hm) j hj]

theorem next_meets {n freq count : Nat} (hf : 0 < freq) {h : Heap ℝ} {cur : Nat} {F : Nat → Nat → CR}
    {k : Nat → Nat → Client α} {v : ℝ} (hh : Holds n h cur F)
    (hk : ∀ h' count' cur', h'.vs = h.vs → Holds n h' cur' F → Meets sqrt (k count' cur') h' T v) :
    Meets sqrt (if freq = 0 then .raise else
      if (count + 1) % freq = 0 then .call (.gcMat false [cur]) fun _ _ _ => k (count + 1) 0 else k (count + 1) cur) h T v := by
  rw [if_neg (by omega)]
  split
  · obtain ⟨F', hF, hFF⟩ := hh.ex
    refine Meets.call (h1 := ⟨h.vs, [⟨n, F'⟩]⟩) (o := .unit) ?_ ?_ ?_
    · intro i hi
      simp only [List.mem_singleton] at hi
      subst hi
      exact ⟨_, hF⟩
    · simp only [Spec.step, List.mapM_cons, List.mapM_nil, hF, Option.bind_eq_bind, Option.bind_some, Option.pure_def]
    · exact hk _ _ _ rfl ⟨F', rfl, hFF⟩
  · exact hk _ _ _ rfl hh

theorem mergeStep_meets {c : Circ} (hc : GateCirc c) {freq : Nat} (hf : 0 < freq) {x : Inst} (hx : x ∈ c.data)
    {count cur : Nat} {h : Heap ℝ} {F : Nat → Nat → CR} {k : Nat → Nat → Client α} {v : ℝ} (hh : Holds c.nq h cur F)
    (hk : ∀ h' count' cur', h'.vs = h.vs → Holds c.nq h' cur' (fun i j => evol c.nq [x] (fun m => F m j) i) →
      Meets sqrt (k count' cur') h' T v) : Meets sqrt (mergeStep c.nq freq x count cur k) h T v := by
  have hfx := hc.fine x hx
  rcases (hc.gates x hx).2 with hop | ⟨g, ctl, hop⟩
  · have : x.oper c.nq = none := by unfold Inst.oper; rw [hop]
    unfold mergeStep
    rw [hop]
    refine hk _ _ _ rfl ?_
    unfold evol
    rw [this]
    exact hh
  · obtain ⟨A, hA, hiso⟩ := gate_oper hfx hop
    have hev : ∀ f, evol c.nq [x] f = app c.nq A f := fun f => by unfold evol; rw [hA]; rfl
    simp only [hev] at hk
    have hgo : ∀ count, Meets sqrt (mulLast (h.addM ⟨c.nq, A⟩).ms.length cur fun cur =>
        if freq = 0 then .raise else
        if (count + 1) % freq = 0 then .call (.gcMat false [cur]) fun _ _ _ => k (count + 1) 0 else k (count + 1) cur)
        (h.addM ⟨c.nq, A⟩) T v := fun count =>
      mulLast_meets hh fun h' cur' hv hh' => next_meets hf hh' fun h'' count' cur'' hv' hh'' =>
        hk _ _ _ (hv'.trans hv) hh''
    have har := hfx.arity
    have hcl := hfx.op
    rw [hop] at har hcl
    simp only [Op.arity] at har
    simp only [Op.Fine] at hcl
    unfold Inst.oper at hA
    rw [hop] at hA
    dsimp only at hA
    rw [← built_eq c.nq g hcl] at hA
    unfold mergeStep
    rw [hop, har.1]
    simp only [List.isEmpty_nil, Bool.not_true, Bool.false_eq_true, if_false]
    have hd := hfx.distinct
    have hq := hfx.qubits
    rw [← List.nodup_reverse] at hd
    unfold built at hA
    rcases h1 : tab1 g with _ | m1
    · rcases h2 : tab2 g with _ | m2
      · rw [h1, h2] at hA; cases hA
      · rcases hr : x.qargs.reverse with _ | ⟨t, _ | ⟨t', cs⟩⟩ <;> rw [h1, h2, hr] at hA <;>
          simp only [Option.some.injEq, reduceCtorEq] at hA
        subst hA
        dsimp only
        rw [hr] at hd
        simp only [List.nodup_cons, List.mem_cons, not_or] at hd
        have mem : ∀ y, y ∈ t :: t' :: cs → y < c.nq := fun y hy => hq y (by rw [← List.mem_reverse, hr]; exact hy)
        refine Meets.call (h1 := h.addM ⟨c.nq, Spec.gate2 c.nq m2 t t' (controls cs.reverse)⟩) (o := .unit)
          ⟨mem t (by simp), mem t' (by simp), hd.1.1, hc.lim, controls_sorted (List.nodup_reverse.2 hd.2.2), ?_⟩ rfl (hgo count)
        intro b hb
        obtain ⟨y, hy, rfl⟩ := (mem_controls _ _).1 hb
        rw [List.mem_reverse] at hy
        exact ⟨fun e => hd.1.2 (e ▸ hy), fun e => hd.2.1 (e ▸ hy)⟩
    · rcases hr : x.qargs.reverse with _ | ⟨t, cs⟩ <;> rw [h1, hr] at hA <;> simp only [Option.some.injEq, reduceCtorEq] at hA
      subst hA
      dsimp only
      rw [hr] at hd
      simp only [List.nodup_cons] at hd
      refine Meets.call (h1 := h.addM ⟨c.nq, Spec.gate1 c.nq m1 t (controls cs.reverse)⟩) (o := .unit)
        ⟨hq t (by rw [← List.mem_reverse, hr]; simp), hc.lim, controls_sorted (List.nodup_reverse.2 hd.2), ?_⟩ rfl (hgo count)
      intro b hb
      obtain ⟨y, hy, rfl⟩ := (mem_controls _ _).1 hb
      rw [List.mem_reverse] at hy
      exact fun e => hd.1 (e ▸ hy)

theorem mergeLoop_meets {c : Circ} (hc : GateCirc c) {freq : Nat} (hf : 0 < freq) : ∀ (xs : List Inst), (∀ x ∈ xs, x ∈ c.data) →
    ∀ {count cur : Nat} {h : Heap ℝ} {F : Nat → Nat → CR} {k : Nat → Client α} {v : ℝ}, Holds c.nq h cur F →
    (∀ h' cur', h'.vs = h.vs → Holds c.nq h' cur' (fun i j => evol c.nq xs (fun m => F m j) i) →
      Meets sqrt (k cur') h' T v) → Meets sqrt (mergeLoop c.nq freq xs count cur k) h T v := by
  intro xs
  induction xs with
  | nil => intro _ count cur h F k v hh hk; exact hk _ _ rfl hh
  | cons x xs ih =>
    intro hsub count cur h F k v hh hk
    have ih := @ih fun y hy => hsub y (by simp [hy])
    unfold mergeLoop
    refine mergeStep_meets hc hf (hsub x (by simp)) hh fun h' count' cur' hv hh' => ?_
    refine ih hh' fun h'' cur'' hv' hh'' => hk _ _ (hv'.trans hv) ?_
    have e : ∀ f, evol c.nq xs (evol c.nq [x] f) = evol c.nq (x :: xs) f := by
      intro f
      cases hA : x.oper c.nq with
      | none => simp only [evol, hA]
      | some A => simp only [evol, hA]
    have : (fun i j => evol c.nq xs (fun m => evol c.nq [x] (fun m => F m j) m) i) =
        fun i j => evol c.nq (x :: xs) (fun m => F m j) i := by
      funext i j
      exact congrFun (e _) i
    rwa [this] at hh''

theorem gate_I {n : Nat} (h0 : 0 < n) {i j : Nat} (hi : i < 2 ^ n) (hj : j < 2 ^ n) :
    Spec.gate1 n (Imat : Nat → Nat → CR) 0 [] i j = ket j i := by
  unfold Spec.gate1 ket
  by_cases h : i = j
  · subst h
    rw [if_pos (fun _ _ _ => rfl), if_pos (by intro c hc; cases hc), if_pos rfl]
    cases i.testBit 0 <;> rfl
  · rw [if_neg h]
    split
    · rename_i hall
      rw [if_pos (by intro c hc; cases hc)]
      have : i.testBit 0 ≠ j.testBit 0 := by
        intro he
        apply h
        apply Nat.eq_of_testBit_eq
        intro b
        rcases Nat.lt_or_ge b n with hb | hb
        · by_cases hb0 : b = 0
          · subst hb0; exact he
          · exact hall b hb hb0
        · rw [Nat.testBit_lt_two_pow (lt_of_lt_of_le hi (Nat.pow_le_pow_right (by omega) hb)),
            Nat.testBit_lt_two_pow (lt_of_lt_of_le hj (Nat.pow_le_pow_right (by omega) hb))]
      revert this
      cases i.testBit 0 <;> cases j.testBit 0 <;> intro hne <;> first | exact absurd rfl hne | rfl
    · rfl

/-- The merged gate is the circuit's matrix. -/
theorem merge_meets {c : Circ} (hc : GateCirc c) {freq : Nat} (hf : 0 < freq) {h : Heap ℝ} {k : Nat → Client α} {v : ℝ}
    (hk : ∀ h' hd, h'.vs = h.vs → Holds c.nq h' hd (opMat c) → Meets sqrt (k hd) h' T v) :
    Meets sqrt (merge c freq k) h T v := by
  unfold merge
  refine Meets.call (h1 := h.addM ⟨c.nq, Spec.gate1 c.nq Imat 0 []⟩) (o := .unit)
    ⟨hc.pos, hc.lim, List.Pairwise.nil, by intro c hc; cases hc⟩ rfl ?_
  refine mergeLoop_meets hc hf c.data (fun _ h => h) (F := fun i j => ket j i) ⟨⟨_, ?_, fun i hi j hj => gate_I hc.pos hi hj⟩⟩ ?_
  · unfold Heap.addM
    rw [List.length_append, List.length_singleton, Nat.add_sub_cancel]
    simp
  · intro h' cur' hv hh
    obtain ⟨F', hF, hFF⟩ := hh.ex
    refine Meets.call (h1 := h'.addM ((⟨c.nq, F'⟩ : Mat ℝ).scale ⟨Real.cos c.phase, Real.sin c.phase⟩)) (o := .unit) ⟨_, hF⟩ ?_ ?_
    · simp only [Spec.step, hF, Option.bind_eq_bind, Option.bind_some]
    · refine hk _ _ hv ⟨⟨fun i j => F' i j * ⟨Real.cos c.phase, Real.sin c.phase⟩, ?_, ?_⟩⟩
      · unfold Heap.addM
        rw [List.length_append, List.length_singleton, Nat.add_sub_cancel]
        simp [Mat.scale]
      · intro i hi j hj
        dsimp only
        rw [hFF i hi j hj]
        rfl

/-! ## Inlining -/

theorem mod_bit (i k b : Nat) (hb : b < k) : (i % 2 ^ k).testBit b = i.testBit b := by
  rw [Nat.testBit_mod_two_pow]; simp [hb]

theorem split_bits {k n i j : Nat} (hk : k ≤ n) (hi : i < 2 ^ n) (hj : j < 2 ^ n) (P : Nat → Prop) (hP : ∀ b, k ≤ b → P b) :
    (∀ b < n, P b → i.testBit b = j.testBit b) ↔
      i / 2 ^ k = j / 2 ^ k ∧ ∀ b < k, P b → (i % 2 ^ k).testBit b = (j % 2 ^ k).testBit b := by
  rw [← high_eq hi hj]
  constructor
  · intro h
    refine ⟨fun b hb hbk => h b hb (hP b (by simpa using hbk)), fun b hb hp => ?_⟩
    rw [mod_bit i k b hb, mod_bit j k b hb]
    exact h b (by omega) hp
  · rintro ⟨h1, h2⟩ b hb hp
    rcases Nat.lt_or_ge b k with hbk | hbk
    · have := h2 b hbk hp
      rwa [mod_bit i k b hbk, mod_bit j k b hbk] at this
    · exact h1 b hb (by simpa using hbk)

theorem sat_mod {k n i : Nat} (hk : k ≤ n) {cs : List Ctrl} (hc : ∀ c ∈ cs, c.qubit < k) :
    sat cs n i ↔ sat cs k (i % 2 ^ k) := by
  unfold sat
  constructor
  · intro h c hcm hq
    rw [mod_bit i k _ hq]; exact h c hcm (by omega)
  · intro h c hcm _
    have := h c hcm (hc c hcm)
    rwa [mod_bit i k _ (hc c hcm)] at this

theorem gate1_at {k n t : Nat} (hk : k ≤ n) (ht : t < k) {g : Nat → Nat → CR} {cs : List Ctrl} (hc : ∀ c ∈ cs, c.qubit < k)
    {i j : Nat} (hi : i < 2 ^ n) (hj : j < 2 ^ n) :
    Spec.gate1 n g t cs i j = (⟨k, Spec.gate1 k g t cs⟩ : Mat ℝ).at n i j := by
  unfold Mat.at Spec.gate1
  dsimp only
  have hs := split_bits hk hi hj (fun b => b ≠ t) (fun b hb => by omega)
  rw [mod_bit i k t ht, mod_bit j k t ht]
  by_cases h1 : i / 2 ^ k = j / 2 ^ k
  · rw [if_pos h1]
    by_cases h2 : ∀ b < k, b ≠ t → (i % 2 ^ k).testBit b = (j % 2 ^ k).testBit b
    · rw [if_pos h2, if_pos (hs.2 ⟨h1, h2⟩)]
      by_cases h3 : sat cs n i
      · rw [if_pos h3, if_pos ((sat_mod hk hc).1 h3)]
      · rw [if_neg h3, if_neg (fun h => h3 ((sat_mod hk hc).2 h))]
    · rw [if_neg h2, if_neg (fun h => h2 (hs.1 h).2)]
  · rw [if_neg h1, if_neg (fun h => h1 (hs.1 h).1)]

theorem gate2_at {k n t0 t1 : Nat} (hk : k ≤ n) (h0 : t0 < k) (h1 : t1 < k) {g : Nat → Nat → CR} {cs : List Ctrl}
    (hc : ∀ c ∈ cs, c.qubit < k) {i j : Nat} (hi : i < 2 ^ n) (hj : j < 2 ^ n) :
    Spec.gate2 n g t0 t1 cs i j = (⟨k, Spec.gate2 k g t0 t1 cs⟩ : Mat ℝ).at n i j := by
  unfold Mat.at Spec.gate2
  dsimp only
  have hs := split_bits hk hi hj (fun b => b ≠ t0 ∧ b ≠ t1) (fun b hb => by omega)
  simp only [and_imp] at hs
  rw [mod_bit i k t0 h0, mod_bit j k t0 h0, mod_bit i k t1 h1, mod_bit j k t1 h1]
  by_cases h1 : i / 2 ^ k = j / 2 ^ k
  · rw [if_pos h1]
    by_cases h2 : ∀ b < k, b ≠ t0 → b ≠ t1 → (i % 2 ^ k).testBit b = (j % 2 ^ k).testBit b
    · rw [if_pos h2, if_pos (hs.2 ⟨h1, h2⟩)]
      by_cases h3 : sat cs n i
      · rw [if_pos h3, if_pos ((sat_mod hk hc).1 h3)]
      · rw [if_neg h3, if_neg (fun h => h3 ((sat_mod hk hc).2 h))]
    · rw [if_neg h2, if_neg (fun h => h2 (hs.1 h).2)]
  · rw [if_neg h1, if_neg (fun h => h1 (hs.1 h).1)]

/-- A gate of a circuit of `k` qubits, in a circuit of `n`. -/
theorem oper_at {k n nc : Nat} (hk : k ≤ n) {x : Inst} {ms} (hx : Fine k nc ms x) {g : GName} {ctl : List Bool}
    (hop : x.op = .gate g ctl) : ∃ A B, x.oper k = some A ∧ x.oper n = some B ∧
      ∀ i < 2 ^ n, ∀ j < 2 ^ n, B i j = (⟨k, A⟩ : Mat ℝ).at n i j := by
  obtain ⟨A, hA, _⟩ := gate_oper hx hop
  have hcl := hx.op
  rw [hop] at hcl
  simp only [Op.Fine] at hcl
  have e : ∀ m, x.oper m = g.oper m ctl x.qargs := fun m => by unfold Inst.oper; rw [hop]
  rw [e] at hA
  simp only [e]
  have hq : ∀ y ∈ x.qargs.reverse, y < k := fun y hy => hx.qubits y (List.mem_reverse.1 hy)
  have hcs : ∀ cs : List Nat, (∀ y ∈ cs, y < k) → ∀ c ∈ ctrls ctl cs.reverse, c.qubit < k := by
    intro cs hcs c hc
    obtain ⟨y, hy, rfl⟩ := (mem_ctrls hcl _ _).1 hc
    exact hcs y (List.mem_reverse.1 hy)
  unfold GName.oper at hA ⊢
  split at hA
  · rename_i M t cs h1 hr
    rw [hr] at hq
    simp only [Option.some.injEq] at hA
    subst hA
    exact ⟨_, _, rfl, rfl, fun i hi j hj => gate1_at hk (hq t (by simp)) (hcs cs fun y hy => hq y (by simp [hy])) hi hj⟩
  · rename_i M t1 t0 cs h1 h2 hr
    rw [hr] at hq
    simp only [Option.some.injEq] at hA
    subst hA
    exact ⟨_, _, rfl, rfl, fun i hi j hj => gate2_at hk (hq t1 (by simp)) (hq t0 (by simp))
      (hcs cs fun y hy => hq y (by simp [hy])) hi hj⟩
  · cases hA

/-- The part of a state of `n` qubits seen by the lowest `k`, the others being fixed to those of `i`. -/
def block (k i : Nat) (f : Nat → CR) : Nat → CR := fun l => f (i / 2 ^ k * 2 ^ k + l)

theorem at_app {k n : Nat} (hk : k ≤ n) (A : Nat → Nat → CR) (f : Nat → CR) {i : Nat} (hi : i < 2 ^ n) :
    app n ((⟨k, A⟩ : Mat ℝ).at n) f i = app k A (block k i f) (i % 2 ^ k) := by
  have hp : 0 < 2 ^ k := Nat.two_pow_pos k
  unfold app
  rw [sum_blocks hk, Finset.sum_eq_single (i / 2 ^ k)]
  · refine Finset.sum_congr rfl fun b hb => ?_
    have hb := mem_range.1 hb
    unfold Mat.at block
    dsimp only
    rw [Nat.add_comm, Nat.add_mul_div_right _ _ hp, Nat.div_eq_of_lt hb, Nat.zero_add, if_pos rfl,
      Nat.add_mul_mod_self_right, Nat.mod_eq_of_lt hb]
  · intro a _ ha
    refine Finset.sum_eq_zero fun b hb => ?_
    have hb := mem_range.1 hb
    unfold Mat.at
    dsimp only
    rw [Nat.add_comm (a * 2 ^ k) b, Nat.add_mul_div_right _ _ hp, Nat.div_eq_of_lt hb, Nat.zero_add, if_neg (Ne.symm ha), zero_mul]
  · intro h
    exfalso
    apply h
    rw [mem_range, Nat.div_lt_iff_lt_mul hp, ← Nat.pow_add, Nat.sub_add_cancel hk]
    exact hi

theorem block_lt {k n : Nat} (hk : k ≤ n) {i : Nat} (hi : i < 2 ^ n) {l : Nat} (hl : l < 2 ^ k) : i / 2 ^ k * 2 ^ k + l < 2 ^ n := by
  have hp : 0 < 2 ^ k := Nat.two_pow_pos k
  have h1 : i / 2 ^ k < 2 ^ (n - k) := by
    rw [Nat.div_lt_iff_lt_mul hp, ← Nat.pow_add, Nat.sub_add_cancel hk]; exact hi
  have e : 2 ^ n = 2 ^ (n - k) * 2 ^ k := by rw [← Nat.pow_add, Nat.sub_add_cancel hk]
  rw [e]
  calc _ < i / 2 ^ k * 2 ^ k + 2 ^ k := by omega
    _ = (i / 2 ^ k + 1) * 2 ^ k := by ring
    _ ≤ _ := Nat.mul_le_mul_right _ h1

/-- The gates of a circuit of `k` qubits act blockwise on a state of `n`. -/
theorem evol_block {c : Circ} (hc : GateCirc c) {n : Nat} (hk : c.nq ≤ n) : ∀ (xs : List Inst), (∀ x ∈ xs, x ∈ c.data) →
    ∀ f, ∀ i < 2 ^ n, evol n xs f i = evol c.nq xs (block c.nq i f) (i % 2 ^ c.nq) := by
  have hp : 0 < 2 ^ c.nq := Nat.two_pow_pos c.nq
  intro xs
  induction xs with
  | nil =>
    intro _ f i hi
    show f i = f (i / 2 ^ c.nq * 2 ^ c.nq + i % 2 ^ c.nq)
    rw [Nat.div_add_mod']
  | cons x xs ih =>
    intro hs f i hi
    have ih := ih fun y hy => hs y (by simp [hy])
    rcases (hc.gates x (hs x (by simp))).2 with hop | ⟨g, ctl, hop⟩
    · have : ∀ m, x.oper m = none := fun m => by unfold Inst.oper; rw [hop]
      simp only [evol, this]
      exact ih f i hi
    · obtain ⟨A, B, hA, hB, hAB⟩ := oper_at hk (hc.fine x (hs x (by simp))) hop
      simp only [evol, hA, hB]
      rw [ih _ i hi]
      refine evol_congr xs (fun l hl => ?_) _ (Nat.mod_lt _ hp)
      have hbl := block_lt hk hi hl
      show app n B f (i / 2 ^ c.nq * 2 ^ c.nq + l) = _
      rw [app_congr hAB (fun _ _ => rfl) hbl, at_app hk A f hbl]
      have e1 : (i / 2 ^ c.nq * 2 ^ c.nq + l) % 2 ^ c.nq = l := by
        rw [Nat.add_comm, Nat.add_mul_mod_self_right, Nat.mod_eq_of_lt hl]
      have e2 : (i / 2 ^ c.nq * 2 ^ c.nq + l) / 2 ^ c.nq = i / 2 ^ c.nq := by
        rw [Nat.add_comm, Nat.add_mul_div_right _ _ hp, Nat.div_eq_of_lt hl, Nat.zero_add]
      unfold block
      rw [e1, e2]

theorem expect_phased (n : Nat) (φ : (Nat → Bool) → ℝ) (θ : ℝ) : ∀ (xs : List Inst) (f : Nat → CR) (val : Nat → Bool),
    expect n φ xs (phased θ f) val = expect n φ xs f val := by
  have hproj : ∀ q b f, proj q b (phased θ f) = phased θ (proj q b f) := by
    intro q b f
    funext i
    show (if i.testBit q = b then f i * _ else 0) = (if i.testBit q = b then f i else 0) * _
    split
    · rfl
    · rw [zero_mul]
  have hflip : ∀ q f, flip q (phased θ f) = phased θ (flip q f) := fun _ _ => rfl
  have happ : ∀ A f, app n A (phased θ f) = phased θ (app n A f) := by
    intro A f
    funext i; unfold app phased
    rw [Finset.sum_mul]
    exact Finset.sum_congr rfl fun j _ => by ring
  intro xs
  induction xs with
  | nil => intro f val; show nrm n (phased θ f) * _ = nrm n f * _; rw [nrm_phased]
  | cons x xs ih =>
    intro f val
    unfold expect
    split
    · rcases hop : x.op with ⟨g, ctl⟩ | _ | ⟨hd, k, M⟩ | _ | _ | _ | _ <;> dsimp only
      · cases x.oper n with
        | none => rfl
        | some A => dsimp only; rw [happ, ih]
      · cases x.oper n with
        | none => rfl
        | some A => dsimp only; rw [happ, ih]
      · cases x.oper n with
        | none => rfl
        | some A => dsimp only; rw [happ, ih]
      · exact ih f val
      · rw [hproj, hproj, ih, ih]
      · rw [hproj, hproj, hflip, ih, ih]
      · cases x.oper n with
        | none => rfl
        | some A => dsimp only; rw [happ, ih]
    · exact ih f val

theorem expect_append {n : Nat} {φ : (Nat → Bool) → ℝ} {ys zs : List Inst} (h : ∀ f val, expect n φ ys f val = expect n φ zs f val) :
    ∀ (pre : List Inst) (f : Nat → CR) (val : Nat → Bool), expect n φ (pre ++ ys) f val = expect n φ (pre ++ zs) f val := by
  intro pre
  induction pre with
  | nil => exact h
  | cons x xs ih =>
    intro f val
    rw [List.cons_append, List.cons_append]
    unfold expect
    simp only [ih]

/-- Gates of a gate circuit, executed inside a circuit. -/
theorem expect_gates {c : Circ} (hc : GateCirc c) {n : Nat} (hk : c.nq ≤ n) (φ : (Nat → Bool) → ℝ) (post : List Inst) :
    ∀ (xs : List Inst), (∀ x ∈ xs, x ∈ c.data) → ∀ (f : Nat → CR) (val : Nat → Bool),
      expect n φ (xs ++ post) f val = expect n φ post (evol n xs f) val := by
  intro xs
  induction xs with
  | nil => intro _ f val; rfl
  | cons x xs ih =>
    intro hs f val
    have ih := ih fun y hy => hs y (by simp [hy])
    have hg := hc.gates x (hs x (by simp))
    have hen : x.enabled val = true := by unfold Inst.enabled; rw [hg.1]
    rw [List.cons_append]
    conv_lhs => unfold expect
    rw [if_pos hen]
    rcases hg.2 with hop | ⟨g, ctl, hop⟩
    · have : x.oper n = none := by unfold Inst.oper; rw [hop]
      simp only [hop, evol, this]
      exact ih f val
    · obtain ⟨A, B, hA, hB, hAB⟩ := oper_at hk (hc.fine x (hs x (by simp))) hop
      simp only [hop, evol, hB]
      exact ih _ val

/-- The use of a merged gate, on the lowest qubits. -/
noncomputable def mergedInst (c : Circ) (hd : Nat) : Inst := ⟨.qdd hd c.nq (opMat c), List.range c.nq, [], none⟩

/-- Executing the merged gate is executing the gates. -/
theorem expect_merged {c : Circ} (hc : GateCirc c) {n nc : Nat} (hk : c.nq ≤ n) (φ : (Nat → Bool) → ℝ) {post : List Inst}
    (hpost : ∀ x ∈ post, x.WF n nc) (hd : Nat) (f : Nat → CR) (val : Nat → Bool) :
    expect n φ (mergedInst c hd :: post) f val = expect n φ (c.data ++ post) f val := by
  rw [expect_gates hc hk φ post c.data (fun _ h => h), ← expect_phased n φ c.phase post (evol n c.data f)]
  have hp : 0 < 2 ^ c.nq := Nat.two_pow_pos c.nq
  rw [expect, if_pos (show (mergedInst c hd).enabled val = true from rfl)]
  show expect n φ post (app n (onQubits n (opMat c) (List.range c.nq)) f) val = _
  refine expect_congr φ post hpost val fun i hi => ?_
  rw [app_congr (fun a ha b hb => onQubits_range (opMat c) ha hb) (fun _ _ => rfl) hi, at_app hk _ f hi,
    opMat_app _ (Nat.mod_lt _ hp)]
  unfold phased
  rw [evol_block hc hk c.data (fun _ h => h) f i hi]

end QDD.Py
