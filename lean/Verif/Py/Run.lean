import Verif.Py.Stable
/-!
# Whole runs of the backend
-/

set_option linter.unusedSectionVars false
set_option linter.unusedVariables false
set_option linter.unusedSimpArgs false

namespace QDD.Py
open Spec Api Gate Finset Props Client

variable {sqrt : ℝ → ℝ} {α : Type} {T : Option α → Prop}

/-- Multiplication by the global phase. -/
noncomputable def phased (θ : ℝ) (f : Nat → CR) : Nat → CR := fun i => f i * ⟨Real.cos θ, Real.sin θ⟩

theorem mag2_phase (θ : ℝ) : (⟨Real.cos θ, Real.sin θ⟩ : CR).mag2 = 1 := by
  unfold Cx.mag2
  nlinarith [Real.sin_sq_add_cos_sq θ]

theorem mag2_phased (θ : ℝ) (f : Nat → CR) (i : Nat) : (phased θ f i).mag2 = (f i).mag2 := by
  unfold phased
  rw [Cx.mag2_mul, mag2_phase, mul_one]

theorem nrm_phased (n : Nat) (θ : ℝ) (f : Nat → CR) : nrm n (phased θ f) = nrm n f :=
  Finset.sum_congr rfl fun i _ => mag2_phased θ f i

theorem applyGlobal_meets {n : Nat} {ms h} {cur : Nat} {f : Nat → CR} (hg : Good n ms h cur f) {θ : ℝ} {k : Nat → Client α} {v : ℝ}
    (hk : ∀ h' cur', Good n ms h' cur' (phased θ f) → Meets sqrt (k cur') h' T v) :
    Meets sqrt (applyGlobal θ cur k) h T v := by
  unfold applyGlobal
  refine Meets.call (h1 := h.addV ((⟨n, f⟩ : Vec ℝ).scale ⟨Real.cos θ, Real.sin θ⟩)) (o := .unit) ⟨_, hg.cur⟩ ?_ ?_
  · simp only [Spec.step, hg.cur, Option.bind_eq_bind, Option.bind_some]
  · refine hk _ _ ⟨hg.pos, hg.lim, ?_, (nrm_phased n θ f).trans hg.nrm, hg.ms⟩
    unfold Heap.addV
    rw [List.length_append, List.length_singleton, Nat.add_sub_cancel]
    simp
    rfl

/-- The statevector entry. -/
noncomputable def svOf (sv : Bool) (n : Nat) (f : Nat → CR) : Option (List (Option CR)) :=
  if sv then some ((List.range (2 ^ n)).map fun i => some (f i)) else none

theorem withSV_meets {n : Nat} {ms h} {cur : Nat} {f : Nat → CR} (hg : Good n ms h cur f) {sv : Bool} (hsv : sv = true → n ≤ 30)
    {r : Result} (hr : r.statevector = none) {T : Option Result → Prop} [Decidable (T (some { r with statevector := svOf sv n f }))] :
    Meets sqrt (withSV sv cur r) h T (if T (some { r with statevector := svOf sv n f }) then 1 else 0) := by
  cases sv with
  | false =>
    have : ({ r with statevector := svOf false n f } : Result) = r := by
      cases r; simp only [svOf] at *; simp [hr]
    have hd : Decidable (T (some r)) := Classical.dec _
    have := Meets.ret (sqrt := sqrt) (T := T) r h
    unfold withSV
    simp only [Bool.false_eq_true, if_false]
    refine cast (congrArg _ ?_) this
    rename_i e
    congr 1
    rw [e]
  | true =>
    unfold withSV
    simp only [if_true]
    refine Meets.call (h1 := h) (o := .vec ((List.range (2 ^ n)).map fun i => some (f i)))
      ⟨_, hg.cur, hg.nonzero, hsv rfl⟩ ?_ ?_
    · simp only [Spec.step, hg.cur, Option.bind_eq_bind, Option.bind_some]
    · rename_i inst
      exact @Meets.ret _ _ _ _ _ inst

theorem finalKey_bits {n nc x : Nat} {final : List (Nat × Nat)} (hf : ∀ p ∈ final, p.2 < n) :
    (finalKey nc final (bits n x)).reverse = keyOf nc (readOff final x) := by
  unfold finalKey keyOf
  congr 1
  refine List.map_congr_left fun c _ => ?_
  unfold readOff
  cases h : final.lookup c with
  | none => rfl
  | some q =>
    dsimp only
    have hq : q < n := hf (c, q) (by
      clear hf
      induction final with
      | nil => simp at h
      | cons p ps ih =>
        obtain ⟨a, b⟩ := p
        rw [List.lookup_cons] at h
        by_cases hc : c == a
        · rw [hc] at h
          simp only [Option.some.injEq] at h
          have : c = a := by simpa using hc
          subst this h
          simp
        · rw [show (c == a) = false by simpa using hc] at h
          exact List.mem_cons_of_mem _ (ih h))
    have hlen : (bits n x).length = n := by simp [bits]
    rw [hlen, List.getD_eq_getElem?_getD, List.getElem?_eq_getElem (by rw [hlen]; omega)]
    simp only [bits, List.getElem_reverse, List.length_map, List.length_range, List.getElem_map, List.getElem_range,
      Option.getD_some]
    congr 1
    omega

theorem set_self {h : Heap ℝ} {cur : Nat} {v : Vec ℝ} (hc : h.vs[cur]? = some v) : (⟨h.vs.set cur v, h.ms⟩ : Heap ℝ) = h := by
  cases h with
  | mk vs ms' =>
    congr 1
    dsimp only at hc
    have hlt : cur < vs.length := by
      by_contra hn
      rw [List.getElem?_eq_none (by omega)] at hc
      cases hc
    apply List.ext_getElem?
    intro m
    rw [List.getElem?_set]
    split
    · rename_i e; subst e; rw [hc]
    · rfl

open Classical in
/-- Sampling: the samples are independent with the probabilities of the state. -/
theorem sampleLoop_meets {c : Circ} {ms : List (Mat ℝ)} {final : List (Nat × Nat)} (hf : ∀ p ∈ final, p.2 < c.nq)
    {k : List (List Bool) → Client α} {total : List (List Bool)} {cur : Nat} {f : Nat → CR} {h : Heap ℝ}
    (hg : Good c.nq ms h cur f)
    (hk : ∀ mem, mem.length = total.length → Meets sqrt (k mem) h T (if mem = total then 1 else 0)) :
    ∀ (r : Nat) (acc : List (List Bool)), acc.length + r = total.length →
      Meets sqrt (sampleLoop c final r cur acc k) h T
        (if acc = total.take acc.length then ((total.drop acc.length).map fun key =>
          ∑ i ∈ range (2 ^ c.nq), (f i).mag2 * if key = keyOf c.nc (readOff final i) then 1 else 0).prod else 0) := by
  intro r
  induction r with
  | zero =>
    intro acc hl
    have e : acc.length = total.length := by omega
    rw [e, List.take_length, List.drop_length]
    exact hk acc e
  | succ r ih =>
    intro acc hl
    unfold sampleLoop
    have hlt : acc.length < total.length := by omega
    set P : List Bool → ℝ := fun key =>
      ∑ i ∈ range (2 ^ c.nq), (f i).mag2 * if key = keyOf c.nc (readOff final i) then 1 else 0 with hP
    have := drawN_meets (sqrt := sqrt) (T := T) c.nq (f := f) (by rw [hg.nrm]; norm_num) (h := h)
      (G := fun x => (if acc = total.take acc.length then ((total.drop (acc.length + 1)).map P).prod else 0) *
        (if total[acc.length] = keyOf c.nc (readOff final x) then 1 else 0))
      (k := fun us => .call (.measureAll cur false fun t => us.getD t 0) fun o _ _ =>
        match o with
        | .str l => sampleLoop c final r cur (acc ++ [(finalKey c.nc final l).reverse]) k
        | _ => .raise) (by
        intro us hl' hus
        refine Meets.call (h1 := h) (o := .str (bits c.nq (sample (fun t => us.getD t 0) c.nq 0 f)))
          ⟨_, hg.cur, hg.nonzero, ?_⟩ ?_ ?_
        · intro u hu
          refine hus _ ?_
          dsimp only
          rw [List.getD_eq_getElem?_getD, List.getElem?_eq_getElem (by rw [hl']; exact hu)]
          exact List.getElem_mem _
        · simp only [Spec.step, hg.cur, Option.bind_eq_bind, Option.bind_some, Bool.false_eq_true, if_false]
          congr 2
          cases h with
          | mk vs ms' =>
            congr 1
            have hc := hg.cur
            dsimp only at hc
            have hlt : cur < vs.length := by
              by_contra hn
              rw [List.getElem?_eq_none (by omega)] at hc
              cases hc
            apply List.ext_getElem?
            intro m
            rw [List.getElem?_set]
            split
            · rename_i e; subst e; rw [hc]
            · rfl
        · dsimp only
          set x := sample (fun t => us.getD t 0) c.nq 0 f
          have := ih (acc ++ [(finalKey c.nc final (bits c.nq x)).reverse]) (by
            rw [List.length_append, List.length_singleton]; omega)
          refine cast (congrArg _ ?_) this
          have htk : total.take (acc.length + 1) = total.take acc.length ++ [total[acc.length]] := by
            rw [List.take_add_one, List.getElem?_eq_getElem hlt]; rfl
          rw [List.length_append, List.length_singleton, htk, finalKey_bits hf]
          by_cases h1 : acc = total.take acc.length
          · by_cases h2 : total[acc.length] = keyOf c.nc (readOff final x)
            · rw [if_pos h1, if_pos h2, if_pos (by rw [← h1, h2]), mul_one]
            · rw [if_pos h1, if_neg h2, if_neg ?_, mul_zero]
              intro e
              rw [← h1] at e
              have := List.append_cancel_left e
              exact h2 (by simpa using this.symm)
          · rw [if_neg h1, zero_mul, if_neg]
            intro e
            exact h1 (List.append_inj_left e (by simp; omega)))
    refine cast (congrArg _ ?_) this
    rw [List.drop_eq_getElem_cons hlt, List.map_cons, List.prod_cons]
    simp only [hg.nrm, div_one]
    split
    · rw [hP]
      dsimp only
      rw [Finset.sum_mul]
      refine Finset.sum_congr rfl fun i _ => ?_
      ring
    · simp

/-- The answer is the memory `keys`. -/
def Memory (keys : List (List Bool)) (r : Option Result) : Prop := ∃ res, r = some res ∧ res.memory = some keys

/-- What the theorems about whole runs assume: at least one qubit and at most 100, supported instructions. -/
structure Supported (ms : List (Mat ℝ)) (c : Circ) : Prop where
  pos : 0 < c.nq
  lim : c.nq ≤ NQUBITS
  fine : ∀ x ∈ c.data, Fine c.nq c.nc ms x

theorem prob_deferred {ms} {c : Circ} (hc : Supported ms c) (hm : ∀ x ∈ c.data, x.op = .measure → x.cond = none)
    (hst : (propLoop c.data ⟨true, [], []⟩).stable = true) (key : List Bool) :
    c.prob key = ∑ i ∈ range (2 ^ c.nq), (evol c.nq c.data zeroState i).mag2 *
      if key = keyOf c.nc (readOff (propLoop c.data ⟨true, [], []⟩).final i) then 1 else 0 := by
  classical
  obtain ⟨h1, h2, h3⟩ := propLoop_stable c.data (fun x hx => (hc.fine x hx).toWF) hm ⟨true, [], []⟩ (by simp) hst
  unfold Circ.prob
  rw [expect_deferred _ c.data hc.fine [] h1]
  refine Finset.sum_congr rfl fun i _ => ?_
  rw [← h2 i]
  unfold keyOf
  congr

theorem run_some {c : Circ} {o : Opts} (hn : c.nq ≤ NQUBITS)
    (hms : o.saveSV = true ∨ (propLoop c.data ⟨true, [], []⟩).measured ≠ []) :
    run c o = evaluate c (propLoop c.data ⟨true, [], []⟩) o := by
  unfold run circProp
  rw [if_neg (by unfold NQUBITS at hn; omega)]
  dsimp only
  rw [if_neg]
  simp only [Bool.and_eq_true, Bool.not_eq_true', List.isEmpty_iff, not_and, Bool.not_eq_false]
  intro h
  rcases hms with h1 | h1
  · exact h1
  · exact absurd h h1

theorem memory_meets {ms} {n : Nat} {o : Opts} (hsv : o.saveSV = true → n ≤ 30) {keys : List (List Bool)}
    {h : Heap ℝ} {cur f mem} (hg : Good n ms h cur f) [Decidable (mem = keys)] :
    Meets sqrt (withSV o.saveSV cur ⟨some mem, none, none⟩) h (Memory keys) (if mem = keys then 1 else 0) := by
  classical
  have := withSV_meets (sqrt := sqrt) hg hsv (r := ⟨some mem, none, none⟩) rfl (T := Memory keys)
  refine cast (congrArg _ ?_) this
  have : Memory keys (some { (⟨some mem, none, none⟩ : Result) with statevector := svOf o.saveSV n f }) ↔ mem = keys := by
    unfold Memory
    constructor
    · rintro ⟨res, h1, h2⟩
      simp only [Option.some.injEq] at h1
      subst h1
      simpa using h2
    · rintro rfl; exact ⟨_, rfl, rfl⟩
  by_cases e : mem = keys
  · rw [if_pos e, if_pos (this.2 e)]
  · rw [if_neg e, if_neg (fun h => e (this.1 h))]

/-- Sampling from one simulation: the shots are independent, each reads the clbits off the final state. -/
theorem sampled_meets {ms} {c : Circ} (hc : Supported ms c)
    {cp : CircProp} (hcp : cp = propLoop c.data ⟨true, [], []⟩) (hst : cp.stable = true) (hf : ∀ p ∈ cp.final, p.2 < c.nq)
    {o : Opts} {keys : List (List Bool)} (hs : o.shots = some keys.length) (hsv : o.saveSV = true → c.nq ≤ 30)
    {h : Heap ℝ} (hh : ∃ tl, h.ms = ms ++ tl) :
    Meets sqrt (evaluate c cp o) h (Memory keys) ((keys.map fun key => ∑ i ∈ range (2 ^ c.nq),
      (evol c.nq c.data zeroState i).mag2 * if key = keyOf c.nc (readOff cp.final i) then 1 else 0).prod) := by
  classical
  have hsteady : Steady c.data := propLoop_steady c.data _ (hcp ▸ hst)
  unfold evaluate
  rw [hs]
  dsimp only
  rw [if_pos hst]
  unfold trip
  refine Meets.call (h1 := h.addV (basis c.nq 0)) (o := .unit) ⟨hc.pos, hc.lim⟩ rfl ?_
  refine insts_stable true c.data hc.fine hsteady _ _ _ (zero_good hc.pos hc.lim hh) fun s' h' f' _ _ hf' hg' => ?_
  refine applyGlobal_meets hg' fun h'' cur'' hg'' => ?_
  have := sampleLoop_meets (sqrt := sqrt) (T := Memory keys) (c := c) hf hg'' (total := keys)
    (k := fun mem => withSV o.saveSV cur'' ⟨some mem, none, none⟩) (fun mem _ => memory_meets hsv hg'') keys.length [] (by simp)
  refine cast (congrArg _ ?_) this
  simp only [List.length_nil, List.take_zero, if_true, List.drop_zero]
  congr 1
  refine List.map_congr_left fun k _ => ?_
  refine Finset.sum_congr rfl fun i hi => ?_
  rw [mag2_phased, hf' i (mem_range.1 hi)]

/-- Executing shot by shot. -/
theorem executed_meets (hsq : ∀ x, 0 ≤ x → sqrt x * sqrt x = x) {ms} {c : Circ} (hc : Supported ms c)
    {cp : CircProp} (hst : cp.stable = false)
    {o : Opts} {keys : List (List Bool)} (hs : o.shots = some keys.length) (h0 : keys ≠ []) (hsv : o.saveSV = true → c.nq ≤ 30)
    {h : Heap ℝ} (hh : ∃ tl, h.ms = ms ++ tl) :
    Meets sqrt (evaluate c cp o) h (Memory keys) ((keys.map c.prob).prod) := by
  classical
  have hl : keys.length ≠ 0 := fun e => h0 (List.length_eq_zero_iff.1 e)
  unfold evaluate
  rw [hs]
  dsimp only
  rw [hst, if_neg (by simp)]
  have := shotLoop_meets (sqrt := sqrt) (T := Memory keys) hsq hc.pos hc.lim hc.fine (total := keys)
    (k := fun s mem => applyGlobal c.phase s.cur fun cur => withSV o.saveSV cur ⟨some mem, none, none⟩)
    (fun s h' f mem hg _ => applyGlobal_meets hg fun h'' cur'' hg'' => memory_meets hsv hg'') keys.length [] (by simp)
    ⟨0, [], []⟩ h hh (fun e => absurd e hl)
  refine cast (congrArg _ ?_) this
  simp

/-- A run with shots gives the memory `keys` with the product of the probabilities of its entries. -/
theorem run_meets (hsq : ∀ x, 0 ≤ x → sqrt x * sqrt x = x) {ms} {c : Circ} (hc : Supported ms c)
    (hm : (propLoop c.data ⟨true, [], []⟩).stable = true → ∀ x ∈ c.data, x.op = .measure → x.cond = none)
    {o : Opts} {keys : List (List Bool)} (hs : o.shots = some keys.length) (h0 : keys ≠ [])
    (hms : o.saveSV = true ∨ (propLoop c.data ⟨true, [], []⟩).measured ≠ []) (hsv : o.saveSV = true → c.nq ≤ 30)
    {h : Heap ℝ} (hh : ∃ tl, h.ms = ms ++ tl) :
    Meets sqrt (run c o) h (Memory keys) ((keys.map c.prob).prod) := by
  rw [run_some hc.lim hms]
  rcases hst : (propLoop c.data ⟨true, [], []⟩).stable with _ | _
  · exact executed_meets hsq hc hst hs h0 hsv hh
  · obtain ⟨d1, d2, d3⟩ := propLoop_stable c.data (fun x hx => (hc.fine x hx).toWF) (hm hst) ⟨true, [], []⟩ (by simp) hst
    have := sampled_meets (sqrt := sqrt) hc rfl hst d3 hs hsv hh
    refine cast (congrArg _ ?_) this
    congr 1
    exact List.map_congr_left fun k _ => (prob_deferred hc (hm hst) hst k).symm

/-! ## Without shots, and the state vector -/

/-- `prob_cbit` at the end of a circuit without conditions and resets: for each measured clbit the probability of 0 at
the time of the measurement, the state not being collapsed. -/
noncomputable def margs (n : Nat) : List Inst → (Nat → CR) → List ℝ → List ℝ
  | [], _, pc => pc
  | x :: xs, f, pc => match x.op with
    | .measure => margs n xs f (pc.set (x.cargs.headD 0) (nrm n (proj (x.qargs.headD 0) false f)))
    | _ => match x.oper n with
      | some A => margs n xs (app n A f) pc
      | none => margs n xs f pc

theorem margs_congr {n : Nat} : ∀ (xs : List Inst) {f g : Nat → CR} (pc : List ℝ), (∀ i < 2 ^ n, f i = g i) →
    margs n xs f pc = margs n xs g pc := by
  intro xs
  induction xs with
  | nil => intro f g pc _; rfl
  | cons x xs ih =>
    intro f g pc h
    have hA : (match x.oper n with | some A => margs n xs (app n A f) pc | none => margs n xs f pc) =
        (match x.oper n with | some A => margs n xs (app n A g) pc | none => margs n xs g pc) := by
      cases x.oper n with
      | none => exact ih pc h
      | some A => exact ih pc fun i hi => app_congr (fun _ _ _ _ => rfl) h hi
    unfold margs
    rcases hop : x.op with ⟨g', ctl⟩ | _ | ⟨hd', kk, M⟩ | _ | _ | _ | _ <;> dsimp only <;> try exact hA
    rw [show nrm n (proj (x.qargs.headD 0) false f) = nrm n (proj (x.qargs.headD 0) false g) from
      nrm_congr fun i hi => by unfold proj; rw [h i hi]]
    exact ih _ h

/-- Without shots the instructions of an unstable circuit compute the marginals. -/
theorem insts_margs {n nc : Nat} {ms : List (Mat ℝ)} : ∀ (xs : List Inst), (∀ x ∈ xs, Fine n nc ms x) →
    (∀ x ∈ xs, x.cond = none ∧ x.op ≠ .reset) → ∀ {k : Loc → Client α} {v : ℝ} (s : Loc) h f, Good n ms h s.cur f →
      (∀ (s' : Loc) h' f', s'.pc = margs n xs f s.pc → (∀ i < 2 ^ n, f' i = evol n xs f i) → Good n ms h' s'.cur f' →
        Meets sqrt (k s') h' T v) →
      Meets sqrt (insts n false false xs s k) h T v := by
  intro xs
  induction xs with
  | nil => intro _ _ k v s h f hg hk; exact hk s h f rfl (fun _ _ => rfl) hg
  | cons x xs ih =>
    intro hfine hd k v s h f hg hk
    have hx := hfine x (by simp)
    have ih := @ih (fun y hy => hfine y (by simp [hy])) (fun y hy => hd y (by simp [hy])) k v
    obtain ⟨hc, hnr⟩ := hd x (by simp)
    have hs : skips s.val x.cond = false := by rw [hc]; rfl
    show Meets sqrt (instr n false false x s fun s => insts n false false xs s k) h T v
    rcases hop : x.op with ⟨g, ctl⟩ | _ | ⟨hd', kk, M⟩ | _ | _ | _ | _
    · obtain ⟨A, hA, hiso⟩ := gate_oper hx hop
      refine gate_meets hx hop hg false false hs ⟨A, hA, hiso, fun h' s' f' hv hpc hf' hg' => ?_⟩
      refine ih s' h' f' hg' fun s'' h'' f'' hpc' hf'' hg'' => ?_
      refine hk s'' h'' f'' ?_ (fun i hi => ?_) hg''
      · rw [hpc', margs, hop]
        dsimp only
        rw [hA]
        dsimp only
        rw [hpc, margs_congr xs s.pc hf']
      · rw [hf'' i hi, evol, hA]
        exact evol_congr xs hf' i hi
    · have := hx.op; rw [hop] at this; exact this.elim
    · have hA : x.oper n = some (onQubits n M x.qargs) := by unfold Inst.oper; rw [hop]
      refine qdd_meets hx hop hg false false hs fun h' s' f' hv hpc hf' hg' => ?_
      refine ih s' h' f' hg' fun s'' h'' f'' hpc' hf'' hg'' => ?_
      refine hk s'' h'' f'' ?_ (fun i hi => ?_) hg''
      · rw [hpc', margs, hop]
        dsimp only
        rw [hA]
        dsimp only
        rw [hpc, margs_congr xs s.pc hf']
      · rw [hf'' i hi, evol, hA]
        exact evol_congr xs hf' i hi
    · have hA : x.oper n = none := by unfold Inst.oper; rw [hop]
      unfold instr
      rw [hs, hop]
      refine ih s h f hg fun s'' h'' f'' hpc' hf'' hg'' => ?_
      refine hk s'' h'' f'' ?_ (fun i hi => ?_) hg''
      · rw [hpc', margs, hop, hA]
      · rw [hf'' i hi, evol, hA]
    · have hA : x.oper n = none := by unfold Inst.oper; rw [hop]
      have har := hx.arity
      rw [hop] at har
      obtain ⟨har1, har2⟩ := har
      obtain ⟨q, hq⟩ := List.length_eq_one_iff.1 har1
      have hqn : q < n := hx.qubits q (by rw [hq]; simp)
      unfold instr
      rw [hs, hop, hq]
      simp only [Bool.false_eq_true, if_false, List.headD_cons]
      refine Meets.call (h1 := h) (o := .num (nrm n (proj q false f))) ⟨_, hg.cur, hg.nonzero, hqn⟩ ?_ ?_
      · simp only [Spec.step, hg.cur, Option.bind_eq_bind, Option.bind_some, norm2_eq, hg.nrm, sub_self, abs_zero, div_one, marg_eq]
        rw [if_neg (by unfold epsM; norm_num)]
      · refine collect_meets (s := { s with pc := s.pc.set (x.cargs.headD 0) (nrm n (proj q false f)) }) hg fun h' s' hv hpc hg' => ?_
        refine ih s' h' f hg' fun s'' h'' f'' hpc' hf'' hg'' => ?_
        refine hk s'' h'' f'' ?_ (fun i hi => ?_) hg''
        · rw [hpc', margs, hop, hpc, hq]; rfl
        · rw [hf'' i hi, evol, hA]
    · exact absurd hop hnr
    · have := hx.op; rw [hop] at this; exact this.elim

/-- The answer has these probabilities. -/
def Probs (l : List ℝ) (r : Option Result) : Prop := ∃ res, r = some res ∧ res.probs = some l
/-- The answer has this state vector. -/
def StateVector (l : List CR) (r : Option Result) : Prop := ∃ res, r = some res ∧ res.statevector = some (l.map some)

theorem any_cond_false {xs : List Inst} (h : ∀ x ∈ xs, x.cond = none) : (xs.any (·.cond.isSome)) = false := by
  rw [List.any_eq_false]
  intro x hx
  rw [h x hx]; simp

theorem probs_stable_meets {ms} {c : Circ} (hc : Supported ms c) (h30 : c.nq ≤ 30)
    {cp : CircProp} (hcp : cp = propLoop c.data ⟨true, [], []⟩) (hst : cp.stable = true)
    (hcd : ∀ x ∈ c.data, x.cond = none)
    {o : Opts} (hs : o.shots = none) {h : Heap ℝ} (hh : ∃ tl, h.ms = ms ++ tl) :
    Meets sqrt (evaluate c cp o) h (Probs ((List.range (2 ^ c.nq)).map fun i => (evol c.nq c.data zeroState i).mag2)) 1 := by
  classical
  have hsteady : Steady c.data := propLoop_steady c.data _ (hcp ▸ hst)
  unfold evaluate
  rw [hs]
  dsimp only
  rw [any_cond_false hcd, if_neg (by simp), hst]
  unfold trip
  refine Meets.call (h1 := h.addV (basis c.nq 0)) (o := .unit) ⟨hc.pos, hc.lim⟩ rfl ?_
  refine insts_stable false c.data hc.fine hsteady _ _ _ (zero_good hc.pos hc.lim hh) fun s' h' f' _ _ hf' hg' => ?_
  refine applyGlobal_meets hg' fun h'' cur'' hg'' => ?_
  rw [if_pos rfl]
  refine Meets.call (h1 := h'') (o := .probs ((List.range (2 ^ c.nq)).map fun i => (evol c.nq c.data zeroState i).mag2))
    ⟨_, hg''.cur, hg''.nonzero, h30⟩ ?_ ?_
  · simp only [Spec.step, hg''.cur, Option.bind_eq_bind, Option.bind_some, norm2_eq, hg''.nrm, div_one]
    congr 3
    refine List.map_congr_left fun i hi => ?_
    rw [mag2_phased, hf' i (List.mem_range.1 hi)]
  · dsimp only
    have := withSV_meets (sqrt := sqrt) hg'' (sv := o.saveSV) (fun _ => h30)
      (r := ⟨none, some ((List.range (2 ^ c.nq)).map fun i => (evol c.nq c.data zeroState i).mag2), none⟩) rfl
      (T := Probs ((List.range (2 ^ c.nq)).map fun i => (evol c.nq c.data zeroState i).mag2))
    rwa [if_pos ⟨_, rfl, rfl⟩] at this

theorem probs_unstable_meets {ms} {c : Circ} (hc : Supported ms c) {cp : CircProp} (hst : cp.stable = false)
    (hcd : ∀ x ∈ c.data, x.cond = none ∧ x.op ≠ .reset) {o : Opts} (hsv : o.saveSV = true → c.nq ≤ 30)
    (hs : o.shots = none) {h : Heap ℝ} (hh : ∃ tl, h.ms = ms ++ tl) :
    Meets sqrt (evaluate c cp o) h (Probs (marginProduct c.nc (margs c.nq c.data zeroState (List.replicate c.nc 0)))) 1 := by
  classical
  unfold evaluate
  rw [hs]
  dsimp only
  rw [any_cond_false fun x hx => (hcd x hx).1, if_neg (by simp), hst]
  unfold trip
  refine Meets.call (h1 := h.addV (basis c.nq 0)) (o := .unit) ⟨hc.pos, hc.lim⟩ rfl ?_
  refine insts_margs c.data hc.fine hcd _ _ _ (zero_good hc.pos hc.lim hh) fun s' h' f' hpc hf' hg' => ?_
  refine applyGlobal_meets hg' fun h'' cur'' hg'' => ?_
  rw [if_neg (by simp), hpc]
  have := withSV_meets (sqrt := sqrt) hg'' (sv := o.saveSV) hsv
    (r := ⟨none, some (marginProduct c.nc (margs c.nq c.data zeroState (List.replicate c.nc 0))), none⟩) rfl
    (T := Probs (marginProduct c.nc (margs c.nq c.data zeroState (List.replicate c.nc 0))))
  rwa [if_pos ⟨_, rfl, rfl⟩] at this

/-- The state vector of a circuit with a stable final state, with or without shots. -/
theorem statevector_meets {ms} {c : Circ} (hc : Supported ms c) (h30 : c.nq ≤ 30)
    (hst : (propLoop c.data ⟨true, [], []⟩).stable = true) {o : Opts} (hsv : o.saveSV = true)
    (hcd : o.shots = none → ∀ x ∈ c.data, x.cond = none)
    {h : Heap ℝ} (hh : ∃ tl, h.ms = ms ++ tl) :
    Meets sqrt (run c o) h (StateVector ((List.range (2 ^ c.nq)).map (phased c.phase (evol c.nq c.data zeroState)))) 1 := by
  classical
  rw [run_some hc.lim (.inl hsv)]
  have hsteady : Steady c.data := propLoop_steady c.data _ hst
  have hfin : ∀ (h' : Heap ℝ) cur f (r : Result), r.statevector = none → Good c.nq ms h' cur f →
      (∀ i < 2 ^ c.nq, f i = phased c.phase (evol c.nq c.data zeroState) i) →
      Meets sqrt (withSV o.saveSV cur r) h' (StateVector ((List.range (2 ^ c.nq)).map (phased c.phase (evol c.nq c.data zeroState)))) 1 := by
    intro h' cur f r hr hg hf
    have := withSV_meets (sqrt := sqrt) hg (sv := o.saveSV) (fun _ => h30) hr
      (T := StateVector ((List.range (2 ^ c.nq)).map (phased c.phase (evol c.nq c.data zeroState))))
    rw [if_pos] at this
    · exact this
    · refine ⟨_, rfl, ?_⟩
      unfold svOf
      rw [hsv, if_pos rfl, List.map_map]
      dsimp only
      congr 1
      refine List.map_congr_left fun i hi => ?_
      rw [hf i (List.mem_range.1 hi)]; rfl
  unfold evaluate
  rcases hsh : o.shots with _ | r
  · dsimp only
    rw [any_cond_false (hcd hsh), if_neg (by simp), hst]
    unfold trip
    refine Meets.call (h1 := h.addV (basis c.nq 0)) (o := .unit) ⟨hc.pos, hc.lim⟩ rfl ?_
    refine insts_stable false c.data hc.fine hsteady _ _ _ (zero_good hc.pos hc.lim hh) fun s' h' f' _ _ hf' hg' => ?_
    refine applyGlobal_meets hg' fun h'' cur'' hg'' => ?_
    rw [if_pos rfl]
    refine Meets.call (h1 := h'') (o := .probs ((List.range (2 ^ c.nq)).map fun i => (phased c.phase f' i).mag2))
      ⟨_, hg''.cur, hg''.nonzero, h30⟩ ?_ ?_
    · simp only [Spec.step, hg''.cur, Option.bind_eq_bind, Option.bind_some, norm2_eq, hg''.nrm, div_one]
    · exact hfin _ _ _ _ rfl hg'' fun i hi => by unfold phased; rw [hf' i hi]
  · dsimp only
    rw [hst, if_pos rfl]
    unfold trip
    refine Meets.call (h1 := h.addV (basis c.nq 0)) (o := .unit) ⟨hc.pos, hc.lim⟩ rfl ?_
    refine insts_stable true c.data hc.fine hsteady _ _ _ (zero_good hc.pos hc.lim hh) fun s' h' f' _ _ hf' hg' => ?_
    refine applyGlobal_meets hg' fun h'' cur'' hg'' => ?_
    -- sampling does not change the state
    have loop : ∀ r acc, Meets sqrt (sampleLoop c (propLoop c.data ⟨true, [], []⟩).final r cur'' acc fun mem =>
        withSV o.saveSV cur'' ⟨some mem, none, none⟩) h''
        (StateVector ((List.range (2 ^ c.nq)).map (phased c.phase (evol c.nq c.data zeroState)))) 1 := by
      intro r
      induction r with
      | zero => intro acc; exact hfin _ _ _ _ rfl hg'' fun i hi => by unfold phased; rw [hf' i hi]
      | succ r ih =>
        intro acc
        unfold sampleLoop
        have := drawN_meets (sqrt := sqrt)
          (T := StateVector ((List.range (2 ^ c.nq)).map (phased c.phase (evol c.nq c.data zeroState))))
          c.nq (f := phased c.phase f') (by rw [hg''.nrm]; norm_num) (h := h'') (G := fun _ => 1)
          (k := fun us => .call (.measureAll cur'' false fun t => us.getD t 0) fun o' _ _ =>
            match o' with
            | .str l => sampleLoop c (propLoop c.data ⟨true, [], []⟩).final r cur''
              (acc ++ [(finalKey c.nc (propLoop c.data ⟨true, [], []⟩).final l).reverse])
              fun mem => withSV o.saveSV cur'' ⟨some mem, none, none⟩
            | _ => .raise) (by
            intro us hl' hus
            refine Meets.call (h1 := h'') (o := .str (bits c.nq (sample (fun t => us.getD t 0) c.nq 0 (phased c.phase f'))))
              ⟨_, hg''.cur, hg''.nonzero, ?_⟩ ?_ (ih _)
            · intro u hu
              refine hus _ ?_
              dsimp only
              rw [List.getD_eq_getElem?_getD, List.getElem?_eq_getElem (by rw [hl']; exact hu)]
              exact List.getElem_mem _
            · simp only [Spec.step, hg''.cur, Option.bind_eq_bind, Option.bind_some, Bool.false_eq_true, if_false]
              congr 2
              exact set_self hg''.cur)
        refine cast (congrArg _ ?_) this
        simp only [hg''.nrm, div_one, mul_one]
        exact hg''.nrm
    exact loop r []

end QDD.Py
