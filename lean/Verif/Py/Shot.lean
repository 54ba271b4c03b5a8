import Verif.Py.Meets
/-!
# One trip through the instructions
-/

set_option linter.unusedSectionVars false
set_option linter.unusedVariables false
set_option linter.unusedSimpArgs false

namespace QDD.Py
open Spec Api Gate Finset Props Client

/-- What the backend supports: gates with positive controls, conditions on single bits or on registers with a value whose
bit at the index of each clbit is its bit at the position of the clbit (as in every register that starts at clbit 0), `QDDGate`s of isometries on the first qubits. -/
def Op.Fine (n : Nat) (ms : List (Mat ℝ)) (qargs : List Nat) : Op → Prop
  | .gate g ctl => Closed ctl
  | .qdd hd k M => qargs = List.range k ∧ k ≤ n ∧
      (∃ M', ms[hd]? = some ⟨k, M'⟩ ∧ ∀ i < 2 ^ k, ∀ j < 2 ^ k, M' i j = M i j) ∧ Isometry k M
  | .barrier | .measure | .reset => True
  | .unitary | .other => False

def Cond.Aligned : Cond → Prop
  | .bit _ _ => True
  | .reg cs v => ∀ m (h : m < cs.length), v.testBit cs[m] = v.testBit m

theorem Cond.aligned_range (k v : Nat) : (Cond.reg (List.range k) v).Aligned := by
  intro m h
  rw [List.getElem_range]

structure Fine (n nc : Nat) (ms : List (Mat ℝ)) (x : Inst) : Prop extends x.WF n nc where
  op : x.op.Fine n ms x.qargs
  aligned : ∀ c, x.cond = some c → c.Aligned

/-- The clbits as a function. -/
def look (val : List Bool) (c : Nat) : Bool := val.getD c false

theorem look_set {val : List Bool} {c : Nat} (h : c < val.length) (b : Bool) : look (val.set c b) = upd (look val) c b := by
  funext i
  unfold look upd
  rw [List.getD_eq_getElem?_getD, List.getElem?_set]
  by_cases hi : c = i
  · subst hi; simp [h]
  · rw [if_neg hi, if_neg (Ne.symm hi)]
    show _ = val.getD i false
    rw [List.getD_eq_getElem?_getD]

theorem regValue_range (val : Nat → Bool) (k v : Nat) (hv : v < 2 ^ k) :
    regValue val (List.range k) = v ↔ ∀ i < k, val i = v.testBit i := by
  have key : ∀ m ≤ k, regValue val (List.range k) % 2 ^ m = ∑ x ∈ range m, if val x then 2 ^ x else 0 := by
    intro m hm
    have hlt : ∀ m, (∑ x ∈ range m, if val x then 2 ^ x else 0) < 2 ^ m := by
      intro m
      induction m with
      | zero => simp
      | succ m ih =>
        rw [Finset.sum_range_succ, Nat.pow_succ]
        have : (if val m then 2 ^ m else 0) ≤ 2 ^ m := by split <;> omega
        omega
    have heq : regValue val (List.range k) = ∑ x ∈ range k, if val x then 2 ^ x else 0 := by
      unfold regValue
      rw [List.length_range]
      refine Finset.sum_congr rfl fun x hx => ?_
      rw [List.getD_eq_getElem?_getD, List.getElem?_range (mem_range.1 hx)]; rfl
    rw [heq]
    obtain ⟨d, rfl⟩ := Nat.exists_eq_add_of_le hm
    rw [Finset.sum_range_add]
    have : (∑ x ∈ range d, if val (m + x) then 2 ^ (m + x) else 0) = 2 ^ m * ∑ x ∈ range d, if val (m + x) then 2 ^ x else 0 := by
      rw [Finset.mul_sum]
      refine Finset.sum_congr rfl fun x _ => ?_
      split
      · rw [Nat.pow_add]
      · rw [Nat.mul_zero]
    rw [this, Nat.add_mul_mod_self_left, Nat.mod_eq_of_lt (hlt m)]
  have hbit : ∀ i < k, (regValue val (List.range k)).testBit i = val i := by
    intro i hi
    have h1 := key (i + 1) (by omega)
    have h2 := key i (by omega)
    rw [Finset.sum_range_succ, ← h2, Nat.mod_pow_succ] at h1
    rw [Nat.testBit_eq_decide_div_mod_eq]
    have hpos : 0 < 2 ^ i := Nat.two_pow_pos i
    rcases hv' : val i with _ | _
    · rw [hv'] at h1
      have : 2 ^ i * (regValue val (List.range k) / 2 ^ i % 2) = 0 := by simpa using h1
      have : regValue val (List.range k) / 2 ^ i % 2 = 0 := by
        rcases Nat.mul_eq_zero.1 this with h | h
        · omega
        · exact h
      simp [this]
    · rw [hv'] at h1
      have : 2 ^ i * (regValue val (List.range k) / 2 ^ i % 2) = 2 ^ i * 1 := by simpa using h1
      have := Nat.eq_of_mul_eq_mul_left hpos this
      simp [this]
  have hlt : regValue val (List.range k) < 2 ^ k := by
    have := key k le_rfl
    have h0 : ∀ m, (∑ x ∈ range m, if val x then 2 ^ x else 0) < 2 ^ m := by
      intro m
      induction m with
      | zero => simp
      | succ m ih =>
        rw [Finset.sum_range_succ, Nat.pow_succ]
        have : (if val m then 2 ^ m else 0) ≤ 2 ^ m := by split <;> omega
        omega
    have heq : regValue val (List.range k) = ∑ x ∈ range k, if val x then 2 ^ x else 0 := by
      unfold regValue
      rw [List.length_range]
      refine Finset.sum_congr rfl fun x hx => ?_
      rw [List.getD_eq_getElem?_getD, List.getElem?_range (mem_range.1 hx)]; rfl
    rw [heq]; exact h0 k
  constructor
  · rintro rfl i hi; rw [hbit i hi]
  · intro h
    apply Nat.eq_of_testBit_eq
    intro i
    rcases Nat.lt_or_ge i k with hi | hi
    · rw [hbit i hi, h i hi]
    · rw [Nat.testBit_lt_two_pow (lt_of_lt_of_le hlt (Nat.pow_le_pow_right (by omega) hi)),
        Nat.testBit_lt_two_pow (lt_of_lt_of_le hv (Nat.pow_le_pow_right (by omega) hi))]

/-- A register has a value exactly when its clbits are the bits of the value. -/
theorem regValue_iff (val : Nat → Bool) (cs : List Nat) (v : Nat) (hv : v < 2 ^ cs.length) :
    regValue val cs = v ↔ ∀ i (h : i < cs.length), val cs[i] = v.testBit i := by
  have e : regValue val cs = regValue (fun m => val (cs.getD m 0)) (List.range cs.length) := by
    unfold regValue
    rw [List.length_range]
    refine Finset.sum_congr rfl fun m hm => ?_
    rw [List.getD_eq_getElem?_getD (l := List.range cs.length), List.getElem?_range (mem_range.1 hm)]
    rfl
  rw [e, regValue_range _ _ _ hv]
  refine forall_congr' fun i => forall_congr' fun hi => ?_
  rw [List.getD_eq_getElem?_getD, List.getElem?_eq_getElem hi]
  rfl

/-- The backend's test of a register: clbit `i` of the circuit is compared with bit `i` of the value. -/
theorem skips_reg (val : List Bool) (cs : List Nat) (v : Nat) :
    skips val (some (.reg cs v)) = false ↔ ∀ i ∈ cs, look val i = v.testBit i := by
  unfold skips
  rw [List.any_eq_false]
  simp only [decide_eq_true_eq, not_not]
  rfl

/-- On aligned registers the backend's test is the condition. -/
theorem skips_eq {n nc : Nat} {ms : List (Mat ℝ)} {x : Inst} (hx : Fine n nc ms x) (val : List Bool) :
    skips val x.cond = !x.enabled (look val) := by
  unfold Inst.enabled
  rcases hc : x.cond with _ | ⟨c, v⟩ | ⟨cs, v⟩
  · rfl
  · simp [skips, Cond.holds, look]
  · dsimp only [Cond.holds]
    have hal := hx.aligned _ hc
    have hwf := hx.cond _ hc
    simp only [Cond.Aligned] at hal
    simp only [Cond.wf] at hwf
    have hr := regValue_iff (look val) cs v hwf.2.2
    have hs := skips_reg val cs v
    have : (∀ i ∈ cs, look val i = v.testBit i) ↔ regValue (look val) cs = v := by
      rw [hr]
      constructor
      · intro h i hi
        rw [h _ (List.getElem_mem hi), hal]
      · intro h i hi
        obtain ⟨m, hm, rfl⟩ := List.getElem_of_mem hi
        rw [h m hm, hal]
    rw [this] at hs
    by_cases hv : regValue (look val) cs = v
    · rw [hs.2 hv]; simp [hv]
    · have h1 : skips val (some (.reg cs v)) = true := by
        cases h : skips val (some (.reg cs v))
        · exact absurd (hs.1 h) hv
        · rfl
      rw [h1]; simp [hv]

/-- The heap holds the normalised state `f` of `n` qubits at handle `cur`, and the matrices `ms`. -/
structure Good (n : Nat) (ms : List (Mat ℝ)) (h : Heap ℝ) (cur : Nat) (f : Nat → CR) : Prop where
  pos : 0 < n
  lim : n ≤ NQUBITS
  cur : h.vs[cur]? = some ⟨n, f⟩
  nrm : Py.nrm n f = 1
  ms : ∃ tl, h.ms = ms ++ tl

theorem Good.nonzero {n ms h cur} {f : Nat → CR} (hg : Good n ms h cur f) : (⟨n, f⟩ : Vec ℝ).Nonzero := by
  by_contra hc
  have : Py.nrm n f = 0 := Finset.sum_eq_zero fun i hi => by
    have : f i = 0 := by
      by_contra h0
      exact hc ⟨i, mem_range.1 hi, h0⟩
    rw [this]; simp [Cx.mag2]
  rw [hg.nrm] at this
  norm_num at this

theorem norm2_eq (n : Nat) (f : Nat → CR) : (⟨n, f⟩ : Vec ℝ).norm2 = nrm n f := rfl

theorem marg_eq (n q : Nat) (b : Bool) (f : Nat → CR) : (⟨n, f⟩ : Vec ℝ).marg q b = nrm n (proj q b f) := by
  unfold Vec.marg nrm proj
  refine Finset.sum_congr rfl fun i _ => ?_
  dsimp only
  split <;> simp [Cx.mag2]

variable {sqrt : ℝ → ℝ} {α : Type} {T : Option α → Prop}

/-- `gc(current, False)`. -/
theorem collect_meets {n ms h} {s : Loc} {f : Nat → CR} {k : Loc → Client α} {x : ℝ} (hg : Good n ms h s.cur f)
    (hk : ∀ h' (s' : Loc), s'.val = s.val → s'.pc = s.pc → Good n ms h' s'.cur f → Meets sqrt (k s') h' T x) :
    Meets sqrt (collect s k) h T x := by
  unfold collect
  refine Meets.call (h1 := ⟨[⟨n, f⟩], h.ms⟩) (o := .unit) ?_ ?_ ?_
  · intro i hi
    simp only [List.mem_singleton] at hi
    subst hi
    exact ⟨_, hg.cur⟩
  · simp only [Spec.step, List.mapM_cons, List.mapM_nil, hg.cur, Option.bind_eq_bind, Option.bind_some, Option.pure_def]
  · exact hk _ _ rfl rfl ⟨hg.pos, hg.lim, rfl, hg.nrm, hg.ms⟩

/-- Applying the last gate built. -/
theorem applyLast_meets {n ms h} {s : Loc} {f : Nat → CR} {A : Nat → Nat → CR} {k : Loc → Client α} {x : ℝ}
    (hg : Good n ms h s.cur f) (hA : Isometry n A)
    (hk : ∀ h' (s' : Loc) f', s'.val = s.val → s'.pc = s.pc → (∀ i < 2 ^ n, f' i = app n A f i) → Good n ms h' s'.cur f' →
      Meets sqrt (k s') h' T x) :
    Meets sqrt (applyLast s (h.addM ⟨n, A⟩).ms.length k) (h.addM ⟨n, A⟩) T x := by
  unfold applyLast
  have hm : (h.addM ⟨n, A⟩).ms[(h.addM ⟨n, A⟩).ms.length - 1]? = some ⟨n, A⟩ := by
    unfold Heap.addM
    rw [List.length_append, List.length_singleton, Nat.add_sub_cancel]
    simp
  have hv : (h.addM ⟨n, A⟩).vs[s.cur]? = some ⟨n, f⟩ := hg.cur
  let V' : Vec ℝ := (⟨n, A⟩ : Mat ℝ).apply ⟨n, f⟩
  have hf' : ∀ i < 2 ^ n, V'.f i = app n A f i := fun i hi => by
    show ∑ j ∈ range (2 ^ n), (⟨n, A⟩ : Mat ℝ).at n i j * f j = ∑ j ∈ range (2 ^ n), A i j * f j
    refine Finset.sum_congr rfl fun j hj => ?_
    · show (⟨n, A⟩ : Mat ℝ).at n i j * f j = _
      rw [show (⟨n, A⟩ : Mat ℝ).at n i j = A i j from at_self ⟨n, A⟩ hi (mem_range.1 hj)]
  refine Meets.call (h1 := (h.addM ⟨n, A⟩).addV V') (o := .unit) ⟨_, _, hm, hv, le_rfl⟩ ?_ ?_
  · simp only [Spec.step, hm, hv, Option.bind_eq_bind, Option.bind_some]; rfl
  · have hv' : ((h.addM ⟨n, A⟩).addV V').vs[((h.addM ⟨n, A⟩).addV V').vs.length - 1]? = some V' := by
      unfold Heap.addV
      rw [List.length_append, List.length_singleton, Nat.add_sub_cancel]
      simp
    refine Meets.call (h1 := ⟨[V'], (h.addM ⟨n, A⟩).ms⟩) (o := .unit) ?_ ?_ ?_
    · intro i hi
      simp only [List.mem_singleton] at hi
      subst hi
      exact ⟨_, hv'⟩
    · simp only [Spec.step, List.mapM_cons, List.mapM_nil, hv', Option.bind_eq_bind, Option.bind_some, Option.pure_def]
      rfl
    · refine hk _ _ V'.f rfl rfl hf' ⟨hg.pos, hg.lim, rfl, ?_, ?_⟩
      · rw [nrm_congr hf']
        exact (hA.norm2 f).trans hg.nrm
      · obtain ⟨tl, htl⟩ := hg.ms
        exact ⟨tl ++ [⟨n, A⟩], by show h.ms ++ [_] = _; rw [htl, List.append_assoc]⟩

/-- Measurement of one qubit with collapse: both outcomes with their Born probabilities. -/
theorem measure_meets (hsq : ∀ x, 0 ≤ x → sqrt x * sqrt x = x) {n nc : Nat} {ms h} {s : Loc} {f : Nat → CR} {q : Nat} (hq : q < n)
    (hg : Good n ms h s.cur f) {k : Bool → Client α} {E : Bool → (Nat → CR) → ℝ}
    (hE0 : ∀ b g, nrm n g = 0 → E b g = 0) (hEs : ∀ b a g, E b (smul a g) = a * a * E b g)
    (hEc : ∀ b g g', (∀ i < 2 ^ n, g i = g' i) → E b g = E b g')
    (hk : ∀ b h' f', Good n ms h' s.cur f' → Meets sqrt (k b) h' T (E b f')) :
    Meets sqrt (.draw fun u => .call (.measureOneCollapsing s.cur q epsM u) fun o _ _ =>
      match o with | .char b => k b | _ => .raise) h T (E false (proj q false f) + E true (proj q true f)) := by
  have hsplit := nrm_split n q f
  rw [hg.nrm] at hsplit
  have n0 := nrm_nonneg n (proj q false f)
  have n1 := nrm_nonneg n (proj q true f)
  -- one branch
  have branch : ∀ u, 0 ≤ u → u < 1 → ∀ b, (b = !decide (u < nrm n (proj q false f))) → 0 < nrm n (proj q b f) →
      Meets sqrt (.call (.measureOneCollapsing s.cur q epsM u) fun o _ _ =>
        match o with | .char b => k b | _ => .raise) h T (E b (smul (sqrt (1 / nrm n (proj q b f))) (proj q b f))) := by
    intro u hu0 hu1 b hb hpos
    let V' : Vec ℝ := (⟨n, f⟩ : Vec ℝ).collapse sqrt q b
    have hf' : ∀ i, V'.f i = smul (sqrt (1 / nrm n (proj q b f))) (proj q b f) i := by
      intro i
      show (if i.testBit q = b then f i * ⟨sqrt (1 / (⟨n, f⟩ : Vec ℝ).marg q b), 0⟩ else 0) = _
      rw [marg_eq]
      unfold smul
      show _ = (if i.testBit q = b then f i else 0) * _
      split
      · rfl
      · rw [zero_mul]
    have hn' : nrm n V'.f = 1 := by
      rw [nrm_congr (fun i _ => hf' i), nrm_smul, hsq _ (by positivity)]
      field_simp
    refine Meets.call (h1 := ⟨h.vs.set s.cur V', h.ms⟩) (o := .char b) ⟨_, hg.cur, hg.nonzero, hq, hu0, hu1⟩ ?_ ?_
    · simp only [Spec.step, hg.cur, Option.bind_eq_bind, Option.bind_some, norm2_eq, hg.nrm, sub_self, abs_zero]
      rw [if_neg (by unfold epsM; norm_num), marg_eq, div_one, ← hb]
    · rw [hEc b _ V'.f (fun i _ => (hf' i).symm)]
      refine hk b _ _ ⟨hg.pos, hg.lim, ?_, hn', hg.ms⟩
      have : s.cur < h.vs.length := by
        by_contra hc
        have := hg.cur
        rw [List.getElem?_eq_none (by omega)] at this
        cases this
      simp [List.getElem?_set, this]
      rfl
  have val : ∀ b, nrm n (proj q b f) * E b (smul (sqrt (1 / nrm n (proj q b f))) (proj q b f)) = E b (proj q b f) := by
    intro b
    rcases eq_or_lt_of_le (nrm_nonneg n (proj q b f)) with h0 | hpos
    · rw [← h0, zero_mul, hE0 b _ h0.symm]
    · rw [hEs, hsq _ (by positivity)]
      field_simp
  have h1p : 1 - nrm n (proj q false f) = nrm n (proj q true f) := by linarith
  rw [← val false, ← val true]
  have := Meets.draw2 (sqrt := sqrt) (T := T) (h := h) (p := nrm n (proj q false f)) n0 (by linarith)
    (k := fun u => .call (.measureOneCollapsing s.cur q epsM u) fun o _ _ => match o with | .char b => k b | _ => .raise)
    (fun u hu0 hu1 hu => branch u hu0 hu1 false (by simp [hu]) (by linarith))
    (fun u hu0 hu1 hu => branch u hu0 hu1 true (by simp [not_lt.2 hu]) (by linarith))
  rw [h1p] at this
  exact this

end QDD.Py
