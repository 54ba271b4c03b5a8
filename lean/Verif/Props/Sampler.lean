import Verif.Py.Sampler
import Verif.Props.Jobs
/-!
# C47: the sampler
-/

set_option linter.unusedSectionVars false
set_option linter.unusedVariables false
set_option linter.unusedSimpArgs false

namespace QDD.Props
open Spec Api Gate Finset Py Py.Client

variable {cfg : Cfg ℝ} {thr thrM : Nat} {cs : List (Cmd ℝ)} {h : Heap ℝ} {σ : Sys ℝ} {os : List (Obs ℝ)}
variable {Key : Type} [DecidableEq Key] {key : PCirc → Key} {tr : PCirc → PCirc} {P : PCirc → Prop}

/-- The circuit with its parameters, in order, set to the values. -/
noncomputable def PCirc.withValues (p : PCirc) (vs : List ℝ) : Circ := p.at_ fun k => ((p.params.zip vs).lookup k).getD 0

/-- Alike parameters and, for all their values, the same distribution of outcomes. -/
def Alike (p q : PCirc) : Prop := p.params = q.params ∧ ∀ v k, (p.at_ v).prob k = (q.at_ v).prob k

/-- The engine can run the circuit (C54), and it has a measurement. -/
structure Runnable (ms : List (Mat ℝ)) (p : PCirc) : Prop where
  supported : ∀ v, Supported ms (p.at_ v)
  plain : ∀ v, (classify (p.at_ v)).stable = true → ∀ x ∈ (p.at_ v).data, x.op = .measure → x.cond = none
  measured : ∀ v, ∃ x ∈ (p.at_ v).data, x.op = .measure

/-- What is assumed of Qiskit for the circuits used: `_circuit_key` tells circuits apart, `transpile` preserves them and
makes them runnable. -/
structure Qiskit (ms : List (Mat ℝ)) (key : PCirc → Key) (tr : PCirc → PCirc) (P : PCirc → Prop) : Prop where
  key : ∀ p q, P p → P q → key p = key q → Alike p q
  transpile : ∀ p, P p → Alike (tr p) p
  runs : ∀ p, P p → Runnable ms (tr p)

/-- The answer is one result per entry, with these memories. -/
def Memories (keyss : List (List (List Bool))) (r : Option (List Result)) : Prop :=
  ∃ rs, r = some rs ∧ rs.map (·.memory) = keyss.map some

theorem memories_each (keyss : List (List (List Bool))) : Memories keyss = Each (keyss.map Memory) := by
  funext r
  apply propext
  have key : ∀ (keyss : List (List (List Bool))) (rs : List Result), rs.map (·.memory) = keyss.map some ↔
      List.Forall₂ (fun (T : Option Result → Prop) a => T (some a)) (keyss.map Memory) rs := by
    intro keyss
    induction keyss with
    | nil => intro rs; cases rs <;> simp
    | cons k ks ih =>
      intro rs
      cases rs with
      | nil => simp
      | cons r rs =>
        simp only [List.map_cons, List.cons.injEq, List.forall₂_cons, ih]
        constructor
        · rintro ⟨a, b⟩; exact ⟨⟨_, rfl, a⟩, b⟩
        · rintro ⟨⟨_, e, a⟩, b⟩; cases e; exact ⟨a, b⟩
  constructor
  · rintro ⟨rs, h1, h2⟩; exact ⟨rs, h1, (key _ _).1 h2⟩
  · rintro ⟨rs, h1, h2⟩; exact ⟨rs, h1, (key _ _).2 h2⟩

/-- Of a reached sampler: what the registered indices stand for. -/
theorem registered' (hK : ∀ p q, P p → P q → key p = key q → p.params = q.params) {s : Sampler Key} (hs : SReach key tr P s)
    {ps : List PCirc} (hP : ∀ p ∈ ps, P p) {vals : List (List ℝ)} (hl : ps.length = vals.length) (hv : List.Forall₂ (fun p v => v.length = p.params.length) ps vals) :
    ∃ Q : Nat → PCirc, (∀ i ∈ (register key ps s).2, P (Q i)) ∧
      List.Forall₂ (fun p i => key (Q i) = key p) ps (register key ps s).2 ∧
      (∀ i ∈ (register key ps s).2, ∀ j ∈ (register key ps s).2, key (Q i) = key (Q j) → i = j) ∧
      List.Forall₂ (Py.Entry ((register key ps s).1.transpile tr (register key ps s).2)) ((register key ps s).2.zip vals)
        (List.zipWith (fun i v => (i, tr (Q i), (Q i).params.zip v)) (register key ps s).2 vals) := by
  obtain ⟨h1, h2, h3⟩ := register_spec ps s hs.inv hP
  obtain ⟨t1, t2, t3⟩ := transpile_spec (tr := tr) h1 (register key ps s).2
  generalize hr : register key ps s = r at h1 h2 h3 t1 t2 t3 ⊢
  obtain ⟨s1, idx⟩ := r
  dsimp only at h1 h2 h3 t1 t2 t3 ⊢
  have hsome : ∀ i ∈ idx, ∃ q, s1.circuits[i]? = some q := by
    clear hr hl hv t3 t1 t2
    induction h3 with
    | nil => simp
    | cons h _ ih =>
      intro i hi
      rcases List.mem_cons.1 hi with rfl | hi
      · exact ⟨_, h.choose_spec.1⟩
      · exact ih (fun p hp => hP p (by simp [hp])) i hi
  refine ⟨fun i => (s1.circuits[i]?).getD ⟨[], fun _ => ⟨0, 0, 0, []⟩⟩, ?_, ?_, ?_, ?_⟩
  · intro i hi
    obtain ⟨q, hq⟩ := hsome i hi
    dsimp only
    rw [hq]
    exact h1.good q (List.mem_of_getElem? hq)
  · refine List.Forall₂.imp ?_ h3
    rintro p i ⟨q, hq, hk⟩
    dsimp only
    rw [hq]; exact hk
  · intro i hi j hj hk
    obtain ⟨q, hq⟩ := hsome i hi
    obtain ⟨q', hq'⟩ := hsome j hj
    dsimp only at hk
    rw [hq, hq'] at hk
    have a := h1.inv i q hq
    have b := h1.inv j q' hq'
    simp only [Option.getD_some] at hk
    rw [hk, b] at a
    exact (Option.some.inj a).symm
  · have gen : ∀ (ps : List PCirc) (idx' : List Nat) (vals : List (List ℝ)), (∀ i ∈ idx', i ∈ idx) → (∀ p ∈ ps, P p) →
        List.Forall₂ (fun p i => ∃ q, s1.circuits[i]? = some q ∧ key q = key p) ps idx' →
        List.Forall₂ (fun p v => v.length = p.params.length) ps vals →
        List.Forall₂ (Py.Entry (s1.transpile tr idx)) (idx'.zip vals)
          (List.zipWith (fun i v => (i, tr ((s1.circuits[i]?).getD ⟨[], fun _ => ⟨0, 0, 0, []⟩⟩),
            ((s1.circuits[i]?).getD ⟨[], fun _ => ⟨0, 0, 0, []⟩⟩).params.zip v)) idx' vals) := by
      intro ps
      induction ps with
      | nil => intro idx' vals _ _ a b; cases a; cases b; exact .nil
      | cons p ps ih =>
        intro idx' vals hsub hP a b
        cases a with
        | @cons _ i _ idx'' hi a =>
        cases b with
        | @cons _ v _ vals' hv b =>
        obtain ⟨q, hq, hk⟩ := hi
        rw [List.zip_cons_cons, List.zipWith_cons_cons]
        refine .cons ⟨q, ?_, ?_, ?_, ?_, rfl⟩ (ih _ _ (fun i hi => hsub i (by simp [hi])) (fun p hp => hP p (by simp [hp])) a b)
        · rw [t2]; exact hq
        · have := hK q p (h1.good q (List.mem_of_getElem? hq)) (hP p (by simp)) hk
          rw [this]; exact hv
        · dsimp only
          rw [t3 i (hsub i (by simp)) q hq, hq]; rfl
        · dsimp only; rw [hq]; try rfl
    exact gen ps idx vals (fun i hi => hi) hP h3 hv

/-- `registered'` under the assumptions of C47. -/
theorem registered {ms} (hQ : Qiskit ms key tr P) {s : Sampler Key} (hs : SReach key tr P s) {ps : List PCirc} (hP : ∀ p ∈ ps, P p)
    {vals : List (List ℝ)} (hl : ps.length = vals.length) (hv : List.Forall₂ (fun p v => v.length = p.params.length) ps vals) :
    ∃ Q : Nat → PCirc, (∀ i ∈ (register key ps s).2, P (Q i)) ∧
      List.Forall₂ (fun p i => key (Q i) = key p) ps (register key ps s).2 ∧
      (∀ i ∈ (register key ps s).2, ∀ j ∈ (register key ps s).2, key (Q i) = key (Q j) → i = j) ∧
      List.Forall₂ (Py.Entry ((register key ps s).1.transpile tr (register key ps s).2)) ((register key ps s).2.zip vals)
        (List.zipWith (fun i v => (i, tr (Q i), (Q i).params.zip v)) (register key ps s).2 vals) :=
  registered' (fun p q hp hq h => (hQ.key p q hp hq h).1) hs hP hl hv

theorem forall2_get {α β : Type} {R : α → β → Prop} {l : List α} {m : List β} (h : List.Forall₂ R l m) :
    ∀ i (h1 : i < l.length) (h2 : i < m.length), R l[i] m[i] := by
  induction h with
  | nil => intro i h1; simp at h1
  | cons h _ ih =>
    intro i h1 h2
    cases i with
    | zero => exact h
    | succ i => simpa using ih i (by simpa using h1) (by simpa using h2)

theorem zip_fst {α β : Type} : ∀ (l : List α) (m : List β), m.length = l.length → (l.zip m).map Prod.fst = l := by
  intro l
  induction l with
  | nil => intro m _; rfl
  | cons a l ih =>
    intro m hm
    cases m with
    | nil => simp at hm
    | cons b m => rw [List.zip_cons_cons, List.map_cons, ih m (by simpa using hm)]

theorem mapM_range {α : Type} (l : List α) : (List.range l.length).mapM (fun i => l[i]?) = some l := by
  have : ∀ (l pre : List α), (List.range l.length).mapM (fun i => (pre ++ l)[pre.length + i]?) = some l := by
    intro l
    induction l with
    | nil => intro pre; rfl
    | cons a l ih =>
      intro pre
      rw [List.length_cons, List.range_succ_eq_map, List.mapM_cons, List.mapM_map]
      have := ih (pre ++ [a])
      simp only [List.append_assoc, List.singleton_append, List.length_append, List.length_singleton] at this
      have e : ∀ i, (pre ++ a :: l)[pre.length + 1 + i]? = (pre ++ a :: l)[pre.length + (i + 1)]? := by
        intro i; congr 1; omega
      simp only [e] at this
      have hc : ((fun i => (pre ++ a :: l)[pre.length + i]?) ∘ Nat.succ) = fun i => (pre ++ a :: l)[pre.length + (i + 1)]? := rfl
      rw [hc, this]
      simp
  simpa using this l []

theorem pick_done (rs : List Result) : pick (List.range rs.length) (.done rs) = .ret rs := by
  unfold pick
  show (match (List.range rs.length).mapM (fun i => rs[i]?) with | some l => _ | none => _) = _
  rw [mapM_range]

theorem pick_failed {n : Nat} (hn : 0 < n) : pick (List.range n) .failed = .raise := by
  unfold pick
  obtain ⟨k, rfl⟩ : ∃ k, n = k + 1 := ⟨n - 1, by omega⟩
  rw [List.range_succ_eq_map, List.mapM_cons]
  rfl

/-- **C47.**  After any history of the engine and any calls of the sampler, a call with a list of circuits and parameter
values in which no circuit with parameters occurs twice returns one result per circuit, in order; the memories behind
the quasi-distributions are distributed as independent executions of circuit `i` with parameter values `i`.  Missing:
repeated circuits with parameters, for which it is false (`C47_false`). -/
theorem C47_partial (hR : Hist cfg thr thrM cs h σ os) (hsq : ∀ x, 0 ≤ x → cfg.sqrt x * cfg.sqrt x = x)
    (hQ : Qiskit h.ms key tr P) {s : Sampler Key} (hs : SReach key tr P s) {ps : List PCirc} (hne : ps ≠ []) (hP : ∀ p ∈ ps, P p)
    {vals : List (List ℝ)} (hv : List.Forall₂ (fun p v => v.length = p.params.length) ps vals)
    (honce : ps.Pairwise fun p q => key p = key q → q.params = [])
    {shots : Shots} {others : List String} {N : Nat}
    (hN : (shots = .absent ∧ N = 1024) ∨ (shots = .int N ∧ 0 < N ∧ N ≤ 10 ^ 6))
    {keyss : List (List (List Bool))} (hk : keyss.length = ps.length) (hkl : ∀ keys ∈ keyss, keys.length = N) :
    Yields cfg (samplerRun key tr s ps vals shots others).2 σ (Memories keyss)
      ((List.zipWith (fun c keys => (keys.map (Circ.prob c)).prod) (List.zipWith PCirc.withValues ps vals) keyss).prod) := by
  classical
  obtain ⟨Q, hPQ, hF, hinj, hE⟩ := registered (s := s) hQ hs hP hv.length_eq hv
  have hlv := hv.length_eq
  have hli := hF.length_eq
  unfold samplerRun
  dsimp only
  unfold samplerCall
  generalize register key ps s = r at *
  obtain ⟨s1, idx⟩ := r
  dsimp only at *
  have hsameQ : ∀ i (h1 : i < ps.length) (h2 : i < idx.length), Alike (Q idx[i]) ps[i] := fun i h1 h2 =>
    hQ.key _ _ (hPQ _ (List.getElem_mem h2)) (hP _ (List.getElem_mem h1)) (forall2_get hF i h1 h2)
  set m := List.zipWith (fun i v => (i, tr (Q i), (Q i).params.zip v)) idx vals with hm
  have hml : m.length = ps.length := by rw [hm]; simp; omega
  have hpw : m.Pairwise fun a b => b.2.2 ≠ [] → a.1 ≠ b.1 := by
    rw [List.pairwise_iff_getElem]
    intro i j hi hj hij hne heq
    simp only [hm, List.getElem_zipWith] at hne heq
    have h1 := forall2_get hF i (by omega) (by omega)
    have h2 := forall2_get hF j (by omega) (by omega)
    have h3 := (List.pairwise_iff_getElem.1 honce) i j (by omega) (by omega) hij (by rw [← h1, ← h2, heq])
    rw [(hsameQ j (by omega) (by omega)).1, h3] at hne
    exact hne rfl
  rw [collectExps_plain _ m _ hE hpw (by simp)]
  dsimp only
  have hind : (EM.indices ⟨[] ++ m.map (·.1), [] ++ m.map (·.2.1), [] ++ m.map (·.2.2),
      [] ++ (List.range m.length).map (fun i => [0 + i]), 0 + m.length⟩) = List.range m.length := by
    unfold EM.indices
    dsimp only
    rw [List.nil_append, indices_plain, argsort_range]
  rw [hind]
  simp only [List.nil_append]
  -- the circuits
  set bcs : List Circ := m.map fun y => y.2.1.at_ fun k => (y.2.2.lookup k).getD 0 with hbcs
  have hmget : ∀ i (hi : i < m.length), m[i] = (idx[i]'(by omega), tr (Q (idx[i]'(by omega))),
      (Q (idx[i]'(by omega))).params.zip (vals[i]'(by omega))) := by
    intro i hi; simp [hm]
  have hmem : ∀ y ∈ m, ∃ i v, i ∈ idx ∧ y = (i, tr (Q i), (Q i).params.zip v) ∧ v.length = (Q i).params.length := by
    intro y hy
    obtain ⟨i, hi, rfl⟩ := List.getElem_of_mem hy
    refine ⟨_, _, List.getElem_mem (by omega : i < idx.length), hmget i hi, ?_⟩
    rw [(hsameQ i (by omega) (by omega)).1]
    exact forall2_get hv i (by omega) (by omega)
  have hb : bound (m.map (·.2.1)) (some (m.map (·.2.2))) = some bcs := by
    unfold bound
    dsimp only
    rw [List.zip_map', hbcs]
    clear hbcs hm hml hpw hE hmget hind
    clear_value m
    induction m with
    | nil => rfl
    | cons y m ih =>
      obtain ⟨i, v, hi, rfl, hvl⟩ := hmem y (by simp)
      rw [List.map_cons, List.mapM_cons, ih (fun y hy => hmem y (by simp [hy]))]
      dsimp only
      unfold assign
      rw [if_pos]
      · rfl
      · rw [zip_fst _ _ hvl, (hQ.transpile _ (hPQ _ hi)).1]
        exact ⟨fun k hk => hk, fun k hk => hk⟩
  have hgood : ∀ c ∈ bcs, Supported h.ms c ∧ ((classify c).stable = true → ∀ x ∈ c.data, x.op = .measure → x.cond = none) ∧
      ∃ x ∈ c.data, x.op = .measure := by
    intro c hc
    rw [hbcs] at hc
    obtain ⟨y, hy, rfl⟩ := List.mem_map.1 hc
    obtain ⟨i, v, hi, rfl, hvl⟩ := hmem y hy
    have := hQ.runs _ (hPQ _ hi)
    exact ⟨this.supported _, this.plain _, this.measured _⟩
  have hprob : List.zipWith (fun c keys => (keys.map (Circ.prob c)).prod) bcs keyss =
      List.zipWith (fun c keys => (keys.map (Circ.prob c)).prod) (List.zipWith PCirc.withValues ps vals) keyss := by
    apply List.ext_getElem
    · simp [hbcs, hml]; omega
    · intro i h1 h2
      simp only [List.getElem_zipWith, hbcs, List.getElem_map]
      have hi : i < m.length := by
        simp [hbcs] at h1; omega
      rw [hmget i hi]
      dsimp only
      congr 1
      refine List.map_congr_left fun k _ => ?_
      have hsm := hsameQ i (by omega) (by omega)
      have htr := hQ.transpile _ (hPQ _ (List.getElem_mem (by omega : i < idx.length)))
      rw [htr.2, hsm.2]
      unfold PCirc.withValues
      rw [hsm.1]
  rw [← hprob]
  have hv' : shots.valid := by
    rcases hN with ⟨h, _⟩ | ⟨h, h1, h2⟩ <;> rw [h]
    · trivial
    · exact ⟨by omega, by unfold maxShots; omega⟩
  have hval : shots.value = some (some N) := by
    rcases hN with ⟨h, h1⟩ | ⟨h, h1, h2⟩ <;> rw [h]
    · rw [h1]; rfl
    · simp [Shots.value]
  have hN0 : 0 < N := by rcases hN with ⟨_, h⟩ | ⟨_, h, _⟩ <;> omega
  have hmeas : ∀ c ∈ bcs, (propLoop c.data ⟨true, [], []⟩).measured ≠ [] := by
    intro c hcc h0
    have hwf : ∀ x ∈ c.data, x.op = .measure → x.qargs ≠ [] := by
      intro x hx hop h'
      have := ((hgood c hcc).1.fine x hx).arity
      rw [hop, h'] at this
      simp [Op.arity] at this
    obtain ⟨x, hx, hop⟩ := (hgood c hcc).2.2
    exact (measured_iff hwf).1 h0 x hx hop
  have hbl : bcs.length = ps.length := by rw [hbcs]; simp [hml]
  have hjob := runJob_meets (sqrt := cfg.sqrt) (ms := h.ms) (ps := m.map (·.2.1)) (o := ⟨shots, some (m.map (·.2.2)), others, false, none⟩)
    hv' hval hb (fun c hcc => ⟨(hgood c hcc).1.lim, .inr (hmeas c hcc)⟩) (keyss.map Memory)
    (List.zipWith (fun c keys => (keys.map (Circ.prob c)).prod) bcs keyss) (by simp [hk, hbl]) (by simp [hk, hbl]) (by
      intro i h1 h2 h3
      have hi : i < keyss.length := by simpa using h2
      have hmem := List.getElem_mem h1
      simp only [List.getElem_map, List.getElem_zipWith]
      refine ⟨(by rintro ⟨_, h, _⟩; cases h), fun h' hh' => ?_⟩
      have hl := hkl _ (List.getElem_mem hi)
      exact run_meets hsq (hgood _ hmem).1 (hgood _ hmem).2.1 (by rw [hl]) (by intro h0; rw [h0] at hl; simp at hl; omega)
        (.inr (hmeas _ hmem)) (fun hs => by cases hs) hh') h ⟨[], by simp⟩
  refine Meets.yields hR ?_
  have := bind_meets_ends (sqrt := cfg.sqrt) (ms := h.ms) (T1 := Finished (keyss.map Memory)) (T := Memories keyss) (y := 1)
    (f := pick (List.range m.length)) (by rintro ⟨_, h, _⟩; cases h) (by rintro ⟨_, h, _⟩; cases h)
    (fun j hj h' _ => by
      rcases hj with rfl | ⟨rs, cs', rfl, hb', hl'⟩
      · rw [if_neg (by rintro ⟨_, h, _⟩; cases h), pick_failed (by
          rw [hml]; exact List.length_pos_of_ne_nil hne)]
        exact ⟨trivial, trivial, by rw [prob, if_neg]; rintro ⟨_, h, _⟩; cases h⟩
      · have hb'' : some bcs = some cs' := hb.symm.trans hb'
        cases hb''
        rw [hml, ← hbl, ← hl', pick_done]
        refine ⟨trivial, trivial, ?_⟩
        rw [prob]
        have : Memories keyss (some rs) ↔ Finished (keyss.map Memory) (some (.done rs)) := by
          rw [memories_each]
          constructor
          · rintro ⟨_, h1, h2⟩; cases h1; exact ⟨_, rfl, h2⟩
          · rintro ⟨_, h1, h2⟩; cases h1; exact ⟨_, rfl, h2⟩
        simp only [this]) _ (runJob_ends _ _) (Keeps.runJob _ _) h ⟨[], by simp⟩ ⟨hjob.1, hjob.2.1⟩
  refine cast (congrArg _ ?_) this
  rw [hjob.2.2, mul_one]

/-- **C47 is false for repeated circuits with parameters**: whenever such a circuit occurs twice in a call, the call
raises (an attempt to append to a number), whatever the values. -/
theorem C47_false {ms} (hQ : Qiskit ms key tr P) {s : Sampler Key} (hs : SReach key tr P s) {ps : List PCirc} (hP : ∀ p ∈ ps, P p)
    {vals : List (List ℝ)} (hv : List.Forall₂ (fun p v => v.length = p.params.length) ps vals)
    {i j : Nat} (hij : i < j) (hj : j < ps.length) (hsame : key ps[i] = key ps[j]) (hpar : ps[j].params ≠ [])
    (shots : Shots) (others : List String) :
    (samplerRun key tr s ps vals shots others).2 = .raise ∧
    Yields cfg (samplerRun key tr s ps vals shots others).2 σ (fun r => r = none) 1 := by
  have e : (samplerRun key tr s ps vals shots others).2 = .raise := by
    obtain ⟨Q, hPQ, hF, hinj, hE⟩ := registered (s := s) hQ hs hP hv.length_eq hv
    have hlv := hv.length_eq
    have hli := hF.length_eq
    unfold samplerRun
    dsimp only
    unfold samplerCall
    generalize register key ps s = r at *
    obtain ⟨s1, idx⟩ := r
    dsimp only at *
    rw [collectExps_raise _ _ _ hE (by simp) (.inl ?_) rfl]
    intro hpw
    have hl : (List.zipWith (fun i v => (i, tr (Q i), (Q i).params.zip v)) idx vals).length = ps.length := by simp; omega
    have := (List.pairwise_iff_getElem.1 hpw) i j (by omega) (by omega) hij
    simp only [List.getElem_zipWith] at this
    have k1 := forall2_get hF i (by omega) (by omega)
    have k2 := forall2_get hF j hj (by omega)
    refine this ?_ (hinj _ (List.getElem_mem _) _ (List.getElem_mem _) (by rw [k1, k2, hsame]))
    intro h0
    have hsm := hQ.key _ _ (hPQ _ (List.getElem_mem (by omega : j < idx.length))) (hP _ (List.getElem_mem hj)) k2
    have hz := congrArg List.length h0
    rw [List.length_zip, hsm.1, forall2_get hv j hj (by omega), Nat.min_self] at hz
    exact hpar (List.eq_nil_of_length_eq_zero (by simpa using hz))
  refine ⟨e, ?_⟩
  rw [e]
  exact (if_pos rfl).symm

/-! ### A case -/

/-- `rx(θ, 0)` and a measurement, `θ` being parameter 0. -/
noncomputable def rxP : PCirc := ⟨[0], fun v => ⟨1, 1, 0, [⟨.gate (.RX (v 0)) [], [0], [], none⟩, mI 0 0]⟩⟩
/-- `x(0)` and a measurement. -/
noncomputable def xP : PCirc := ⟨[], fun _ => ⟨1, 1, 0, [xI 0, mI 0 0]⟩⟩

theorem rxP_runnable (ms : List (Mat ℝ)) : Runnable ms rxP where
  supported := fun v => ⟨Nat.one_pos, (by decide : 1 ≤ NQUBITS), by
    intro x hx
    simp only [rxP, List.mem_cons, List.mem_nil_iff, or_false] at hx
    rcases hx with rfl | rfl
    · exact {
        distinct := by simp
        qubits := by intro a ha; simp at ha; subst ha; exact Nat.one_pos
        clbits := by intro a ha; cases ha
        arity := ⟨rfl, by simp [GName.mat1]⟩
        cond := by simp
        op := by intro b hb; cases hb
        aligned := by simp }
    · exact mI_fine Nat.one_pos Nat.one_pos (by simp)⟩
  plain := by
    intro v _ x hx _
    simp only [rxP, List.mem_cons, List.mem_nil_iff, or_false] at hx
    rcases hx with rfl | rfl <;> rfl
  measured := fun v => ⟨mI 0 0, by simp [rxP], rfl⟩

theorem xP_runnable (ms : List (Mat ℝ)) : Runnable ms xP where
  supported := fun v => ⟨Nat.one_pos, (by decide : 1 ≤ NQUBITS), by
    intro x hx
    simp only [xP, List.mem_cons, List.mem_nil_iff, or_false] at hx
    rcases hx with rfl | rfl
    · exact xI_fine Nat.one_pos (by simp)
    · exact mI_fine Nat.one_pos Nat.one_pos (by simp)⟩
  plain := by
    intro v _ x hx _
    simp only [xP, List.mem_cons, List.mem_nil_iff, or_false] at hx
    rcases hx with rfl | rfl <;> rfl
  measured := fun v => ⟨mI 0 0, by simp [xP], rfl⟩

/-- The assumptions on Qiskit are met by an exact key and no transpilation. -/
theorem qiskit_demo (ms : List (Mat ℝ)) : Qiskit ms (id : PCirc → PCirc) id (fun p => p = rxP ∨ p = xP) where
  key := by rintro p q _ _ rfl; exact ⟨rfl, fun _ _ => rfl⟩
  transpile := fun p _ => ⟨rfl, fun _ _ => rfl⟩
  runs := by
    rintro p (rfl | rfl)
    · exact rxP_runnable ms
    · exact xP_runnable ms

open Classical in
/-- A call with the circuits `[x, rx, x]` and values `[[], [θ], []]` on a sampler used before; and `[rx, rx]` raises. -/
example (hR : Hist cfg thr thrM cs h σ os) (hsq : ∀ x, 0 ≤ x → cfg.sqrt x * cfg.sqrt x = x) (θ : ℝ) (k1 k2 k3 : List Bool) :
    Yields cfg (samplerRun id id (samplerRun id id (.new : Sampler PCirc) [rxP] [[1]] .absent []).1 [xP, rxP, xP] [[], [θ], []]
      (.int 1) []).2 σ (Memories [[k1], [k2], [k3]])
      ((xP.at_ fun _ => 0).prob k1 * ((rxP.at_ fun k => ([(0, θ)].lookup k).getD 0).prob k2 * ((xP.at_ fun _ => 0).prob k3))) := by
  have := C47_partial (s := (samplerRun id id (.new : Sampler PCirc) [rxP] [[1]] .absent []).1) hR hsq (qiskit_demo h.ms)
    (SReach.call SReach.new (by simp)) (ps := [xP, rxP, xP]) (by simp) (by simp) (vals := [[], [θ], []])
    (.cons rfl (.cons rfl (.cons rfl .nil))) (by
      simp only [List.pairwise_cons, List.mem_cons, List.mem_nil_iff, or_false, id, List.Pairwise.nil, and_true]
      refine ⟨?_, ?_, fun _ h => h.elim⟩
      · rintro q (rfl | rfl) h
        · exact absurd (congrArg PCirc.params h) (by simp [xP, rxP])
        · rfl
      · rintro q rfl h; rfl) (shots := .int 1) (N := 1) (.inr ⟨rfl, by norm_num, by norm_num⟩)
    (others := []) (keyss := [[k1], [k2], [k3]]) rfl (by simp)
  refine cast (congrArg _ ?_) this
  simp only [List.zipWith_cons_cons, List.zipWith_nil_left, List.map_cons, List.map_nil, List.prod_cons, List.prod_nil, mul_one]
  rfl

open Classical in
example (a b : ℝ) : (samplerRun id id (.new : Sampler PCirc) [rxP, rxP] [[a], [b]] (.int 1) []).2 = .raise :=
  (C47_false (cfg := cfg) (σ := σ) (qiskit_demo []) SReach.new (by simp) (.cons rfl (.cons rfl .nil)) (i := 0) (j := 1) (by decide) (by decide)
    rfl (by simp [rxP]) _ _).1

end QDD.Props
