import Verif.Props.Estimator
/-!
# C48: a case, and counterexamples
-/

set_option linter.unusedSectionVars false
set_option linter.unusedVariables false
set_option linter.unusedSimpArgs false

namespace QDD.Props
open Spec Api Gate Finset Py Py.Client

variable {cfg : Cfg ℝ} {thr thrM : Nat} {cs : List (Cmd ℝ)} {h : Heap ℝ} {σ : Sys ℝ} {os : List (Obs ℝ)}
variable {Key : Type} [DecidableEq Key] {key : PCirc → Key} {P : PCirc → Prop}
variable {groups : List Py.Pauli → List (List Py.Pauli)} {prep : PCirc → Py.Pauli → PCirc}

/-! ### Qiskit can be as assumed -/

/-- `rx(θ)` on qubit 1 of 2, `θ` being parameter 0. -/
noncomputable def rxG : PCirc := ⟨[0], fun v => ⟨2, 0, 0, [⟨.gate (.RX (v 0)) [], [1], [], none⟩]⟩⟩

/-- `x` on qubit 0 of 2. -/
noncomputable def xG : PCirc := ⟨[], fun v => ⟨2, 0, 0, [xI 0]⟩⟩

theorem rxG_gates (v : Nat → ℝ) : GateCirc (rxG.at_ v) where
  pos := Nat.two_pos
  lim := (by decide : 2 ≤ NQUBITS)
  fine := by
    intro x hx
    simp only [rxG, List.mem_cons, List.mem_nil_iff, or_false] at hx
    subst hx
    exact {
      distinct := by simp
      qubits := by intro a ha; simp at ha; subst ha; exact Nat.one_lt_two
      clbits := by intro a ha; cases ha
      arity := ⟨rfl, by simp [GName.mat1]⟩
      cond := by simp
      op := by intro b hb; cases hb
      aligned := by simp }
  gates := by
    intro x hx
    simp only [rxG, List.mem_cons, List.mem_nil_iff, or_false] at hx
    subst hx
    exact ⟨rfl, .inr ⟨_, _, rfl⟩⟩

theorem xG_gates (v : Nat → ℝ) : GateCirc (xG.at_ v) where
  pos := Nat.two_pos
  lim := (by decide : 2 ≤ NQUBITS)
  fine := by
    intro x hx
    simp only [xG, List.mem_cons, List.mem_nil_iff, or_false] at hx
    subst hx
    exact xI_fine Nat.two_pos (by simp)
  gates := by
    intro x hx
    simp only [xG, List.mem_cons, List.mem_nil_iff, or_false] at hx
    subst hx
    exact ⟨rfl, .inr ⟨_, _, rfl⟩⟩

/-- Without transpilation. -/
noncomputable def prepD (p : PCirc) (b : Py.Pauli) : PCirc := ⟨p.params, fun v => Py.combine (p.at_ v) b⟩

theorem measI_cond (b : Py.Pauli) : ∀ (qs : List Nat) (k : Nat), ∀ x ∈ measI b qs k, x.cond = none := by
  intro qs
  induction qs with
  | nil => intro k x hx; cases hx
  | cons q qs ih =>
    intro k x hx
    rcases List.mem_append.1 hx with hx | hx
    · unfold rotI at hx
      split at hx
      · split at hx
        · simp at hx; rcases hx with rfl | rfl <;> rfl
        · simp at hx; subst hx; rfl
      · cases hx
    · rcases List.mem_cons.1 hx with rfl | hx
      · rfl
      · exact ih _ x hx

theorem prepD_runnable (ms : List (Mat ℝ)) {p : PCirc} (hp : ∀ v, GateCirc (p.at_ v) ∧ (p.at_ v).nc = 0 ∧ (p.at_ v).nq = (p.at_ fun _ => 0).nq)
    {b : Py.Pauli} (hl : b.length = (p.at_ fun _ => 0).nq) (hb : ∃ q, b.acts q = true) : Runnable ms (prepD p b) where
  supported := fun v => ⟨(hp v).1.pos, (hp v).1.lim, combine_fine (hp v).1 (hp v).2.1 (hl.trans (hp v).2.2.symm)⟩
  plain := by
    intro v _ x hx _
    rcases List.mem_append.1 hx with hx | hx
    · exact ((hp v).1.gates x hx).1
    · exact measI_cond _ _ _ x hx
  measured := by
    intro v
    obtain ⟨q, hq⟩ := hb
    have hmem : q ∈ b.support := by
      unfold Pauli.support
      rw [List.mem_filter, List.mem_range]
      exact ⟨acts_lt hq, hq⟩
    obtain ⟨q', qs, he⟩ := List.exists_cons_of_ne_nil (List.ne_nil_of_mem hmem)
    refine ⟨mI q' 0, ?_, rfl⟩
    show mI q' 0 ∈ (p.at_ v).data ++ measI b b.support 0
    rw [he]
    unfold measI
    simp

/-- The assumptions on Qiskit are met by an exact key and no transpilation. -/
theorem qiskitE_demo (ms : List (Mat ℝ)) : QiskitE ms (id : PCirc → PCirc) prepD (fun p => p = rxG ∨ p = xG) := by
  have hg : ∀ p, (p = rxG ∨ p = xG) → ∀ v, GateCirc (p.at_ v) ∧ (p.at_ v).nc = 0 ∧ (p.at_ v).nq = (p.at_ fun _ => 0).nq := by
    rintro p (rfl | rfl) v
    · exact ⟨rxG_gates v, rfl, rfl⟩
    · exact ⟨xG_gates v, rfl, rfl⟩
  exact ⟨hg, by rintro p q _ _ rfl; exact ⟨rfl, fun _ => ⟨rfl, rfl⟩⟩, fun p b hp hl hb => ⟨rfl, fun _ _ => rfl, prepD_runnable ms (hg p hp) hl hb⟩⟩

/-- A grouping: every operator on its own, the identities with the first of the others. -/
def groupsD (ps : List Py.Pauli) : List (List Py.Pauli) :=
  match (ps.filter fun p => !p.isId).dedup with
  | [] => if ps = [] then [] else [ps.filter Pauli.isId]
  | a :: r => (a :: ps.filter Pauli.isId) :: r.map fun p => [p]

theorem acts_isId {p : Py.Pauli} (h : p.isId = true) (q : Nat) : p.acts q = false := by
  by_contra hn
  rw [Bool.not_eq_false] at hn
  rw [isId_of_acts hn] at h
  cases h

theorem groupsD_grouping : Grouping groupsD := by
  have nonid : ∀ (ps : List Py.Pauli) (a : Py.Pauli) (r : List Py.Pauli), (ps.filter fun p : Py.Pauli => !p.isId).dedup = a :: r → (∀ p, p ∈ ps ∧ p.isId = false ↔ p = a ∨ p ∈ r) ∧ a ∉ r ∧ r.Nodup := by
    intro ps a r h
    have hn := List.nodup_dedup (ps.filter fun p : Py.Pauli => !p.isId)
    rw [h, List.nodup_cons] at hn
    refine ⟨fun p => ?_, hn.1, hn.2⟩
    have := List.mem_dedup (a := p) (l := ps.filter fun p : Py.Pauli => !p.isId)
    rw [h, List.mem_cons, List.mem_filter] at this
    rw [this]
    simp
  have allid : ∀ ps : List Py.Pauli, (ps.filter fun p : Py.Pauli => !p.isId).dedup = [] → ∀ p ∈ ps, p.isId = true := by
    intro ps h p hp
    by_contra hid
    have : p ∈ (ps.filter fun p : Py.Pauli => !p.isId).dedup := by
      rw [List.mem_dedup, List.mem_filter]; exact ⟨hp, by simpa using hid⟩
    rw [h] at this
    cases this
  constructor
  · intro ps p hp
    unfold groupsD
    split
    · next h =>
      rw [if_neg (List.ne_nil_of_mem hp)]
      exact ⟨_, List.mem_singleton.2 rfl, by rw [List.mem_filter]; exact ⟨hp, allid ps h p hp⟩⟩
    · next a r h =>
      by_cases hid : p.isId = true
      · exact ⟨_, List.mem_cons_self, by rw [List.mem_cons, List.mem_filter]; exact .inr ⟨hp, hid⟩⟩
      · rcases ((nonid ps a r h).1 p).1 ⟨hp, by simpa using hid⟩ with rfl | hr
        · exact ⟨_, List.mem_cons_self, List.mem_cons_self⟩
        · exact ⟨[p], List.mem_cons_of_mem _ (List.mem_map.2 ⟨p, hr, rfl⟩), by simp⟩
  · intro ps g hg p hp
    unfold groupsD at hg
    split at hg
    · split at hg
      · cases hg
      · rw [List.mem_singleton.1 hg, List.mem_filter] at hp; exact hp.1
    · next a r h =>
      rcases List.mem_cons.1 hg with rfl | hg
      · rcases List.mem_cons.1 hp with rfl | hp
        · exact (((nonid ps _ r h).1 _).2 (.inl rfl)).1
        · rw [List.mem_filter] at hp; exact hp.1
      · obtain ⟨q, hq, rfl⟩ := List.mem_map.1 hg
        rw [List.mem_singleton.1 hp]
        exact (((nonid ps _ r h).1 _).2 (.inr hq)).1
  · intro ps i j g g' p hi hj hp hp'
    unfold groupsD at hi hj
    split at hi
    · next h =>
      rw [h] at hj
      dsimp only at hj
      split at hi
      · simp at hi
      · next hne =>
        rw [if_neg hne] at hj
        have a1 := (List.getElem?_eq_some_iff.1 hi).1
        have a2 := (List.getElem?_eq_some_iff.1 hj).1
        simp at a1 a2
        omega
    · next a r h =>
      rw [h] at hj
      dsimp only at hj
      obtain ⟨n1, n2, n3⟩ := nonid ps a r h
      have tail : ∀ (k : Nat) g, (r.map fun p => [p])[k]? = some g → p ∈ g → r[k]? = some p := by
        intro k g hk hp
        rw [List.getElem?_map] at hk
        obtain ⟨q, hq, rfl⟩ := Option.map_eq_some_iff.1 hk
        rw [List.mem_singleton.1 hp]
        exact hq
      have head : ∀ (k : Nat), r[k]? = some p → p ∉ a :: ps.filter Pauli.isId := by
        intro k hk hp
        have hr := List.mem_of_getElem? hk
        rcases List.mem_cons.1 hp with rfl | hp
        · exact n2 hr
        · rw [List.mem_filter] at hp
          have := ((n1 p).2 (.inr hr)).2
          rw [hp.2] at this
          cases this
      cases i with
      | zero =>
        cases j with
        | zero => rfl
        | succ j =>
          simp only [List.getElem?_cons_zero, Option.some.injEq] at hi
          rw [← hi] at hp
          exact absurd hp (head j (tail j g' (by simpa using hj) hp'))
      | succ i =>
        have hi' := tail i g (by simpa using hi) hp
        cases j with
        | zero =>
          simp only [List.getElem?_cons_zero, Option.some.injEq] at hj
          rw [← hj] at hp'
          exact absurd hp' (head i hi')
        | succ j =>
          have hj' := tail j g' (by simpa using hj) hp'
          obtain ⟨a1, a2⟩ := List.getElem?_eq_some_iff.1 hi'
          obtain ⟨b1, b2⟩ := List.getElem?_eq_some_iff.1 hj'
          rw [(List.Nodup.getElem_inj_iff n3).1 (a2.trans b2.symm)]
  · intro ps g hg p hp p' hp' q ha ha'
    unfold groupsD at hg
    split at hg
    · split at hg
      · cases hg
      · rw [List.mem_singleton.1 hg, List.mem_filter] at hp
        rw [acts_isId hp.2] at ha
        cases ha
    · rcases List.mem_cons.1 hg with rfl | hg
      · rcases List.mem_cons.1 hp with rfl | hp
        · rcases List.mem_cons.1 hp' with rfl | hp'
          · rfl
          · rw [acts_isId (List.mem_filter.1 hp').2] at ha'; cases ha'
        · rw [acts_isId (List.mem_filter.1 hp).2] at ha; cases ha
      · obtain ⟨r, hr, rfl⟩ := List.mem_map.1 hg
        rw [List.mem_singleton.1 hp, List.mem_singleton.1 hp']
  · rintro ps ⟨p, hp, hid⟩ g hg
    unfold groupsD at hg
    split at hg
    · next h => rw [allid ps h p hp] at hid; cases hid
    · next a r h =>
      obtain ⟨n1, n2, n3⟩ := nonid ps a r h
      rcases List.mem_cons.1 hg with rfl | hg
      · exact ⟨a, List.mem_cons_self, ((n1 a).2 (.inl rfl)).2⟩
      · obtain ⟨q, hq, rfl⟩ := List.mem_map.1 hg
        exact ⟨q, by simp, ((n1 q).2 (.inr hq)).2⟩

/-- `ZI`, `XI`, `ZZ`, `II` on qubits 0 and 1. -/
def pZ : Py.Pauli := [(true, false), (false, false)]
def pX : Py.Pauli := [(false, true), (false, false)]
def pZZ : Py.Pauli := [(true, false), (true, false)]
def pI : Py.Pauli := [(false, false), (false, false)]

open Classical in
/-- One circuit with two observables, the other with two parameter values, on an estimator used before. -/
theorem unbiased_demo (hR : Hist cfg thr thrM cs h σ os) (hsq : ∀ x, 0 ≤ x → cfg.sqrt x * cfg.sqrt x = x) (a b : ℝ) :
    Unbiased cfg σ 1000 [(rxG, [(pZ, 2), (pI, 1)], [a]), (xG, [(pX, 1), (pZZ, -1)], []), (rxG, [(pZ, 2), (pI, 1)], [b]), (xG, [(pZ, 1)], [])]
      (estRun (id : PCirc → PCirc) groupsD prepD (estRun (id : PCirc → PCirc) groupsD prepD (.new : Est PCirc) [rxG] [[(pX, 1)]] [[0]] .absent []).1
        [rxG, xG, rxG, xG] [[(pZ, 2), (pI, 1)], [(pX, 1), (pZZ, -1)], [(pZ, 2), (pI, 1)], [(pZ, 1)]] [[a], [], [b], []] (.int 1000) []).2 := by
  have hne : rxG ≠ xG := fun h => by have := congrArg PCirc.params h; simp [rxG, xG] at this
  refine C48_partial (calls := [(rxG, [(pZ, 2), (pI, 1)], [a]), (xG, [(pX, 1), (pZZ, -1)], []), (rxG, [(pZ, 2), (pI, 1)], [b]), (xG, [(pZ, 1)], [])])
    (P := fun p => p = rxG ∨ p = xG) hR hsq (qiskitE_demo h.ms) groupsD_grouping (EReach.call EReach.new (by simp)) (by simp) (by simp) ?_ ?_ ?_ ?_ (.inr ⟨rfl, by norm_num, by norm_num⟩)
  · simp [rxG, xG]
  · simp [rxG, xG, PCirc.withValues, pZ, pX, pZZ, pI]
    refine ⟨?_, ?_, ?_⟩ <;> rintro a b (⟨rfl, _⟩ | ⟨rfl, _⟩) <;> rfl
  · intro c hc
    simp only [List.mem_cons, List.mem_nil_iff, or_false] at hc
    rcases hc with rfl | rfl | rfl | rfl
    · right; simp [hne, hne.symm]
    · left; simp [hne, hne.symm]
    · right; simp [hne, hne.symm]
    · left; simp [hne, hne.symm]
  · intro c hc
    simp only [List.mem_cons, List.mem_nil_iff, or_false] at hc
    rcases hc with rfl | rfl | rfl | rfl
    · exact ⟨(rxG, [(pZ, 2), (pI, 1)], [a]), by simp, rfl, (pZ, 2), by simp, rfl⟩
    · exact ⟨(xG, [(pZ, 1)], []), by simp, rfl, (pZ, 1), by simp, rfl⟩
    · exact ⟨(rxG, [(pZ, 2), (pI, 1)], [a]), by simp, rfl, (pZ, 2), by simp, rfl⟩
    · exact ⟨(xG, [(pZ, 1)], []), by simp, rfl, (pZ, 1), by simp, rfl⟩

/-! ### Identity observables -/

theorem preLoop_none {circuits : List PCirc} {maps : List (Nat × (Nat → List Nat))} : ∀ (T : List (Nat × Nat × List ℝ)) (em : List (Nat × BMap)),
    (∃ t ∈ T, maps.lookup t.1 = none) → preLoop circuits maps T em = none := by
  intro T
  induction T with
  | nil => rintro em ⟨t, ht, _⟩; cases ht
  | cons a T ih =>
    rintro em ⟨t, ht, hl⟩
    obtain ⟨c, o, v⟩ := a
    rw [preLoop]
    cases circuits[c]? with
    | none => rfl
    | some p =>
      simp only [Option.bind_eq_bind, Option.bind_some]
      split
      · rfl
      · cases hm : maps.lookup c with
        | none => rfl
        | some m =>
          simp only [Option.bind_some]
          rcases List.mem_cons.1 ht with rfl | ht
          · rw [hm] at hl; cases hl
          · exact ih _ ⟨t, ht, hl⟩

/-- **A call whose first circuit has identity terms only raises as soon as there is another circuit**, whatever that one
is asked for: the loop that prepares the experiments ends (`break` for `continue`, qdd_estimator.py 232).
(`hsingle`: Qiskit puts identities in one group.) -/
theorem C48_identity (hG : Grouping groups) (hsingle : ∀ ps, ps ≠ [] → (∀ p ∈ ps, p.isId = true) → ∃ g, groups ps = [g])
    {s : Est Key} (hs : EReach key groups prep P s) {a : PCirc × Observ × List ℝ}
    {rest : List (PCirc × Observ × List ℝ)} (hP : ∀ b ∈ a :: rest, P b.1) (hobs : a.2.1 ≠ [])
    (hid : ∀ b ∈ a :: rest, key b.1 = key a.1 → ∀ x ∈ b.2.1, x.1.isId = true) (hother : ∃ b ∈ rest, key b.1 ≠ key a.1) (shots : Shots) (others : List String) :
    (estRun key groups prep s ((a :: rest).map fun a => a.1) ((a :: rest).map fun a => a.2.1) ((a :: rest).map fun a => a.2.2) shots others).2 = .raise := by
  classical
  generalize hcalls : a :: rest = calls at *
  have hlen0 : 0 < calls.length := by rw [← hcalls]; simp
  have hget0 : calls[0] = a := by subst hcalls; rfl
  have hi := EReach.inv hs
  have hP' : ∀ p ∈ calls.map (fun a => a.1), P p := by
    intro p hp; obtain ⟨a, ha, rfl⟩ := List.mem_map.1 hp; exact hP a ha
  obtain ⟨h1, h2, h3⟩ := register_spec (calls.map fun a => a.1) s.base hi.base hP'
  obtain ⟨g1, g2, g3⟩ := regObs_spec (calls.map fun a => a.2.1) s.obs
  have g3 := g3 hi.obs
  have hprep := fun pr => estRun_prepared (pr := pr) hs hP' (os := calls.map fun a => a.2.1) (vals := calls.map fun a => a.2.2) (sh := shots) (ot := others) (ap := false)
  generalize register key (calls.map fun a => a.1) s.base = r at *
  obtain ⟨s1, idx⟩ := r
  generalize regObs (calls.map fun a => a.2.1) s.obs = r at *
  obtain ⟨tab, oidx⟩ := r
  dsimp only at *
  have hli : idx.length = calls.length := by have := h3.length_eq; simp at this; omega
  have hlo : oidx.length = calls.length := by have := g2.length_eq; simp at this; omega
  have hQi : ∀ (i : Nat) (hi : i < calls.length), ∃ q, s1.circuits[idx[i]'(by omega)]? = some q ∧ key q = key calls[i].1 := by
    intro i hi
    have := forall2_get h3 i (by simpa using hi) (by omega)
    simpa using this
  have hOi : ∀ (i : Nat) (hi : i < calls.length), tab[oidx[i]'(by omega)]? = some calls[i].2.1 := by
    intro i hi
    have := forall2_get g2 i (by simpa using hi) (by omega)
    simpa using this
  have hkeyIdx : ∀ (i j : Nat) (hi : i < calls.length) (hj : j < calls.length), idx[i]'(by omega) = idx[j]'(by omega) → key calls[i].1 = key calls[j].1 := by
    intro i j hi hj h
    obtain ⟨q, a1, a2⟩ := hQi i hi
    obtain ⟨q', b1, b2⟩ := hQi j hj
    rw [h, b1] at a1
    cases a1
    rw [← a2, ← b2]
  set T2 := idx.zip oidx with hT2
  have hT2l : T2.length = calls.length := by rw [hT2]; simp; omega
  have hT2get : ∀ (i : Nat) (hi : i < calls.length), T2[i]'(by omega) = (idx[i]'(by omega), oidx[i]'(by omega)) := by
    intro i hi; simp [hT2]
  obtain ⟨d1, d2⟩ := pushObs_spec T2
  -- the first circuit
  have hfst : ∃ l, T2.foldl pushObs [] = (idx[0]'(by omega), (T2.filter fun t => decide (t.1 = idx[0]'(by omega))).map Prod.snd) :: l := by
    have hz : T2.map Prod.fst = idx := by rw [hT2]; exact zip_fst _ _ (by omega)
    have hhead : ∀ (x : Nat) (l : List Nat), ∃ l', firsts (x :: l) = x :: l' := by
      intro x l
      induction l using List.reverseRecOn with
      | nil => exact ⟨[], rfl⟩
      | append_singleton l y ih =>
        obtain ⟨l', ih⟩ := ih
        rw [← List.cons_append, firsts_snoc, ih]
        split
        · exact ⟨l', rfl⟩
        · exact ⟨l' ++ [y], rfl⟩
    rw [hz] at d1
    have hcons : idx = idx[0]'(by omega) :: idx.tail := by
      cases idx with
      | nil => simp at hli; omega
      | cons => rfl
    obtain ⟨l', hl'⟩ := hhead (idx[0]'(by omega)) idx.tail
    rw [← hcons] at hl'
    rw [hl'] at d1
    generalize T2.foldl pushObs [] = d at *
    cases d with
    | nil => simp at d1
    | cons x d =>
      simp only [List.map_cons, List.cons.injEq] at d1
      refine ⟨d, ?_⟩
      have := d2 x (by simp)
      rw [← d1.1, ← this]
  obtain ⟨l, hl⟩ := hfst
  set os0 := (T2.filter fun t => decide (t.1 = idx[0]'(by omega))).map Prod.snd with hos0
  have hos0mem : ∀ o ∈ os0, ∃ (i : Nat) (hi : i < calls.length), oidx[i]'(by omega) = o ∧ key calls[i].1 = key a.1 := by
    intro o ho
    rw [hos0] at ho
    obtain ⟨t, ht, rfl⟩ := List.mem_map.1 ho
    rw [List.mem_filter] at ht
    obtain ⟨i, hi, rfl⟩ := List.getElem_of_mem ht.1
    refine ⟨i, by omega, by rw [hT2get i (by omega)], ?_⟩
    have := ht.2
    rw [hT2get i (by omega)] at this
    rw [hkeyIdx i 0 (by omega) hlen0 (by simpa using this), hget0]
  have h0mem : oidx[0]'(by omega) ∈ os0 := by
    rw [hos0, List.mem_map]
    exact ⟨(idx[0]'(by omega), oidx[0]'(by omega)), by rw [List.mem_filter, ← hT2get 0 hlen0]; exact ⟨List.getElem_mem _, by rw [hT2get 0 hlen0]; simp⟩, rfl⟩
  have hts : os0.mapM (fun (o : Nat) => (tab[o]?).map fun t => (o, t)) = some (os0.map fun o => (o, (tab[o]?).getD [])) := by
    refine mapM_all fun o ho => ?_
    obtain ⟨i, hi, rfl, _⟩ := hos0mem o ho
    rw [hOi i hi]
    rfl
  set ps := (os0.map fun o => (o, (tab[o]?).getD [])).flatMap (fun t => t.2.map Prod.fst) with hps
  obtain ⟨g, hg⟩ := hsingle ps (by
      obtain ⟨x, hx⟩ := List.exists_mem_of_ne_nil _ hobs
      refine List.ne_nil_of_mem (a := x.1) ?_
      rw [hps, List.mem_flatMap]
      refine ⟨_, List.mem_map.2 ⟨_, h0mem, rfl⟩, ?_⟩
      dsimp only
      rw [hOi 0 hlen0, hget0]
      exact List.mem_map_of_mem hx) (by
      intro p hp
      rw [hps, List.mem_flatMap] at hp
      obtain ⟨t, ht, hp⟩ := hp
      obtain ⟨o, ho, rfl⟩ := List.mem_map.1 ht
      obtain ⟨i, hi, rfl, hk⟩ := hos0mem o ho
      dsimp only at hp
      rw [hOi i hi] at hp
      obtain ⟨x, hx, rfl⟩ := List.mem_map.1 hp
      exact hid _ (List.getElem_mem hi) hk x hx)
  have hgid : (basisOf g).isId = true := by
    by_contra hn
    obtain ⟨q, hq⟩ := isId_false (by simpa using hn)
    have hall : ∀ p ∈ g, p.on q = (false, false) := by
      intro p hp
      have := hG.members ps g (by rw [hg]; simp) p hp
      rw [hps, List.mem_flatMap] at this
      obtain ⟨t, ht, hp'⟩ := this
      obtain ⟨o, ho, rfl⟩ := List.mem_map.1 ht
      obtain ⟨i, hi, rfl, hk⟩ := hos0mem o ho
      dsimp only at hp'
      rw [hOi i hi] at hp'
      obtain ⟨x, hx, rfl⟩ := List.mem_map.1 hp'
      exact on_of_not_acts (acts_isId (hid _ (List.getElem_mem hi) hk x hx) q)
    have hl := acts_lt hq
    unfold basisOf at hl
    rw [List.length_map, List.length_range] at hl
    unfold Pauli.acts Pauli.on basisOf at hq
    rw [List.getD_eq_getElem?_getD, List.getElem?_map, List.getElem?_range hl] at hq
    simp only [Option.map_some, Option.getD_some, Bool.or_eq_true, List.any_eq_true] at hq
    rcases hq with ⟨p, hp, h⟩ | ⟨p, hp, h⟩ <;> rw [hall p hp] at h <;> cases h
  have hpr : prepare groups prep s1.circuits tab idx oidx = some ⟨[], [(idx[0]'(by omega), obsMap (groups ps) (os0.map fun o => (o, (tab[o]?).getD [])) fun _ => [])]⟩ := by
    unfold prepare
    rw [← hT2, hl, prepLoop, hts]
    simp only [Option.bind_eq_bind, Option.bind_some]
    rw [← hps, if_pos]
    · rfl
    · rw [hg]
      exact ⟨rfl, by simpa using hgid⟩
  rw [hprep _ hpr]
  unfold estCall
  rw [preLoop_none]
  obtain ⟨b, hb, hbk⟩ := hother
  have hbm : b ∈ calls := by rw [← hcalls]; exact List.mem_cons_of_mem _ hb
  obtain ⟨i, hi, rfl⟩ := List.getElem_of_mem hbm
  refine ⟨(idx[i]'(by omega), oidx[i]'(by omega), calls[i].2.2), ?_, ?_⟩
  · have : (idx.zip (oidx.zip (calls.map fun a => a.2.2)))[i]'(by simp; omega) = (idx[i]'(by omega), oidx[i]'(by omega), calls[i].2.2) := by simp
    rw [← this]
    exact List.getElem_mem _
  · dsimp only
    rw [List.lookup_cons]
    have : (idx[i]'(by omega) == idx[0]'(by omega)) = false := by
      rw [beq_eq_false_iff_ne]
      intro he
      exact hbk (by rw [hkeyIdx i 0 hi hlen0 he, hget0])
    rw [this]
    rfl

theorem groupsD_single : ∀ ps, ps ≠ [] → (∀ p ∈ ps, p.isId = true) → ∃ g, groupsD ps = [g] := by
  intro ps hne hall
  have : (ps.filter fun p : Py.Pauli => !p.isId) = [] := by
    rw [List.filter_eq_nil_iff]
    intro p hp
    rw [hall p hp]
    simp
  unfold groupsD
  rw [this]
  exact ⟨_, by rw [List.dedup_nil]; dsimp only; rw [if_neg hne]⟩

open Classical in
/-- `x` with the observable `II`, `rx(θ)` with `ZI`. -/
example (θ : ℝ) : (estRun (id : PCirc → PCirc) groupsD prepD (.new : Est PCirc) [xG, rxG] [[(pI, 1)], [(pZ, 1)]] [[], [θ]] .absent []).2 = .raise := by
  have hne : rxG ≠ xG := fun h => by have := congrArg PCirc.params h; simp [rxG, xG] at this
  exact C48_identity (a := (xG, [(pI, 1)], [])) (rest := [(rxG, [(pZ, 1)], [θ])]) (P := fun _ => True) groupsD_grouping groupsD_single EReach.new (by simp) (by simp)
    (by
      intro b hb hk x hx
      simp only [List.mem_cons, List.mem_nil_iff, or_false] at hb
      rcases hb with rfl | rfl
      · simp at hx; subst hx; rfl
      · exact absurd hk hne) ⟨(rxG, [(pZ, 1)], [θ]), by simp, hne⟩ _ _

/-! ### Several observables and several values -/

open Classical in
/-- **A call with two observables at two parameter values of one circuit can raise**: `rx(θ)` with `ZI + XI` at `a` and `ZI`
at `b`.  The basis of `ZI` is 1, so 1 comes first in `exp_map`, and `_calculate_result_index` (qdd_estimator.py 375-387)
takes the position in `exp_map` for the basis. -/
theorem C48_raises {a b : ℝ} (hab : a ≠ b) (shots : Shots) (others : List String) :
    (estRun (id : PCirc → PCirc) groupsD prepD (.new : Est PCirc) [rxG, rxG] [[(pZ, 1), (pX, 1)], [(pZ, 1)]] [[a], [b]] shots others).2 = .raise := by
  have hg : groupsD [pZ, pX, pZ] = [[pX], [pZ]] := by decide
  have hba := hab.symm
  have hZX : pZ ≠ pX := by decide
  have hreg : register (id : PCirc → PCirc) [rxG, rxG] .new = (⟨[rxG], [(rxG, 0)], []⟩, [0, 0]) := by
    simp [register, Sampler.new]
  have hobs : regObs [[(pZ, (1 : ℝ)), (pX, 1)], [(pZ, 1)]] [] = ([[(pZ, 1), (pX, 1)], [(pZ, 1)]], [0, 1]) := by
    simp [regObs]
  have hpr : prepare groupsD prepD [rxG] [[(pZ, 1), (pX, 1)], [(pZ, 1)]] [0, 0] [0, 1] =
      some ⟨[(0, [(prepD rxG (basisOf [pX]), basisOf [pX]), (prepD rxG (basisOf [pZ]), basisOf [pZ])])],
        [(0, obsMap [[pX], [pZ]] [(0, [(pZ, 1), (pX, 1)]), (1, [(pZ, 1)])] fun _ => [])]⟩ := by
    simp [prepare, prepLoop, pushObs, hg]
  unfold estRun
  rw [show (Est.new : Est PCirc).base = .new from rfl, show (Est.new : Est PCirc).obs = [] from rfl, hreg, hobs]
  simp only [Est.new, List.lookup_nil]
  rw [hpr]
  simp only [estCall]
  have ht1 : termBase [[pX], [pZ]] pZ = [1] := by decide
  have ht2 : termBase [[pX], [pZ]] pX = [0] := by decide
  have hem : preLoop [rxG] [(0, obsMap [[pX], [pZ]] [(0, [(pZ, (1 : ℝ)), (pX, 1)]), (1, [(pZ, 1)])] fun _ => [])]
      (List.zip [0, 0] (List.zip [0, 1] [[a], [b]])) [] = some [(0, [(1, [[a], [b]]), (0, [[a]])])] := by
    simp [preLoop, rxG, obsMap, ht1, ht2, updMap, addVal, hab, hba]
  rw [hem]
  have hpp : ppAll [[(pZ, (1 : ℝ)), (pX, 1)], [(pZ, 1)]] [(0, obsMap [[pX], [pZ]] [(0, [(pZ, (1 : ℝ)), (pX, 1)]), (1, [(pZ, 1)])] fun _ => [])]
      [(0, [(1, [[a], [b]]), (0, [[a]])])] (List.zip [0, 0] (List.zip [0, 1] [[a], [b]])) = none := by
    have i1 : pZ.isId = false := by decide
    refine mapM_fails ⟨(0, 1, [b]), by simp, ?_⟩
    simp [obsMap, ht1, ht2, ppLoop, i1, resIdx, idxIn, hab, hba]
  dsimp only
  rw [hpp]
  split
  · next h => simp at h
  · rfl

/-- A grouping that puts `ZI` and `ZZ` together (as Qiskit's greedy colouring does, which starts with `XI`). -/
def groupsW (ps : List Py.Pauli) : List (List Py.Pauli) := if ps = [pZ, pX, pZZ, pI] then [[pX, pI], [pZ, pZZ]] else groupsD ps

theorem groupsW_grouping : Grouping groupsW := by
  have h2 : ∀ p ∈ [pZ, pX, pZZ, pI], ∀ q, p.acts q = true → q = 0 ∨ q = 1 := by
    intro p hp q hq
    have := acts_lt hq
    have hl : p.length = 2 := by
      simp only [List.mem_cons, List.mem_nil_iff, or_false] at hp
      rcases hp with rfl | rfl | rfl | rfl <;> rfl
    omega
  have hc : ∀ g ∈ [[pX, pI], [pZ, pZZ]], ∀ p ∈ g, ∀ p' ∈ g, ∀ q ∈ [0, 1], p.acts q = true → p'.acts q = true → p.on q = p'.on q := by decide
  have hm : ∀ g ∈ [[pX, pI], [pZ, pZZ]], ∀ p ∈ g, p ∈ [pZ, pX, pZZ, pI] := by decide
  have hcov : ∀ p ∈ [pZ, pX, pZZ, pI], ∃ g ∈ [[pX, pI], [pZ, pZZ]], p ∈ g := by decide
  have hpr : ∀ g ∈ [[pX, pI], [pZ, pZZ]], ∃ p ∈ g, p.isId = false := by decide
  have hdis : ∀ p ∈ [pX, pI], p ∉ [pZ, pZZ] := by decide
  constructor <;> intro ps <;> unfold groupsW
  · split
    · next h => subst h; exact hcov
    · exact groupsD_grouping.covers ps
  · split
    · next h => subst h; exact hm
    · exact groupsD_grouping.members ps
  · split
    · intro i j g g' p hi hj hp hp'
      rcases i with _ | _ | i <;> rcases j with _ | _ | j <;> simp at hi hj
      · rfl
      · subst hi hj; exact absurd hp' (hdis p hp)
      · subst hi hj; exact absurd hp (hdis p hp')
      · rfl
    · exact groupsD_grouping.disjoint ps
  · split
    · next h =>
      intro g hg p hp p' hp' q ha ha'
      rcases h2 p (hm g hg p hp) q ha with rfl | rfl
      · exact hc g hg p hp p' hp' 0 (by simp) ha ha'
      · exact hc g hg p hp p' hp' 1 (by simp) ha ha'
    · exact groupsD_grouping.commute ps
  · split
    · next h => intro _; exact hpr
    · exact groupsD_grouping.proper ps

theorem rx_oper (n q : Nat) (θ : ℝ) : (⟨.gate (.RX θ) [], [q], [], none⟩ : Inst).oper n = some (Spec.gate1 n (Gate.rx θ) q []) := by
  show GName.oper (.RX θ) n [] [q] = _
  rw [← built_eq n (.RX θ) (by intro b hb; cases hb)]
  simp [built, tab1, controls]

/-- `rx(0)` does nothing. -/
theorem evol_rx0 : ∀ i < 2 ^ 2, evol 2 (rxG.at_ fun k => ((List.zip [0] [(0 : ℝ)]).lookup k).getD 0).data zeroState i = zeroState i := by
  intro i hi
  have hv : (rxG.at_ fun k => ((List.zip [0] [(0 : ℝ)]).lookup k).getD 0).data = [⟨.gate (.RX 0) [], [1], [], none⟩] := by
    simp [rxG, List.lookup]
  rw [hv, evol, rx_oper]
  simp only [evol]
  rw [app_gate1 Nat.one_lt_two _ _ hi]
  unfold act
  have : i = 0 ∨ i = 1 ∨ i = 2 ∨ i = 3 := by omega
  rcases this with rfl | rfl | rfl | rfl <;> apply Cx.ext <;>
    simp [Gate.rx, g4, bit, zeroState, Cx.mul_r, Cx.mul_i, Cx.add_r, Cx.add_i, Nat.testBit]

theorem expVal_zero (n : Nat) (p : Py.Pauli) {f : Nat → CR} (h : ∀ i < 2 ^ n, f i = zeroState i) : expVal n p f = (pauliMat n p 0 0).r := by
  unfold expVal
  congr 1
  rw [Finset.sum_eq_single 0, Finset.sum_eq_single 0]
  · rw [h 0 (Nat.two_pow_pos n)]; apply Cx.ext <;> simp [zeroState, conj]
  · intro j hj h0
    rw [h j (Finset.mem_range.1 hj)]; simp [zeroState, h0]
  · intro h; exact absurd (Finset.mem_range.2 (Nat.two_pow_pos n)) h
  · intro i hi h0
    refine Finset.sum_eq_zero fun j hj => ?_
    rw [h i (Finset.mem_range.1 hi)]; apply Cx.ext <;> simp [zeroState, conj, h0]
  · intro h; exact absurd (Finset.mem_range.2 (Nat.two_pow_pos n)) h

open Classical in
/-- **A call can return a wrong value**: `rx(θ)` with `ZI + XI + ZZ` at 0 and `II` at `b`.  The first value has the mean 0; the
expectation value is 2.  (The results of `XI` at 0 are taken for those of `ZI` and `ZZ` at 0.) -/
theorem C48_wrong (hR : Hist cfg thr thrM cs h σ os) (hsq : ∀ x, 0 ≤ x → cfg.sqrt x * cfg.sqrt x = x) {b : ℝ} (hb : b ≠ 0) :
    energy [(pZ, 1), (pX, 1), (pZZ, 1)] (PCirc.withValues rxG [0]) = 2 ∧
    ∃ (E : List Circ) (V : List (List (List Bool)) → List ℝ), Mean E 1024 (fun _ => 1) = 1 ∧
      (∀ keyss : List (List (List Bool)), keyss.length = E.length → (∀ k ∈ keyss, k.length = 1024) → (V keyss).length = 2 ∧
        Yields cfg (estRun (id : PCirc → PCirc) groupsW prepD (.new : Est PCirc) [rxG, rxG] [[(pZ, 1), (pX, 1), (pZZ, 1)], [(pI, 1)]] [[0], [b]] .absent []).2 σ
          (Estimates keyss (V keyss)) ((List.zipWith (fun c keys => (keys.map (Circ.prob c)).prod) E keyss).prod)) ∧
      Mean E 1024 (fun keyss => (V keyss).getD 0 0) = 0 := by
  have hs : (PCirc.withValues rxG [0]).data = (rxG.at_ fun k => ((List.zip [0] [(0 : ℝ)]).lookup k).getD 0).data := rfl
  have e1 : ∀ p : Py.Pauli, expVal 2 p (evol 2 (PCirc.withValues rxG [0]).data zeroState) = (pauliMat 2 p 0 0).r := by
    intro p; rw [hs]; exact expVal_zero 2 p evol_rx0
  have m1 : (pauliMat 2 pZ 0 0).r = 1 := by simp [pauliMat, Finset.prod_range_succ, pZ, Pauli.on, sigma]
  have m2 : (pauliMat 2 pX 0 0).r = 0 := by simp [pauliMat, Finset.prod_range_succ, pX, Pauli.on, sigma]
  have m3 : (pauliMat 2 pZZ 0 0).r = 1 := by simp [pauliMat, Finset.prod_range_succ, pZZ, Pauli.on, sigma]
  have hn : (PCirc.withValues rxG [0]).nq = 2 := rfl
  refine ⟨by simp only [energy, List.map_cons, List.map_nil, List.sum_cons, List.sum_nil]; rw [hn, e1, e1, e1, m1, m2, m3]; norm_num, ?_⟩
  have hb' := hb.symm
  have hg : groupsW [pZ, pX, pZZ, pI] = [[pX, pI], [pZ, pZZ]] := by decide
  have b0 : basisOf [pX, pI] = pX := by decide
  have b1 : basisOf [pZ, pZZ] = pZZ := by decide
  have hreg : register (id : PCirc → PCirc) [rxG, rxG] .new = (⟨[rxG], [(rxG, 0)], []⟩, [0, 0]) := by
    simp [register, Sampler.new]
  have hobs : regObs [[(pZ, (1 : ℝ)), (pX, 1), (pZZ, 1)], [(pI, 1)]] [] = ([[(pZ, 1), (pX, 1), (pZZ, 1)], [(pI, 1)]], [0, 1]) := by
    simp [regObs]
  set M := obsMap [[pX, pI], [pZ, pZZ]] [(0, [(pZ, (1 : ℝ)), (pX, 1), (pZZ, 1)]), (1, [(pI, 1)])] fun _ => [] with hM
  have hpr : prepare groupsW prepD [rxG] [[(pZ, 1), (pX, 1), (pZZ, 1)], [(pI, 1)]] [0, 0] [0, 1] =
      some ⟨[(0, [(prepD rxG pX, pX), (prepD rxG pZZ, pZZ)])], [(0, M)]⟩ := by
    simp [prepare, prepLoop, pushObs, hg, b0, b1, hM]
  have M0 : M 0 = [1, 0, 1] := by
    have t1 : termBase [[pX, pI], [pZ, pZZ]] pZ = [1] := by decide
    have t2 : termBase [[pX, pI], [pZ, pZZ]] pX = [0] := by decide
    have t3 : termBase [[pX, pI], [pZ, pZZ]] pZZ = [1] := by decide
    simp [hM, obsMap, t1, t2, t3]
  have M1 : M 1 = [0] := by
    have t1 : termBase [[pX, pI], [pZ, pZZ]] pI = [0] := by decide
    simp [hM, obsMap, t1]
  have hem : preLoop [rxG] [(0, M)] (List.zip [0, 0] (List.zip [0, 1] [[0], [b]])) [] = some [(0, [(1, [[0]]), (0, [[0], [b]])])] := by
    simp [preLoop, rxG, M0, M1, updMap, addVal, hb, hb']
  set L : List (Nat × Py.Pauli × List ℝ) := [(0, pX, [0]), (0, pX, [0]), (0, pZZ, [b])] with hL
  have hfl : flatten [rxG] [(0, [(1, [[0]]), (0, [[0], [b]])])] [(0, [(prepD rxG pX, pX), (prepD rxG pZZ, pZZ)])] =
      some (L.map fun l => (prepD rxG l.2.1, l.2.1), L.map fun l => rxG.params.zip l.2.2) := by
    have h1 := flat1_spec (es := [(prepD rxG pX, pX), (prepD rxG pZZ, pZZ)]) (params := rxG.params) (ks := [1, 0])
      (W := fun k => if k = 1 then [[0]] else [[0], [b]]) (by simp) (by intro k; simp; omega)
    have h2 : bmap [1, 0] (fun k => if k = 1 then [[(0 : ℝ)]] else [[0], [b]]) = [(1, [[0]]), (0, [[0], [b]])] := by simp [bmap]
    rw [h2] at h1
    simp only [flatten, List.getElem?_cons_zero, Option.bind_eq_bind, Option.bind_some, List.lookup_cons, beq_self_eq_true, Option.getD_some]
    rw [h1]
    simp [flatB, flatV, hL, List.range_succ]
  have i1 : pZ.isId = false := by decide
  have i2 : pX.isId = false := by decide
  have i3 : pZZ.isId = false := by decide
  have i4 : pI.isId = true := by decide
  have hpp : ppAll [[(pZ, (1 : ℝ)), (pX, 1), (pZZ, 1)], [(pI, 1)]] [(0, M)] [(0, [(1, [[0]]), (0, [[0], [b]])])]
      (List.zip [0, 0] (List.zip [0, 1] [[0], [b]])) = some [[(some 1, [pZ, pZZ], [1, 1]), (some 0, [pX], [1])], [(none, [pI], [1])]] := by
    simp [ppAll, M0, M1, ppLoop, i1, i2, i3, i4, resIdx, idxIn, ppStep, hb, hb', List.findIdx?_cons]
  have hrun : (estRun (id : PCirc → PCirc) groupsW prepD (.new : Est PCirc) [rxG, rxG] [[(pZ, 1), (pX, 1), (pZZ, 1)], [(pI, 1)]] [[0], [b]] .absent []).2 =
      estCall [rxG] [[(pZ, 1), (pX, 1), (pZZ, 1)], [(pI, 1)]] ⟨[(0, [(prepD rxG pX, pX), (prepD rxG pZZ, pZZ)])], [(0, M)]⟩
        (List.zip [0, 0] (List.zip [0, 1] [[0], [b]])) .absent [] := by
    unfold estRun
    rw [show (Est.new : Est PCirc).base = .new from rfl, show (Est.new : Est PCirc).obs = [] from rfl, hreg, hobs]
    simp only [Est.new, List.lookup_nil]
    rw [hpr]
  rw [hrun]
  set V : List (List (List Bool)) → List ℝ := fun keyss =>
    [expvalOf pX pZ (keyss.getD 1 []) + expvalOf pX pZZ (keyss.getD 1 []) + expvalOf pX pX (keyss.getD 0 []), 1] with hV
  obtain ⟨hsum, hy⟩ := est_yields (P := fun p => p = rxG ∨ p = xG) (Q := fun _ => rxG) (L := L) (V := V)
    (pr := ⟨[(0, [(prepD rxG pX, pX), (prepD rxG pZZ, pZZ)])], [(0, M)]⟩) hR hsq (qiskitE_demo h.ms) (by simp [hL])
    (by simp) (by
      intro l hl
      simp only [hL, List.mem_cons, List.mem_nil_iff, or_false] at hl
      rcases hl with rfl | rfl | rfl
      · exact ⟨rfl, rfl, 0, by decide⟩
      · exact ⟨rfl, rfl, 0, by decide⟩
      · exact ⟨rfl, rfl, 0, rfl⟩) hem hfl hpp (by
      intro keyss rs hk hr
      have hk3 : keyss.length = 3 := hk
      obtain ⟨k0, k1, k2, rfl⟩ : ∃ k0 k1 k2, keyss = [k0, k1, k2] := by
        match keyss, hk3 with
        | [k0, k1, k2], _ => exact ⟨k0, k1, k2, rfl⟩
      have hr3 : rs.length = 3 := by simpa using congrArg List.length hr
      obtain ⟨r0, r1, r2, rfl⟩ : ∃ r0 r1 r2, rs = [r0, r1, r2] := by
        match rs, hr3 with
        | [r0, r1, r2], _ => exact ⟨r0, r1, r2, rfl⟩
      simp only [List.map_cons, List.map_nil, List.cons.injEq] at hr
      simp [ppRun, ppVal, hL, hV, hr.1, hr.2.1]) (shots := .absent) (others := []) (N := 1024) (.inl ⟨.inl rfl, rfl⟩)
  refine ⟨_, V, Mean_one hsum, fun keyss hk hkN => ⟨rfl, hy keyss (by simpa using hk) hkN⟩, ?_⟩
  have hmean : ∀ (j : Nat) (p : Py.Pauli), j < 2 → p.acts 0 = true → Mean (L.map fun l => Py.combine (PCirc.withValues rxG l.2.2) l.2.1) 1024
      (fun keyss => expvalOf pX p (keyss.getD j [])) = 0 := by
    intro j p hj hp
    simp only [expvalOf_mean]
    have hjl : j < (L.map fun l => Py.combine (PCirc.withValues rxG l.2.2) l.2.1).length := by simp [hL]; omega
    rw [Mean_average (by norm_num) hsum hjl]
    have hEj : (L.map fun l => Py.combine (PCirc.withValues rxG l.2.2) l.2.1)[j] = Py.combine (PCirc.withValues rxG [0]) pX := by
      have : j = 0 ∨ j = 1 := by omega
      rcases this with rfl | rfl <;> rfl
    rw [hEj]
    have hsg : ∀ k, sgn p pX k = sgn pX pX k := by
      intro k
      have hsup : pX.support = [0] := by decide
      have hx : pX.acts 0 = true := by decide
      unfold sgn
      rw [hsup]
      simp [hits, hp, hx]
    simp only [hsg]
    have := mean_sgn (c := PCirc.withValues rxG [0]) (rxG_gates _) rfl (p := pX) (b := pX) rfl rfl (fun _ _ => rfl)
    rw [hn, e1, m2] at this
    exact this
  have hfun : (fun keyss => (V keyss).getD 0 0) = fun keyss => ([(1, pZ), (1, pZZ), (0, pX)].map fun (x : Nat × Py.Pauli) => expvalOf pX x.2 (keyss.getD x.1 [])).sum := by
    funext keyss
    simp [hV, add_assoc]
  rw [hfun, Mean_sum [(1, pZ), (1, pZZ), (0, pX)] (fun (x : Nat × Py.Pauli) keyss => expvalOf pX x.2 (keyss.getD x.1 []))]
  simp only [List.map_cons, List.map_nil, List.sum_cons, List.sum_nil]
  rw [hmean 1 pZ (by omega) (by decide), hmean 1 pZZ (by omega) (by decide), hmean 0 pX (by omega) (by decide)]
  norm_num

end QDD.Props
