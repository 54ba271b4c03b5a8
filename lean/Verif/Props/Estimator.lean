import Verif.Py.EstVar
import Verif.Props.Sampler
/-!
# C48: the estimator
-/

set_option linter.unusedSectionVars false
set_option linter.unusedVariables false
set_option linter.unusedSimpArgs false

namespace QDD.Props
open Spec Api Gate Finset Py Py.Client

variable {cfg : Cfg ℝ} {thr thrM : Nat} {cs : List (Cmd ℝ)} {h : Heap ℝ} {σ : Sys ℝ} {os : List (Obs ℝ)}
variable {Key : Type} [DecidableEq Key] {key : PCirc → Key} {P : PCirc → Prop}
variable {groups : List Py.Pauli → List (List Py.Pauli)} {prep : PCirc → Py.Pauli → PCirc}

/-- What is assumed of Qiskit's `unique()` and `group_commuting(qubit_wise=True)`: a partition into groups whose members
agree on the qubits where both act, and no group of identities only (if there is anything else). -/
structure Grouping (groups : List Py.Pauli → List (List Py.Pauli)) : Prop where
  covers : ∀ ps, ∀ p ∈ ps, ∃ g ∈ groups ps, p ∈ g
  members : ∀ ps, ∀ g ∈ groups ps, ∀ p ∈ g, p ∈ ps
  disjoint : ∀ ps (i j : Nat) g g' p, (groups ps)[i]? = some g → (groups ps)[j]? = some g' → p ∈ g → p ∈ g' → i = j
  commute : ∀ ps, ∀ g ∈ groups ps, ∀ p ∈ g, ∀ p' ∈ g, ∀ q, p.acts q = true → p'.acts q = true → p.on q = p'.on q
  proper : ∀ ps, (∃ p ∈ ps, p.isId = false) → ∀ g ∈ groups ps, ∃ p ∈ g, p.isId = false

/-- What is assumed of Qiskit for the circuits used (those satisfying `P`): they consist of gates, without clbits; equal
`_circuit_key`s mean equal instructions; the experiment made of a circuit and a basis (transpilation, layout of the
measurement circuit) has the outcomes of the circuit followed by the measurements of the basis, and can be run. -/
structure QiskitE (ms : List (Mat ℝ)) (key : PCirc → Key) (prep : PCirc → Py.Pauli → PCirc) (P : PCirc → Prop) : Prop where
  gates : ∀ p, P p → ∀ v, GateCirc (p.at_ v) ∧ (p.at_ v).nc = 0 ∧ (p.at_ v).nq = (p.at_ fun _ => 0).nq
  key : ∀ p q, P p → P q → key p = key q → p.params = q.params ∧ ∀ v, (p.at_ v).nq = (q.at_ v).nq ∧ (p.at_ v).data = (q.at_ v).data
  prep : ∀ p b, P p → b.length = (p.at_ fun _ => 0).nq → (∃ q, b.acts q = true) →
    (prep p b).params = p.params ∧ (∀ v k, ((prep p b).at_ v).prob k = (Py.combine (p.at_ v) b).prob k) ∧ Runnable ms (prep p b)

/-- The answer: these memories and these values. -/
def Estimates (keyss : List (List (List Bool))) (vs : List ℝ) (r : Option (List Result × List ℝ)) : Prop :=
  ∃ rs, r = some (rs, vs) ∧ rs.map (·.memory) = keyss.map some

/-! ## Tables -/

theorem get_append {α : Type} {l l' : List α} {i : Nat} {a : α} (h : l[i]? = some a) : (l ++ l')[i]? = some a := by
  rw [List.getElem?_append_left]
  · exact h
  · by_contra hn
    rw [List.getElem?_eq_none (by omega)] at h
    cases h

theorem regObs_spec : ∀ (os tab : List Observ), (∀ (i : Nat) o, tab[i]? = some o → (regObs os tab).1[i]? = some o) ∧
    List.Forall₂ (fun o (j : Nat) => (regObs os tab).1[j]? = some o) os (regObs os tab).2 ∧
    (tab.Nodup → (regObs os tab).1.Nodup) := by
  intro os
  induction os with
  | nil => intro tab; exact ⟨fun _ _ h => h, .nil, fun h => h⟩
  | cons o os ih =>
    intro tab
    rw [regObs]
    split
    · next hm =>
      obtain ⟨h1, h2, h3⟩ := ih tab
      refine ⟨h1, .cons (h1 _ _ ?_) h2, h3⟩
      exact List.getElem?_idxOf hm
    · next hm =>
      obtain ⟨h1, h2, h3⟩ := ih (tab ++ [o])
      refine ⟨fun i a h => h1 i a (get_append h), .cons (h1 _ _ (by simp)) h2, fun hn => h3 ?_⟩
      rw [List.nodup_append]
      exact ⟨hn, by simp, by rintro a ha b hb rfl; simp at hb; subst hb; exact hm ha⟩

/-- Of the estimators that can be reached. -/
structure EstInv (key : PCirc → Key) (groups : List Py.Pauli → List (List Py.Pauli)) (prep : PCirc → Py.Pauli → PCirc) (P : PCirc → Prop)
    (s : Est Key) : Prop where
  base : SamplerInv key id P s.base
  obs : s.obs.Nodup
  cache : ∀ k pr, s.cache.lookup k = some pr → prepare groups prep s.base.circuits s.obs k.1 k.2 = some pr

theorem EReach.inv {s : Est Key} (hs : EReach key groups prep P s) : EstInv key groups prep P s := by
  induction hs with
  | new => exact ⟨SamplerInv.new, List.nodup_nil, by intro k pr h; cases h⟩
  | @call s ps os vals sh ot hs hP ih =>
    obtain ⟨h1, h2, h3⟩ := register_spec ps s.base ih.base hP
    obtain ⟨g1, g2, g3⟩ := regObs_spec os s.obs
    have hmono : ∀ k pr, s.cache.lookup k = some pr → prepare groups prep (register key ps s.base).1.circuits (regObs os s.obs).1 k.1 k.2 = some pr :=
      fun k pr h => prepLoop_mono h2 g1 _ _ (ih.cache k pr h)
    unfold estRun
    dsimp only
    split
    · exact ⟨h1, g3 ih.obs, hmono⟩
    · split
      · next pr hpr =>
        refine ⟨h1, g3 ih.obs, ?_⟩
        intro k pr' h
        dsimp only at h ⊢
        rw [List.lookup_cons] at h
        split at h
        · next he =>
          cases h
          have : k = ((register key ps s.base).2, (regObs os s.obs).2) := by simpa using he
          rw [this]
          exact hpr
        · exact hmono k pr' h
      · exact ⟨h1, g3 ih.obs, hmono⟩

theorem estRun_prepared {s : Est Key} (hs : EReach key groups prep P s) {ps : List PCirc} (hP : ∀ p ∈ ps, P p) {os : List Observ} {vals sh ot ap} {pr : Prepared}
    (hpr : prepare groups prep (register key ps s.base).1.circuits (regObs os s.obs).1 (register key ps s.base).2 (regObs os s.obs).2 = some pr) :
    (estRun key groups prep s ps os vals sh ot ap).2 = estCall (register key ps s.base).1.circuits (regObs os s.obs).1 pr
      ((register key ps s.base).2.zip ((regObs os s.obs).2.zip vals)) sh ot ap := by
  have hi := EReach.inv hs
  obtain ⟨h1, h2, h3⟩ := register_spec ps s.base hi.base hP
  obtain ⟨g1, g2, g3⟩ := regObs_spec os s.obs
  unfold estRun
  dsimp only
  split
  · next pr' hc =>
    have := prepLoop_mono h2 g1 _ _ (hi.cache _ pr' hc)
    have := this.symm.trans hpr
    cases this
    rfl
  · rw [hpr]

/-! ## The experiments -/

theorem isId_false {p : Py.Pauli} (h : p.isId = false) : ∃ q, p.acts q = true := by
  unfold Pauli.isId at h
  rw [List.all_eq_false] at h
  obtain ⟨b, hb, h⟩ := h
  obtain ⟨q, hq, rfl⟩ := List.getElem_of_mem hb
  refine ⟨q, ?_⟩
  unfold Pauli.acts Pauli.on
  rw [List.getD_eq_getElem?_getD, List.getElem?_eq_getElem hq]
  revert h
  generalize p[q] = x
  obtain ⟨a, b⟩ := x
  cases a <;> cases b <;> simp

theorem isId_of_acts {p : Py.Pauli} {q : Nat} (h : p.acts q = true) : p.isId = false := by
  by_contra hn
  rw [Bool.not_eq_false] at hn
  unfold Pauli.acts Pauli.on at h
  rw [List.getD_eq_getElem?_getD] at h
  by_cases hq : q < p.length
  · rw [List.getElem?_eq_getElem hq] at h
    have := (List.all_eq_true.1 hn) _ (List.getElem_mem hq)
    revert h this
    cases p[q] with
    | mk a b => cases a <;> cases b <;> simp
  · rw [List.getElem?_eq_none (by omega)] at h
    simp at h

theorem acts_lt {p : Py.Pauli} {q : Nat} (h : p.acts q = true) : q < p.length := by
  by_contra hq
  unfold Pauli.acts Pauli.on at h
  rw [List.getD_eq_getElem?_getD, List.getElem?_eq_none (by omega)] at h
  simp at h

theorem on_of_not_acts {p : Py.Pauli} {q : Nat} (h : p.acts q = false) : p.on q = (false, false) := by
  unfold Pauli.acts at h
  revert h
  cases p.on q with
  | mk a b => cases a <;> cases b <;> simp

/-- The basis of a group whose members agree. -/
theorem basisOf_on {g : List Py.Pauli} {n : Nat} (hl : ∀ p ∈ g, p.length = n)
    (hc : ∀ p ∈ g, ∀ p' ∈ g, ∀ q, p.acts q = true → p'.acts q = true → p.on q = p'.on q) {p : Py.Pauli} (hp : p ∈ g) {q : Nat}
    (hq : p.acts q = true) : (basisOf g).on q = p.on q := by
  have hlen : (g.headD []).length = n := by
    cases g with
    | nil => cases hp
    | cons a g => exact hl a (by simp)
  have hqn : q < n := by rw [← hl p hp]; exact acts_lt hq
  have e : (basisOf g).on q = (g.any fun p => (p.on q).1, g.any fun p => (p.on q).2) := by
    unfold basisOf Pauli.on
    rw [hlen, List.getD_eq_getElem?_getD, List.getElem?_map, List.getElem?_range hqn]
    rfl
  have hall : ∀ p' ∈ g, p'.on q = (false, false) ∨ p'.on q = p.on q := by
    intro p' hp'
    by_cases ha : p'.acts q = true
    · exact .inr (hc p' hp' p hp q ha hq)
    · exact .inl (on_of_not_acts (by simpa using ha))
  rw [e]
  have h1 : (g.any fun p => (p.on q).1) = (p.on q).1 := by
    rw [Bool.eq_iff_iff, List.any_eq_true]
    constructor
    · rintro ⟨p', hp', h⟩
      rcases hall p' hp' with h' | h' <;> rw [h'] at h
      · cases h
      · exact h
    · intro h; exact ⟨p, hp, h⟩
  have h2 : (g.any fun p => (p.on q).2) = (p.on q).2 := by
    rw [Bool.eq_iff_iff, List.any_eq_true]
    constructor
    · rintro ⟨p', hp', h⟩
      rcases hall p' hp' with h' | h' <;> rw [h'] at h
      · cases h
      · exact h
    · intro h; exact ⟨p, hp, h⟩
  rw [h1, h2]

theorem basisOf_acts {g : List Py.Pauli} {q : Nat} (hq : (basisOf g).acts q = true) : ∃ p ∈ g, p.acts q = true := by
  have hlt := acts_lt hq
  unfold basisOf at hlt
  rw [List.length_map, List.length_range] at hlt
  have e : (basisOf g).on q = (g.any fun p => (p.on q).1, g.any fun p => (p.on q).2) := by
    unfold basisOf Pauli.on
    rw [List.getD_eq_getElem?_getD, List.getElem?_map, List.getElem?_range hlt]
    rfl
  unfold Pauli.acts at hq
  rw [e, Bool.or_eq_true, List.any_eq_true, List.any_eq_true] at hq
  rcases hq with ⟨p, hp, h⟩ | ⟨p, hp, h⟩
  · exact ⟨p, hp, by unfold Pauli.acts; rw [h]; rfl⟩
  · exact ⟨p, hp, by unfold Pauli.acts; rw [h, Bool.or_true]⟩

theorem lookup_map_self {β : Type} (C : List Nat) (f : Nat → β) {c : Nat} (hc : c ∈ C) : (C.map fun c => (c, f c)).lookup c = some (f c) := by
  induction C with
  | nil => cases hc
  | cons a C ih =>
    rw [List.map_cons, List.lookup_cons]
    by_cases h : c = a
    · subst h; simp
    · have : (c == a) = false := by simpa using h
      rw [this]
      exact ih (by simpa [h] using hc)

theorem map_of_keys {β : Type} [Inhabited β] {l : List (Nat × β)} {C : List Nat} (hk : l.map Prod.fst = C) (hn : C.Nodup) :
    ∃ f : Nat → β, l = C.map fun c => (c, f c) := by
  refine ⟨fun c => (l.lookup c).getD default, ?_⟩
  subst hk
  induction l with
  | nil => rfl
  | cons x l ih =>
    obtain ⟨a, b⟩ := x
    rw [List.map_cons, List.nodup_cons] at hn
    rw [List.map_cons, List.map_cons]
    congr 1
    · simp
    · conv_lhs => rw [ih hn.2]
      rw [List.map_map, List.map_map]
      refine List.map_congr_left fun x hx => ?_
      dsimp only [Function.comp]
      have : (x.1 == a) = false := by
        rw [beq_eq_false_iff_ne]
        rintro rfl
        exact hn.1 (List.mem_map.2 ⟨x, hx, rfl⟩)
      rw [List.lookup_cons, this]

/-- What the bookkeeping of a call arrives at: an exception, or experiments `L` (circuit, basis, values) and for each entry
`t` and term `p` an experiment `J t p` of that circuit and these values whose basis measures `p`. -/
theorem est_book (hG : Grouping groups) {circuits : List PCirc} {obs : List Observ} {Q : Nat → PCirc} {Ob : Nat → Observ} {nq : Nat → Nat}
    {T : List (Nat × Nat × List ℝ)} (hne : T ≠ [])
    (hT : ∀ t ∈ T, circuits[t.1]? = some (Q t.1) ∧ obs[t.2.1]? = some (Ob t.2.1) ∧ t.2.2.length = (Q t.1).params.length ∧ Ob t.2.1 ≠ [] ∧
      ∀ x ∈ Ob t.2.1, x.1.length = nq t.1)
    (hone : ∀ c, OneOf T c ∨ ∀ t ∈ T, t.1 = c → ∀ x ∈ Ob t.2.1, x.1.isId = false)
    (hsome : ∀ t ∈ T, ∃ t' ∈ T, t'.1 = t.1 ∧ ∃ x ∈ Ob t'.2.1, x.1.isId = false) :
    (∃ pr em, prepare groups prep circuits obs (T.map Prod.fst) (T.map fun t => t.2.1) = some pr ∧
      preLoop circuits pr.maps T [] = some em ∧ ppAll obs pr.maps em T = none ∧ ¬ ∀ c, OneOf T c) ∨
    ∃ pr em pps, ∃ L : List (Nat × Py.Pauli × List ℝ), ∃ J : Nat × Nat × List ℝ → Py.Pauli → Nat,
      prepare groups prep circuits obs (T.map Prod.fst) (T.map fun t => t.2.1) = some pr ∧
      preLoop circuits pr.maps T [] = some em ∧
      flatten circuits em pr.exps = some (L.map fun l => (prep (Q l.1) l.2.1, l.2.1), L.map fun l => (Q l.1).params.zip l.2.2) ∧
      ppAll obs pr.maps em T = some pps ∧ L ≠ [] ∧
      (∀ l ∈ L, (∃ t ∈ T, t.1 = l.1) ∧ l.2.2.length = (Q l.1).params.length ∧ l.2.1.length = nq l.1 ∧ (∃ q, l.2.1.acts q = true) ∧
        ∀ q, l.2.1.acts q = true → ∃ t ∈ T, t.1 = l.1 ∧ ∃ x ∈ Ob t.2.1, x.1.acts q = true ∧ ∀ q', x.1.acts q' = true → l.2.1.acts q' = true) ∧
      (∀ (run : PP → Option ℝ) (E : Nat → Py.Pauli → ℝ), (∀ pp : PP, (∀ x ∈ pp, PPok L.length x) → run pp = some (pp.map (ppV E)).sum) →
        pps.mapM run = some (T.map fun t => ((Ob t.2.1).map fun x => if x.1.isId then x.2 else E (J t x.1) x.1 * x.2).sum)) ∧
      ∀ t ∈ T, ∀ x ∈ Ob t.2.1, x.1.isId = false → ∃ b, L[J t x.1]? = some (t.1, b, t.2.2) ∧ ∀ q, x.1.acts q = true → x.1.on q = b.on q := by
  classical
  obtain ⟨d1, d2⟩ := pushObs_spec (T.map fun t => (t.1, t.2.1))
  have hzip : (T.map Prod.fst).zip (T.map fun t => t.2.1) = T.map fun t => (t.1, t.2.1) := by rw [List.zip_map']
  have hk : (T.map fun t => (t.1, t.2.1)).map Prod.fst = T.map Prod.fst := by rw [List.map_map]; rfl
  rw [hk] at d1
  obtain ⟨osL, hd⟩ := map_of_keys d1 (firsts_nodup _)
  generalize hC : firsts (T.map Prod.fst) = C at *
  have hmemC : ∀ c, c ∈ C ↔ ∃ t ∈ T, t.1 = c := by
    intro c; rw [← hC, mem_firsts, List.mem_map]
  have hnC : C.Nodup := by rw [← hC]; exact firsts_nodup _
  have hos : ∀ c ∈ C, ∀ o, o ∈ osL c ↔ ∃ t ∈ T, t.1 = c ∧ t.2.1 = o := by
    intro c hc o
    have := d2 (c, osL c) (by rw [hd]; exact List.mem_map_of_mem hc)
    dsimp only at this
    rw [this, List.mem_map]
    constructor
    · rintro ⟨x, hx, rfl⟩
      rw [List.mem_filter, List.mem_map] at hx
      obtain ⟨⟨t, ht, rfl⟩, h2⟩ := hx
      exact ⟨t, ht, by simpa using h2, rfl⟩
    · rintro ⟨t, ht, h1, h2⟩
      exact ⟨(t.1, t.2.1), by rw [List.mem_filter]; exact ⟨List.mem_map_of_mem ht, by simpa using h1⟩, h2⟩
  -- the groups
  set ps : Nat → List Py.Pauli := fun c => (osL c).flatMap fun o => (Ob o).map Prod.fst with hps
  set gs : Nat → List (List Py.Pauli) := fun c => groupsOf groups Ob (osL c) with hgs
  have hgs' : ∀ c, gs c = groups (ps c) := fun c => rfl
  have hpsmem : ∀ c ∈ C, ∀ p, p ∈ ps c ↔ ∃ t ∈ T, t.1 = c ∧ ∃ x ∈ Ob t.2.1, x.1 = p := by
    intro c hc p
    rw [hps]
    dsimp only
    rw [List.mem_flatMap]
    constructor
    · rintro ⟨o, ho, hp⟩
      obtain ⟨t, ht, h1, rfl⟩ := (hos c hc o).1 ho
      obtain ⟨x, hx, h2⟩ := List.mem_map.1 hp
      exact ⟨t, ht, h1, x, hx, h2⟩
    · rintro ⟨t, ht, h1, x, hx, h2⟩
      exact ⟨t.2.1, (hos c hc _).2 ⟨t, ht, h1, rfl⟩, List.mem_map.2 ⟨x, hx, h2⟩⟩
  have hlen : ∀ c ∈ C, ∀ p ∈ ps c, p.length = nq c := by
    intro c hc p hp
    obtain ⟨t, ht, rfl, x, hx, rfl⟩ := (hpsmem c hc p).1 hp
    exact (hT t ht).2.2.2.2 x hx
  have hprop : ∀ c ∈ C, ∀ g ∈ gs c, ∃ p ∈ g, p.isId = false := by
    intro c hc g hg
    refine hG.proper (ps c) ?_ g hg
    obtain ⟨t, ht, rfl⟩ := (hmemC c).1 hc
    obtain ⟨t', ht', he, x, hx, h⟩ := hsome t ht
    exact ⟨x.1, (hpsmem _ hc _).2 ⟨t', ht', he, x, hx, rfl⟩, h⟩
  have hgne : ∀ c ∈ C, gs c ≠ [] := by
    intro c hc h0
    obtain ⟨t, ht, rfl⟩ := (hmemC c).1 hc
    obtain ⟨t', ht', he, x, hx, h⟩ := hsome t ht
    obtain ⟨g, hg, _⟩ := hG.covers (ps t.1) x.1 ((hpsmem _ hc _).2 ⟨t', ht', he, x, hx, rfl⟩)
    rw [← hgs', h0] at hg
    cases hg
  have hbase : ∀ c ∈ C, ∀ g ∈ gs c, (basisOf g).length = nq c ∧ (∃ q, (basisOf g).acts q = true) ∧
      (∀ p ∈ g, ∀ q, p.acts q = true → p.on q = (basisOf g).on q) ∧ ∀ q, (basisOf g).acts q = true → ∃ p ∈ g, p.acts q = true := by
    intro c hc g hg
    have hl : ∀ p ∈ g, p.length = nq c := fun p hp => hlen c hc p (hG.members _ g hg p hp)
    have hon : ∀ p ∈ g, ∀ q, p.acts q = true → p.on q = (basisOf g).on q := fun p hp q hq =>
      (basisOf_on hl (hG.commute _ g hg) hp hq).symm
    obtain ⟨p, hp, hid⟩ := hprop c hc g hg
    obtain ⟨q, hq⟩ := isId_false hid
    refine ⟨?_, ⟨q, ?_⟩, hon, fun q => basisOf_acts⟩
    · have : (g.headD []).length = nq c := by
        cases g with
        | nil => cases hp
        | cons a g => exact hl a (by simp)
      unfold basisOf
      rw [List.length_map, List.length_range, this]
    · unfold Pauli.acts
      rw [← hon p hp q hq]
      exact hq
  set M : Nat → Nat → List Nat := fun c => obsMap (gs c) ((osL c).map fun o => (o, Ob o)) fun _ => [] with hM
  set m : Nat → Nat := fun c => (gs c).length with hm
  -- preparation
  have hpr : prepare groups prep circuits obs (T.map Prod.fst) (T.map fun t => t.2.1) = some
      ⟨C.map fun c => (c, (gs c).map fun g => (prep (Q c) (basisOf g), basisOf g)), C.map fun c => (c, M c)⟩ := by
    unfold prepare
    rw [hzip, hd, prepLoop_plain (Q := Q) (Ob := Ob)]
    · rw [List.map_map, List.map_map, List.nil_append, List.nil_append]
      rfl
    · intro x hx
      obtain ⟨c, hc, rfl⟩ := List.mem_map.1 hx
      obtain ⟨t, ht, rfl⟩ := (hmemC c).1 hc
      refine ⟨(hT t ht).1, ?_, ?_⟩
      · intro o ho
        obtain ⟨t', ht', _, rfl⟩ := (hos _ hc o).1 ho
        exact (hT t' ht').2.1
      · rintro ⟨-, h⟩
        obtain ⟨g, hg⟩ := List.exists_mem_of_ne_nil _ (hgne _ hc)
        have h1 := (List.all_eq_true.1 h) _ (List.mem_map_of_mem hg)
        obtain ⟨_, ⟨q, hq⟩, _⟩ := hbase _ hc g hg
        rw [isId_of_acts hq] at h1
        cases h1
  have hlook : ∀ c ∈ C, (C.map fun c => (c, M c)).lookup c = some (M c) := fun c hc => lookup_map_self C M hc
  set B : Nat → Py.Pauli → Nat := fun c p => (termBase (gs c) p).headD 0 with hB
  have hBspec : ∀ t ∈ T, ∀ x ∈ Ob t.2.1, termBase (gs t.1) x.1 = [B t.1 x.1] ∧ ∃ g, (gs t.1)[B t.1 x.1]? = some g ∧ x.1 ∈ g := by
    intro t ht x hx
    have hc : t.1 ∈ C := (hmemC _).2 ⟨t, ht, rfl⟩
    obtain ⟨b, h1, h2⟩ := termBase_spec (hG.covers (ps t.1) x.1 ((hpsmem _ hc _).2 ⟨t, ht, rfl, x, hx, rfl⟩))
    have h1' : termBase (gs t.1) x.1 = [b] := h1
    have : B t.1 x.1 = b := by rw [hB]; dsimp only; rw [h1']; rfl
    rw [this]
    exact ⟨h1', h2⟩
  have hMspec : ∀ t ∈ T, ∃ rest, M t.1 t.2.1 = ((Ob t.2.1).map fun x => B t.1 x.1) ++ rest ∧ ∀ b ∈ rest, b ∈ (Ob t.2.1).map fun x => B t.1 x.1 := by
    intro t ht
    have hc : t.1 ∈ C := (hmemC _).2 ⟨t, ht, rfl⟩
    have e : M t.1 t.2.1 = (List.replicate ((osL t.1).count t.2.1) ((Ob t.2.1).flatMap fun x => termBase (gs t.1) x.1)).flatten := by
      rw [hM]; dsimp only; rw [obsMap_spec, List.nil_append]
    have e2 : ((Ob t.2.1).flatMap fun x => termBase (gs t.1) x.1) = (Ob t.2.1).map fun x => B t.1 x.1 := by
      rw [← List.flatMap_singleton' ((Ob t.2.1).map fun x => B t.1 x.1), List.flatMap_map]
      refine List.flatMap_congr fun x hx => ?_
      exact (hBspec t ht x hx).1
    have hcount : 0 < (osL t.1).count t.2.1 := List.count_pos_iff.2 ((hos _ hc _).2 ⟨t, ht, rfl, rfl⟩)
    obtain ⟨n, hn⟩ : ∃ n, (osL t.1).count t.2.1 = n + 1 := ⟨_, (Nat.succ_pred_eq_of_pos hcount).symm⟩
    rw [e, e2, hn, List.replicate_succ, List.flatten_cons]
    refine ⟨_, rfl, fun b hb => ?_⟩
    rw [List.mem_flatten] at hb
    obtain ⟨l, hl, hb⟩ := hb
    rw [(List.mem_replicate.1 hl).2] at hb
    exact hb
  have hMmem : ∀ t ∈ T, ∀ b, b ∈ M t.1 t.2.1 ↔ ∃ x ∈ Ob t.2.1, B t.1 x.1 = b := by
    intro t ht b
    obtain ⟨rest, h1, h2⟩ := hMspec t ht
    rw [h1, List.mem_append, or_iff_left_of_imp (h2 b), List.mem_map]
  have hMne : ∀ t ∈ T, M t.1 t.2.1 ≠ [] := by
    intro t ht
    obtain ⟨x, hx⟩ := List.exists_mem_of_ne_nil _ (hT t ht).2.2.2.1
    exact List.ne_nil_of_mem ((hMmem t ht _).2 ⟨x, hx, rfl⟩)
  obtain ⟨em, hpre, hEI⟩ := preLoop_spec (circuits := circuits) (maps := C.map fun c => (c, M c)) (M := M) (Q := Q) T [] []
    ⟨rfl, by simp⟩ (by
      rw [List.nil_append]
      intro t ht
      exact ⟨(hT t ht).1, (hT t ht).2.2.1, hlook _ ((hmemC _).2 ⟨t, ht, rfl⟩)⟩)
  rw [List.nil_append] at hEI
  have hkeys := hEI.keys
  rw [firsts_steps T hMne, hC] at hkeys
  obtain ⟨Bm, hem⟩ := map_of_keys hkeys hnC
  have hent : ∀ c ∈ C, ∃ ks W, Bm c = bmap ks W ∧ ks.Nodup ∧ (∀ b ∈ ks, (W b).Nodup) ∧ (∀ b, b ∈ ks ↔ ∃ v, (c, b, v) ∈ steps M T) ∧
      ∀ b ∈ ks, ∀ v, v ∈ W b ↔ (c, b, v) ∈ steps M T := fun c hc => hEI.entry (c, Bm c) (by rw [hem]; exact List.mem_map_of_mem hc)
  choose! ks W hu hks hW hkm hWm using hent
  have hkm' : ∀ c ∈ C, ∀ b, b ∈ ks c ↔ b < m c := by
    intro c hc b
    rw [hkm c hc]
    constructor
    · rintro ⟨v, hv⟩
      obtain ⟨t, ht, rfl, hb, rfl⟩ := mem_steps.1 hv
      obtain ⟨x, hx, rfl⟩ := (hMmem t ht b).1 hb
      obtain ⟨_, g, hg, _⟩ := hBspec t ht x hx
      by_contra hn
      rw [List.getElem?_eq_none (by simpa [hm] using hn)] at hg
      cases hg
    · intro hb
      have hg : (gs c)[b]? = some (gs c)[b] := List.getElem?_eq_getElem hb
      obtain ⟨p, hp, hid⟩ := hprop c hc _ (List.getElem_mem hb)
      obtain ⟨t, ht, rfl, x, hx, rfl⟩ := (hpsmem c hc p).1 (hG.members _ _ (List.getElem_mem hb) p hp)
      obtain ⟨_, g', hg', hp'⟩ := hBspec t ht x hx
      have := hG.disjoint (ps t.1) _ _ _ _ _ hg' hg hp' hp
      exact ⟨t.2.2, mem_steps.2 ⟨t, ht, rfl, (hMmem t ht b).2 ⟨x, hx, this⟩, rfl⟩⟩
  have hperm : ∀ c ∈ C, (ks c).Perm (List.range (m c)) := fun c hc => perm_range (hks c hc) (hkm' c hc)
  have hkl : ∀ c ∈ C, (ks c).length = m c := fun c hc => by
    have := (hperm c hc).length_eq
    rwa [List.length_range] at this
  have hem' : em = C.map fun c => (c, bmap (ks c) (W c)) := by
    rw [hem]
    exact List.map_congr_left fun c hc => by rw [hu c hc]
  have hBlt : ∀ t ∈ T, ∀ x ∈ Ob t.2.1, B t.1 x.1 < m t.1 := by
    intro t ht x hx
    obtain ⟨_, g, hg, _⟩ := hBspec t ht x hx
    by_contra hn
    rw [List.getElem?_eq_none (by simpa [hm] using hn)] at hg
    cases hg
  have hkB : ∀ t ∈ T, ∀ x ∈ Ob t.2.1, (ks t.1)[B t.1 x.1]? = some ((ks t.1).getD (B t.1 x.1) 0) := by
    intro t ht x hx
    have := hBlt t ht x hx
    rw [List.getD_eq_getElem?_getD, List.getElem?_eq_getElem (by rw [hkl _ ((hmemC _).2 ⟨t, ht, rfl⟩)]; exact this)]
    rfl
  have hsubOne : ∀ c ∈ C, OneOf T c → ∀ (i k : Nat), (ks c)[i]? = some k → ∀ v ∈ W c i, v ∈ W c k := by
    intro c hc ho i k hk v hv
    have hkmem := List.mem_of_getElem? hk
    have hi : i ∈ ks c := (hkm' c hc i).2 (by rw [← hkl c hc]; exact (List.getElem?_eq_some_iff.1 hk).1)
    obtain ⟨t, ht, htc, hb, rfl⟩ := mem_steps.1 ((hWm c hc i hi v).1 hv)
    obtain ⟨v', hv'⟩ := (hkm c hc k).1 hkmem
    obtain ⟨t', ht', htc', hb', hv2⟩ := mem_steps.1 hv'
    rw [hWm c hc k hkmem, mem_steps]
    rcases ho with ho | ho
    · exact ⟨t', ht', htc', hb', ho t' ht' t ht htc' htc⟩
    · exact ⟨t, ht, htc, by rw [← ho t' ht' t ht htc' htc]; exact hb', rfl⟩
  by_cases hall : ∀ t ∈ T, ∀ x ∈ Ob t.2.1, x.1.isId = false → t.2.2 ∈ W t.1 ((ks t.1).getD (B t.1 x.1) 0)
  swap
  · left
    push Not at hall
    obtain ⟨t, ht, x, hx, hxid, hno⟩ := hall
    have hc : t.1 ∈ C := (hmemC _).2 ⟨t, ht, rfl⟩
    refine ⟨_, em, hpr, hpre, ?_, fun ho => ?_⟩
    · unfold ppAll
      refine mapM_fails ⟨t, ht, ?_⟩
      rw [(hT t ht).2.1]
      dsimp only [Option.bind_eq_bind, Option.bind_some]
      rw [hlook _ hc]
      dsimp only [Option.bind_eq_bind, Option.bind_some]
      obtain ⟨i, hi⟩ := List.getElem?_of_mem hx
      obtain ⟨rest, h1, _⟩ := hMspec t ht
      refine ppLoop_none (Ob t.2.1) 0 [] i (B t.1 x.1) x hi hxid ?_ ?_
      · rw [h1, Nat.zero_add]
        exact get_append (by rw [List.getElem?_map, hi]; rfl)
      · rw [hem']
        exact (resIdx_spec (v := t.2.2) (W := W) (hkB t ht x hx) C hperm hc 0).2 hno
    · refine hno (hsubOne _ hc (ho t.1) _ _ (hkB t ht x hx) _ ?_)
      rw [hWm _ hc _ ((hkm' _ hc _).2 (hBlt t ht x hx)), mem_steps]
      exact ⟨t, ht, rfl, (hMmem t ht _).2 ⟨x, hx, rfl⟩, rfl⟩
  right
  have hbal : ∀ c ∈ C, Balanced (ks c) (W c) := by
    intro c hc
    refine balanced_of_subset (hperm c hc) (fun b hb => hW c hc b ((hkm' c hc b).2 hb)) ?_
    rcases hone c with ho | ho
    · exact hsubOne c hc ho
    · intro i k hk v hv
      have hi : i ∈ ks c := (hkm' c hc i).2 (by rw [← hkl c hc]; exact (List.getElem?_eq_some_iff.1 hk).1)
      obtain ⟨t, ht, rfl, hb, rfl⟩ := mem_steps.1 ((hWm c hc i hi v).1 hv)
      obtain ⟨x, hx, rfl⟩ := (hMmem t ht _).1 hb
      have := hall t ht x hx (ho t ht rfl x hx)
      have hk' := hkB t ht x hx
      rw [hk'] at hk
      rw [← Option.some.inj hk]
      exact this
  -- the experiments
  set L : List (Nat × Py.Pauli × List ℝ) := (flatL C m ks W).map fun l => (l.1, basisOf ((gs l.1).getD l.2.1 []), l.2.2) with hL
  have hflat : flatten circuits em (C.map fun c => (c, (gs c).map fun g => (prep (Q c) (basisOf g), basisOf g))) =
      some (L.map fun l => (prep (Q l.1) l.2.1, l.2.1), L.map fun l => (Q l.1).params.zip l.2.2) := by
    rw [flatten_spec (Q := Q) (ks := ks) (W := W)]
    · congr 1
      rw [hL, flatL, Prod.mk.injEq]
      simp only [List.map_flatMap, List.flatMap_map, List.map_map, List.length_map]
      have hlz : ∀ c ∈ C, (flatB (m c) (W c)).length = (flatV (ks c) (W c)).length := fun c hc => flat_length (hperm c hc) (W c)
      constructor
      · refine List.flatMap_congr fun c hc => ?_
        have e : flatB (gs c).length (W c) = ((flatB (m c) (W c)).zip (flatV (ks c) (W c))).map Prod.fst := (zip_fst _ _ (hlz c hc).symm).symm
        conv_lhs => rw [e, List.map_map]
        refine List.map_congr_left fun x hx => ?_
        have hxB : x.1 ∈ flatB (m c) (W c) := by
          rw [← zip_fst _ _ (hlz c hc).symm]; exact List.mem_map_of_mem hx
        have hb : x.1 < (gs c).length := by
          unfold flatB at hxB
          obtain ⟨b, hb, h⟩ := List.mem_flatMap.1 hxB
          obtain ⟨_, _, h⟩ := List.mem_map.1 h
          rw [← h]; exact List.mem_range.1 hb
        dsimp only [Function.comp]
        rw [List.getD_eq_getElem?_getD, List.getElem?_map, List.getElem?_eq_getElem hb, List.getD_eq_getElem?_getD, List.getElem?_eq_getElem hb]
        rfl
      · refine List.flatMap_congr fun c hc => ?_
        have e : flatV (ks c) (W c) = ((flatB (m c) (W c)).zip (flatV (ks c) (W c))).map Prod.snd := by
          rw [List.map_snd_zip]
          rw [hlz c hc]
        conv_lhs => rw [e]
        rw [List.map_map]
        rfl
    · intro x hx
      obtain ⟨c, hc, rfl⟩ := List.mem_map.1 hx
      obtain ⟨t, ht, rfl⟩ := (hmemC c).1 hc
      refine ⟨(hT t ht).1, ?_, hks _ hc, ?_⟩
      · rw [hem']; exact lookup_map_self C (fun c => bmap (ks c) (W c)) hc
      · intro b
        rw [hkm' _ hc, List.length_map]
  set J : Nat × Nat × List ℝ → Py.Pauli → Nat := fun t p => ((resIdx t.1 (B t.1 p) t.2.2 em 0).getD none).getD 0 with hJ
  have hJspec : ∀ t ∈ T, ∀ x ∈ Ob t.2.1, x.1.isId = false → resIdx t.1 (B t.1 x.1) t.2.2 em 0 = some (some (J t x.1)) ∧
      (flatL C m ks W)[J t x.1]? = some (t.1, B t.1 x.1, t.2.2) := by
    intro t ht x hx hxid
    have hc : t.1 ∈ C := (hmemC _).2 ⟨t, ht, rfl⟩
    obtain ⟨j, h1, b', h2, h3⟩ := (resIdx_spec (v := t.2.2) (W := W) (hkB t ht x hx) C hperm hc 0).1 (hall t ht x hx hxid)
    rw [h3 (hbal _ hc)] at h2
    rw [Nat.zero_add, ← hem'] at h1
    have : J t x.1 = j := by rw [hJ]; dsimp only; rw [h1]; rfl
    rw [this]
    exact ⟨h1, h2⟩
  have hJlt : ∀ t ∈ T, ∀ x ∈ Ob t.2.1, x.1.isId = false → J t x.1 < L.length := by
    intro t ht x hx hxid
    rw [hL, List.length_map]
    by_contra hn
    have := (hJspec t ht x hx hxid).2
    rw [List.getElem?_eq_none (by omega)] at this
    cases this
  have hpp : ∀ (E : Nat → Py.Pauli → ℝ), ∀ t ∈ T, ∃ pp, ppLoop t.1 t.2.2 (M t.1 t.2.1) em (Ob t.2.1) 0 [] = some pp ∧ (∀ x ∈ pp, PPok L.length x) ∧
      (pp.map (ppV E)).sum = ((Ob t.2.1).map fun x => if x.1.isId then x.2 else E (J t x.1) x.1 * x.2).sum := by
    intro E t ht
    obtain ⟨pp, h1, h2, h3⟩ := ppLoop_spec (E := E) (N := L.length) (c := t.1) (v := t.2.2) (bs := M t.1 t.2.1) (em := em) (J := J t) (Ob t.2.1) 0 []
      (by simp) (by
        intro i x hi hid
        have hx := List.mem_of_getElem? hi
        refine ⟨B t.1 x.1, ?_, (hJspec t ht x hx hid).1, hJlt t ht x hx hid⟩
        obtain ⟨rest, h1, _⟩ := hMspec t ht
        rw [h1, Nat.zero_add]
        exact get_append (by rw [List.getElem?_map, hi]; rfl))
    refine ⟨pp, h1, h2, ?_⟩
    rw [h3]; simp
  set g : Nat × Nat × List ℝ → PP := fun t => (ppLoop t.1 t.2.2 (M t.1 t.2.1) em (Ob t.2.1) 0 []).getD [] with hg
  have hgspec : ∀ t ∈ T, ppLoop t.1 t.2.2 (M t.1 t.2.1) em (Ob t.2.1) 0 [] = some (g t) := by
    intro t ht
    obtain ⟨pp, h1, _⟩ := hpp (fun _ _ => 0) t ht
    rw [hg]; dsimp only; rw [h1]; rfl
  refine ⟨_, em, T.map g, L, J, hpr, hpre, hflat, ?_, ?_, ?_, ?_, ?_⟩
  · unfold ppAll
    refine mapM_all fun t ht => ?_
    rw [(hT t ht).2.1]
    dsimp only [Option.bind_eq_bind, Option.bind_some]
    rw [hlook _ ((hmemC _).2 ⟨t, ht, rfl⟩)]
    exact hgspec t ht
  · obtain ⟨t, ht⟩ := List.exists_mem_of_ne_nil _ hne
    obtain ⟨t, ht, _, x, hx, hxid⟩ := hsome t ht
    have := hJlt t ht x hx hxid
    exact List.ne_nil_of_length_pos (by omega)
  · intro l hl
    rw [hL] at hl
    obtain ⟨a, ha, rfl⟩ := List.mem_map.1 hl
    unfold flatL at ha
    obtain ⟨c, hc, ha⟩ := List.mem_flatMap.1 ha
    obtain ⟨⟨b, v⟩, hbv, rfl⟩ := List.mem_map.1 ha
    obtain ⟨hb, hv⟩ := List.of_mem_zip hbv
    have hb : b < (gs c).length := by
      unfold flatB at hb
      obtain ⟨b', hb, h⟩ := List.mem_flatMap.1 hb
      obtain ⟨_, _, h⟩ := List.mem_map.1 h
      rw [← h]; exact List.mem_range.1 hb
    dsimp only
    have hmem : (gs c).getD b [] ∈ gs c := by
      rw [List.getD_eq_getElem?_getD, List.getElem?_eq_getElem hb]
      exact List.getElem_mem hb
    obtain ⟨h1, h2, h3, h4⟩ := hbase c hc _ hmem
    refine ⟨(hmemC c).1 hc, ?_, h1, h2, fun q hq => ?_⟩
    swap
    · obtain ⟨p, hp, hpq⟩ := h4 q hq
      obtain ⟨t, ht, he, x, hx, rfl⟩ := (hpsmem c hc p).1 (hG.members _ _ hmem p hp)
      exact ⟨t, ht, he, x, hx, hpq, fun q' hq' => by unfold Pauli.acts at hq' ⊢; rw [← h3 _ hp q' hq']; exact hq'⟩
    unfold flatV at hv
    obtain ⟨b', hb', hv⟩ := List.mem_flatMap.1 hv
    obtain ⟨t, ht, rfl, _, rfl⟩ := mem_steps.1 ((hWm c hc b' hb' v).1 hv)
    exact (hT t ht).2.2.1
  · intro run E hrun
    rw [List.mapM_map]
    refine mapM_all fun t ht => ?_
    obtain ⟨pp, h1, h2, h3⟩ := hpp E t ht
    have : g t = pp := by rw [hgspec t ht] at h1; exact Option.some.inj h1
    dsimp only [Function.comp]
    rw [this, hrun pp h2, h3]
  · intro t ht x hx hid
    have hc : t.1 ∈ C := (hmemC _).2 ⟨t, ht, rfl⟩
    obtain ⟨_, h2⟩ := hJspec t ht x hx hid
    obtain ⟨_, gr, hgr, hin⟩ := hBspec t ht x hx
    refine ⟨basisOf gr, ?_, ?_⟩
    · rw [hL, List.getElem?_map, h2, Option.map_some]
      dsimp only
      rw [List.getD_eq_getElem?_getD, hgr]
      rfl
    · exact (hbase _ hc gr (List.mem_of_getElem? hgr)).2.2.1 _ hin

/-! ## The call -/

theorem results_iff (keyss : List (List (List Bool))) (rs : List Result) : Finished (keyss.map Memory) (some (.done rs)) ↔
    rs.map (·.memory) = keyss.map some := by
  have h := congrFun (memories_each keyss) (some rs)
  constructor
  · rintro ⟨_, h1, h2⟩
    cases h1
    have : Memories keyss (some rs) := by rw [h]; exact ⟨_, rfl, h2⟩
    obtain ⟨_, h1, h2⟩ := this
    cases h1
    exact h2
  · intro h2
    have : Memories keyss (some rs) := ⟨_, rfl, h2⟩
    rw [h] at this
    obtain ⟨_, h1, h2⟩ := this
    cases h1
    exact ⟨_, rfl, h2⟩

open Classical in
theorem estFinish_meets {sqrt : ℝ → ℝ} {bases : List Py.Pauli} {pps : List PP} {keyss : List (List (List Bool))} {vs : List ℝ} (hk : keyss ≠ [])
    (hv : ∀ rs : List Result, rs.map (·.memory) = keyss.map some → pps.mapM (ppRun bases rs) = some vs) (j : Job) (h : Heap ℝ) :
    Meets sqrt (estFinish false bases pps j) h (Estimates keyss vs) (if Finished (keyss.map Memory) (some j) then 1 else 0) := by
  have hnone : ¬ Estimates keyss vs none := by rintro ⟨_, h, _⟩; cases h
  cases j with
  | failed =>
    rw [if_neg (by rintro ⟨_, h, _⟩; cases h)]
    unfold estFinish
    have : ∀ ws, ¬ Estimates keyss vs (some ((Job.failed).results, ws)) := by
      rintro ws ⟨rs, h1, h2⟩
      cases h1
      have := congrArg List.length h2
      simp [Job.results] at this
      exact hk (List.eq_nil_of_length_eq_zero this.symm)
    split
    · exact ⟨trivial, trivial, by rw [prob, if_neg (this _)]⟩
    · exact ⟨trivial, trivial, by rw [prob, if_neg hnone]⟩
  | done rs =>
    rw [results_iff]
    unfold estFinish
    by_cases hm : rs.map (·.memory) = keyss.map some
    · have := hv rs hm
      have hr : (Job.done rs).results = rs := rfl
      have this : pps.mapM (ppMode false bases rs) = some vs := this
      rw [hr, this, if_pos hm]
      exact ⟨trivial, trivial, by rw [prob, if_pos ⟨rs, rfl, hm⟩]⟩
    · rw [if_neg hm]
      have : ∀ ws, ¬ Estimates keyss vs (some ((Job.done rs).results, ws)) := by
        rintro ws ⟨rs', h1, h2⟩
        have h3 := congrArg Prod.fst (Option.some.inj h1)
        have h3 : rs = rs' := h3
        subst h3
        exact hm h2
      split
      · exact ⟨trivial, trivial, by rw [prob, if_neg (this _)]⟩
      · exact ⟨trivial, trivial, by rw [prob, if_neg hnone]⟩

/-- The job of a call: its experiments `L` (circuit, basis, values) and its values `V`. -/
theorem est_yields (hR : Hist cfg thr thrM cs h σ os) (hsq : ∀ x, 0 ≤ x → cfg.sqrt x * cfg.sqrt x = x) (hQ : QiskitE h.ms key prep P)
    {Q : Nat → PCirc} {L : List (Nat × Py.Pauli × List ℝ)} (e5 : L ≠ []) (hPL : ∀ l ∈ L, P (Q l.1))
    (e6 : ∀ l ∈ L, l.2.2.length = (Q l.1).params.length ∧ l.2.1.length = ((Q l.1).at_ fun _ => 0).nq ∧ ∃ q, l.2.1.acts q = true)
    {circuits : List PCirc} {tab : List Observ} {pr : Prepared} {T : List (Nat × Nat × List ℝ)} {em : List (Nat × BMap)} {pps : List PP}
    (e2 : preLoop circuits pr.maps T [] = some em)
    (e3 : flatten circuits em pr.exps = some (L.map fun l => (prep (Q l.1) l.2.1, l.2.1), L.map fun l => (Q l.1).params.zip l.2.2))
    (e4 : ppAll tab pr.maps em T = some pps) {V : List (List (List Bool)) → List ℝ}
    (e7 : ∀ (keyss : List (List (List Bool))) (rs : List Result), keyss.length = L.length → rs.map Result.memory = keyss.map some →
        pps.mapM (ppRun (L.map fun l => l.2.1) rs) = some (V keyss))
    {shots : Shots} {others : List String} {N : Nat}
    (hN : ((shots = .absent ∨ shots = .none) ∧ N = 1024) ∨ (shots = .int N ∧ 0 < N ∧ N ≤ 10 ^ 6)) :
    (∀ c ∈ L.map fun l => Py.combine (PCirc.withValues (Q l.1) l.2.2) l.2.1, ∑ k ∈ allKeys c.nc, c.prob k = 1) ∧
    ∀ keyss : List (List (List Bool)), keyss.length = L.length → (∀ k ∈ keyss, k.length = N) →
      Yields cfg (estCall circuits tab pr T shots others) σ (Estimates keyss (V keyss))
        ((List.zipWith (fun c keys => (keys.map (Circ.prob c)).prod) (L.map fun l => Py.combine (PCirc.withValues (Q l.1) l.2.2) l.2.1) keyss).prod) := by
  classical
  -- the experiments
  set E : List Circ := L.map fun l => Py.combine (PCirc.withValues (Q l.1) l.2.2) l.2.1 with hE
  set bcs : List Circ := L.map fun l => (prep (Q l.1) l.2.1).at_ fun k => (((Q l.1).params.zip l.2.2).lookup k).getD 0 with hbcs
  have hEsum : ∀ c ∈ E, ∑ k ∈ allKeys c.nc, c.prob k = 1 := by
    intro c hc
    rw [hE] at hc
    obtain ⟨l, hl, rfl⟩ := List.mem_map.1 hc
    obtain ⟨_, hb, _⟩ := e6 l hl
    have hg := hQ.gates _ (hPL l hl) (fun k => (((Q l.1).params.zip l.2.2).lookup k).getD 0)
    exact sum_prob (c := PCirc.withValues (Q l.1) l.2.2) hg.1 hg.2.1 (hb.trans hg.2.2.symm)
  have hEl : E.length = L.length := by rw [hE, List.length_map]
  have hbl : bcs.length = L.length := by rw [hbcs, List.length_map]
  have hprep' : ∀ l ∈ L, (prep (Q l.1) l.2.1).params = (Q l.1).params ∧ (∀ v k, ((prep (Q l.1) l.2.1).at_ v).prob k = (Py.combine ((Q l.1).at_ v) l.2.1).prob k) ∧
      Runnable h.ms (prep (Q l.1) l.2.1) := by
    intro l hl
    obtain ⟨_, hb, hq⟩ := e6 l hl
    exact hQ.prep _ _ (hPL l hl) hb hq
  have hN0 : 0 < N := by rcases hN with ⟨_, h⟩ | ⟨_, h, _⟩ <;> omega
  refine ⟨hEsum, ?_⟩
  · intro keyss hk hkN
    have hcall : estCall circuits tab pr T shots others = (runJob (L.map fun l => prep (Q l.1) l.2.1)
        ⟨estShots shots, if (L.map fun l => (Q l.1).params.zip l.2.2).any (· ≠ []) then some (L.map fun l => (Q l.1).params.zip l.2.2) else none, others, false, none⟩).bind'
        (estFinish false (L.map fun l => l.2.1) pps) := by
      unfold estCall
      rw [e2]
      dsimp only
      rw [e3, e4]
      dsimp only
      rw [if_neg (by simpa using e5), List.map_map, List.map_map]
      rfl
    rw [hcall]
    have hb : bound (L.map fun l => prep (Q l.1) l.2.1) (if (L.map fun l => (Q l.1).params.zip l.2.2).any (· ≠ []) then some (L.map fun l => (Q l.1).params.zip l.2.2) else none)
        = some bcs := by
      split
      · unfold bound
        dsimp only
        rw [List.zip_map', List.mapM_map]
        refine mapM_all fun l hl => ?_
        dsimp only [Function.comp]
        unfold assign
        rw [if_pos]
        rw [zip_fst _ _ (e6 l hl).1, (hprep' l hl).1]
        exact ⟨fun k hk => hk, fun k hk => hk⟩
      · next hany =>
        unfold bound
        dsimp only
        rw [List.mapM_map]
        refine mapM_all fun l hl => ?_
        have hz : (Q l.1).params.zip l.2.2 = [] := by
          by_contra h0
          exact hany (List.any_eq_true.2 ⟨_, List.mem_map_of_mem hl, by simpa using h0⟩)
        dsimp only [Function.comp]
        unfold assign
        rw [if_pos, hz]
        have := zip_fst _ _ (e6 l hl).1
        rw [hz] at this
        rw [(hprep' l hl).1, ← this]
        simp
    have hprob : List.zipWith (fun c keys => (keys.map (Circ.prob c)).prod) bcs keyss =
        List.zipWith (fun c keys => (keys.map (Circ.prob c)).prod) E keyss := by
      apply List.ext_getElem
      · simp [hbl, hEl]
      · intro i a b
        simp only [List.getElem_zipWith, hbcs, hE, List.getElem_map]
        congr 1
        refine List.map_congr_left fun k _ => ?_
        have hi : i < L.length := by simp [hbl] at a; omega
        rw [(hprep' _ (List.getElem_mem hi)).2.1]
        rfl
    rw [← hprob]
    have hv' : (estShots shots).valid := by
      rcases hN with ⟨h | h, _⟩ | ⟨h, h1, h2⟩ <;> rw [h]
      · exact ⟨by omega, by unfold maxShots; omega⟩
      · exact ⟨by omega, by unfold maxShots; omega⟩
      · exact ⟨by omega, by unfold maxShots; omega⟩
    have hval : (estShots shots).value = some (some N) := by
      rcases hN with ⟨h | h, h1⟩ | ⟨h, h1, h2⟩ <;> rw [h]
      · rw [h1]; rfl
      · rw [h1]; rfl
      · simp [estShots, Shots.value]
    have hgood : ∀ c ∈ bcs, Supported h.ms c ∧ ((classify c).stable = true → ∀ x ∈ c.data, x.op = .measure → x.cond = none) ∧
        ∃ x ∈ c.data, x.op = .measure := by
      intro c hc
      rw [hbcs] at hc
      obtain ⟨l, hl, rfl⟩ := List.mem_map.1 hc
      have := (hprep' l hl).2.2
      exact ⟨this.supported _, this.plain _, this.measured _⟩
    have hmeas : ∀ c ∈ bcs, (propLoop c.data ⟨true, [], []⟩).measured ≠ [] := by
      intro c hcc h0
      have hwf : ∀ x ∈ c.data, x.op = .measure → x.qargs ≠ [] := by
        intro x hx hop h'
        have := ((hgood c hcc).1.fine x hx).arity
        rw [hop, h'] at this
        simp [Op.arity] at this
      obtain ⟨x, hx, hop⟩ := (hgood c hcc).2.2
      exact (measured_iff hwf).1 h0 x hx hop
    have hjob := runJob_meets (sqrt := cfg.sqrt) (ms := h.ms) (ps := L.map fun l => prep (Q l.1) l.2.1)
      (o := ⟨estShots shots, if (L.map fun l => (Q l.1).params.zip l.2.2).any (· ≠ []) then some (L.map fun l => (Q l.1).params.zip l.2.2) else none, others, false, none⟩)
      hv' hval hb (fun c hcc => ⟨(hgood c hcc).1.lim, .inr (hmeas c hcc)⟩) (keyss.map Memory)
      (List.zipWith (fun c keys => (keys.map (Circ.prob c)).prod) bcs keyss) (by simp [hk, hbl, hEl]) (by simp [hk, hbl, hEl]) (by
        intro i h1 h2 h3
        have hi : i < keyss.length := by simpa using h2
        have hmem := List.getElem_mem h1
        simp only [List.getElem_map, List.getElem_zipWith]
        refine ⟨(by rintro ⟨_, h, _⟩; cases h), fun h' hh' => ?_⟩
        have hl := hkN _ (List.getElem_mem hi)
        exact run_meets hsq (hgood _ hmem).1 (hgood _ hmem).2.1 (by rw [hl]) (by intro h0; rw [h0] at hl; simp at hl; omega)
          (.inr (hmeas _ hmem)) (fun hs => by cases hs) hh') h ⟨[], by simp⟩
    refine Meets.yields hR ?_
    have hkne : keyss ≠ [] := by
      apply List.ne_nil_of_length_pos
      rw [hk]
      exact List.length_pos_of_ne_nil e5
    have := bind_meets_ends (sqrt := cfg.sqrt) (ms := h.ms) (T1 := Finished (keyss.map Memory))
      (T := Estimates keyss (V keyss)) (y := 1)
      (f := estFinish false (L.map fun l => l.2.1) pps) (by rintro ⟨_, h, _⟩; cases h) (by rintro ⟨_, h, _⟩; cases h)
      (fun j hj h' _ => estFinish_meets hkne (fun rs hrs => e7 keyss rs hk hrs) j h')
      _ (runJob_ends _ _) (Keeps.runJob _ _) h ⟨[], by simp⟩ ⟨hjob.1, hjob.2.1⟩
    refine cast (congrArg _ ?_) this
    rw [hjob.2.2, mul_one]

/-- The circuit of entry `a` occurs with one list of parameter values only, or with one observable only. -/
def Plain (key : PCirc → Key) (calls : List (PCirc × Observ × List ℝ)) (a : PCirc × Observ × List ℝ) : Prop :=
  (∀ b ∈ calls, key b.1 = key a.1 → b.2.2 = a.2.2) ∨ (∀ b ∈ calls, key b.1 = key a.1 → b.2.1 = a.2.1)

/-- The call `r` returns one value per entry, in order; the values are functions `V` of the memories of some experiments
`E`, these are distributed as `N` independent executions of each experiment, and the mean of value `i` is the
expectation value of observable `i` in the final state of circuit `i` with parameter values `i`; its mean squared error is at most
`(∑ |coefficients|)^2 / N`. -/
def Unbiased (cfg : Cfg ℝ) (σ : Sys ℝ) (N : Nat) (calls : List (PCirc × Observ × List ℝ)) (r : Client (List Result × List ℝ)) : Prop :=
  ∃ (E : List Circ) (V : List (List (List Bool)) → List ℝ), Mean E N (fun _ => 1) = 1 ∧
    (∀ keyss : List (List (List Bool)), keyss.length = E.length → (∀ k ∈ keyss, k.length = N) → (V keyss).length = calls.length ∧
      Yields cfg r σ (Estimates keyss (V keyss)) ((List.zipWith (fun c keys => (keys.map (Circ.prob c)).prod) E keyss).prod)) ∧
    (∀ (i : Nat) (hi : i < calls.length), Mean E N (fun keyss => (V keyss).getD i 0) = energy calls[i].2.1 (PCirc.withValues calls[i].1 calls[i].2.2)) ∧
    ∀ (i : Nat) (hi : i < calls.length), Mean E N (fun keyss => ((V keyss).getD i 0 - energy calls[i].2.1 (PCirc.withValues calls[i].1 calls[i].2.2)) ^ 2) ≤
      (calls[i].2.1.map fun x => |x.2|).sum ^ 2 / N

/-- What a call (`ap`: in approximation mode) comes to: an exception, or experiments `L` (circuit, basis, values) and for
each entry `i` and term `p` an experiment `J i p` of that circuit and these values whose basis measures `p`. -/
theorem est_calls {ms : List (Mat ℝ)} (hQ : QiskitE ms key prep P) (hG : Grouping groups) {s : Est Key} (hs : EReach key groups prep P s)
    {calls : List (PCirc × Observ × List ℝ)} (hne : calls ≠ []) (hP : ∀ a ∈ calls, P a.1)
    (hv : ∀ a ∈ calls, a.2.2.length = a.1.params.length)
    (hobs : ∀ a ∈ calls, a.2.1 ≠ [] ∧ ∀ x ∈ a.2.1, x.1.length = (PCirc.withValues a.1 a.2.2).nq)
    (hone : ∀ a ∈ calls, Plain key calls a ∨ ∀ b ∈ calls, key b.1 = key a.1 → ∀ x ∈ b.2.1, x.1.isId = false)
    (hid : ∀ a ∈ calls, ∃ b ∈ calls, key b.1 = key a.1 ∧ ∃ x ∈ b.2.1, x.1.isId = false)
    {shots : Shots} {others : List String} {ap : Bool} :
    ((estRun key groups prep s (calls.map fun a => a.1) (calls.map fun a => a.2.1) (calls.map fun a => a.2.2) shots others ap).2 = .raise ∧
      ¬ ∀ a ∈ calls, Plain key calls a) ∨
    ∃ circuits tab pr T em pps, ∃ Q : Nat → PCirc, ∃ L : List (Nat × Py.Pauli × List ℝ), ∃ J : Nat → Py.Pauli → Nat,
      (estRun key groups prep s (calls.map fun a => a.1) (calls.map fun a => a.2.1) (calls.map fun a => a.2.2) shots others ap).2 =
        estCall circuits tab pr T shots others ap ∧
      preLoop circuits pr.maps T [] = some em ∧
      flatten circuits em pr.exps = some (L.map fun l => (prep (Q l.1) l.2.1, l.2.1), L.map fun l => (Q l.1).params.zip l.2.2) ∧
      ppAll tab pr.maps em T = some pps ∧ L ≠ [] ∧ (∀ l ∈ L, P (Q l.1)) ∧
      (∀ l ∈ L, l.2.2.length = (Q l.1).params.length ∧ l.2.1.length = ((Q l.1).at_ fun _ => 0).nq ∧ (∃ q, l.2.1.acts q = true) ∧
        ∀ q, l.2.1.acts q = true → ∃ a ∈ calls, ∃ x ∈ a.2.1, x.1.acts q = true ∧ ∀ q', x.1.acts q' = true → l.2.1.acts q' = true) ∧
      (∀ (run : PP → Option ℝ) (E : Nat → Py.Pauli → ℝ), (∀ pp : PP, (∀ x ∈ pp, PPok L.length x) → run pp = some (pp.map (ppV E)).sum) →
        pps.mapM run = some (calls.mapIdx fun i a => (a.2.1.map fun x => if x.1.isId then x.2 else E (J i x.1) x.1 * x.2).sum)) ∧
      ∀ (i : Nat) (hi : i < calls.length), ∀ x ∈ calls[i].2.1, x.1.isId = false → ∃ c b, L[J i x.1]? = some (c, b, calls[i].2.2) ∧
        (∀ q, x.1.acts q = true → x.1.on q = b.on q) ∧ (Q c).params = calls[i].1.params ∧
        ∀ v, ((Q c).at_ v).nq = (calls[i].1.at_ v).nq ∧ ((Q c).at_ v).data = (calls[i].1.at_ v).data := by
  classical
  have hi := EReach.inv hs
  have hP' : ∀ p ∈ calls.map (fun a => a.1), P p := by
    intro p hp; obtain ⟨a, ha, rfl⟩ := List.mem_map.1 hp; exact hP a ha
  obtain ⟨h1, h2, h3⟩ := register_spec (calls.map fun a => a.1) s.base hi.base hP'
  obtain ⟨g1, g2, g3⟩ := regObs_spec (calls.map fun a => a.2.1) s.obs
  have g3 := g3 hi.obs
  have hprep := fun pr => estRun_prepared (pr := pr) hs hP' (os := calls.map fun a => a.2.1) (vals := calls.map fun a => a.2.2) (sh := shots) (ot := others) (ap := ap)
  generalize register key (calls.map fun a => a.1) s.base = r at *
  obtain ⟨s1, idx⟩ := r
  generalize regObs (calls.map fun a => a.2.1) s.obs = r at *
  obtain ⟨tab, oidx⟩ := r
  dsimp only at *
  have hli : idx.length = calls.length := by have := h3.length_eq; simp at this; omega
  have hlo : oidx.length = calls.length := by have := g2.length_eq; simp at this; omega
  set Q : Nat → PCirc := fun i => (s1.circuits[i]?).getD ⟨[], fun _ => ⟨0, 0, 0, []⟩⟩ with hQdef
  set Ob : Nat → Observ := fun i => (tab[i]?).getD [] with hObdef
  set T : List (Nat × Nat × List ℝ) := idx.zip (oidx.zip (calls.map fun a => a.2.2)) with hTdef
  have hTl : T.length = calls.length := by rw [hTdef]; simp; omega
  have hTget : ∀ (i : Nat) (hi : i < calls.length), T[i]'(by omega) = (idx[i]'(by omega), oidx[i]'(by omega), calls[i].2.2) := by
    intro i hi; simp [hTdef]
  have hQi : ∀ (i : Nat) (hi : i < calls.length), s1.circuits[idx[i]'(by omega)]? = some (Q (idx[i]'(by omega))) ∧ key (Q (idx[i]'(by omega))) = key calls[i].1 ∧
      P (Q (idx[i]'(by omega))) := by
    intro i hi
    obtain ⟨q, hq, hk⟩ := forall2_get h3 i (by simpa using hi) (by omega)
    have : Q (idx[i]'(by omega)) = q := by rw [hQdef]; dsimp only; rw [hq]; rfl
    rw [this]
    refine ⟨hq, by simpa using hk, h1.good q (List.mem_of_getElem? hq)⟩
  have hOi : ∀ (i : Nat) (hi : i < calls.length), tab[oidx[i]'(by omega)]? = some calls[i].2.1 ∧ Ob (oidx[i]'(by omega)) = calls[i].2.1 := by
    intro i hi
    have := forall2_get g2 i (by simpa using hi) (by omega)
    have e : tab[oidx[i]'(by omega)]? = some calls[i].2.1 := by simpa using this
    exact ⟨e, by rw [hObdef]; dsimp only; rw [e]; rfl⟩
  have hkeyIdx : ∀ (i j : Nat) (hi : i < calls.length) (hj : j < calls.length), idx[i]'(by omega) = idx[j]'(by omega) ↔ key calls[i].1 = key calls[j].1 := by
    intro i j hi hj
    constructor
    · intro h; rw [← (hQi i hi).2.1, ← (hQi j hj).2.1, h]
    · intro h
      have a := h1.inv _ _ (hQi i hi).1
      have b := h1.inv _ _ (hQi j hj).1
      rw [(hQi i hi).2.1, h, ← (hQi j hj).2.1, b] at a
      exact (Option.some.inj a).symm
  have hobsIdx : ∀ (i j : Nat) (hi : i < calls.length) (hj : j < calls.length), calls[i].2.1 = calls[j].2.1 → oidx[i]'(by omega) = oidx[j]'(by omega) := by
    intro i j hi hj h
    have a := (hOi i hi).1
    have b := (hOi j hj).1
    rw [h] at a
    obtain ⟨a1, a2⟩ := List.getElem?_eq_some_iff.1 a
    obtain ⟨b1, b2⟩ := List.getElem?_eq_some_iff.1 b
    exact (List.Nodup.getElem_inj_iff g3).1 (a2.trans b2.symm)
  have hmemT : ∀ t ∈ T, ∃ (i : Nat) (hi : i < calls.length), t = (idx[i]'(by omega), oidx[i]'(by omega), calls[i].2.2) := by
    intro t ht
    obtain ⟨i, hi, rfl⟩ := List.getElem_of_mem ht
    exact ⟨i, by omega, hTget i (by omega)⟩
  have hTmem : ∀ (i : Nat) (hi : i < calls.length), (idx[i]'(by omega), oidx[i]'(by omega), calls[i].2.2) ∈ T := by
    intro i hi; rw [← hTget i hi]; exact List.getElem_mem _
  have hsame : ∀ (i : Nat) (hi : i < calls.length), (Q (idx[i]'(by omega))).params = calls[i].1.params ∧ ∀ v, ((Q (idx[i]'(by omega))).at_ v).nq = (calls[i].1.at_ v).nq ∧
      ((Q (idx[i]'(by omega))).at_ v).data = (calls[i].1.at_ v).data := fun i hi =>
    hQ.key _ _ (hQi i hi).2.2 (hP _ (List.getElem_mem hi)) (hQi i hi).2.1
  have hnq : ∀ (i : Nat) (hi : i < calls.length) v, (calls[i].1.at_ v).nq = ((Q (idx[i]'(by omega))).at_ fun _ => 0).nq := by
    intro i hi v
    rw [← ((hsame i hi).2 v).1]
    exact (hQ.gates _ (hQi i hi).2.2 v).2.2
  have hsub : ∀ (i : Nat) (hi : i < calls.length), ∀ t ∈ T, t.1 = idx[i]'(by omega) → ∃ (j : Nat) (hj : j < calls.length), t = (idx[j]'(by omega), oidx[j]'(by omega), calls[j].2.2) ∧
      key calls[j].1 = key calls[i].1 := by
    intro i hi t ht he
    obtain ⟨j, hj, rfl⟩ := hmemT t ht
    exact ⟨j, hj, rfl, (hkeyIdx j i hj hi).1 he⟩
  have hplain : ∀ (i : Nat) (hi : i < calls.length), Plain key calls calls[i] → OneOf T (idx[i]'(by omega)) := by
    intro i hi ho
    rcases ho with ho | ho
    · refine .inl fun t ht t' ht' h h' => ?_
      obtain ⟨j, hj, rfl, hk⟩ := hsub i hi t ht h
      obtain ⟨j', hj', rfl, hk'⟩ := hsub i hi t' ht' h'
      exact (ho _ (List.getElem_mem hj) hk).trans (ho _ (List.getElem_mem hj') hk').symm
    · refine .inr fun t ht t' ht' h h' => ?_
      obtain ⟨j, hj, rfl, hk⟩ := hsub i hi t ht h
      obtain ⟨j', hj', rfl, hk'⟩ := hsub i hi t' ht' h'
      exact hobsIdx j j' hj hj' ((ho _ (List.getElem_mem hj) hk).trans (ho _ (List.getElem_mem hj') hk').symm)
  have hvac : ∀ c, (¬ ∃ t ∈ T, t.1 = c) → OneOf T c := fun c hc => .inl fun t ht t' ht' h => absurd ⟨t, ht, h⟩ hc
  have hz1 : T.map Prod.fst = idx := by rw [hTdef]; exact zip_fst _ _ (by simp; omega)
  have hz2 : T.map (fun t => t.2.1) = oidx := by
    apply List.ext_getElem
    · simp; omega
    · intro i a b
      rw [List.getElem_map, hTget i (by simp at a; omega)]
  rcases est_book (prep := prep) hG (circuits := s1.circuits) (obs := tab) (Q := Q) (Ob := Ob)
    (nq := fun c => ((Q c).at_ fun _ => 0).nq) (T := T) (List.ne_nil_of_length_pos (by rw [hTl]; exact List.length_pos_of_ne_nil hne)) (by
      intro t ht
      obtain ⟨i, hi, rfl⟩ := hmemT t ht
      dsimp only
      have hm := List.getElem_mem hi
      refine ⟨(hQi i hi).1, by rw [(hOi i hi).2]; exact (hOi i hi).1, by rw [(hsame i hi).1]; exact hv _ hm, ?_, ?_⟩
      · rw [(hOi i hi).2]; exact (hobs _ hm).1
      · rw [(hOi i hi).2]
        intro x hx
        rw [(hobs _ hm).2 x hx]
        exact hnq i hi _) (by
      intro c
      by_cases hc : ∃ t ∈ T, t.1 = c
      · obtain ⟨t, ht, rfl⟩ := hc
        obtain ⟨i, hi, rfl⟩ := hmemT t ht
        rcases hone _ (List.getElem_mem hi) with ho | ho
        · exact .inl (hplain i hi ho)
        · refine .inr fun t ht h x hx => ?_
          obtain ⟨j, hj, rfl, hk⟩ := hsub i hi t ht h
          dsimp only at hx
          rw [(hOi j hj).2] at hx
          exact ho _ (List.getElem_mem hj) hk x hx
      · exact .inl (hvac c hc)) (by
      intro t ht
      obtain ⟨i, hi, rfl⟩ := hmemT t ht
      obtain ⟨b, hb, hk, x, hx, hxid⟩ := hid _ (List.getElem_mem hi)
      obtain ⟨j, hj, rfl⟩ := List.getElem_of_mem hb
      refine ⟨_, hTmem j hj, (hkeyIdx j i hj hi).2 hk, x, ?_, hxid⟩
      dsimp only
      rw [(hOi j hj).2]
      exact hx) with ⟨pr, em, e1, e2, e3, e4⟩ | ⟨pr, em, pps, L, J, e1, e2, e3, e4, e5, e6, e7, e8⟩
  · left
    rw [hz1, hz2] at e1
    rw [hprep _ e1]
    refine ⟨?_, fun hall => e4 fun c => ?_⟩
    · unfold estCall
      rw [e2]
      dsimp only
      rw [e3]
      cases flatten s1.circuits em pr.exps <;> rfl
    · by_cases hc : ∃ t ∈ T, t.1 = c
      · obtain ⟨t, ht, rfl⟩ := hc
        obtain ⟨i, hi, rfl⟩ := hmemT t ht
        exact hplain i hi (hall _ (List.getElem_mem hi))
      · exact hvac c hc
  right
  rw [hz1, hz2] at e1
  refine ⟨s1.circuits, tab, pr, T, em, pps, Q, L, fun i p => J (T.getD i (0, 0, [])) p, hprep _ e1, e2, e3, e4, e5, ?_, ?_, ?_, ?_⟩
  · intro l hl
    obtain ⟨⟨t, ht, he⟩, _⟩ := e6 l hl
    obtain ⟨i, hi, rfl⟩ := hmemT t ht
    rw [← he]
    exact (hQi i hi).2.2
  · intro l hl
    obtain ⟨_, h1, h2, h3, h4⟩ := e6 l hl
    refine ⟨h1, h2, h3, fun q hq => ?_⟩
    obtain ⟨t, ht, _, x, hx, h5⟩ := h4 q hq
    obtain ⟨i, hi, rfl⟩ := hmemT t ht
    dsimp only at hx
    rw [(hOi i hi).2] at hx
    exact ⟨_, List.getElem_mem hi, x, hx, h5⟩
  · intro run E hrun
    rw [e7 run E hrun]
    congr 1
    apply List.ext_getElem
    · simp [hTl]
    · intro i a b
      have hi : i < calls.length := by simpa using b
      have hT' : T.getD i (0, 0, []) = (idx[i]'(by omega), oidx[i]'(by omega), calls[i].2.2) := by
        rw [List.getD_eq_getElem?_getD, List.getElem?_eq_getElem (by omega), Option.getD_some, hTget i hi]
      rw [List.getElem_map, List.getElem_mapIdx, hTget i hi]
      simp only [hT', (hOi i hi).2]
  · intro i hi x hx hxid
    obtain ⟨b, hb1, hb2⟩ := e8 _ (hTmem i hi) x (by rw [(hOi i hi).2]; exact hx) hxid
    refine ⟨_, b, ?_, hb2, (hsame i hi).1, (hsame i hi).2⟩
    have hT' : T.getD i (0, 0, []) = (idx[i]'(by omega), oidx[i]'(by omega), calls[i].2.2) := by
      rw [List.getD_eq_getElem?_getD, List.getElem?_eq_getElem (by omega), Option.getD_some, hTget i hi]
    dsimp only
    rw [hT']
    exact hb1

/-- After any history of the engine and any calls of the estimator, a call is right or raises an exception (which it does
not if every circuit occurs with one list of values or one observable), unless an observable with an identity term is
among several observables of a circuit with several lists of values. -/
theorem C48_right_or_raises (hR : Hist cfg thr thrM cs h σ os) (hsq : ∀ x, 0 ≤ x → cfg.sqrt x * cfg.sqrt x = x)
    (hQ : QiskitE h.ms key prep P) (hG : Grouping groups) {s : Est Key} (hs : EReach key groups prep P s)
    {calls : List (PCirc × Observ × List ℝ)} (hne : calls ≠ []) (hP : ∀ a ∈ calls, P a.1)
    (hv : ∀ a ∈ calls, a.2.2.length = a.1.params.length)
    (hobs : ∀ a ∈ calls, a.2.1 ≠ [] ∧ ∀ x ∈ a.2.1, x.1.length = (PCirc.withValues a.1 a.2.2).nq)
    (hone : ∀ a ∈ calls, Plain key calls a ∨ ∀ b ∈ calls, key b.1 = key a.1 → ∀ x ∈ b.2.1, x.1.isId = false)
    (hid : ∀ a ∈ calls, ∃ b ∈ calls, key b.1 = key a.1 ∧ ∃ x ∈ b.2.1, x.1.isId = false)
    {shots : Shots} {others : List String} {N : Nat}
    (hN : ((shots = .absent ∨ shots = .none) ∧ N = 1024) ∨ (shots = .int N ∧ 0 < N ∧ N ≤ 10 ^ 6)) :
    ((estRun key groups prep s (calls.map fun a => a.1) (calls.map fun a => a.2.1) (calls.map fun a => a.2.2) shots others).2 = .raise ∧
      ¬ ∀ a ∈ calls, Plain key calls a) ∨
    Unbiased cfg σ N calls (estRun key groups prep s (calls.map fun a => a.1) (calls.map fun a => a.2.1) (calls.map fun a => a.2.2) shots others).2 := by
  classical
  rcases est_calls hQ hG hs hne hP hv hobs hone hid (shots := shots) (others := others) (ap := false) with h | ⟨circuits, tab, pr, T, em, pps, Q, L, J, hrun, e2, e3, e4, e5, hPL, e6, e7, e8⟩
  · exact .inl h
  right
  rw [hrun]
  -- the experiments
  set E : List Circ := L.map fun l => Py.combine (PCirc.withValues (Q l.1) l.2.2) l.2.1 with hE
  have hEl : E.length = L.length := by rw [hE, List.length_map]
  have hN0 : 0 < N := by rcases hN with ⟨_, h⟩ | ⟨_, h, _⟩ <;> omega
  obtain ⟨hEsum, hyields⟩ := est_yields hR hsq hQ e5 hPL (fun l hl => ⟨(e6 l hl).1, (e6 l hl).2.1, (e6 l hl).2.2.1⟩) e2 e3 e4
    (fun keyss rs hkl hrs => e7 _ _ fun pp hok => ppRun_spec hkl hrs (by rw [List.length_map]) hok) (others := others) hN
  refine ⟨E, fun keyss => calls.mapIdx fun i a => (a.2.1.map fun x => if x.1.isId then x.2 else
          expvalOf ((L.map fun l => l.2.1).getD (J i x.1) []) x.1 (keyss.getD (J i x.1) []) * x.2).sum, Mean_one hEsum, ?_, ?_⟩
  · intro keyss hk hkN
    exact ⟨by rw [List.length_mapIdx], hyields keyss (by rw [hk, hEl]) hkN⟩
  have hval : ∀ (i : Nat) (hi : i < calls.length) (keyss : List (List (List Bool))), (calls.mapIdx fun i a => (a.2.1.map fun x => if x.1.isId then x.2 else
        expvalOf ((L.map fun l => l.2.1).getD (J i x.1) []) x.1 (keyss.getD (J i x.1) []) * x.2).sum).getD i 0 =
      (calls[i].2.1.map fun x => if x.1.isId then x.2 else
        expvalOf ((L.map fun l => l.2.1).getD (J i x.1) []) x.1 (keyss.getD (J i x.1) []) * x.2).sum := by
    intro i hi keyss
    rw [List.getD_eq_getElem?_getD, List.getElem?_mapIdx, List.getElem?_eq_getElem (by omega), Option.map_some, Option.getD_some]
  have hidv : ∀ (i : Nat) (hi : i < calls.length), ∀ x ∈ calls[i].2.1, x.1.isId = true →
      expVal (PCirc.withValues calls[i].1 calls[i].2.2).nq x.1 (evol (PCirc.withValues calls[i].1 calls[i].2.2).nq
        (PCirc.withValues calls[i].1 calls[i].2.2).data zeroState) = 1 := by
    intro i hi x hx hxid
    have hxl := (hobs _ (List.getElem_mem hi)).2 x hx
    have hgate := hQ.gates _ (hP _ (List.getElem_mem hi)) (fun k => ((calls[i].1.params.zip calls[i].2.2).lookup k).getD 0)
    exact expVal_id (c := PCirc.withValues calls[i].1 calls[i].2.2) hgate.1 hgate.2.1 hxl hxid
  have hterm : ∀ (i : Nat) (hi : i < calls.length), ∀ x ∈ calls[i].2.1, x.1.isId = false → ∃ (j : Nat) (hj : j < E.length) (b : Py.Pauli),
      (∀ keyss : List (List (List Bool)), expvalOf ((L.map fun l => l.2.1).getD (J i x.1) []) x.1 (keyss.getD (J i x.1) []) =
        ((keyss.getD j []).map (sgn x.1 b)).sum / ((keyss.getD j []).length : ℝ)) ∧
      ∑ k ∈ allKeys E[j].nc, E[j].prob k * sgn x.1 b k =
        expVal (PCirc.withValues calls[i].1 calls[i].2.2).nq x.1 (evol (PCirc.withValues calls[i].1 calls[i].2.2).nq
          (PCirc.withValues calls[i].1 calls[i].2.2).data zeroState) := by
    intro i hi x hx hxid
    have hxl := (hobs _ (List.getElem_mem hi)).2 x hx
    obtain ⟨c, b, hb1, hb2, hs1, hs2⟩ := e8 i hi x hx hxid
    refine ⟨J i x.1, ?_, b, ?_, ?_⟩
    · obtain ⟨hj, hjL⟩ := List.getElem?_eq_some_iff.1 hb1
      omega
    · intro keyss
      have hbase : (L.map fun l => l.2.1).getD (J i x.1) [] = b := by
        rw [List.getD_eq_getElem?_getD, List.getElem?_map, hb1]; rfl
      rw [hbase, expvalOf_mean]
    · obtain ⟨hj, hjL⟩ := List.getElem?_eq_some_iff.1 hb1
      have hjE : J i x.1 < E.length := by omega
      have hEj : E[J i x.1] = Py.combine (PCirc.withValues (Q c) calls[i].2.2) b := by
        simp only [hE, List.getElem_map, hjL]
      rw [hEj]
      have hPc : P (Q c) := by have := hPL _ (List.getElem_mem hj); rw [hjL] at this; exact this
      have hg := hQ.gates _ hPc (fun k => (((Q c).params.zip calls[i].2.2).lookup k).getD 0)
      have hbl' := (e6 _ (List.getElem_mem hj)).2.1
      rw [hjL] at hbl'
      have hp' : (fun k => (((Q c).params.zip calls[i].2.2).lookup k).getD 0) = fun k => ((calls[i].1.params.zip calls[i].2.2).lookup k).getD (0 : ℝ) := by
        rw [hs1]
      have hsm := hs2 (fun k => (((Q c).params.zip calls[i].2.2).lookup k).getD 0)
      have := mean_sgn (c := PCirc.withValues (Q c) calls[i].2.2) hg.1 hg.2.1 (hbl'.trans hg.2.2.symm) (p := x.1)
        (by rw [hxl]; unfold PCirc.withValues; rw [hsm.1, hp']) hb2
      have hnc : (Py.combine (PCirc.withValues (Q c) calls[i].2.2) b).nc = b.support.length := rfl
      rw [hnc, this]
      unfold PCirc.withValues
      rw [hsm.1, hsm.2, hp']
  refine ⟨?_, ?_⟩
  · intro i hi
    simp only [hval i hi]
    rw [Mean_sum calls[i].2.1 (fun x keyss => if x.1.isId then x.2 else
          expvalOf ((L.map fun l => l.2.1).getD (J i x.1) []) x.1 (keyss.getD (J i x.1) []) * x.2)]
    unfold energy
    congr 1
    refine List.map_congr_left fun x hx => ?_
    by_cases hxid : x.1.isId = true
    · simp only [hxid, if_true]
      have := Mean_mul (E := E) (N := N) (fun _ => 1) x.2
      simp only [one_mul] at this
      rw [this, Mean_one hEsum, hidv i hi x hx hxid, one_mul, mul_one]
    · simp only [hxid, Bool.false_eq_true, if_false]
      rw [Mean_mul]
      obtain ⟨j, hj, b, ha, hm⟩ := hterm i hi x hx (by simpa using hxid)
      simp only [ha]
      rw [Mean_average hN0 hEsum hj, hm, mul_comm]
  · intro i hi
    simp only [hval i hi]
    -- the error of each term
    set A : Py.Pauli × ℝ → List (List (List Bool)) → ℝ := fun x keyss => if x.1.isId then 0 else
      expvalOf ((L.map fun l => l.2.1).getD (J i x.1) []) x.1 (keyss.getD (J i x.1) []) -
        expVal (PCirc.withValues calls[i].1 calls[i].2.2).nq x.1 (evol (PCirc.withValues calls[i].1 calls[i].2.2).nq
          (PCirc.withValues calls[i].1 calls[i].2.2).data zeroState) with hA
    have hdiff : ∀ keyss : List (List (List Bool)), (calls[i].2.1.map fun x => if x.1.isId then x.2 else
          expvalOf ((L.map fun l => l.2.1).getD (J i x.1) []) x.1 (keyss.getD (J i x.1) []) * x.2).sum -
        energy calls[i].2.1 (PCirc.withValues calls[i].1 calls[i].2.2) = (calls[i].2.1.map fun x => A x keyss * x.2).sum := by
      intro keyss
      unfold energy
      have hl : ∀ (l : List (Py.Pauli × ℝ)) (f g : Py.Pauli × ℝ → ℝ), (l.map f).sum - (l.map g).sum = (l.map fun x => f x - g x).sum := by
        intro l f g
        induction l with
        | nil => simp
        | cons a l ih => simp only [List.map_cons, List.sum_cons, ← ih]; ring
      rw [hl]
      congr 1
      refine List.map_congr_left fun x hx => ?_
      rw [hA]
      dsimp only
      by_cases hxid : x.1.isId = true
      · rw [if_pos hxid, if_pos hxid, hidv i hi x hx hxid]; ring
      · rw [if_neg hxid, if_neg hxid]; ring
    have hAsq : ∀ x ∈ calls[i].2.1, Mean E N (fun keyss => A x keyss ^ 2) ≤ 1 / N := by
      intro x hx
      rw [hA]
      by_cases hxid : x.1.isId = true
      · simp only [hxid, if_true]
        have := Mean_mul (E := E) (N := N) (fun _ => 1) (0 ^ 2)
        simp only [one_mul] at this
        rw [this]
        have : (0 : ℝ) ≤ 1 / N := by positivity
        simpa using this
      · simp only [hxid, Bool.false_eq_true, if_false]
        obtain ⟨j, hj, b, ha, hm⟩ := hterm i hi x hx (by simpa using hxid)
        simp only [ha]
        rw [← hm]
        refine Mean_average_sq hN0 hEsum hj _ fun k => le_of_eq ?_
        unfold sgn
        rw [← pow_mul, mul_comm, pow_mul]
        norm_num
    simp only [hdiff]
    refine (Mean_mono fun keyss => cauchy_list calls[i].2.1 (fun x => x.2) (fun x => A x keyss)).trans ?_
    have e1 : ∀ keyss : List (List (List Bool)), (calls[i].2.1.map fun x => |x.2|).sum * (calls[i].2.1.map fun x => A x keyss ^ 2 * |x.2|).sum =
        (calls[i].2.1.map fun x => A x keyss ^ 2 * |x.2|).sum * (calls[i].2.1.map fun x => |x.2|).sum := fun _ => mul_comm _ _
    simp only [e1]
    rw [Mean_mul, Mean_sum calls[i].2.1 (fun x keyss => A x keyss ^ 2 * |x.2|)]
    simp only [Mean_mul]
    have h0 : 0 ≤ (calls[i].2.1.map fun x => |x.2|).sum := List.sum_nonneg (by
      intro a ha; obtain ⟨x, _, rfl⟩ := List.mem_map.1 ha; exact abs_nonneg _)
    have h1 : (calls[i].2.1.map fun x => Mean E N (fun keyss => A x keyss ^ 2) * |x.2|).sum ≤ (calls[i].2.1.map fun x => 1 / (N : ℝ) * |x.2|).sum :=
      List.sum_le_sum fun x hx => mul_le_mul_of_nonneg_right (hAsq x hx) (abs_nonneg _)
    rw [List.sum_map_mul_left] at h1
    calc _ ≤ (1 / (N : ℝ) * (calls[i].2.1.map fun x => |x.2|).sum) * (calls[i].2.1.map fun x => |x.2|).sum := mul_le_mul_of_nonneg_right h1 h0
      _ = _ := by ring

/-- **C48.**  After any history of the engine and any calls of the estimator, a call with circuits, observables and
parameter values, in which every circuit occurs with one list of values or one observable and has a term besides
identities, is right.  Missing: other calls, which may raise (`C48_raises`, `C48_identity`) or be wrong (`C48_wrong`);
`approximation=True` is C62. -/
theorem C48_partial (hR : Hist cfg thr thrM cs h σ os) (hsq : ∀ x, 0 ≤ x → cfg.sqrt x * cfg.sqrt x = x)
    (hQ : QiskitE h.ms key prep P) (hG : Grouping groups) {s : Est Key} (hs : EReach key groups prep P s)
    {calls : List (PCirc × Observ × List ℝ)} (hne : calls ≠ []) (hP : ∀ a ∈ calls, P a.1)
    (hv : ∀ a ∈ calls, a.2.2.length = a.1.params.length)
    (hobs : ∀ a ∈ calls, a.2.1 ≠ [] ∧ ∀ x ∈ a.2.1, x.1.length = (PCirc.withValues a.1 a.2.2).nq)
    (hone : ∀ a ∈ calls, Plain key calls a)
    (hid : ∀ a ∈ calls, ∃ b ∈ calls, key b.1 = key a.1 ∧ ∃ x ∈ b.2.1, x.1.isId = false)
    {shots : Shots} {others : List String} {N : Nat}
    (hN : ((shots = .absent ∨ shots = .none) ∧ N = 1024) ∨ (shots = .int N ∧ 0 < N ∧ N ≤ 10 ^ 6)) :
    Unbiased cfg σ N calls (estRun key groups prep s (calls.map fun a => a.1) (calls.map fun a => a.2.1) (calls.map fun a => a.2.2) shots others).2 := by
  rcases C48_right_or_raises hR hsq hQ hG hs hne hP hv hobs (fun a ha => .inl (hone a ha)) hid (others := others) hN with ⟨_, h⟩ | h
  · exact absurd hone h
  · exact h

end QDD.Props
