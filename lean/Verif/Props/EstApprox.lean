import Verif.Props.EstDemo
/-!
# C62: the estimator in approximation mode
-/

set_option linter.unusedSectionVars false
set_option linter.unusedVariables false
set_option linter.unusedSimpArgs false

namespace QDD.Props
open Spec Api Gate Finset Py Py.Client

variable {cfg : Cfg ℝ} {thr thrM : Nat} {cs : List (Cmd ℝ)} {h : Heap ℝ} {σ : Sys ℝ} {os : List (Obs ℝ)}
variable {Key : Type} [DecidableEq Key] {key : PCirc → Key} {P : PCirc → Prop}
variable {groups : List Py.Pauli → List (List Py.Pauli)} {prep : PCirc → Py.Pauli → PCirc}

/-- What is assumed of Qiskit besides `QiskitE`: the experiment made of a circuit and a basis has no conditions, its final
state can be sampled, and on the same qubits it has the probabilities of the circuit followed by the measurements of the
basis (transpilation does not move the qubits). -/
def QiskitA (prep : PCirc → Py.Pauli → PCirc) (P : PCirc → Prop) : Prop :=
  ∀ p b, P p → b.length = (p.at_ fun _ => 0).nq → (∃ q, b.acts q = true) → ∀ v,
    ((prep p b).at_ v).nq = (p.at_ v).nq ∧ (classify ((prep p b).at_ v)).stable = true ∧ (∀ x ∈ ((prep p b).at_ v).data, x.cond = none) ∧
    ∀ i < 2 ^ (p.at_ v).nq, (evol (p.at_ v).nq ((prep p b).at_ v).data zeroState i).mag2 =
      (evol (p.at_ v).nq (Py.combine (p.at_ v) b).data zeroState i).mag2

/-- The answer: results with these probabilities, and these values. -/
def Values (ds : List (List ℝ)) (vs : List ℝ) (r : Option (List Result × List ℝ)) : Prop :=
  ∃ rs, r = some (rs, vs) ∧ rs.map (·.probs) = ds.map some

/-- The probabilities of the indices of circuit `c` followed by the measurements of `b`. -/
noncomputable def distOf (c : Circ) (b : Py.Pauli) : List ℝ :=
  (List.range (2 ^ c.nq)).map fun i => (evol c.nq (Py.combine c b).data zeroState i).mag2

theorem probs_iff (ds : List (List ℝ)) (rs : List Result) : Finished (ds.map Probs) (some (.done rs)) ↔
    rs.map (·.probs) = ds.map some := by
  constructor
  · rintro ⟨rs', h1, h2⟩
    cases h1
    rw [List.forall₂_map_left_iff] at h2
    induction h2 with
    | nil => rfl
    | cons a _ ih =>
      obtain ⟨_, e, h⟩ := a
      cases e
      rw [List.map_cons, List.map_cons, h, ih]
  · intro h2
    refine ⟨rs, rfl, ?_⟩
    rw [List.forall₂_map_left_iff]
    induction ds generalizing rs with
    | nil =>
      have : rs = [] := by simpa using h2
      subst this; exact .nil
    | cons d ds ih =>
      cases rs with
      | nil => simp at h2
      | cons r rs =>
        rw [List.map_cons, List.map_cons, List.cons.injEq] at h2
        exact .cons ⟨r, rfl, h2.1⟩ (ih rs h2.2)

open Classical in
theorem finishA_meets {sqrt : ℝ → ℝ} {bases : List Py.Pauli} {pps : List PP} {ds : List (List ℝ)} {vs : List ℝ} (hd : ds ≠ [])
    (hv : ∀ rs : List Result, rs.map (·.probs) = ds.map some → pps.mapM (ppRunA bases rs) = some vs) (j : Job) (h : Heap ℝ) :
    Meets sqrt (estFinish true bases pps j) h (Values ds vs) (if Finished (ds.map Probs) (some j) then 1 else 0) := by
  by_cases hF : Finished (ds.map Probs) (some j)
  · rw [if_pos hF]
    cases j with
    | failed => obtain ⟨_, h, _⟩ := hF; cases h
    | done rs =>
      have h0 := (probs_iff ds rs).1 hF
      have h1 : pps.mapM (ppMode true bases (Job.done rs).results) = some vs := hv rs h0
      unfold estFinish
      rw [h1]
      exact ⟨trivial, trivial, by rw [prob, if_pos ⟨rs, rfl, h0⟩]⟩
  · rw [if_neg hF]
    have hno : ∀ ws, ¬ Values ds vs (some (j.results, ws)) := by
      rintro ws ⟨rs, h1, h2⟩
      have h3 : j.results = rs := congrArg Prod.fst (Option.some.inj h1)
      cases j with
      | failed =>
        have h3 : [] = rs := h3
        subst h3
        exact hd (by simpa using h2.symm)
      | done rs' =>
        have h3 : rs' = rs := h3
        subst h3
        exact hF ((probs_iff ds rs').2 h2)
    unfold estFinish
    split
    · exact ⟨trivial, trivial, by rw [prob, if_neg (hno _)]⟩
    · exact ⟨trivial, trivial, by rw [prob, if_neg (by rintro ⟨_, h, _⟩; cases h)]⟩

/-- The job of a call: its experiments `L` (circuit, basis, values) and its values. -/
theorem approx_yields (hR : Hist cfg thr thrM cs h σ os) (hQ : QiskitE h.ms key prep P) (hA : QiskitA prep P)
    {Q : Nat → PCirc} {L : List (Nat × Py.Pauli × List ℝ)} (e5 : L ≠ []) (hPL : ∀ l ∈ L, P (Q l.1)) (h30 : ∀ l ∈ L, ((Q l.1).at_ fun _ => 0).nq ≤ 30)
    (e6 : ∀ l ∈ L, l.2.2.length = (Q l.1).params.length ∧ l.2.1.length = ((Q l.1).at_ fun _ => 0).nq ∧ ∃ q, l.2.1.acts q = true)
    {circuits : List PCirc} {tab : List Observ} {pr : Prepared} {T : List (Nat × Nat × List ℝ)} {em : List (Nat × BMap)} {pps : List PP}
    (e2 : preLoop circuits pr.maps T [] = some em)
    (e3 : flatten circuits em pr.exps = some (L.map fun l => (prep (Q l.1) l.2.1, l.2.1), L.map fun l => (Q l.1).params.zip l.2.2))
    (e4 : ppAll tab pr.maps em T = some pps) {vs : List ℝ}
    (e7 : ∀ rs : List Result, rs.map Result.probs = (L.map fun l => distOf (PCirc.withValues (Q l.1) l.2.2) l.2.1).map some →
        pps.mapM (ppRunA (L.map fun l => l.2.1) rs) = some vs)
    {shots : Shots} {others : List String} :
    Yields cfg (estCall circuits tab pr T shots others true) σ (Values (L.map fun l => distOf (PCirc.withValues (Q l.1) l.2.2) l.2.1) vs) 1 := by
  classical
  set ds : List (List ℝ) := L.map fun l => distOf (PCirc.withValues (Q l.1) l.2.2) l.2.1 with hds
  set bcs : List Circ := L.map fun l => (prep (Q l.1) l.2.1).at_ fun k => (((Q l.1).params.zip l.2.2).lookup k).getD 0 with hbcs
  have hdl : ds.length = L.length := by rw [hds, List.length_map]
  have hbl : bcs.length = L.length := by rw [hbcs, List.length_map]
  have hprep' : ∀ l ∈ L, (prep (Q l.1) l.2.1).params = (Q l.1).params ∧ Runnable h.ms (prep (Q l.1) l.2.1) := by
    intro l hl
    obtain ⟨_, hb, hq⟩ := e6 l hl
    have := hQ.prep _ _ (hPL l hl) hb hq
    exact ⟨this.1, this.2.2⟩
  have hcall : estCall circuits tab pr T shots others true = (runJob (L.map fun l => prep (Q l.1) l.2.1)
      ⟨.none, if (L.map fun l => (Q l.1).params.zip l.2.2).any (· ≠ []) then some (L.map fun l => (Q l.1).params.zip l.2.2) else none, others, false, none⟩).bind'
      (estFinish true (L.map fun l => l.2.1) pps) := by
    unfold estCall
    rw [e2]
    dsimp only
    rw [e3, e4]
    dsimp only
    rw [if_neg (by simpa using e5), List.map_map, List.map_map]
    rfl
  rw [hcall]
  have hb : bound (L.map fun l => prep (Q l.1) l.2.1) (if (L.map fun l => (Q l.1).params.zip l.2.2).any (· ≠ []) then some (L.map fun l => (Q l.1).params.zip l.2.2) else none)
      = some bcs := by
    split
    · unfold bound
      dsimp only
      rw [List.zip_map', List.mapM_map]
      refine mapM_all fun l hl => ?_
      dsimp only [Function.comp]
      unfold assign
      rw [if_pos]
      rw [zip_fst _ _ (e6 l hl).1, (hprep' l hl).1]
      exact ⟨fun k hk => hk, fun k hk => hk⟩
    · next hany =>
      unfold bound
      dsimp only
      rw [List.mapM_map]
      refine mapM_all fun l hl => ?_
      have hz : (Q l.1).params.zip l.2.2 = [] := by
        by_contra h0
        exact hany (List.any_eq_true.2 ⟨_, List.mem_map_of_mem hl, by simpa using h0⟩)
      dsimp only [Function.comp]
      unfold assign
      rw [if_pos, hz]
      have := zip_fst _ _ (e6 l hl).1
      rw [hz] at this
      rw [(hprep' l hl).1, ← this]
      simp
  have hgood : ∀ c ∈ bcs, Supported h.ms c ∧ ∃ x ∈ c.data, x.op = .measure := by
    intro c hc
    rw [hbcs] at hc
    obtain ⟨l, hl, rfl⟩ := List.mem_map.1 hc
    have := (hprep' l hl).2
    exact ⟨this.supported _, this.measured _⟩
  have hmeas : ∀ c ∈ bcs, (propLoop c.data ⟨true, [], []⟩).measured ≠ [] := by
    intro c hcc h0
    have hwf : ∀ x ∈ c.data, x.op = .measure → x.qargs ≠ [] := by
      intro x hx hop h'
      have := ((hgood c hcc).1.fine x hx).arity
      rw [hop, h'] at this
      simp [Op.arity] at this
    obtain ⟨x, hx, hop⟩ := (hgood c hcc).2
    exact (measured_iff hwf).1 h0 x hx hop
  have hjob := runJob_meets (sqrt := cfg.sqrt) (ms := h.ms) (ps := L.map fun l => prep (Q l.1) l.2.1)
    (o := ⟨.none, if (L.map fun l => (Q l.1).params.zip l.2.2).any (· ≠ []) then some (L.map fun l => (Q l.1).params.zip l.2.2) else none, others, false, none⟩)
    trivial (sh := none) rfl hb (fun c hcc => ⟨(hgood c hcc).1.lim, .inr (hmeas c hcc)⟩) (ds.map Probs)
    (L.map fun _ => 1) (by simp [hdl, hbl]) (by simp [hdl]) (by
      intro i h1 h2 h3
      have hi : i < L.length := by omega
      have hmem := List.getElem_mem h1
      have hl := List.getElem_mem hi
      simp only [List.getElem_map]
      refine ⟨(by rintro ⟨_, h, _⟩; cases h), fun h' hh' => ?_⟩
      obtain ⟨_, hb, hq⟩ := e6 _ hl
      obtain ⟨a1, a2, a3, a4⟩ := hA _ _ (hPL _ hl) hb hq (fun k => (((Q L[i].1).params.zip L[i].2.2).lookup k).getD 0)
      have hg := (hQ.gates _ (hPL _ hl) (fun k => (((Q L[i].1).params.zip L[i].2.2).lookup k).getD 0)).2.2
      have hbi : bcs[i] = (prep (Q L[i].1) L[i].2.1).at_ fun k => (((Q L[i].1).params.zip L[i].2.2).lookup k).getD 0 := by
        simp only [hbcs, List.getElem_map]
      have hdi : ds[i]'(by omega) = (List.range (2 ^ (bcs[i]).nq)).map fun i' => (evol (bcs[i]).nq (bcs[i]).data zeroState i').mag2 := by
        simp only [hds, List.getElem_map, hbi, distOf, PCirc.withValues]
        rw [a1]
        exact List.map_congr_left fun i' hi' => (a4 i' (List.mem_range.1 hi')).symm
      rw [hdi, run_some (hgood _ hmem).1.lim (.inr (hmeas _ hmem))]
      refine probs_stable_meets (hgood _ hmem).1 ?_ rfl ?_ ?_ rfl hh'
      · rw [hbi, a1, hg]; exact h30 _ hl
      · rw [hbi]; exact a2
      · rw [hbi]; exact a3) h ⟨[], by simp⟩
  refine Meets.yields hR ?_
  have hdne : ds ≠ [] := by
    apply List.ne_nil_of_length_pos
    rw [hdl]
    exact List.length_pos_of_ne_nil e5
  have := bind_meets_ends (sqrt := cfg.sqrt) (ms := h.ms) (T1 := Finished (ds.map Probs))
    (T := Values ds vs) (y := 1)
    (f := estFinish true (L.map fun l => l.2.1) pps) (by rintro ⟨_, h, _⟩; cases h) (by rintro ⟨_, h, _⟩; cases h)
    (fun j hj h' _ => finishA_meets hdne e7 j h')
    _ (runJob_ends _ _) (Keeps.runJob _ _) h ⟨[], by simp⟩ ⟨hjob.1, hjob.2.1⟩
  refine cast (congrArg _ ?_) this
  rw [hjob.2.2, mul_one]
  simp

/-! ## What the distribution is read as -/

theorem evol_combine {c : Circ} {b : Py.Pauli} (hl : b.length = c.nq) : ∀ i < 2 ^ c.nq,
    evol c.nq (Py.combine c b).data zeroState i = acts (rots b b.support) (evol c.nq c.data zeroState) i := by
  intro i hi
  show evol c.nq (c.data ++ measI b b.support 0) zeroState i = _
  rw [evol_append]
  exact evol_measI b _ 0 (support_lt hl) _ i hi

theorem expvalDist_eq {c : Circ} {b p : Py.Pauli} (hl : b.length = c.nq) : expvalDist b p (distOf c b) =
    ∑ i ∈ range (2 ^ c.nq), (acts (rots b b.support) (evol c.nq c.data zeroState) i).mag2 *
      (-1) ^ hits p b.support ((List.range b.support.length).map (i.testBit ·)) := by
  unfold expvalDist distOf
  have e : (((List.range (2 ^ c.nq)).map fun i => (evol c.nq (Py.combine c b).data zeroState i).mag2).mapIdx fun i x =>
      x * (-1) ^ hits p b.support ((List.range b.support.length).map (i.testBit ·))) = (List.range (2 ^ c.nq)).map fun i =>
      (acts (rots b b.support) (evol c.nq c.data zeroState) i).mag2 * (-1) ^ hits p b.support ((List.range b.support.length).map (i.testBit ·)) := by
    apply List.ext_getElem
    · simp
    · intro i h1 h2
      have hi : i < 2 ^ c.nq := by simpa using h2
      simp only [List.getElem_mapIdx, List.getElem_map, List.getElem_range]
      rw [evol_combine hl _ hi]
  rw [e]
  simp [Finset.sum, Multiset.range]

/-- Qubits `0..m-1` for some `m`. -/
def Low (p : Py.Pauli) : Prop := ∀ q q', p.acts q = true → q' < q → p.acts q' = true

theorem filter_low {f : Nat → Bool} (hf : ∀ q q', f q = true → q' < q → f q' = true) : ∀ n, (List.range n).filter f = List.range ((List.range n).filter f).length := by
  intro n
  induction n with
  | zero => rfl
  | succ n ih =>
    rw [List.range_succ, List.filter_append]
    by_cases h : f n = true
    · have hall : (List.range n).filter f = List.range n := List.filter_eq_self.2 fun a ha => hf n a h (List.mem_range.1 ha)
      simp [h, hall, List.range_succ]
    · simp [h]
      simpa using ih

theorem Low.support {p : Py.Pauli} (h : Low p) : p.support = List.range p.support.length := filter_low h _

/-- In a basis of qubits `0..m-1` the value is the expectation value. -/
theorem expvalDist_low {c : Circ} {b p : Py.Pauli} (hl : b.length = c.nq) (hp : p.length = c.nq) (hcomp : ∀ q, p.acts q = true → p.on q = b.on q)
    (hlow : Low b) : expvalDist b p (distOf c b) = expVal c.nq p (evol c.nq c.data zeroState) := by
  rw [expvalDist_eq hl, expVal_rots hl hp hcomp]
  refine Finset.sum_congr rfl fun i _ => ?_
  rw [← hlow.support, hits_map]

/-! ## The call -/

/-- What a call computes: for entry `i` and term `p` the distribution of an experiment of circuit `i`, followed by the
measurements of a basis `B i p`. -/
theorem approx_call (hR : Hist cfg thr thrM cs h σ os) (hQ : QiskitE h.ms key prep P) (hA : QiskitA prep P) (hG : Grouping groups)
    {s : Est Key} (hs : EReach key groups prep P s)
    {calls : List (PCirc × Observ × List ℝ)} (hne : calls ≠ []) (hP : ∀ a ∈ calls, P a.1) (h30 : ∀ p, P p → (p.at_ fun _ => 0).nq ≤ 30)
    (hv : ∀ a ∈ calls, a.2.2.length = a.1.params.length)
    (hobs : ∀ a ∈ calls, a.2.1 ≠ [] ∧ ∀ x ∈ a.2.1, x.1.length = (PCirc.withValues a.1 a.2.2).nq)
    (hone : ∀ a ∈ calls, Plain key calls a)
    (hid : ∀ a ∈ calls, ∃ b ∈ calls, key b.1 = key a.1 ∧ ∃ x ∈ b.2.1, x.1.isId = false)
    {shots : Shots} {others : List String} :
    ∃ (ds : List (List ℝ)) (B : Nat → Py.Pauli → Py.Pauli), Yields cfg
      (estRun key groups prep s (calls.map fun a => a.1) (calls.map fun a => a.2.1) (calls.map fun a => a.2.2) shots others true).2 σ
      (Values ds (calls.mapIdx fun i a => (a.2.1.map fun x => if x.1.isId then x.2 else
        expvalDist (B i x.1) x.1 (distOf (PCirc.withValues a.1 a.2.2) (B i x.1)) * x.2).sum)) 1 ∧
      ∀ (i : Nat) (hi : i < calls.length), ∀ x ∈ calls[i].2.1, x.1.isId = false → (B i x.1).length = (PCirc.withValues calls[i].1 calls[i].2.2).nq ∧
        (∀ q, x.1.acts q = true → x.1.on q = (B i x.1).on q) ∧
        ∀ q, (B i x.1).acts q = true → ∃ a ∈ calls, ∃ y ∈ a.2.1, y.1.acts q = true ∧ ∀ q', y.1.acts q' = true → (B i x.1).acts q' = true := by
  classical
  rcases est_calls hQ hG hs hne hP hv hobs (fun a ha => .inl (hone a ha)) hid (shots := shots) (others := others) (ap := true) with ⟨_, h⟩ | ⟨circuits, tab, pr, T, em, pps, Q, L, J, hrun, e2, e3, e4, e5, hPL, e6, e7, e8⟩
  · exact absurd hone h
  rw [hrun]
  set ds : List (List ℝ) := L.map fun l => distOf (PCirc.withValues (Q l.1) l.2.2) l.2.1 with hds
  have hdl : ds.length = L.length := by rw [hds, List.length_map]
  have hB : ∀ (i : Nat) (hi : i < calls.length), ∀ x ∈ calls[i].2.1, x.1.isId = false → ∃ c b, L[J i x.1]? = some (c, b, calls[i].2.2) ∧
      (L.map fun l => l.2.1).getD (J i x.1) [] = b ∧ ds.getD (J i x.1) [] = distOf (PCirc.withValues calls[i].1 calls[i].2.2) b ∧
      b.length = (PCirc.withValues calls[i].1 calls[i].2.2).nq ∧ (∀ q, x.1.acts q = true → x.1.on q = b.on q) := by
    intro i hi x hx hxid
    obtain ⟨c, b, hb1, hb2, hs1, hs2⟩ := e8 i hi x hx hxid
    have hp' : (fun k => (((Q c).params.zip calls[i].2.2).lookup k).getD 0) = fun k => ((calls[i].1.params.zip calls[i].2.2).lookup k).getD (0 : ℝ) := by
      rw [hs1]
    refine ⟨c, b, hb1, ?_, ?_, ?_, hb2⟩
    · rw [List.getD_eq_getElem?_getD, List.getElem?_map, hb1]; rfl
    · rw [hds, List.getD_eq_getElem?_getD, List.getElem?_map, hb1, Option.map_some, Option.getD_some]
      have hsm := hs2 (fun k => (((Q c).params.zip calls[i].2.2).lookup k).getD 0)
      show distOf (PCirc.withValues (Q c) calls[i].2.2) b = _
      unfold distOf PCirc.withValues Py.combine
      dsimp only
      rw [hsm.1, hsm.2, hp']
    · have hm := List.mem_of_getElem? hb1
      have := (e6 _ hm).2.1
      have hg := (hQ.gates _ (hPL _ hm) fun k => ((calls[i].1.params.zip calls[i].2.2).lookup k).getD (0 : ℝ)).2.2
      rw [this, ← hg]
      exact (hs2 _).1
  refine ⟨ds, fun i p => (L.map fun l => l.2.1).getD (J i p) [], ?_, ?_⟩
  · refine approx_yields hR hQ hA e5 hPL (fun l hl => h30 _ (hPL l hl)) (fun l hl => ⟨(e6 l hl).1, (e6 l hl).2.1, (e6 l hl).2.2.1⟩) e2 e3 e4 ?_
    intro rs hrs
    rw [e7 _ _ fun pp hok => ppRunA_spec hdl hrs (by rw [List.length_map]) hok]
    congr 1
    apply List.ext_getElem
    · simp
    · intro i h1 h2
      have hi : i < calls.length := by simpa using h2
      simp only [List.getElem_mapIdx]
      congr 1
      refine List.map_congr_left fun x hx => ?_
      by_cases hxid : x.1.isId = true
      · rw [if_pos hxid, if_pos hxid]
      · rw [if_neg hxid, if_neg hxid]
        obtain ⟨c, b, hb1, hb2, hb3, _⟩ := hB i hi x hx (by simpa using hxid)
        rw [hb2, hb3]
  · intro i hi x hx hxid
    obtain ⟨c, b, hb1, hb2, hb3, hb4, hb5⟩ := hB i hi x hx hxid
    dsimp only
    rw [hb2]
    exact ⟨hb4, hb5, (e6 _ (List.mem_of_getElem? hb1)).2.2.2⟩

/-- **C62.**  With `approximation=True` and no shots: after any history of the engine and any calls of the estimator, a call
in which every circuit has at most 30 qubits and occurs with one list of values or one observable, every term acts on the
qubits `0..m-1` for some `m` (or is an identity), returns the exact expectation values.  Missing: other terms, for which
the value is wrong (`C62_wrong`); calls of the kinds missing in C48; a number of shots. -/
theorem C62_partial (hR : Hist cfg thr thrM cs h σ os) (hQ : QiskitE h.ms key prep P) (hA : QiskitA prep P) (hG : Grouping groups)
    {s : Est Key} (hs : EReach key groups prep P s)
    {calls : List (PCirc × Observ × List ℝ)} (hne : calls ≠ []) (hP : ∀ a ∈ calls, P a.1) (h30 : ∀ p, P p → (p.at_ fun _ => 0).nq ≤ 30)
    (hv : ∀ a ∈ calls, a.2.2.length = a.1.params.length)
    (hobs : ∀ a ∈ calls, a.2.1 ≠ [] ∧ ∀ x ∈ a.2.1, x.1.length = (PCirc.withValues a.1 a.2.2).nq)
    (hlow : ∀ a ∈ calls, ∀ x ∈ a.2.1, Low x.1)
    (hone : ∀ a ∈ calls, Plain key calls a)
    (hid : ∀ a ∈ calls, ∃ b ∈ calls, key b.1 = key a.1 ∧ ∃ x ∈ b.2.1, x.1.isId = false)
    {shots : Shots} {others : List String} :
    ∃ ds, Yields cfg
      (estRun key groups prep s (calls.map fun a => a.1) (calls.map fun a => a.2.1) (calls.map fun a => a.2.2) shots others true).2 σ
      (Values ds (calls.map fun a => energy a.2.1 (PCirc.withValues a.1 a.2.2))) 1 := by
  obtain ⟨ds, B, h1, h2⟩ := approx_call hR hQ hA hG hs hne hP h30 hv hobs hone hid (shots := shots) (others := others)
  refine ⟨ds, cast ?_ h1⟩
  congr 2
  apply List.ext_getElem
  · simp
  · intro i a b
    have hi : i < calls.length := by simpa using b
    simp only [List.getElem_mapIdx, List.getElem_map]
    unfold energy
    congr 1
    refine List.map_congr_left fun x hx => ?_
    have hm := List.getElem_mem hi
    have hgate := hQ.gates _ (hP _ hm) (fun k => ((calls[i].1.params.zip calls[i].2.2).lookup k).getD 0)
    have hxl := (hobs _ hm).2 x hx
    by_cases hxid : x.1.isId = true
    · rw [if_pos hxid, expVal_id (c := PCirc.withValues calls[i].1 calls[i].2.2) hgate.1 hgate.2.1 hxl hxid, mul_one]
    · rw [if_neg hxid]
      obtain ⟨h3, h4, h5⟩ := h2 i hi x hx (by simpa using hxid)
      rw [expvalDist_low h3 hxl h4 (fun q q' hq hlt => ?_), mul_comm]
      obtain ⟨a, ha, y, hy, h6, h7⟩ := h5 q hq
      exact h7 q' (hlow a ha y hy q q' h6 hlt)

/-! ## Qiskit can be as assumed -/

theorem deferrable_stable : ∀ (xs : List Inst) (s : CircProp), Deferrable s.measured xs → s.stable = true → (propLoop xs s).stable = true := by
  intro xs
  induction xs with
  | nil => intro s _ h; exact h
  | cons x xs ih =>
    intro s hd hs
    obtain ⟨h1, h2⟩ := hd
    have hstep : Deferrable (propStep x s).measured xs ∧ (propStep x s).stable = true := by
      have hno : (∀ q ∈ x.qargs, q ∉ s.measured) → x.op ≠ .reset → destabilises x s.measured = false := by
        intro hq hr
        unfold destabilises
        rw [h1]
        have h3 : (x.qargs.any (s.measured.contains ·)) = false := by
          rw [List.any_eq_false]; intro q hq'; simpa using hq q hq'
        rw [h3]
        cases ho : x.op <;> simp_all
      unfold propStep
      cases ho : x.op with
      | measure => rw [ho] at h2; exact ⟨h2, hs⟩
      | reset => rw [ho] at h2; exact h2.elim
      | _ =>
        rw [ho] at h2
        obtain ⟨h2, h3⟩ := h2
        have := hno h2 (by rw [ho]; simp)
        simp only [this, Bool.false_eq_true, if_false]
        exact ⟨h3, hs⟩
    rw [propLoop, hstep.2]
    simp only [Bool.not_true, Bool.false_and, Bool.false_eq_true, if_false]
    exact ih _ hstep.1 hstep.2

/-- Without transpilation the assumption holds of all circuits made of gates. -/
theorem prepD_index {P : PCirc → Prop} (hP : ∀ p, P p → ∀ v, GateCirc (p.at_ v)) : QiskitA prepD P := by
  intro p b hp _ _ v
  have hc := hP p hp v
  refine ⟨rfl, ?_, ?_, fun i _ => rfl⟩
  · refine deferrable_stable _ _ ?_ rfl
    refine deferrable_append _ _ _ (fun x hx => ?_) (deferrable_measI b _ 0 [] (List.Nodup.filter _ List.nodup_range) (by simp))
    obtain ⟨h1, h2⟩ := hc.gates x hx
    refine ⟨h1, ?_, ?_, by simp⟩ <;> rintro h <;> rcases h2 with h' | ⟨g, ctl, h'⟩ <;> rw [h] at h' <;> cases h'
  · intro x hx
    rcases List.mem_append.1 hx with hx | hx
    · exact (hc.gates x hx).1
    · exact measI_cond _ _ _ x hx

theorem qiskitA_demo : QiskitA prepD (fun p => p = rxG ∨ p = xG) :=
  prepD_index (by rintro p (rfl | rfl) v; exacts [rxG_gates v, xG_gates v])

theorem low_demo : Low pZ ∧ Low pX ∧ Low pZZ ∧ Low pI := by
  have key : ∀ p : Py.Pauli, p.length = 2 → (p.acts 1 = true → p.acts 0 = true) → Low p := by
    intro p hl h q q' hq hlt
    have := acts_lt hq
    obtain ⟨rfl, rfl⟩ : q = 1 ∧ q' = 0 := by omega
    exact h hq
  exact ⟨key _ rfl (by decide), key _ rfl (by decide), key _ rfl (by decide), key _ rfl (by decide)⟩

open Classical in
/-- A case: two circuits, one with two parameter values, on an estimator used before. -/
example (hR : Hist cfg thr thrM cs h σ os) (a b : ℝ) : ∃ ds, Yields cfg
    (estRun (id : PCirc → PCirc) groupsD prepD (estRun (id : PCirc → PCirc) groupsD prepD (.new : Est PCirc) [rxG] [[(pX, 1)]] [[0]] .absent []).1
        [rxG, xG, rxG] [[(pZZ, 2), (pI, 1)], [(pX, 1), (pZ, -1)], [(pZZ, 2), (pI, 1)]] [[a], [], [b]] .absent [] true).2 σ
    (Values ds [energy [(pZZ, 2), (pI, 1)] (PCirc.withValues rxG [a]), energy [(pX, 1), (pZ, -1)] (PCirc.withValues xG []),
      energy [(pZZ, 2), (pI, 1)] (PCirc.withValues rxG [b])]) 1 := by
  have hne : rxG ≠ xG := fun h => by have := congrArg PCirc.params h; simp [rxG, xG] at this
  obtain ⟨l1, l2, l3, l4⟩ := low_demo
  refine C62_partial (calls := [(rxG, [(pZZ, 2), (pI, 1)], [a]), (xG, [(pX, 1), (pZ, -1)], []), (rxG, [(pZZ, 2), (pI, 1)], [b])])
    (P := fun p => p = rxG ∨ p = xG) hR (qiskitE_demo h.ms) qiskitA_demo groupsD_grouping (EReach.call EReach.new (by simp)) (by simp) (by simp)
    (by rintro p (rfl | rfl) <;> exact (by decide : 2 ≤ 30)) ?_ ?_ ?_ ?_ ?_
  · simp [rxG, xG]
  · simp [rxG, xG, PCirc.withValues, pZ, pX, pZZ, pI]
    refine ⟨?_, ?_, ?_⟩ <;> rintro a b (⟨rfl, _⟩ | ⟨rfl, _⟩) <;> rfl
  · intro c hc x hx
    simp only [List.mem_cons, List.mem_nil_iff, or_false] at hc
    rcases hc with rfl | rfl | rfl <;> simp only [List.mem_cons, List.mem_nil_iff, or_false] at hx <;> rcases hx with rfl | rfl <;> assumption
  · intro c hc
    simp only [List.mem_cons, List.mem_nil_iff, or_false] at hc
    rcases hc with rfl | rfl | rfl
    · right; simp [hne, hne.symm]
    · left; simp [hne, hne.symm]
    · right; simp [hne, hne.symm]
  · intro c hc
    simp only [List.mem_cons, List.mem_nil_iff, or_false] at hc
    rcases hc with rfl | rfl | rfl
    · exact ⟨(rxG, [(pZZ, 2), (pI, 1)], [a]), by simp, rfl, (pZZ, 2), by simp, rfl⟩
    · exact ⟨(xG, [(pX, 1), (pZ, -1)], []), by simp, rfl, (pZ, -1), by simp, rfl⟩
    · exact ⟨(rxG, [(pZZ, 2), (pI, 1)], [a]), by simp, rfl, (pZZ, 2), by simp, rfl⟩

/-! ## Other observables -/

theorem hits_zero (p : Py.Pauli) : ∀ (qs : List Nat) (l : List Bool), (∀ b ∈ l, b = false) → hits p qs l = 0 := by
  intro qs
  induction qs with
  | nil => intro l _; rfl
  | cons q qs ih =>
    intro l hl
    rw [hits, ih _ (fun b hb => hl b (List.mem_of_mem_tail hb))]
    have : l.headD false = false := by
      cases l with
      | nil => rfl
      | cons a l => exact hl a (by simp)
    rw [this]; simp

theorem rots_Z {b : Py.Pauli} : ∀ (qs : List Nat), (∀ q ∈ qs, (b.on q).2 = false) → rots b qs = [] := by
  intro qs hq
  unfold rots
  rw [List.flatMap_eq_nil_iff]
  intro q hm
  unfold rotA
  rw [hq q hm]
  rfl

/-- **For every product of Zs that does not act on the qubits `0..m-1` there is a circuit for which the value is wrong**:
an X gate on the highest of its qubits.  The value is 1; the expectation value is -1. -/
theorem C62_wrong (hR : Hist cfg thr thrM cs h σ os) (hQ : QiskitE h.ms key prep P) (hA : QiskitA prep P) (hG : Grouping groups)
    {s : Est Key} (hs : EReach key groups prep P s) (h30 : ∀ p, P p → (p.at_ fun _ => 0).nq ≤ 30)
    {p : Py.Pauli} (hZ : ∀ q, (p.on q).2 = false) {t : Nat} (ht : p.acts t = true) (hmax : ∀ q, p.acts q = true → q ≤ t) (hlow : ¬ Low p)
    {c : PCirc} (hc : P c) (hpar : c.params = []) (hdata : ∀ v, (c.at_ v).nq = p.length ∧ (c.at_ v).data = [xI t])
    {shots : Shots} {others : List String} :
    energy [(p, 1)] (PCirc.withValues c []) = -1 ∧
    ∃ ds, Yields cfg (estRun key groups prep s [c] [[(p, 1)]] [[]] shots others true).2 σ (Values ds [1]) 1 := by
  have htl : t < p.length := acts_lt ht
  have hid : p.isId = false := isId_of_acts ht
  have hnq : (PCirc.withValues c []).nq = p.length := (hdata _).1
  have hda : (PCirc.withValues c []).data = [xI t] := (hdata _).2
  have hev : ∀ i < 2 ^ p.length, evol p.length [xI t] zeroState i = bs (2 ^ t) i := by
    intro i hi
    have := evol_x (x := 0) htl (xs := []) (cond := none) i hi
    rw [Nat.zero_xor] at this
    exact this
  have hpow : 2 ^ t < 2 ^ p.length := Nat.pow_lt_pow_right (by omega) htl
  -- sums over the basis state
  have hsum : ∀ w : Nat → ℝ, ∑ i ∈ range (2 ^ p.length), (evol p.length [xI t] zeroState i).mag2 * w i = w (2 ^ t) := by
    intro w
    rw [Finset.sum_eq_single (2 ^ t)]
    · rw [hev _ hpow]; simp [bs, Cx.mag2]
    · intro i hi hne
      rw [hev i (mem_range.1 hi)]; simp [bs, Cx.mag2, hne]
    · intro h; exact absurd (mem_range.2 hpow) h
  have hsupn : p.support.Nodup := List.Nodup.filter _ List.nodup_range
  have hmem : ∀ q, q ∈ p.support ↔ p.acts q = true := by
    intro q
    unfold Pauli.support
    rw [List.mem_filter, List.mem_range]
    exact ⟨fun h => h.2, fun h => ⟨acts_lt h, h⟩⟩
  constructor
  · unfold energy
    simp only [List.map_cons, List.map_nil, List.sum_cons, List.sum_nil, one_mul, add_zero]
    rw [hnq, hda, expVal_rots (b := p) rfl rfl (fun _ _ => rfl), rots_Z _ (fun q _ => hZ q)]
    show ∑ i ∈ range (2 ^ p.length), (evol p.length [xI t] zeroState i).mag2 * (-1) ^ ones i (p.support.filter p.acts) = -1
    rw [hsum]
    have : ones (2 ^ t) (p.support.filter p.acts) = 1 := by
      unfold ones
      have e : p.support.filter p.acts = p.support := List.filter_eq_self.2 fun q hq => (hmem q).1 hq
      rw [e]
      have e2 : ∀ q, (2 ^ t).testBit q = decide (q = t) := by
        intro q; rw [Nat.testBit_two_pow]; simp [eq_comm]
      simp only [e2]
      have := List.count_eq_one_of_mem hsupn ((hmem t).2 ht)
      rw [← this, List.count]
      congr 1
    rw [this, pow_one]
  · have hlen : p.support.length ≤ t := by
      by_contra hgt
      apply hlow
      intro q q' hq hlt
      -- at most t+1 qubits up to t, all of them are there
      have hsub : p.support.toFinset ⊆ range (t + 1) := by
        intro q hq
        rw [List.mem_toFinset, hmem] at hq
        rw [Finset.mem_range]
        have := hmax q hq
        omega
      have hcard : p.support.toFinset.card = p.support.length := List.toFinset_card_of_nodup hsupn
      have heq : p.support.toFinset = range (t + 1) := Finset.eq_of_subset_of_card_le hsub (by rw [Finset.card_range, hcard]; omega)
      have : q' ∈ p.support.toFinset := by
        rw [heq]
        exact Finset.mem_range.2 (by have := hmax q hq; omega)
      rw [List.mem_toFinset, hmem] at this
      exact this
    obtain ⟨ds, B, h1, h2⟩ := approx_call (calls := [(c, [(p, 1)], [])]) hR hQ hA hG hs (by simp) (by simpa using hc) h30 (by simp [hpar])
      (by simpa using hnq.symm) (by
        intro a ha
        rw [List.mem_singleton] at ha
        subst ha
        left
        intro b hb _
        rw [List.mem_singleton] at hb
        rw [hb]) (by
        intro a ha
        rw [List.mem_singleton] at ha
        subst ha
        exact ⟨_, List.mem_singleton.2 rfl, rfl, (p, 1), by simp, hid⟩) (shots := shots) (others := others)
    refine ⟨ds, cast ?_ h1⟩
    obtain ⟨h3, h4, h5⟩ := h2 0 (by simp) (p, 1) (by simp) hid
    have h3 : (B 0 p).length = p.length := h3.trans hnq
    have h4 : ∀ q, p.acts q = true → p.on q = (B 0 p).on q := h4
    have h5 : ∀ q, (B 0 p).acts q = true → p.acts q = true := by
      intro q hq
      obtain ⟨a, ha, y, hy, h6, _⟩ := h5 q hq
      rw [List.mem_singleton] at ha
      subst ha
      dsimp only at hy
      rw [List.mem_singleton] at hy
      subst hy
      exact h6
    have hacts : ∀ q, (B 0 p).acts q = p.acts q := by
      intro q
      rw [Bool.eq_iff_iff]
      refine ⟨h5 q, fun hq => ?_⟩
      unfold Pauli.acts at hq ⊢
      rw [← h4 q hq]
      exact hq
    have hsup : (B 0 p).support = p.support := by
      unfold Pauli.support
      rw [h3]
      exact List.filter_congr fun q _ => hacts q
    congr 2
    simp only [List.mapIdx_cons, List.mapIdx_nil, List.map_cons, List.map_nil, List.sum_cons, List.sum_nil, hid, Bool.false_eq_true, if_false, mul_one, add_zero]
    congr 1
    rw [expvalDist_eq (by rw [h3, hnq]), rots_Z _ (fun q hq => by
      rw [hsup, hmem] at hq
      rw [← h4 q hq]; exact hZ q), hnq, hda]
    show ∑ i ∈ range (2 ^ p.length), (evol p.length [xI t] zeroState i).mag2 * _ = 1
    rw [hsum (fun i => (-1) ^ hits p (B 0 p).support ((List.range (B 0 p).support.length).map (i.testBit ·)))]
    rw [hits_zero, pow_zero]
    intro b hb
    rw [List.mem_map] at hb
    obtain ⟨q, hq, rfl⟩ := hb
    rw [List.mem_range, hsup] at hq
    rw [Nat.testBit_two_pow]
    simp; omega

/-- `IZ`: Z on qubit 1 of 2, and X on that qubit. -/
def pIZ : Py.Pauli := [(false, false), (true, false)]
noncomputable def x1G : PCirc := ⟨[], fun v => ⟨2, 0, 0, [xI 1]⟩⟩

theorem x1G_gates (v : Nat → ℝ) : GateCirc (x1G.at_ v) where
  pos := Nat.two_pos
  lim := (by decide : 2 ≤ NQUBITS)
  fine := by
    intro x hx
    simp only [x1G, List.mem_cons, List.mem_nil_iff, or_false] at hx
    subst hx
    exact xI_fine Nat.one_lt_two (by simp)
  gates := by
    intro x hx
    simp only [x1G, List.mem_cons, List.mem_nil_iff, or_false] at hx
    subst hx
    exact ⟨rfl, .inr ⟨_, _, rfl⟩⟩

open Classical in
example (hR : Hist cfg thr thrM cs h σ os) : energy [(pIZ, 1)] (PCirc.withValues x1G []) = -1 ∧
    ∃ ds, Yields cfg (estRun (id : PCirc → PCirc) groupsD prepD (.new : Est PCirc) [x1G] [[(pIZ, 1)]] [[]] .absent [] true).2 σ (Values ds [1]) 1 := by
  have hg : ∀ p, p = x1G → ∀ v, GateCirc (p.at_ v) ∧ (p.at_ v).nc = 0 ∧ (p.at_ v).nq = (p.at_ fun _ => 0).nq := by
    rintro p rfl v; exact ⟨x1G_gates v, rfl, rfl⟩
  have hQ : QiskitE h.ms (id : PCirc → PCirc) prepD (fun p => p = x1G) :=
    ⟨hg, by rintro p q _ _ rfl; exact ⟨rfl, fun _ => ⟨rfl, rfl⟩⟩, fun p b hp hl hb => ⟨rfl, fun _ _ => rfl, prepD_runnable h.ms (hg p hp) hl hb⟩⟩
  refine C62_wrong (p := pIZ) (t := 1) hR hQ
    (prepD_index fun p hp v => (hg p hp v).1) groupsD_grouping .new (by rintro p rfl; exact (by decide : 2 ≤ 30)) ?_ (by decide) ?_ ?_ rfl rfl (fun v => ⟨rfl, rfl⟩)
  · intro q
    rcases q with _ | _ | q
    · rfl
    · rfl
    · rfl
  · intro q hq; have := acts_lt hq; have : q < 2 := this; omega
  · intro h; have := h 1 0 (by decide) (by decide); revert this; decide

end QDD.Props
