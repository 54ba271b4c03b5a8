import Verif.Props.Demo
/-!
# C11, C12, C13: canonicity and normal form in every reachable state
-/

set_option linter.unusedSectionVars false
set_option linter.unusedVariables false
set_option linter.unusedSimpArgs false

namespace QDD.Props
open Spec Api Finset ExactW

variable {K : Type} [Field K] [LinearOrder K] [IsStrictOrderedRing K]
variable {cfg : Cfg K} {thr thrM : Nat} {cs : List (Cmd K)} {h : Heap K} {σ : Sys K} {os : List (Obs K)}

/-! ## C11 -/

/-- **C11.** Two live state handles with the same qubit count, one of them nonzero: the edges the caller holds are equal
(same node pointer and same weight) iff the states are equal. -/
theorem C11_canonical (hR : Hist cfg thr thrM cs h σ os) {a b : Nat} {A B : Vec K}
    (ha : h.vs[a]? = some A) (hb : h.vs[b]? = some B) (hk : A.k = B.k) (h0 : A.Nonzero) :
    σ.d.vs[a]? = σ.d.vs[b]? ↔ ∀ i < 2 ^ A.k, A.f i = B.f i := by
  have hr := hR.rel
  obtain ⟨ea, hea, ra⟩ := forall₂_get hr.data.vs ha
  obtain ⟨eb, heb, rb⟩ := forall₂_get hr.data.vs hb
  rw [hea, heb, Option.some_inj]
  have rb' : ∀ i < 2 ^ A.k, vden σ.st.vt.mem A.k eb i = B.f i := fun i hi => by
    have := rb.2.2 i (hk ▸ hi); rwa [← hk] at this
  constructor
  · rintro rfl i hi
    rw [← ra.2.2 i hi, rb' i hi]
  · intro he
    have hb' := rb.2.1
    rw [← hk] at hb'
    exact vden_canon hr.inv ra.2.1 hb' (ra.nonzero h0).2 fun i hi => by rw [ra.2.2 i hi, rb' i hi, he i hi]

/-- **C11**, as read-outs (up to 30 qubits): the edges are equal iff `getVector` returns the same list for both. -/
theorem C11_canonical_readout (hR : Hist cfg thr thrM cs h σ os) {a b n : Nat} {A B : Vec K}
    (ha : h.vs[a]? = some A) (hb : h.vs[b]? = some B) (hA : A.k = n) (hB : B.k = n) (hn : n ≤ 30) (hA0 : A.Nonzero)
    (hB0 : B.Nonzero) {f g : Nat → C K} (hf : ReadsV cfg σ a n f) (hg : ReadsV cfg σ b n g) :
    σ.d.vs[a]? = σ.d.vs[b]? ↔ ∀ i < 2 ^ n, f i = g i := by
  subst hA
  have hgB := hR.readsV hb hB0 (by omega)
  rw [hB] at hgB
  have ef := hf.unique (hR.readsV ha hA0 hn)
  have eg := hg.unique hgB
  rw [C11_canonical hR ha hb hB.symm hA0]
  constructor
  · intro h i hi; rw [ef i hi, eg i hi, h i hi]
  · intro h i hi; rw [← ef i hi, ← eg i hi, h i hi]

/-! ## C12 -/

/-- A matrix with a nonzero entry. -/
def MNonzero (M : Mat K) : Prop := ∃ i < 2 ^ M.k, ∃ j < 2 ^ M.k, M.F i j ≠ 0

theorem MRel.w_ne {env : Env (C K)} {s : St (C K)} {M : Mat K} {e : Edge (C K)} (h : MRel env s M e)
    (h0 : MNonzero M) : e.w ≠ 0 := by
  obtain ⟨i, hi, j, hj, hne⟩ := h0
  rw [← h.2 i hi j hj] at hne
  intro hw
  apply hne
  unfold mden
  rw [hw, zero_mul]

/-- **C12 (canonicity).** Two live matrix handles, one nonzero: the edges are equal iff the matrices are equal at some
(equivalently any) qubit count covering both. -/
theorem C12_canonical (hR : Hist cfg thr thrM cs h σ os) {a b n : Nat} {A B : Mat K}
    (ha : h.ms[a]? = some A) (hb : h.ms[b]? = some B) (hA : A.k ≤ n) (hB : B.k ≤ n) (h0 : MNonzero A) :
    σ.d.ms[a]? = σ.d.ms[b]? ↔ ∀ i < 2 ^ n, ∀ j < 2 ^ n, A.at n i j = B.at n i j := by
  have hr := hR.rel
  obtain ⟨ea, hea, ra⟩ := forall₂_get hr.data.ms ha
  obtain ⟨eb, heb, rb⟩ := forall₂_get hr.data.ms hb
  rw [hea, heb, Option.some_inj]
  constructor
  · rintro rfl i hi j hj
    rw [← ra.at hA hi hj, rb.at hB hi hj]
  · intro he
    refine mden_canon hr.inv (ra.1.mono hA) (rb.1.mono hB) (MRel.w_ne ra h0) fun i hi j hj => ?_
    rw [ra.at hA hi hj, rb.at hB hi hj, he i hi j hj]

/-- A stored node is not an identity at its own level. -/
theorem no_identity_node {env : Env (C K)} {s : St (C K)} (hi : Inv env s) {p : Nat} {nd : MNode (C K)} {k : Nat}
    (hp : UTable.Reg env.hm s.mt p nd) (hv : nd.v = (k : Int)) {w : C K} (hw : w ≠ 0) {F : Nat → Nat → C K}
    (hF : ∀ (r c : Bool), ∀ i < 2 ^ k, ∀ j < 2 ^ k,
      mden s.mt.mem (k + 1) ⟨w, some p⟩ (bidx k r i) (bidx k c j) = if r = c then F i j else 0) : False := by
  have hn := hi.mn p nd hp
  have hval : ∀ (r c : Bool), ∀ i < 2 ^ k, ∀ j < 2 ^ k,
      w * mden s.mt.mem k (nd.child r c) i j = if r = c then F i j else 0 := by
    intro r c i h1 j h2
    rw [← hF r c i h1 j h2]
    unfold mden
    rw [mptr_top hp.1 hv r c h1 h2]
    rfl
  have hok : ∀ r c, MOk env s k (nd.child r c).n := fun r c => hn.ok' r c hv
  have zero_of : ∀ r c, (∀ i < 2 ^ k, ∀ j < 2 ^ k, mden s.mt.mem k (nd.child r c) i j = 0) → (nd.child r c).w = 0 := by
    intro r c h
    by_contra hne
    obtain ⟨i, j, h1, h2, h3⟩ := mptr_nonzero hi (hok r c)
    exact mul_ne_zero hne h3 (h i h1 j h2)
  have off : ∀ r c, r ≠ c → (nd.child r c).w = 0 := fun r c hrc => zero_of r c fun i h1 j h2 => by
    have := hval r c i h1 j h2
    rw [if_neg hrc] at this
    exact (mul_eq_zero.1 this).resolve_left hw
  have diag : nd.child false false = nd.child true true := by
    have heq : ∀ i < 2 ^ k, ∀ j < 2 ^ k,
        mden s.mt.mem k (nd.child false false) i j = mden s.mt.mem k (nd.child true true) i j := by
      intro i h1 j h2
      have e1 := hval false false i h1 j h2
      have e2 := hval true true i h1 j h2
      rw [if_pos rfl] at e1 e2
      exact mul_left_cancel₀ hw (e1.trans e2.symm)
    by_cases h0 : (nd.child false false).w = 0
    · have h1 : (nd.child true true).w = 0 := zero_of _ _ fun i h1 j h2 => by
        rw [← heq i h1 j h2]; unfold mden; rw [h0, zero_mul]
      have n0 := hn.z _ _ h0
      have n1 := hn.z _ _ h1
      cases ha : nd.child false false; cases hb : nd.child true true
      simp_all
    · exact mden_canon hi (hok _ _) (hok _ _) h0 heq
  have hst := hn.nostrip
  have h01 := off false true (by decide)
  have h10 := off true false (by decide)
  simp only [MNode.child, Bool.false_eq_true, if_false, if_true] at h01 h10 diag
  unfold strips at hst
  rw [diag, h01, h10] at hst
  have z : WOps.az (0 : C K) = true := (az_iff _).2 rfl
  have e : WOps.ae nd.c3.w nd.c3.w = true := (ae_iff _ _).2 rfl
  simp [z, e] at hst

/-- The state-level form of `C12_no_node_above`. -/
theorem no_node_above {env : Env (C K)} {s : St (C K)} (hinv : Inv env s) {M G : Mat K} {e : Edge (C K)} (rel : MRel env s M e)
    (h0 : MNonzero M) (hG : G.k ≤ M.k) (hid : ∀ i < 2 ^ M.k, ∀ j < 2 ^ M.k, M.F i j = G.at M.k i j) :
    ∀ p nd, e.n = some p → s.mt.mem p = some nd → nd.v < (G.k : Int) := by
  intro p nd hp hmem
  rcases rel.1 with hx | ⟨p', nd', h1, h2, h3⟩
  · rw [hx] at hp; cases hp
  rw [hp] at h1
  cases h1
  have := h2.1
  rw [hmem] at this
  cases this
  by_contra hlt
  obtain ⟨k, hk, _⟩ := hinv.mlevel h2
  have hkG : G.k ≤ k := by omega
  have hkM : k + 1 ≤ M.k := by omega
  have hok : MOk env s (k + 1) e.n := .inr ⟨p, nd, hp, h2, by omega⟩
  -- the matrix read with `k + 1` qubits is `G` read with `k + 1` qubits
  have hpow : 2 ^ (k + 1) ≤ 2 ^ M.k := Nat.pow_le_pow_right (by omega) hkM
  have hsame : ∀ i < 2 ^ (k + 1), ∀ j < 2 ^ (k + 1), mden s.mt.mem (k + 1) e i j = G.at (k + 1) i j := by
    intro i hi j hj
    have hl : MRel env s ⟨k + 1, mden s.mt.mem (k + 1) e⟩ e := ⟨hok, fun _ _ _ _ => rfl⟩
    have e1 := hl.at (n := M.k) hkM (lt_of_lt_of_le hi hpow) (lt_of_lt_of_le hj hpow)
    have e2 := rel.2 i (lt_of_lt_of_le hi hpow) j (lt_of_lt_of_le hj hpow)
    rw [hid i (lt_of_lt_of_le hi hpow) j (lt_of_lt_of_le hj hpow)] at e2
    rw [e2] at e1
    unfold Mat.at at e1
    dsimp only at e1
    rw [Nat.div_eq_of_lt hi, Nat.div_eq_of_lt hj, if_pos rfl, Nat.mod_eq_of_lt hi, Nat.mod_eq_of_lt hj] at e1
    rw [← e1]
    rfl
  refine no_identity_node (w := e.w) (F := fun i j => G.at k i j) hinv h2 hk (MRel.w_ne rel h0) ?_
  intro r c i hi j hj
  have hee : (⟨e.w, some p⟩ : Edge (C K)) = e := by cases e; simp_all
  rw [hee, hsame _ (bidx_lt hi r) _ (bidx_lt hj c)]
  unfold Mat.at
  have hd : ∀ (b : Bool) {x : Nat}, x < 2 ^ k → bidx k b x / 2 ^ G.k = bit b * 2 ^ (k - G.k) + x / 2 ^ G.k ∧
      bidx k b x % 2 ^ G.k = x % 2 ^ G.k ∧ x / 2 ^ G.k < 2 ^ (k - G.k) := by
    intro b x hx
    have hpw : 2 ^ k = 2 ^ G.k * 2 ^ (k - G.k) := by rw [← pow_add]; congr 1; omega
    refine ⟨?_, ?_, ?_⟩
    · cases b
      · simp [bidx, bit]
      · simp only [bidx, bit, if_true, hpw, one_mul]
        rw [Nat.mul_add_div (Nat.two_pow_pos _)]
    · cases b
      · simp [bidx]
      · simp only [bidx, if_true, hpw]
        rw [Nat.mul_add_mod]
    · rw [Nat.div_lt_iff_lt_mul (Nat.two_pow_pos _), Nat.mul_comm, ← hpw]; exact hx
  obtain ⟨a1, a2, a3⟩ := hd r hi
  obtain ⟨b1, b2, b3⟩ := hd c hj
  rw [a1, b1, a2, b2]
  clear a1 b1 a2 b2
  generalize i / 2 ^ G.k = x at *
  generalize j / 2 ^ G.k = y at *
  generalize 2 ^ (k - G.k) = z at *
  by_cases hrc : r = c
  · subst hrc; simp
  · rw [if_neg hrc, if_neg]
    cases r <;> cases c <;> simp [bit] at hrc ⊢ <;> omega

/-- **C12 (stripping).** If a live nonzero matrix acts as the identity on the qubits from `G.k` up, its diagram has no
node at those levels: the root is terminal or a node of level below `G.k`. -/
theorem C12_no_node_above (hR : Hist cfg thr thrM cs h σ os) {m : Nat} {M G : Mat K} (hm : h.ms[m]? = some M)
    (h0 : MNonzero M) (hG : G.k ≤ M.k) (hid : ∀ i < 2 ^ M.k, ∀ j < 2 ^ M.k, M.F i j = G.at M.k i j) :
    ∃ e, σ.d.ms[m]? = some e ∧ ∀ p nd, e.n = some p → σ.st.mt.mem p = some nd → nd.v < (G.k : Int) := by
  obtain ⟨e, he, rel⟩ := forall₂_get hR.rel.data.ms hm
  exact ⟨e, he, no_node_above hR.rel.inv rel h0 hG hid⟩

/-- C12: in particular the identity on all qubits is the terminal edge `mEdge::one`. -/
theorem C12_identity_is_one (hR : Hist cfg thr thrM cs h σ os) {m : Nat} {M : Mat K} (hm : h.ms[m]? = some M)
    (hid : ∀ i < 2 ^ M.k, ∀ j < 2 ^ M.k, M.F i j = if i = j then 1 else 0) :
    σ.d.ms[m]? = some ⟨1, none⟩ := by
  have hr := hR.rel
  obtain ⟨e, he, rel⟩ := forall₂_get hr.data.ms hm
  rw [he]
  congr 1
  have h0 : MNonzero M := ⟨0, Nat.two_pow_pos _, 0, Nat.two_pow_pos _, by
    rw [hid 0 (Nat.two_pow_pos _) 0 (Nat.two_pow_pos _)]; simp⟩
  refine mden_canon hr.inv rel.1 (e' := ⟨1, none⟩) (.inl rfl) (MRel.w_ne rel h0) fun i hi j hj => ?_
  rw [rel.2 i hi j hj, hid i hi j hj]
  have h1 : MRel cfg.env σ.st ⟨0, fun _ _ => 1⟩ (⟨1, none⟩ : Edge (C K)) :=
    ⟨.inl rfl, fun i hi j hj => by simp [mden, mptr]⟩
  rw [h1.at (Nat.zero_le _) hi hj]
  simp [Mat.at]

/-! ## C13 -/

theorem max2_le {a b : C K} (h : (if WOps.lt a b then b else a) = 1) : a.mag2 ≤ 1 ∧ b.mag2 ≤ 1 ∧ (a = 1 ∨ b = 1) := by
  have hlt : ∀ x y : C K, WOps.lt x y = true ↔ x.mag2 < y.mag2 := fun x y => by
    simp [WOps.lt]
  split at h
  · next hab =>
    subst h
    rw [hlt, Cx.mag2_one] at hab
    exact ⟨hab.le, by rw [Cx.mag2_one], .inr rfl⟩
  · next hab =>
    subst h
    rw [hlt, Cx.mag2_one, not_lt] at hab
    exact ⟨by rw [Cx.mag2_one], hab, .inl rfl⟩

/-- **C13 (vectors).** Every node in the unique table of a reachable state: some child has weight exactly 1, no child
weight exceeds 1 in magnitude, zero-weight children are the terminal zero edge, and a nonzero child is terminal at level
0 and otherwise a stored node exactly one level below. -/
theorem C13_vector_nodes (hR : Hist cfg thr thrM cs h σ os) {p : Nat} {nd : VNode (C K)}
    (hp : UTable.Reg cfg.env.hv σ.st.vt p nd) :
    0 ≤ nd.v ∧ nd.v < (NQUBITS : Int) ∧ (∃ b, (nd.child b).w = 1) ∧ (∀ b, (nd.child b).w.mag2 ≤ 1) ∧
    (∀ b, (nd.child b).w = 0 → (nd.child b).n = none) ∧
    ∀ b, (nd.child b).w ≠ 0 → (nd.v = 0 ∧ (nd.child b).n = none) ∨
      ∃ q nc, (nd.child b).n = some q ∧ UTable.Reg cfg.env.hv σ.st.vt q nc ∧ nc.v + 1 = nd.v := by
  have hi := hR.rel.inv
  have hn := hi.vn p nd hp
  obtain ⟨k, hk, hlt⟩ := hi.vlevel hp
  obtain ⟨m0, m1, m2⟩ := max2_le hn.max
  refine ⟨by omega, by omega, ?_, ?_, ?_, ?_⟩
  · rcases m2 with h | h
    · exact ⟨false, h⟩
    · exact ⟨true, h⟩
  · intro b; cases b
    · exact m0
    · exact m1
  · intro b; cases b
    · exact hn.z0
    · exact hn.z1
  · intro b hb
    rcases hn.ok b hk with (⟨h1, h2⟩ | ⟨q, nc, h1, h2, h3⟩) | ⟨h1, _⟩
    · exact .inl ⟨by omega, h2⟩
    · exact .inr ⟨q, nc, h1, h2, by omega⟩
    · exact absurd h1 hb

theorem max4_le {a b c d : C K} (h : maxW4 a b c d = 1) : a.mag2 ≤ 1 ∧ b.mag2 ≤ 1 ∧ c.mag2 ≤ 1 ∧ d.mag2 ≤ 1 := by
  have hlt : ∀ x y : C K, WOps.lt x y = true ↔ x.mag2 < y.mag2 := fun x y => by
    simp [WOps.lt]
  have hm : ∀ x y : C K, x.mag2 ≤ (if WOps.lt x y then y else x).mag2 ∧ y.mag2 ≤ (if WOps.lt x y then y else x).mag2 := by
    intro x y
    split
    · next h => rw [hlt] at h; exact ⟨h.le, le_rfl⟩
    · next h => rw [hlt, not_lt] at h; exact ⟨le_rfl, h⟩
  unfold maxW4 at h
  have h1 := hm a b
  have h2 := hm (if WOps.lt a b then b else a) c
  have h3 := hm (if WOps.lt (if WOps.lt a b then b else a) c then c else (if WOps.lt a b then b else a)) d
  simp only [] at h
  rw [h, Cx.mag2_one] at h3
  exact ⟨(h1.1.trans h2.1).trans h3.1, (h1.2.trans h2.1).trans h3.1, h2.2.trans h3.1, h3.2⟩

/-- **C13 (matrices).** Likewise for matrix nodes; nonterminal children are stored strictly below, and the node is not a
strippable identity level (equal diagonal children, zero off-diagonal). -/
theorem C13_matrix_nodes (hR : Hist cfg thr thrM cs h σ os) {p : Nat} {nd : MNode (C K)}
    (hp : UTable.Reg cfg.env.hm σ.st.mt p nd) :
    0 ≤ nd.v ∧ nd.v < (NQUBITS : Int) ∧ (∃ r c, (nd.child r c).w = 1) ∧ (∀ r c, (nd.child r c).w.mag2 ≤ 1) ∧
    (∀ r c, (nd.child r c).w = 0 → (nd.child r c).n = none) ∧
    (∀ r c q, (nd.child r c).n = some q → ∃ nc, UTable.Reg cfg.env.hm σ.st.mt q nc ∧ nc.v < nd.v) ∧
    ¬ (nd.child false false = nd.child true true ∧ (nd.child false true).w = 0 ∧ (nd.child true false).w = 0) := by
  have hi := hR.rel.inv
  have hn := hi.mn p nd hp
  obtain ⟨k, hk, hlt⟩ := hi.mlevel hp
  obtain ⟨m0, m1, m2, m3⟩ := max4_le hn.max
  refine ⟨by omega, by omega, hn.maxChild, ?_, hn.z, ?_, ?_⟩
  · intro r c; cases r <;> cases c
    · exact m0
    · exact m1
    · exact m2
    · exact m3
  · intro r c q hq
    rcases hn.ok' r c hk with h1 | ⟨q', nc, h1, h2, h3⟩
    · rw [hq] at h1; cases h1
    · rw [hq] at h1; cases h1
      exact ⟨nc, h2, by omega⟩
  · rintro ⟨h1, h2, h3⟩
    simp only [MNode.child, Bool.false_eq_true, if_false, if_true] at h1 h2 h3
    have hst := hn.nostrip
    unfold strips at hst
    have z : WOps.az (0 : C K) = true := (az_iff _).2 rfl
    have e : WOps.ae nd.c3.w nd.c3.w = true := (ae_iff _ _).2 rfl
    rw [h1, h2, h3] at hst
    simp [z, e] at hst

/-! ## Non-vacuity -/

/-- C11: the states computed by `zero(2)` and by applying a gate twice are represented by the same edge. -/
example (cfg : Cfg ℚ) : ∃ σ, Hist cfg 5 5 demoCmds demoHeap σ [.unit, .unit, .unit, .unit, .unit] ∧
    σ.d.vs[0]? ≠ σ.d.vs[1]? := by
  obtain ⟨σ, hσ⟩ := demo_hist cfg 5 5
  refine ⟨σ, hσ, fun heq => ?_⟩
  have := (C11_canonical hσ (a := 0) (b := 1) (A := basis 2 0) (B := basis 2 3) rfl rfl rfl
    (basis_nonzero (by decide))).1 heq 0 (by decide)
  simp [basis] at this

/-- C12: the demo gate is nonzero. -/
example : MNonzero demoM0 := ⟨2, by decide, 0, by decide, by
  show Spec.gate1 2 demoX 1 [⟨0, true⟩] 2 0 ≠ 0
  unfold Spec.gate1
  rw [if_pos (by decide), if_pos (by decide)]
  simp [demoX, bit]
  decide⟩

/-- C13: the tables of the demo history are not empty. -/
example (cfg : Cfg ℚ) : ∃ σ p nd, Hist cfg 5 5 demoCmds demoHeap σ [.unit, .unit, .unit, .unit, .unit] ∧
    UTable.Reg cfg.env.hv σ.st.vt p nd := by
  obtain ⟨σ, hσ⟩ := demo_hist cfg 5 5
  obtain ⟨e, he, rel⟩ := forall₂_get hσ.rel.data.vs (i := 0) (a := basis 2 0) rfl
  rcases (rel.nonzero (basis_nonzero (by decide))).1 with ⟨h, _⟩ | ⟨p, nd, _, h2, _⟩
  · cases h
  · exact ⟨σ, p, nd, hσ, h2⟩

end QDD.Props
