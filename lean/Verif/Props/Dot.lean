import Verif.Core.Dot
import Verif.Props.Nodes
import Verif.Props.Demo
/-!
# C65: the drawing of a diagram says what the state or operation is
-/

set_option linter.unusedSectionVars false
set_option linter.unusedVariables false
set_option linter.unusedSimpArgs false

namespace QDD.Props
open Spec Api Finset ExactW

variable {K : Type} [Field K] [LinearOrder K] [IsStrictOrderedRing K]
variable {cfg : Cfg K} {thr thrM : Nat} {cs : List (Cmd K)} {h : Heap K} {σ : Sys K} {os : List (Obs K)}

/-! ## Specification: reading a drawing -/

/-- Follow the arrow number `i` out of `p`. -/
def follow (L : List (DotLine (C K))) (p i : Nat) : Option (Option Nat × C K) :=
  ((arrowsOf p L).find? fun a => a.1 == i).map Prod.snd

/-- The label of `p`. -/
def labelOf (L : List (DotLine (C K))) (p : Nat) : Option Int := ((nodesOf L).find? fun a => a.1 == p).map Prod.snd

/-- The product of the weights along the path that takes arrow 0 or 1 by the bits `k-1, …, 0` of `i`. -/
def readV (L : List (DotLine (C K))) : Nat → Option Nat → Nat → C K
  | 0, _, _ => 1
  | _ + 1, none, _ => 0
  | k + 1, some p, i => match follow L p (bit (i.testBit k)) with
    | some (n, w) => w * readV L k n i
    | none => 0

/-- The same for a matrix: arrow `2 * row bit + column bit`, missing arrows are 0, and a qubit that no node on the path
carries as its label is left alone. -/
def readM (L : List (DotLine (C K))) : Nat → Option Nat → Nat → Nat → C K
  | 0, _, _, _ => 1
  | k + 1, none, i, j => if i.testBit k = j.testBit k then readM L k none i j else 0
  | k + 1, some p, i, j =>
    if labelOf L p = some (k : Int) then
      (match follow L p (2 * bit (i.testBit k) + bit (j.testBit k)) with
        | some (n, w) => w * readM L k n i j
        | none => 0)
    else if i.testBit k = j.testBit k then readM L k (some p) i j else 0

/-- Where the drawing starts: the first line. -/
def rootOf : List (DotLine (C K)) → Option Nat
  | .node p _ :: _ => some p
  | _ => none

/-- The weight on the last line. -/
def weightOf (L : List (DotLine (C K))) : C K := match L.getLast? with
  | some (.term w) => w
  | _ => 0

/-- Every node is declared once, and every arrow goes from a declared node to a declared node or the terminal. -/
def WellDrawn (L : List (DotLine (C K))) : Prop :=
  ((nodesOf L).map Prod.fst).Nodup ∧ ∀ p n i w, DotLine.arrow p n i w ∈ L →
    p ∈ (nodesOf L).map Prod.fst ∧ ∀ q, n = some q → q ∈ (nodesOf L).map Prod.fst

/-! ## Proofs -/

section
variable {env : Env (C K)} {s : St (C K)}

theorem mem_arrowsOf {p : Nat} {n : Option Nat} {i : Nat} {w : C K} {L : List (DotLine (C K))} :
    (i, n, w) ∈ arrowsOf p L ↔ DotLine.arrow p n i w ∈ L := by
  unfold arrowsOf
  rw [List.mem_filterMap]
  constructor
  · rintro ⟨l, hl, h⟩
    cases l with
    | node a b => cases h
    | term a => cases h
    | arrow a b c d =>
      by_cases hp : a = p
      · simp only [hp, if_true, Option.some.injEq, Prod.mk.injEq] at h
        obtain ⟨rfl, rfl, rfl⟩ := h
        rw [← hp]; exact hl
      · simp [hp] at h
  · intro h
    exact ⟨_, h, by simp⟩

theorem mem_kidArrows {skip : C K → Bool} {es : List (Edge (C K))} {i j : Nat} {n : Option Nat} {w : C K}
    (h : (i, n, w) ∈ kidArrows skip es j) : ⟨w, n⟩ ∈ es ∧ skip w = false := by
  induction es generalizing j with
  | nil => cases h
  | cons e es ih =>
    rw [kidArrows] at h
    rcases List.mem_append.1 h with h | h
    · by_cases hs : skip e.w = true
      · rw [if_pos hs] at h; cases h
      · rw [if_neg hs, List.mem_singleton] at h
        cases h
        exact ⟨List.mem_cons_self, by simpa using hs⟩
    · exact ⟨List.mem_cons_of_mem _ (ih h).1, (ih h).2⟩

/-- A finished drawing. -/
theorem drawn_well {N : Type} [TNode N] [SNode N (C K)] {hs : N → Nat} {src : UTable N} {lab : N → Nat → Int} {skip : C K → Bool}
    {G : Nat → Nat → Prop} {st' : DotSt (C K)} {L : List (DotLine (C K))} {D : List Nat} (hd : Drawn hs src lab skip G ([], []) st' L D)
    (ha : ∀ q, q ∉ D → arrowsOf q L = []) (w : C K) : WellDrawn (L ++ [.term w]) := by
  have hD : st'.2 = D := by simpa using hd.done
  constructor
  · rw [nodesOf_append, nodesOf_term, nodesOf_nil, List.append_nil, hd.nodes]
    exact List.nodup_reverse.2 hd.nodup
  · intro p n i w' hm
    rw [nodesOf_append, nodesOf_term, nodesOf_nil, List.append_nil, hd.nodes]
    have hm : DotLine.arrow p n i w' ∈ L := by
      rcases List.mem_append.1 hm with h | h
      · exact h
      · simp at h
    have hmem := mem_arrowsOf.2 hm
    by_cases hp : p ∈ D
    · refine ⟨List.mem_reverse.2 hp, fun q hq => List.mem_reverse.2 ?_⟩
      obtain ⟨nd, _, h2, h3⟩ := hd.arrows p hp
      rw [h2] at hmem
      obtain ⟨a, b⟩ := mem_kidArrows hmem
      have := h3 _ a b q hq
      rwa [hD] at this
    · rw [ha p hp] at hmem; cases hmem

/-- The drawn nodes are the reachable ones, if only terminal children are skipped. -/
theorem drawn_reach {N : Type} [TNode N] [SNode N (C K)] {hs : N → Nat} {src : UTable N} {lab : N → Nat → Int} {skip : C K → Bool}
    {G : Nat → Nat → Prop} {st' : DotSt (C K)} {L : List (DotLine (C K))} {D : List Nat} (hd : Drawn hs src lab skip G ([], []) st' L D)
    (hsk : ∀ p nd, UTable.Reg hs src p nd → ∀ e ∈ SNode.kids nd, skip e.w = true → e.n = none) {p : Nat} (hp : p ∈ st'.2)
    (hG : ∀ q d, G q d → Reach hs src (some p) (some q)) (q : Nat) : q ∈ D ↔ Reach hs src (some p) (some q) := by
  have hD : st'.2 = D := by simpa using hd.done
  rw [hD] at hp
  constructor
  · intro hq
    have : q ∈ (nodesOf L).map Prod.fst := by rw [hd.nodes]; exact List.mem_reverse.2 hq
    obtain ⟨⟨q', l⟩, hm, rfl⟩ := List.mem_map.1 this
    obtain ⟨_, d, _, hg, _⟩ := hd.labels q' l hm
    exact hG q' d hg
  · intro hr
    have : ∀ n, Reach hs src (some p) n → ∀ q, n = some q → q ∈ D := by
      intro n hr
      induction hr with
      | refl => rintro q h; cases h; exact hp
      | @step a nd k h1 h2 h3 ih =>
        intro q hq
        obtain ⟨nd', b1, _, b3⟩ := hd.arrows a (ih a rfl)
        have := Reg.inj h2 b1
        subst this
        by_cases hs : skip k.w = true
        · rw [hsk a nd h2 k h3 hs] at hq; cases hq
        · have := b3 k h3 (by simpa using hs) q hq
          rwa [hD] at this
    exact this _ hr q rfl

theorem follow_term (L : List (DotLine (C K))) (w : C K) (p i : Nat) : follow (L ++ [.term w]) p i = follow L p i := by
  unfold follow; simp

theorem labelOf_term (L : List (DotLine (C K))) (w : C K) (p : Nat) : labelOf (L ++ [.term w]) p = labelOf L p := by
  unfold labelOf; simp

theorem weightOf_term (L : List (DotLine (C K))) (w : C K) : weightOf (L ++ [.term w]) = w := by
  unfold weightOf; simp

/-- Reading a vector drawing. -/
theorem readV_eq (hi : Inv env s) {lab : VNode (C K) → Nat → Int} {G : Nat → Nat → Prop} {st' : DotSt (C K)}
    {L : List (DotLine (C K))} {D : List Nat} (hd : Drawn env.hv s.vt lab (fun _ => false) G ([], []) st' L D) (w : C K) :
    ∀ (k : Nat) (n : Option Nat), VPtrOk env s k n → (∀ p, n = some p → p ∈ D) → ∀ i, readV (L ++ [.term w]) k n i = vptr s.vt.mem k n i := by
  have hD : st'.2 = D := by simpa using hd.done
  intro k
  induction k with
  | zero => intro n _ _ i; rfl
  | succ k ih =>
    intro n hok hn i
    rcases hok with ⟨h, _⟩ | ⟨p, nd, rfl, hp, hv⟩
    · cases h
    have hk : nd.v = (k : Int) := by push_cast at hv; omega
    obtain ⟨nd', b1, b2, b3⟩ := hd.arrows p (hn p rfl)
    have := Reg.inj hp b1
    subst this
    have hf : follow (L ++ [.term w]) p (bit (i.testBit k)) = some ((nd.child (i.testBit k)).n, (nd.child (i.testBit k)).w) := by
      rw [follow_term, follow, b2]
      cases i.testBit k <;> rfl
    rw [readV, hf, vptr, hp.1]
    dsimp only
    generalize hb : i.testBit k = b
    have hmem : nd.child b ∈ SNode.kids nd := by
      cases b
      · exact List.mem_cons_self
      · exact List.mem_cons_of_mem _ List.mem_cons_self
    rcases (hi.vn p nd hp).ok b hk with h | h
    · rw [ih _ h (fun q hq => by have := b3 _ hmem rfl q hq; rwa [hD] at this)]
    · rw [h.1, zero_mul, zero_mul]

/-- Reading a matrix drawing. -/
theorem readM_eq (hi : Inv env s) {G : Nat → Nat → Prop} {st' : DotSt (C K)}
    {L : List (DotLine (C K))} {D : List Nat} (hd : Drawn env.hm s.mt (fun nd _ => nd.v) (fun w => WOps.az w) G ([], []) st' L D) (w : C K) :
    ∀ (k : Nat) (n : Option Nat), MOk env s k n → (∀ p, n = some p → p ∈ D) → ∀ i j, readM (L ++ [.term w]) k n i j = mptr s.mt.mem k n i j := by
  have hD : st'.2 = D := by simpa using hd.done
  intro k
  induction k with
  | zero => intro n _ _ i j; rfl
  | succ k ih =>
    intro n hok hn i j
    rcases hok with rfl | ⟨p, nd, rfl, hp, hv⟩
    · rw [readM, mptr, ih none (.inl rfl) (by simp)]
    obtain ⟨nd', b1, b2, b3⟩ := hd.arrows p (hn p rfl)
    have := Reg.inj hp b1
    subst this
    have hl : labelOf (L ++ [.term w]) p = some nd.v := by
      rw [labelOf_term, labelOf]
      have hm : p ∈ (nodesOf L).map Prod.fst := by rw [hd.nodes]; exact List.mem_reverse.2 (hn p rfl)
      obtain ⟨⟨q, l⟩, hm, hq⟩ := List.mem_map.1 hm
      cases hfnd : (nodesOf L).find? (fun a => a.1 == p) with
      | none =>
        have := List.find?_eq_none.1 hfnd (q, l) hm
        exact absurd hq (by simpa using this)
      | some a =>
        have h1 := List.find?_some hfnd
        have h2 := List.mem_of_find?_eq_some hfnd
        obtain ⟨nd', d, c1, _, c3⟩ := hd.labels a.1 a.2 h2
        have ha : a.1 = p := by simpa using h1
        rw [ha] at c1
        have := Reg.inj hp c1
        subst this
        simp [c3]
    rw [readM, mptr, hp.1, hl]
    dsimp only
    by_cases hk : nd.v = (k : Int)
    · rw [if_pos (by rw [hk]), if_pos hk]
      generalize i.testBit k = r
      generalize j.testBit k = c
      have hn' := hi.mn p nd hp
      by_cases h0 : (nd.child r c).w = 0
      · -- the arrow is missing
        have hf : follow (L ++ [.term w]) p (2 * bit r + bit c) = none := by
          rw [follow_term, follow, b2]
          simp only [SNode.kids, kidArrows]
          rw [Option.map_eq_none_iff, List.find?_eq_none]
          rintro ⟨x, n, w⟩ hx
          simp only [List.mem_append, List.append_nil] at hx
          have hz : ∀ z : C K, z = 0 → WOps.az z = true := fun z => (az_iff z).2
          cases r <;> cases c <;> simp [bit] <;> rintro rfl <;>
            rcases hx with hx | hx | hx | hx <;> (first | (split at hx <;> simp at hx; done) | skip) <;>
            (simp [MNode.child] at h0; rw [if_pos (hz _ h0)] at hx; cases hx)
        rw [hf, h0, zero_mul]
      · have hz : ¬ WOps.az (nd.child r c).w = true := fun h => h0 ((az_iff _).1 h)
        have hf : follow (L ++ [.term w]) p (2 * bit r + bit c) = some ((nd.child r c).n, (nd.child r c).w) := by
          rw [follow_term, follow, b2]
          simp only [SNode.kids, kidArrows]
          by_cases z0 : WOps.az nd.c0.w = true <;> by_cases z1 : WOps.az nd.c1.w = true <;> by_cases z2 : WOps.az nd.c2.w = true <;>
            by_cases z3 : WOps.az nd.c3.w = true <;> cases r <;> cases c <;>
            simp [MNode.child] at hz <;> simp [z0, z1, z2, z3, bit, MNode.child] <;> simp_all
        rw [hf]
        dsimp only
        have hmem : nd.child r c ∈ SNode.kids nd := by
          cases r <;> cases c <;> simp [MNode.child, SNode.kids]
        have hok : MOk env s k (nd.child r c).n := by
          have := hn'.ok r c
          rwa [hk, Int.toNat_natCast] at this
        rw [ih _ hok (fun q hq => by have := b3 _ hmem (by simpa using hz) q hq; rwa [hD] at this)]
    · rw [if_neg (by intro h; exact hk (Option.some.inj h)), if_neg hk, ih (some p) (.inr ⟨p, nd, rfl, hp, by push_cast at hv; omega⟩) hn]

end

/-- **C65 (states).** In every reachable state, the drawing of a nonzero state reads back as exactly that state; it is well
formed, it declares as many nodes as `get_nNodes` counts, and node labels count the qubits from the top. -/
theorem C65_dot_state (hR : Hist cfg thr thrM cs h σ os) {v : Nat} {V : Vec K} (hv : h.vs[v]? = some V) (h0 : V.Nonzero) :
    ∃ e L, σ.d.vs[v]? = some e ∧ genDotV σ.st e = .ok L ∧ WellDrawn L ∧
      (∀ i < 2 ^ V.k, weightOf L * readV L V.k (rootOf L) i = V.f i) ∧
      getNNodes σ.st e = .ok (nodesOf L).length ∧
      ∀ p l, (p, l) ∈ nodesOf L → ∃ nd, σ.st.vt.mem p = some nd ∧ nd.v + l + 1 = V.k := by
  have hi := hR.rel.inv
  obtain ⟨e, he, rel⟩ := forall₂_get hR.rel.data.vs hv
  have hf := rel.2.2
  have hw : e.w ≠ 0 := by
    obtain ⟨i, hi', hne⟩ := h0
    rw [← hf i hi'] at hne
    exact left_ne_zero_of_mul hne
  have hok : VPtrOk cfg.env σ.st V.k e.n := rel.2.1.resolve_right fun h => hw h.1
  rcases id hok with ⟨h, _⟩ | ⟨p, nd, hp, hreg, hlev⟩
  · exact absurd h (by have := rel.1; omega)
  have hvar := hi.vvar p nd hreg
  obtain ⟨st', L, D, h1, h2, h3, h4, h5⟩ := genDot2_spec (hs := cfg.env.hv) (src := σ.st.vt) (lab := fun _ d => (d : Int)) (skip := fun _ : C K => false)
    (G := fun q d => Reach cfg.env.hv σ.st.vt (some p) (some q) ∧ ∃ nq, UTable.Reg cfg.env.hv σ.st.vt q nq ∧ nq.v + d + 1 = (V.k : Int))
    (by
      rintro q d nq ⟨g1, nq', g2, g3⟩ hq x hx _ y hy
      have := Reg.inj hq g2
      subst this
      refine ⟨by rw [← hy]; exact .step g1 hq hx, ?_⟩
      obtain ⟨l, hl, _⟩ := hi.vlevel hq
      obtain ⟨b, hb⟩ : ∃ b, x = nq.child b := by
        rcases List.mem_cons.1 hx with h | h
        · exact ⟨false, h⟩
        · exact ⟨true, List.mem_singleton.1 h⟩
      subst hb
      rcases (hi.vn q nq hq).ok b hl with (⟨_, h⟩ | ⟨y', ny, a1, a2, a3⟩) | h
      · rw [h] at hy; cases hy
      · rw [a1] at hy; cases hy
        exact ⟨ny, a2, by push_cast; omega⟩
      · rw [h.2] at hy; cases hy)
    hi.vclosed (fun p nd h => (hi.vvar p nd h).1) NQUBITS 0 p ([], []) ⟨nd, hreg, hvar.2⟩ ⟨.refl _, nd, hreg, by push_cast; omega⟩
  obtain ⟨lb, L', hL⟩ := h5 (by simp)
  refine ⟨e, L ++ [.term e.w], he, ?_, drawn_well h2 h4 _, ?_, ?_, ?_⟩
  · unfold genDotV
    rw [hp]
    dsimp only
    rw [show serDepth = NQUBITS + 1 from rfl, h1]
    dsimp only
    rw [h2.lines]; rfl
  · intro i hi'
    have hroot : rootOf (L ++ [.term e.w]) = e.n := by rw [hL, hp]; rfl
    rw [hroot, weightOf_term, readV_eq hi h2 e.w V.k e.n hok, ← hf i hi']
    · rfl
    · intro q hq
      rw [hp] at hq; cases hq
      rwa [h2.done, List.append_nil] at h3
  · obtain ⟨l, hc, hnd, hmem⟩ := getNNodes_spec hi rel.2.1
    rw [hc]
    congr 1
    rw [nodesOf_append, nodesOf_term, nodesOf_nil, List.append_nil]
    have : (nodesOf L).length = D.length := by rw [← List.length_map (f := Prod.fst), h2.nodes, List.length_reverse]
    rw [this]
    refine List.Perm.length_eq ((List.perm_ext_iff_of_nodup hnd h2.nodup).2 fun q => ?_)
    rw [hmem, hp, drawn_reach h2 (by simp) h3 fun q d hg => hg.1]
  · intro q l hq
    rw [nodesOf_append, nodesOf_term, nodesOf_nil, List.append_nil] at hq
    obtain ⟨ndq, d, c1, ⟨_, nq, c2, c3⟩, rfl⟩ := h2.labels q l hq
    exact ⟨nq, c2.1, c3⟩

/-- **C65 (operations).** The drawing of an operation that is not a multiple of the identity reads back as exactly that
operation. -/
theorem C65_dot_operation (hR : Hist cfg thr thrM cs h σ os) {m : Nat} {M : Mat K} (hm : h.ms[m]? = some M)
    (h0 : ¬ ∃ c : C K, ∀ i < 2 ^ M.k, ∀ j < 2 ^ M.k, M.F i j = if i = j then c else 0) :
    ∃ e L, σ.d.ms[m]? = some e ∧ genDotM σ.st e = .ok L ∧ WellDrawn L ∧
      ∀ i < 2 ^ M.k, ∀ j < 2 ^ M.k, weightOf L * readM L M.k (rootOf L) i j = M.F i j := by
  have hi := hR.rel.inv
  obtain ⟨e, he, rel⟩ := forall₂_get hR.rel.data.ms hm
  have hf := rel.2
  rcases id rel.1 with hn | ⟨p, nd, hp, hreg, hlev⟩
  · refine absurd ⟨e.w, fun i hi' j hj => ?_⟩ h0
    rw [← hf i hi' j hj]
    unfold mden
    rw [hn, mptr_none, Nat.mod_eq_of_lt hi', Nat.mod_eq_of_lt hj]
    split <;> simp
  have hvar := hi.mvar p nd hreg
  obtain ⟨st', L, D, h1, h2, h3, h4, h5⟩ := genDot2_spec (hs := cfg.env.hm) (src := σ.st.mt) (lab := fun nd _ => nd.v) (skip := fun w : C K => WOps.az w)
    (G := fun q d => True) (by intros; trivial) hi.mclosed (fun p nd h => (hi.mvar p nd h).1) NQUBITS 0 p ([], []) ⟨nd, hreg, hvar.2⟩ trivial
  obtain ⟨lb, L', hL⟩ := h5 (by simp)
  refine ⟨e, L ++ [.term e.w], he, ?_, drawn_well h2 h4 _, ?_⟩
  · unfold genDotM
    rw [hp]
    dsimp only
    rw [show serDepth = NQUBITS + 1 from rfl, h1]
    dsimp only
    rw [h2.lines]; rfl
  · intro i hi' j hj
    have hroot : rootOf (L ++ [.term e.w]) = e.n := by rw [hL, hp]; rfl
    rw [hroot, weightOf_term, readM_eq hi h2 e.w M.k e.n rel.1, ← hf i hi' j hj]
    · rfl
    · intro q hq
      rw [hp] at hq; cases hq
      rwa [h2.done, List.append_nil] at h3

/-- **C65 (identities).** The drawing of a nonzero multiple of the identity fails an assertion (aborts the process in a
debug build): the root is the terminal. -/
theorem C65_dot_identity (hR : Hist cfg thr thrM cs h σ os) {m : Nat} {M : Mat K} (hm : h.ms[m]? = some M) {c : C K} (hc : c ≠ 0)
    (hM : ∀ i < 2 ^ M.k, ∀ j < 2 ^ M.k, M.F i j = if i = j then c else 0) :
    ∃ e, σ.d.ms[m]? = some e ∧ genDotM σ.st e = .error .assert := by
  have hi := hR.rel.inv
  obtain ⟨e, he, rel⟩ := forall₂_get hR.rel.data.ms hm
  refine ⟨e, he, ?_⟩
  have hf := rel.2
  have hw : e.w ≠ 0 := by
    intro h0
    have := hf 0 (Nat.two_pow_pos _) 0 (Nat.two_pow_pos _)
    rw [mden_w0 h0, hM 0 (Nat.two_pow_pos _) 0 (Nat.two_pow_pos _), if_pos rfl] at this
    exact hc this.symm
  have hn : e.n = none := by
    refine (mptr_canon hi (n' := none) (c := c / e.w) rel.1 (.inl rfl) (div_ne_zero hc hw) fun i hi' j hj => ?_).1
    have := hf i hi' j hj
    rw [hM i hi' j hj] at this
    rw [mptr_none, Nat.mod_eq_of_lt hi', Nat.mod_eq_of_lt hj]
    have h2 : mptr σ.st.mt.mem M.k e.n i j = (if i = j then c else 0) / e.w := by
      rw [eq_div_iff hw, mul_comm]; exact this
    rw [h2]
    split <;> simp
  unfold genDotM
  rw [hn]

/-- The rotated state (3/5, 4/5) meets the hypotheses: one node. -/
example (cfg : Cfg K) : ∃ σ e L, Hist cfg 5 5 rotCmds rotHeap σ [.unit, .unit, .unit] ∧ σ.d.vs[1]? = some e ∧ genDotV σ.st e = .ok L ∧
    weightOf L * readV L 1 (rootOf L) 1 = ⟨4 / 5, 0⟩ := by
  obtain ⟨σ, hσ⟩ := rot_hist cfg 5 5
  obtain ⟨e, L, h1, h2, _, h4, _⟩ := C65_dot_state hσ (v := 1) (V := rotV) rfl rotV_nonzero
  exact ⟨σ, e, L, hσ, h1, h2, (h4 1 (show 1 < 2 by decide)).trans rotV_1⟩

/-- A controlled X is not a multiple of the identity. -/
example (cfg : Cfg ℚ) : ∃ σ e L, Hist cfg 5 5 demoCmds demoHeap σ [.unit, .unit, .unit, .unit, .unit] ∧ σ.d.ms[0]? = some e ∧
    genDotM σ.st e = .ok L ∧ WellDrawn L := by
  obtain ⟨σ, hσ⟩ := demo_hist cfg 5 5
  obtain ⟨e, L, h1, h2, h3, _⟩ := C65_dot_operation hσ (m := 0) (M := demoM0) rfl (by
    rintro ⟨c, hc⟩
    have := hc 2 (by decide) 0 (by decide)
    have h1 : demoM0.F 2 0 = 1 := by
      show Spec.gate1 2 demoX 1 [⟨0, true⟩] 2 0 = 1
      unfold Spec.gate1
      rw [if_pos (by decide), if_pos (by decide)]
      rfl
    rw [h1, if_neg (by decide)] at this
    exact one_ne_zero this)
  exact ⟨σ, e, L, hσ, h1, h2, h3⟩

end QDD.Props
