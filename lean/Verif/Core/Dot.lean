import Verif.Core.Gc
/-!
# genDot (dd.cpp 2080-2165)

The drawing is a list of lines rather than a string; addresses are printed as themselves, weights with `operator<<`
(six digits in C++) are kept exactly.  The lines `digraph qdd {`, `}` and the message on stdout are left out.
-/

set_option linter.unusedSectionVars false
set_option linter.unusedVariables false
set_option linter.unusedSimpArgs false

namespace QDD

/-- A line of the drawing: `p [label="q<l>"]`, `p -> n [label="<i><w>"]` (`n = none`: the terminal's address), and the
closing `terminal [label="Term w=<w>"]`. -/
inductive DotLine (W : Type)
  | node (p : Nat) (l : Int)
  | arrow (p : Nat) (n : Option Nat) (i : Nat) (w : W)
  | term (w : W)
  deriving DecidableEq, Repr

/-- The growing `result` and the set `done` (latest first). -/
abbrev DotSt (W : Type) := List (DotLine W) × List Nat

section model
variable {N W : Type} [TNode N] [SNode N W] [WOps W]

/-- The loop over the children of node `p` (dd.cpp 2089-2096, 2132-2142), from child number `i` on; `skip` is the test
that skips a child (matrices only, dd.cpp 2133-2135). -/
def dotKids (visit : Nat → DotSt W → Except Err (DotSt W)) (skip : W → Bool) (p : Nat) :
    List (Edge W) → Nat → DotSt W → Except Err (DotSt W)
  | [], _, st => .ok st
  | e :: es, i, st =>
    if skip e.w then dotKids visit skip p es (i + 1) st else
    match e.n with
    | none => dotKids visit skip p es (i + 1) (st.1 ++ [.arrow p e.n i e.w], st.2)
    | some q => match visit q (st.1 ++ [.arrow p e.n i e.w], st.2) with
      | .error er => .error er
      | .ok st => dotKids visit skip p es (i + 1) st

/-- `genDot2` (dd.cpp 2080-2097, 2122-2143); `lab` is the label printed for a node met at a depth: the depth for vectors,
the level for matrices.  The first argument bounds the recursion. -/
def genDot2 (mem : Nat → Option N) (lab : N → Nat → Int) (skip : W → Bool) : Nat → Nat → Nat → DotSt W → Except Err (DotSt W)
  | 0, _, _, _ => .error .overflow
  | f + 1, depth, p, st =>
    if p ∈ st.2 then .ok st else
    match mem p with
    | none => .error .badNode
    | some nd => dotKids (genDot2 mem lab skip f (depth + 1)) skip p (SNode.kids nd) 0
        (st.1 ++ [.node p (lab nd depth)], p :: st.2)

end model

section top
variable {W : Type} [WOps W]

/-- `genDot(vEdge&)` (dd.cpp 2099-2120): the empty string for a terminal root. -/
def genDotV (s : St W) (e : Edge W) : Except Err (List (DotLine W)) :=
  match e.n with
  | none => .ok []
  | some p => match genDot2 s.vt.mem (fun _ d => (d : Int)) (fun _ => false) serDepth 0 p ([], []) with
    | .error er => .error er
    | .ok st => .ok (st.1 ++ [.term e.w])

/-- `genDot(mEdge&)` (dd.cpp 2145-2165): a terminal root fails the assertion. -/
def genDotM (s : St W) (e : Edge W) : Except Err (List (DotLine W)) :=
  match e.n with
  | none => .error .assert
  | some p => match genDot2 s.mt.mem (fun nd _ => nd.v) (fun w => WOps.az w) serDepth 0 p ([], []) with
    | .error er => .error er
    | .ok st => .ok (st.1 ++ [.term e.w])

end top

/-! ## What is drawn -/

section lines
variable {W : Type}

/-- The declared nodes with their labels, in order. -/
def nodesOf (L : List (DotLine W)) : List (Nat × Int) :=
  L.filterMap fun l => match l with | .node p q => some (p, q) | _ => none

/-- The arrows leaving `p`: child number, target, weight, in order. -/
def arrowsOf (p : Nat) (L : List (DotLine W)) : List (Nat × Option Nat × W) :=
  L.filterMap fun l => match l with | .arrow p' n i w => if p' = p then some (i, n, w) else none | _ => none

@[simp] theorem nodesOf_nil : nodesOf ([] : List (DotLine W)) = [] := rfl
@[simp] theorem arrowsOf_nil (p : Nat) : arrowsOf p ([] : List (DotLine W)) = [] := rfl
@[simp] theorem nodesOf_append (a b : List (DotLine W)) : nodesOf (a ++ b) = nodesOf a ++ nodesOf b := List.filterMap_append
@[simp] theorem arrowsOf_append (p : Nat) (a b : List (DotLine W)) : arrowsOf p (a ++ b) = arrowsOf p a ++ arrowsOf p b :=
  List.filterMap_append
@[simp] theorem nodesOf_node (p : Nat) (q : Int) (L : List (DotLine W)) : nodesOf (.node p q :: L) = (p, q) :: nodesOf L := rfl
@[simp] theorem nodesOf_arrow (p : Nat) (n : Option Nat) (i : Nat) (w : W) (L : List (DotLine W)) :
    nodesOf (.arrow p n i w :: L) = nodesOf L := rfl
@[simp] theorem nodesOf_term (w : W) (L : List (DotLine W)) : nodesOf (.term w :: L) = nodesOf L := rfl
@[simp] theorem arrowsOf_node (x p : Nat) (q : Int) (L : List (DotLine W)) : arrowsOf x (.node p q :: L) = arrowsOf x L := rfl
@[simp] theorem arrowsOf_term (x : Nat) (w : W) (L : List (DotLine W)) : arrowsOf x (.term w :: L) = arrowsOf x L := rfl
theorem arrowsOf_arrow (x p : Nat) (n : Option Nat) (i : Nat) (w : W) (L : List (DotLine W)) :
    arrowsOf x (.arrow p n i w :: L) = (if p = x then [(i, n, w)] else []) ++ arrowsOf x L := by
  unfold arrowsOf
  by_cases h : p = x <;> simp [h]

end lines

section proofs
variable {N W : Type} [TNode N] [SNode N W] [WOps W] {hs : N → Nat} {src : UTable N} {lab : N → Nat → Int} {skip : W → Bool}

/-- The arrows due for a list of children. -/
def kidArrows (skip : W → Bool) : List (Edge W) → Nat → List (Nat × Option Nat × W)
  | [], _ => []
  | e :: es, i => (if skip e.w then [] else [(i, e.n, e.w)]) ++ kidArrows skip es (i + 1)

/-- `st'` adds to `st` the lines `L` for the nodes `D`. -/
structure Drawn (hs : N → Nat) (src : UTable N) (lab : N → Nat → Int) (skip : W → Bool) (G : Nat → Nat → Prop)
    (st st' : DotSt W) (L : List (DotLine W)) (D : List Nat) : Prop where
  lines : st'.1 = st.1 ++ L
  done : st'.2 = D ++ st.2
  nodup : D.Nodup
  fresh : ∀ q ∈ D, q ∉ st.2
  nodes : (nodesOf L).map Prod.fst = D.reverse
  labels : ∀ q l, (q, l) ∈ nodesOf L → ∃ nd d, UTable.Reg hs src q nd ∧ G q d ∧ l = lab nd d
  arrows : ∀ q ∈ D, ∃ nd, UTable.Reg hs src q nd ∧ arrowsOf q L = kidArrows skip (SNode.kids nd) 0 ∧
    ∀ e ∈ SNode.kids nd, skip e.w = false → ∀ x, e.n = some x → x ∈ st'.2
  noterm : ∀ w, DotLine.term w ∉ L

theorem genDot2_spec {G : Nat → Nat → Prop}
    (hG : ∀ p d nd, G p d → UTable.Reg hs src p nd → ∀ e ∈ SNode.kids nd, skip e.w = false → ∀ q, e.n = some q → G q (d + 1))
    (hcl : Closed hs src) (hv : ∀ p nd, UTable.Reg hs src p nd → 0 ≤ TNode.var nd) :
    ∀ (f d p : Nat) (st : DotSt W), (∃ nd, UTable.Reg hs src p nd ∧ TNode.var nd < (f : Int)) → G p d →
      ∃ st' L D, genDot2 src.mem lab skip (f + 1) d p st = .ok st' ∧ Drawn hs src lab skip G st st' L D ∧ p ∈ st'.2 ∧
        (∀ q, q ∉ D → arrowsOf q L = []) ∧ (p ∉ st.2 → ∃ l L', L = .node p l :: L') := by
  intro f
  induction f with
  | zero =>
    rintro d p st ⟨nd, h1, h2⟩ _
    have := hv p nd h1
    push_cast at h2
    omega
  | succ f ih =>
    rintro d p st ⟨nd, hr, hlt⟩ hg
    rw [genDot2]
    by_cases hp : p ∈ st.2
    · rw [if_pos hp]
      refine ⟨st, [], [], rfl, ⟨by simp, by simp, List.nodup_nil, by simp, rfl, by simp, by simp, by simp⟩, hp, fun _ _ => rfl, fun h => absurd hp h⟩
    rw [if_neg hp, hr.1]
    dsimp only
    -- the loop over the children
    have loop : ∀ (es : List (Edge W)) (i : Nat) (st1 : DotSt W), (∀ e ∈ es, e ∈ SNode.kids nd) → p ∈ st1.2 →
        ∃ st' L D, dotKids (genDot2 src.mem lab skip (f + 1) (d + 1)) skip p es i st1 = .ok st' ∧ Drawn hs src lab skip G st1 st' L D ∧
          arrowsOf p L = kidArrows skip es i ∧ (∀ q, q ∉ D → q ≠ p → arrowsOf q L = []) ∧
          (∀ e ∈ es, skip e.w = false → ∀ x, e.n = some x → x ∈ st'.2) := by
      intro es
      induction es with
      | nil =>
        intro i st1 _ _
        exact ⟨st1, [], [], rfl, ⟨by simp, by simp, List.nodup_nil, by simp, rfl, by simp, by simp, by simp⟩, rfl, fun _ _ _ => rfl, by simp⟩
      | cons e es ihe =>
        intro i st1 hes hp1
        have hek := hes e List.mem_cons_self
        have hes' : ∀ x ∈ es, x ∈ SNode.kids nd := fun x hx => hes x (List.mem_cons_of_mem _ hx)
        rw [dotKids, kidArrows]
        by_cases hsk : skip e.w = true
        · rw [if_pos hsk, if_pos hsk]
          obtain ⟨st', L, D, h1, h2, h3, h4, h5⟩ := ihe (i + 1) st1 hes' hp1
          refine ⟨st', L, D, h1, h2, by rw [h3]; rfl, h4, ?_⟩
          intro x hx hs
          rcases List.mem_cons.1 hx with rfl | hx
          · rw [hsk] at hs; cases hs
          · exact h5 x hx hs
        rw [if_neg hsk, if_neg hsk]
        have hsk' : skip e.w = false := by simpa using hsk
        cases hn : e.n with
        | none =>
          dsimp only
          obtain ⟨st', L, D, h1, h2, h3, h4, h5⟩ := ihe (i + 1) (st1.1 ++ [.arrow p none i e.w], st1.2) hes' hp1
          refine ⟨st', .arrow p none i e.w :: L, D, h1, ⟨by rw [h2.lines]; simp, h2.done, h2.nodup, h2.fresh, h2.nodes, h2.labels, ?_, ?_⟩, ?_, ?_, ?_⟩
          · intro q hq
            obtain ⟨ndq, a1, a2, a3⟩ := h2.arrows q hq
            refine ⟨ndq, a1, ?_, a3⟩
            rw [arrowsOf_arrow, if_neg (show ¬ p = q from fun h => h2.fresh q hq (h ▸ hp1)), a2]; rfl
          · intro w hw
            rcases List.mem_cons.1 hw with h | h
            · cases h
            · exact h2.noterm w h
          · rw [arrowsOf_arrow, if_pos rfl, h3]
          · intro q hq hqp
            rw [arrowsOf_arrow, if_neg (Ne.symm hqp), h4 q hq hqp]; rfl
          · intro x hx hs y hy
            rcases List.mem_cons.1 hx with rfl | hx
            · rw [hn] at hy; cases hy
            · exact h5 x hx hs y hy
        | some q =>
          dsimp only
          have hq : ∃ nq, UTable.Reg hs src q nq ∧ TNode.var nq < (f : Int) := by
            rcases hcl p nd hr e hek with h | ⟨q', nq, b1, b2, b3⟩
            · rw [hn] at h; cases h
            · rw [hn] at b1; cases b1
              exact ⟨nq, b2, by push_cast at hlt; omega⟩
          obtain ⟨st2, L1, D1, a1, a2, a3, a4, _⟩ := ih (d + 1) q (st1.1 ++ [.arrow p (some q) i e.w], st1.2) hq (hG p d nd hg hr e hek hsk' q hn)
          rw [a1]
          dsimp only
          have hp2 : p ∈ st2.2 := by rw [a2.done]; exact List.mem_append_right _ hp1
          obtain ⟨st', L2, D2, h1, h2, h3, h4, h5⟩ := ihe (i + 1) st2 hes' hp2
          have hD1p : p ∉ D1 := fun h => a2.fresh p h hp1
          have hdis : ∀ x ∈ D2, x ∉ D1 ++ st1.2 := fun x hx => by have := h2.fresh x hx; rwa [a2.done] at this
          refine ⟨st', .arrow p (some q) i e.w :: (L1 ++ L2), D2 ++ D1, h1, ⟨?_, ?_, ?_, ?_, ?_, ?_, ?_, ?_⟩, ?_, ?_, ?_⟩
          · rw [h2.lines, a2.lines]; simp
          · rw [h2.done, a2.done]; simp
          · refine List.nodup_append.2 ⟨h2.nodup, a2.nodup, ?_⟩
            rintro x hx y hy rfl
            exact hdis x hx (List.mem_append_left _ hy)
          · intro x hx
            rcases List.mem_append.1 hx with h | h
            · exact fun hh => hdis x h (List.mem_append_right _ hh)
            · exact a2.fresh x h
          · simp [a2.nodes, h2.nodes]
          · intro x l hx
            rw [nodesOf_arrow, nodesOf_append] at hx
            rcases List.mem_append.1 hx with h | h
            · exact a2.labels x l h
            · exact h2.labels x l h
          · intro x hx
            rcases List.mem_append.1 hx with h | h
            · obtain ⟨ndq, b1, b2, b3⟩ := h2.arrows x h
              refine ⟨ndq, b1, ?_, b3⟩
              have hxp : p ≠ x := fun hh => h2.fresh x h (hh ▸ hp2)
              rw [arrowsOf_arrow, if_neg hxp, arrowsOf_append, a4 x (fun hh => hdis x h (List.mem_append_left _ hh)), b2]; rfl
            · obtain ⟨ndq, b1, b2, b3⟩ := a2.arrows x h
              have hxp : p ≠ x := fun hh => hD1p (hh ▸ h)
              refine ⟨ndq, b1, ?_, fun e' he' hs' y hy => by rw [h2.done]; exact List.mem_append_right _ (b3 e' he' hs' y hy)⟩
              rw [arrowsOf_arrow, if_neg hxp, arrowsOf_append, b2, h4 x (fun hh => hdis x hh (List.mem_append_left _ h)) (Ne.symm hxp)]
              simp
          · intro w hw
            rcases List.mem_cons.1 hw with h | h
            · cases h
            · rcases List.mem_append.1 h with h | h
              · exact a2.noterm w h
              · exact h2.noterm w h
          · rw [arrowsOf_arrow, if_pos rfl, arrowsOf_append, a4 p hD1p, h3]; rfl
          · intro x hx hxp
            rw [List.mem_append, not_or] at hx
            rw [arrowsOf_arrow, if_neg (Ne.symm hxp), arrowsOf_append, a4 x hx.2, h4 x hx.1 hxp]; rfl
          · intro x hx hs y hy
            rcases List.mem_cons.1 hx with rfl | hx
            · rw [hn] at hy; cases hy
              rw [h2.done]; exact List.mem_append_right _ a3
            · exact h5 x hx hs y hy
    obtain ⟨st', L, D, h1, h2, h3, h4, h5⟩ := loop (SNode.kids nd) 0 (st.1 ++ [.node p (lab nd d)], p :: st.2) (fun _ h => h) List.mem_cons_self
    have hDp : p ∉ D := fun h => h2.fresh p h List.mem_cons_self
    refine ⟨st', .node p (lab nd d) :: L, D ++ [p], h1, ⟨by rw [h2.lines]; simp, by rw [h2.done]; simp, ?_, ?_, ?_, ?_, ?_, ?_⟩, ?_, ?_, fun _ => ⟨_, _, rfl⟩⟩
    · refine List.nodup_append.2 ⟨h2.nodup, List.nodup_singleton _, ?_⟩
      rintro x hx y hy rfl
      rw [List.mem_singleton.1 hy] at hx
      exact hDp hx
    · intro q hq
      rcases List.mem_append.1 hq with h | h
      · exact fun hh => h2.fresh q h (List.mem_cons_of_mem _ hh)
      · rw [List.mem_singleton.1 h]; exact hp
    · simp [h2.nodes]
    · intro q l hq
      rw [nodesOf_node] at hq
      rcases List.mem_cons.1 hq with h | h
      · cases h
        exact ⟨nd, d, hr, hg, rfl⟩
      · exact h2.labels q l h
    · intro q hq
      rcases List.mem_append.1 hq with h | h
      · obtain ⟨ndq, b1, b2, b3⟩ := h2.arrows q h
        exact ⟨ndq, b1, by rw [arrowsOf_node]; exact b2, b3⟩
      · rw [List.mem_singleton.1 h]
        exact ⟨nd, hr, by rw [arrowsOf_node]; exact h3, h5⟩
    · intro w hw
      rcases List.mem_cons.1 hw with h | h
      · cases h
      · exact h2.noterm w h
    · rw [h2.done]; exact List.mem_append_right _ List.mem_cons_self
    · intro q hq
      rw [List.mem_append, not_or] at hq
      rw [arrowsOf_node]
      exact h4 q hq.1 fun h => hq.2 (by rw [h]; exact List.mem_singleton_self _)

end proofs

end QDD
