import Verif.Core.Canon
/-!
# Serialisation of diagrams (dd.cpp 2190-2292), generic over the node type

`vNode_to_vec`/`mNode_to_vec` and `vec_to_vNode`/`vec_to_mNode` differ only in the number of children.
-/

set_option linter.unusedSectionVars false
set_option linter.unusedVariables false
set_option linter.unusedSimpArgs false

namespace QDD

/-- Node types as level + list of children (`vNode`: 2, `mNode`: 4). -/
class SNode (N : Type) (W : outParam Type) [TNode N] where
  arity : Nat
  kids : N → List (Edge W)
  build : Int → List (Edge W) → N
  kids_len : ∀ nd, (kids nd).length = arity
  mk_var : ∀ v l, l.length = arity → TNode.var (build v l) = v
  mk_kids : ∀ v l, l.length = arity → kids (build v l) = l
  mk_eta : ∀ nd, build (TNode.var nd) (kids nd) = nd

/-- `children` of a `vNode` (dd.h 205). -/
instance instSNodeV {W : Type} [WOps W] : SNode (VNode W) W where
  arity := 2
  kids nd := [nd.c0, nd.c1]
  build v l := match l with
    | [a, b] => ⟨v, a, b⟩
    | _ => ⟨v, zeroE, zeroE⟩
  kids_len _ := rfl
  mk_var v l h := by match l, h with | [_, _], _ => rfl
  mk_kids v l h := by match l, h with | [_, _], _ => rfl
  mk_eta _ := rfl

/-- `children` of an `mNode` (dd.h 315). -/
instance instSNodeM {W : Type} [WOps W] : SNode (MNode W) W where
  arity := 4
  kids nd := [nd.c0, nd.c1, nd.c2, nd.c3]
  build v l := match l with
    | [a, b, c, d] => ⟨v, a, b, c, d⟩
    | _ => ⟨v, zeroE, zeroE, zeroE, zeroE⟩
  kids_len _ := rfl
  mk_var v l h := by match l, h with | [_, _, _, _], _ => rfl
  mk_kids v l h := by match l, h with | [_, _, _, _], _ => rfl
  mk_eta _ := rfl

/-- `vContent`/`mContent` (dd.h 391-460): level, and per child weight and index. -/
structure Content (W : Type) where
  v : Int
  ks : List (W × Nat)
  deriving DecidableEq, Repr

/-- The growing `table` and the `map` from node pointers (`none`: terminal) to indices. -/
structure Ser (W : Type) where
  tab : List (Content W)
  map : Option Nat → Option Nat

/-- Empty `table` and `map`, as every caller passes them (dd.cpp 2170-2172, 2355-2357, 2371-2373). -/
def Ser.init {W : Type} : Ser W := ⟨[], fun _ => none⟩

section model
variable {N W : Type} [TNode N] [SNode N W] [WOps W]

/-- The recursive calls on the children, left to right (dd.cpp 2208-2211, 2231-2236). -/
def toVecKids (rec : Option Nat → Ser W → Except Err (Nat × Ser W)) :
    List (Edge W) → Ser W → Except Err (List (W × Nat) × Ser W)
  | [], st => .ok ([], st)
  | e :: es, st => match rec e.n st with
    | .error er => .error er
    | .ok (i, st) => match toVecKids rec es st with
      | .error er => .error er
      | .ok (l, st) => .ok ((e.w, i) :: l, st)

/-- `vNode_to_vec` / `mNode_to_vec` (dd.cpp 2190-2239).  The first argument bounds the recursion depth;
running out of it is an error, shown not to happen for live diagrams. -/
def toVec (mem : Nat → Option N) : Nat → Option Nat → Ser W → Except Err (Nat × Ser W)
  | 0, _, _ => .error .overflow
  | f + 1, n, st =>
    let st : Ser W := if st.tab.length = 0 then
      ⟨[⟨-1, List.replicate (SNode.arity N) (WOps.zero, 0)⟩], upd st.map none (some 0)⟩ else st
    match st.map n with
    | some i => .ok (i, st)
    | none => match n with
      | none => .error .badNode
      | some p => match mem p with
        | none => .error .badNode
        | some nd => match toVecKids (toVec mem f) (SNode.kids nd) st with
          | .error er => .error er
          | .ok (l, st) =>
            .ok (st.tab.length, ⟨st.tab ++ [⟨TNode.var nd, l⟩], upd st.map (some p) (some st.tab.length)⟩)

/-- The children `{table[i].w[j], map[table[i].index[j]]}` (dd.cpp 2256-2260, 2276-2284); a missing entry of
`map` is a null pointer, which is an error here. -/
def fromKids (map : Nat → Option (Option Nat)) : List (W × Nat) → Except Err (List (Edge W))
  | [] => .ok []
  | (w, i) :: l => match map i with
    | none => .error .badNode
    | some n => match fromKids map l with
      | .error er => .error er
      | .ok es => .ok (⟨w, n⟩ :: es)

/-- The loop of `vec_to_vNode` / `vec_to_mNode` over the entries from index `i` on (dd.cpp 2252-2264,
2272-2290). -/
def fromVecLoop (hash : N → Nat) (tid : Nat) (noLookup : Bool) :
    List (Content W) → Nat → (Nat → Option (Option Nat)) → UTable N →
      Except Err ((Nat → Option (Option Nat)) × UTable N)
  | [], _, map, t => .ok (map, t)
  | c :: cs, i, map, t =>
    match fromKids map c.ks with
    | .error er => .error er
    | .ok es =>
      let r := UTable.getNode tid t
      let t := UTable.write r.1 (SNode.build c.v es) r.2
      match (if noLookup then UTable.register hash r.1 t else UTable.lookup hash tid r.1 t) with
      | .error er => .error er
      | .ok (q, t) => fromVecLoop hash tid noLookup cs (i + 1) (upd map i (some (some q))) t

/-- `vec_to_vNode` / `vec_to_mNode` (dd.cpp 2241-2292): index 0 is the terminal, the result is the last
entry. -/
def fromVec (hash : N → Nat) (tid : Nat) (noLookup : Bool) (tab : List (Content W)) (t : UTable N) :
    Except Err (Option Nat × UTable N) :=
  match fromVecLoop hash tid noLookup tab.tail 1 (upd (fun _ => none) 0 (some none)) t with
  | .error er => .error er
  | .ok (map, t) => match map (tab.length - 1) with
    | none => .error .badNode
    | some n => .ok (n, t)

/-- Children of registered nodes are terminal or registered at a lower level. -/
def Closed (hash : N → Nat) (t : UTable N) : Prop :=
  ∀ p nd, UTable.Reg hash t p nd → ∀ k ∈ SNode.kids nd,
    k.n = none ∨ ∃ q nq, k.n = some q ∧ UTable.Reg hash t q nq ∧ TNode.var nq < TNode.var nd

/-- The pointer is terminal or registered. -/
def RegP (hash : N → Nat) (t : UTable N) (n : Option Nat) : Prop :=
  n = none ∨ ∃ p nd, n = some p ∧ UTable.Reg hash t p nd

/-- Node `b` can be reached from `a` by child pointers. -/
inductive Reach (hash : N → Nat) (t : UTable N) : Option Nat → Option Nat → Prop
  | refl (a) : Reach hash t a a
  | step {a p nd k} : Reach hash t a (some p) → UTable.Reg hash t p nd → k ∈ SNode.kids nd →
      Reach hash t a k.n

/-- Two diagrams, in possibly different tables, are copies of each other: same levels, same weights. -/
inductive Iso (hs ht : N → Nat) (t t' : UTable N) : Option Nat → Option Nat → Prop
  | term : Iso hs ht t t' none none
  | node {p q nd nd'} : UTable.Reg hs t p nd → UTable.Reg ht t' q nd' → TNode.var nd = TNode.var nd' →
      (∀ (j : Nat) (a b : Edge W), (SNode.kids nd)[j]? = some a → (SNode.kids nd')[j]? = some b → a.w = b.w) →
      (∀ (j : Nat) (a b : Edge W), (SNode.kids nd)[j]? = some a → (SNode.kids nd')[j]? = some b →
        Iso hs ht t t' a.n b.n) →
      Iso hs ht t t' (some p) (some q)

end model

section proofs
variable {N W : Type} [TNode N] [SNode N W] [WOps W]
variable {hash hs ht : N → Nat} {src : UTable N}

/-- Entry `i` of the vector describes the node `nd`. -/
def Entry (nd : N) (c : Content W) (i : Nat) (map : Option Nat → Option Nat) : Prop :=
  c.v = TNode.var nd ∧ c.ks.length = (SNode.kids nd).length ∧
    ∀ (j : Nat) (a : Edge W), (SNode.kids nd)[j]? = some a →
      ∃ x, c.ks[j]? = some (a.w, x) ∧ x < i ∧ map a.n = some x

/-- Invariant of a started serialisation. -/
structure SerOk (hs : N → Nat) (src : UTable N) (st : Ser W) : Prop where
  pos : 0 < st.tab.length
  term : st.map none = some 0
  ent : ∀ p i, st.map (some p) = some i → 0 < i ∧ i < st.tab.length ∧
    ∃ nd c, UTable.Reg hs src p nd ∧ st.tab[i]? = some c ∧ Entry nd c i st.map
  surj : ∀ i, 0 < i → i < st.tab.length → ∃ p, st.map (some p) = some i
  inj : ∀ a b i, st.map a = some i → st.map b = some i → a = b

/-- `st'` extends `st`, new entries coming from nodes reachable from `n`. -/
structure SerExt (R : Option Nat → Prop) (st st' : Ser W) : Prop where
  map : ∀ a i, st.map a = some i → st'.map a = some i
  tab : ∃ l, st'.tab = st.tab ++ l
  new : ∀ a i, st'.map a = some i → st.map a = some i ∨ R a

theorem SerExt.refl (R : Option Nat → Prop) (st : Ser W) : SerExt R st st :=
  ⟨fun _ _ h => h, ⟨[], by simp⟩, fun _ _ h => .inl h⟩

theorem SerExt.trans {R : Option Nat → Prop} {a b c : Ser W} (h : SerExt R a b) (h' : SerExt R b c) :
    SerExt R a c := by
  obtain ⟨l, hl⟩ := h.tab
  obtain ⟨l', hl'⟩ := h'.tab
  exact ⟨fun x i hx => h'.map x i (h.map x i hx), ⟨l ++ l', by rw [hl', hl, List.append_assoc]⟩,
    fun x i hx => (h'.new x i hx).elim (fun h1 => h.new x i h1) .inr⟩

theorem SerExt.mono {R R' : Option Nat → Prop} {a b : Ser W} (h : SerExt R a b) (hr : ∀ x, R x → R' x) :
    SerExt R' a b := ⟨h.map, h.tab, fun x i hx => (h.new x i hx).imp id (hr x)⟩

theorem toVecKids_spec {f : Option Nat → Ser W → Except Err (Nat × Ser W)} {R : Option Nat → Prop} :
    ∀ (es : List (Edge W)) (st : Ser W), SerOk hs src st →
      (∀ e ∈ es, ∀ st, SerOk hs src st → ∃ i st', f e.n st = .ok (i, st') ∧ SerOk hs src st' ∧
        SerExt R st st' ∧ st'.map e.n = some i) →
      ∃ l st', toVecKids f es st = .ok (l, st') ∧ SerOk hs src st' ∧ SerExt R st st' ∧
        l.length = es.length ∧
        ∀ (j : Nat) (a : Edge W), es[j]? = some a → ∃ x, l[j]? = some (a.w, x) ∧ st'.map a.n = some x := by
  intro es
  induction es with
  | nil => intro st h _; exact ⟨[], st, rfl, h, SerExt.refl _ _, rfl, by simp⟩
  | cons e es ih =>
    intro st h hf
    obtain ⟨i, st1, h1, h2, h3, h4⟩ := hf e List.mem_cons_self st h
    obtain ⟨l, st2, h5, h6, h7, h8, h9⟩ := ih st1 h2 (fun e' he' => hf e' (List.mem_cons_of_mem _ he'))
    refine ⟨(e.w, i) :: l, st2, by simp [toVecKids, h1, h5], h6, h3.trans h7, by simp [h8], ?_⟩
    intro j a hj
    cases j with
    | zero => simp at hj; subst hj; exact ⟨i, rfl, h7.map _ _ h4⟩
    | succ j => simp at hj; simpa using h9 j a hj

theorem Entry.mono {nd : N} {c : Content W} {i : Nat} {m m' : Option Nat → Option Nat} (h : Entry nd c i m)
    (hm : ∀ a x, m a = some x → m' a = some x) : Entry nd c i m' := by
  refine ⟨h.1, h.2.1, fun j a hj => ?_⟩
  obtain ⟨x, h1, h2, h3⟩ := h.2.2 j a hj
  exact ⟨x, h1, h2, hm _ _ h3⟩

theorem SerOk.lt {st : Ser W} (h : SerOk hs src st) {a i} (ha : st.map a = some i) : i < st.tab.length := by
  cases a with
  | none => rw [h.term] at ha; cases ha; exact h.pos
  | some p => exact (h.ent p i ha).2.1

/-- The state after the first call has put the terminal entry. -/
theorem SerOk.start (hs : N → Nat) (src : UTable N) (c : Content W) :
    SerOk hs src ⟨[c], upd (fun _ => none) none (some 0)⟩ := by
  refine ⟨by simp, by simp, ?_, ?_, ?_⟩
  · intro p i h; simp [upd_ne] at h
  · intro i h1 h2; simp at h2; omega
  · intro a b i ha hb
    cases a <;> cases b <;> simp [upd_ne] at ha hb ⊢

theorem SerOk.add {st : Ser W} (h : SerOk hs src st) {p : Nat} {nd : N} (hr : UTable.Reg hs src p nd)
    (hn : st.map (some p) = none) {l : List (W × Nat)} (hl : l.length = (SNode.kids nd).length)
    (hk : ∀ (j : Nat) (a : Edge W), (SNode.kids nd)[j]? = some a →
      ∃ x, l[j]? = some (a.w, x) ∧ st.map a.n = some x) :
    SerOk hs src ⟨st.tab ++ [⟨TNode.var nd, l⟩], upd st.map (some p) (some st.tab.length)⟩ := by
  have hmono : ∀ a x, st.map a = some x → upd st.map (some p) (some st.tab.length) a = some x := by
    intro a x hx
    have : a ≠ some p := by rintro rfl; rw [hn] at hx; cases hx
    rw [upd_ne _ _ _ this]; exact hx
  refine ⟨by simp, hmono _ _ h.term, ?_, ?_, ?_⟩
  · intro q i hq
    by_cases e : (some q : Option Nat) = some p
    · cases e
      simp at hq; subst hq
      refine ⟨h.pos, by simp, nd, ⟨TNode.var nd, l⟩, hr, by simp, rfl, hl, ?_⟩
      intro j a hj
      obtain ⟨x, h1, h2⟩ := hk j a hj
      exact ⟨x, h1, h.lt h2, hmono _ _ h2⟩
    · dsimp only at hq
      rw [upd_ne _ _ _ e] at hq
      obtain ⟨h1, h2, nd', c, h3, h4, h5⟩ := h.ent q i hq
      exact ⟨h1, by simp; omega, nd', c, h3, by simpa [List.getElem?_append_left h2] using h4, h5.mono hmono⟩
  · intro i h1 h2
    simp at h2
    by_cases e : i = st.tab.length
    · exact ⟨p, by simp [e]⟩
    · obtain ⟨q, hq⟩ := h.surj i h1 (by omega)
      exact ⟨q, hmono _ _ hq⟩
  · intro a b i ha hb
    dsimp only at ha hb
    by_cases ea : a = some p <;> by_cases eb : b = some p
    · rw [ea, eb]
    · subst ea; rw [upd_ne _ _ _ eb] at hb; simp at ha; have := h.lt hb; omega
    · subst eb; rw [upd_ne _ _ _ ea] at ha; simp at hb; have := h.lt ha; omega
    · rw [upd_ne _ _ _ ea] at ha; rw [upd_ne _ _ _ eb] at hb; exact h.inj a b i ha hb

/-- Level bound of a pointer: terminal, or registered with level below `f`. -/
def Below (hs : N → Nat) (src : UTable N) (f : Int) (n : Option Nat) : Prop :=
  n = none ∨ ∃ p nd, n = some p ∧ UTable.Reg hs src p nd ∧ TNode.var nd < f

theorem Reach.head {hs : N → Nat} {t : UTable N} {p : Nat} {nd : N} {k : Edge W} {b : Option Nat}
    (hr : UTable.Reg hs t p nd) (hk : k ∈ SNode.kids nd) (h : Reach hs t k.n b) : Reach hs t (some p) b := by
  induction h with
  | refl => exact .step (.refl _) hr hk
  | step _ h2 h3 ih => exact .step ih h2 h3

theorem toVec_succ (mem : Nat → Option N) (f : Nat) (n : Option Nat) (st : Ser W) (hne : st.tab.length ≠ 0) :
    toVec mem (f + 1 + 1) n st = (match st.map n with
        | some i => .ok (i, st)
        | none => match n with
          | none => .error .badNode
          | some p => match mem p with
            | none => .error .badNode
            | some nd => match toVecKids (toVec mem (f + 1)) (SNode.kids nd) st with
              | .error er => .error er
              | .ok (l, st) =>
                .ok (st.tab.length,
                  ⟨st.tab ++ [⟨TNode.var nd, l⟩], upd st.map (some p) (some st.tab.length)⟩)) := by
  rw [toVec.eq_def]; simp only [hne, if_false]

theorem toVec_spec' (hcl : Closed hs src) (hv : ∀ p nd, UTable.Reg hs src p nd → 0 ≤ TNode.var nd) :
    ∀ (f : Nat) (n : Option Nat) (st : Ser W), Below hs src f n → SerOk hs src st →
      ∃ i st', toVec src.mem (f + 1) n st = .ok (i, st') ∧ SerOk hs src st' ∧
        SerExt (Reach hs src n) st st' ∧ st'.map n = some i ∧
        (st.map n = none → i + 1 = st'.tab.length) := by
  intro f
  induction f with
  | zero =>
    intro n st hb h
    rcases hb with rfl | ⟨p, nd, rfl, hr, hlt⟩
    · refine ⟨0, st, ?_, h, SerExt.refl _ _, h.term, by simp [h.term]⟩
      have hp := h.pos
      have : st.tab.length ≠ 0 := by omega
      simp [toVec, this, h.term]
    · have := hv p nd hr; omega
  | succ f ih =>
    intro n st hb h
    have hp := h.pos
    have hne : st.tab.length ≠ 0 := by omega
    rw [toVec_succ src.mem f n st hne]
    cases hm : st.map n with
    | some i => exact ⟨i, st, rfl, h, SerExt.refl _ _, hm, by simp⟩
    | none =>
      rcases hb with rfl | ⟨p, nd, rfl, hr, hlt⟩
      · rw [h.term] at hm; cases hm
      · have hkids : ∀ e ∈ SNode.kids nd, Below hs src f e.n := by
          intro e he
          rcases hcl p nd hr e he with h1 | ⟨q, nq, h1, h2, h3⟩
          · exact .inl h1
          · exact .inr ⟨q, nq, h1, h2, by push_cast at hlt; omega⟩
        obtain ⟨l, st2, h1, h2, h3, h4, h5⟩ :=
          toVecKids_spec (R := fun x => Reach hs src (some p) x ∧ ∀ q, x = some q → ∃ nq,
              UTable.Reg hs src q nq ∧ TNode.var nq < TNode.var nd)
            (f := toVec src.mem (f + 1)) (SNode.kids nd) st h (by
            intro e he st hst
            obtain ⟨i, st', a1, a2, a3, a4, _⟩ := ih e.n st (hkids e he) hst
            refine ⟨i, st', a1, a2, a3.mono ?_, a4⟩
            intro x hx
            refine ⟨Reach.head hr he hx, ?_⟩
            -- levels decrease along paths
            have : ∀ x, Reach hs src e.n x → ∀ q, x = some q → ∃ nq,
                UTable.Reg hs src q nq ∧ TNode.var nq < TNode.var nd := by
              intro x hx
              induction hx with
              | refl =>
                intro q hq
                rcases hcl p nd hr e he with b1 | ⟨q', nq, b1, b2, b3⟩
                · rw [b1] at hq; cases hq
                · rw [b1] at hq; cases hq; exact ⟨nq, b2, b3⟩
              | step c1 c2 c3 ihx =>
                intro q hq
                obtain ⟨nq, d1, d2⟩ := ihx _ rfl
                have := Option.some.inj (d1.1.symm.trans c2.1)
                subst this
                rcases hcl _ _ c2 _ c3 with b1 | ⟨q', nq', b1, b2, b3⟩
                · rw [b1] at hq; cases hq
                · rw [b1] at hq; cases hq; exact ⟨nq', b2, by omega⟩
            exact this x hx)
        have hn2 : st2.map (some p) = none := by
          cases hx : st2.map (some p) with
          | none => rfl
          | some x =>
            rcases h3.new _ _ hx with h6 | ⟨_, h6⟩
            · rw [hm] at h6; cases h6
            · obtain ⟨nq, h7, h8⟩ := h6 p rfl
              have := Option.some.inj (h7.1.symm.trans hr.1)
              subst this; omega
        refine ⟨st2.tab.length, _, by simp only [hr.1, h1], SerOk.add h2 hr hn2 h4 h5, ?_, by simp, by simp⟩
        refine SerExt.trans (h3.mono fun x hx => hx.1) ⟨?_, ⟨_, rfl⟩, ?_⟩
        · intro a i ha
          have : a ≠ some p := by rintro rfl; rw [hn2] at ha; cases ha
          dsimp only; rw [upd_ne _ _ _ this]; exact ha
        · intro a i ha
          by_cases e : a = some p
          · subst e; exact .inr (.refl _)
          · dsimp only at ha; rw [upd_ne _ _ _ e] at ha; exact .inl ha

/-- Serialising a live diagram into empty containers. -/
theorem toVec_spec (hcl : Closed hs src) (hv : ∀ p nd, UTable.Reg hs src p nd → 0 ≤ TNode.var nd)
    {f : Nat} {n : Option Nat} (hb : Below hs src f n) :
    ∃ i st', toVec src.mem (f + 1) n Ser.init = .ok (i, st') ∧ SerOk hs src st' ∧ st'.map n = some i ∧
      i + 1 = st'.tab.length ∧ ∀ p, (∃ x, st'.map (some p) = some x) ↔ Reach hs src n (some p) := by
  let st0 : Ser W := ⟨[⟨-1, List.replicate (SNode.arity N) (WOps.zero, 0)⟩], upd (fun _ => none) none (some 0)⟩
  have h0 : SerOk hs src st0 := SerOk.start hs src _
  have e : toVec src.mem (f + 1) n Ser.init = toVec src.mem (f + 1) n st0 := by
    simp [toVec, Ser.init, st0]
  obtain ⟨i, st', h1, h2, h3, h4, h5⟩ := toVec_spec' hcl hv f n st0 hb h0
  rw [e]
  refine ⟨i, st', h1, h2, h4, ?_, ?_⟩
  · cases n with
    | some p => exact h5 (by simp [st0, upd_ne])
    | none =>
      have : st' = st0 ∧ i = 0 := by
        have h1' := h1
        simp only [toVec, st0] at h1'
        simp at h1'
        exact ⟨h1'.2.symm, h1'.1.symm⟩
      rw [this.1, this.2]; rfl
  · intro p
    constructor
    · rintro ⟨x, hx⟩
      rcases h3.new _ _ hx with h | h
      · simp [st0, upd_ne] at h
      · exact h
    · intro hr
      have : ∀ b, Reach hs src n b → ∃ x, st'.map b = some x := by
        intro b hb
        induction hb with
        | refl => exact ⟨i, h4⟩
        | step a1 a2 a3 ih =>
          obtain ⟨x, hx⟩ := ih
          obtain ⟨_, _, nd, c, b1, b2, b3⟩ := h2.ent _ _ hx
          have := Option.some.inj (b1.1.symm.trans a2.1)
          subst this
          obtain ⟨j, hj⟩ := List.getElem?_of_mem a3
          obtain ⟨y, _, _, hy⟩ := b3.2.2 j _ hj
          exact ⟨y, hy⟩
      exact this _ hr

theorem fromKids_spec {map : Nat → Option (Option Nat)} : ∀ (l : List (W × Nat)),
    (∀ w i, (w, i) ∈ l → ∃ n, map i = some n) →
    ∃ es, fromKids map l = .ok es ∧ es.length = l.length ∧
      ∀ (j : Nat) w i n, l[j]? = some (w, i) → map i = some n → es[j]? = some ⟨w, n⟩ := by
  intro l
  induction l with
  | nil => intro _; exact ⟨[], rfl, rfl, by simp⟩
  | cons x l ih =>
    intro h
    obtain ⟨w, i⟩ := x
    obtain ⟨n, hn⟩ := h w i List.mem_cons_self
    obtain ⟨es, h1, h2, h3⟩ := ih (fun w i hi => h w i (List.mem_cons_of_mem _ hi))
    refine ⟨⟨w, n⟩ :: es, by simp [fromKids, hn, h1], by simp [h2], ?_⟩
    intro j w' i' n' hj hm
    cases j with
    | zero => simp at hj; obtain ⟨rfl, rfl⟩ := hj; rw [hn] at hm; cases hm; rfl
    | succ j => simp at hj; simpa using h3 j w' i' n' hj hm

theorem Iso.ext {t t' t'' : UTable N} (he : UTable.Ext ht t' t'') {a b} (h : Iso hs ht t t' a b) :
    Iso hs ht t t'' a b := by
  induction h with
  | term => exact .term
  | node h1 h2 h3 h4 _ ih => exact .node h1 (he _ _ h2) h3 h4 ih

/-- What holds for the deserialiser's `map` after the entries below `i`. -/
structure FromOk (hs ht : N → Nat) (src : UTable N) (st : Ser W) (t0 t : UTable N) (i : Nat)
    (map : Nat → Option (Option Nat)) : Prop where
  inv : UTable.TInv ht t []
  uniq : UTable.Uniq t
  ext : UTable.Ext ht t0 t
  iso : ∀ a x, st.map a = some x → x < i → ∃ b, map x = some b ∧ Iso hs ht src t a b
  new : ∀ q x, UTable.Reg ht t q x → UTable.Reg ht t0 q x ∨ ∃ p, Iso hs ht src t (some p) (some q)

/-- Extra facts when rebuilding into an empty table without lookups: the map is injective and covers it. -/
structure FreshOk (ht : N → Nat) (t : UTable N) (i : Nat) (map : Nat → Option (Option Nat)) : Prop where
  inj : ∀ x y, x < i → y < i → ∀ b, map x = some b → map y = some b → x = y
  cover : ∀ q nd, UTable.Reg ht t q nd → ∃ x, 0 < x ∧ x < i ∧ map x = some (some q)

variable (heq : ∀ a b : N, TNode.eqv a b = true ↔ a = b)

include heq in
theorem reg_inj {t : UTable N} (hu : UTable.Uniq t) {p q : Nat} {nd : N} (hp : UTable.Reg ht t p nd)
    (hq : UTable.Reg ht t q nd) : p = q := reg_unique hu ((heq nd nd).2 rfl) hp hq

/-- Storing a content in a table: getNode, write, then lookup or register. -/
theorem store_spec {t : UTable N} (hi : UTable.TInv ht t []) (hu : UTable.Uniq t) (nd : N)
    (hv0 : 0 ≤ TNode.var nd) (hv1 : TNode.var nd < (NQUBITS : Int)) (tid : Nat) (nl : Bool)
    (hnl : nl = true → ∀ q x, UTable.Reg ht t q x → x ≠ nd)
    (heq : ∀ a b : N, TNode.eqv a b = true ↔ a = b) :
    let r := UTable.getNode tid t
    let t1 := UTable.write r.1 nd r.2
    ∃ q t', (if nl then UTable.register ht r.1 t1 else UTable.lookup ht tid r.1 t1) = .ok (q, t') ∧
      UTable.TInv ht t' [] ∧ UTable.Uniq t' ∧ UTable.Ext ht t t' ∧ UTable.Reg ht t' q nd ∧
      (∀ p x, UTable.Reg ht t' p x → UTable.Reg ht t p x ∨ (p = q ∧ x = nd)) ∧
      (nl = true → ∀ x, ¬ UTable.Reg ht t q x) := by
  intro r t1
  obtain ⟨g1, g2, g3⟩ := UTable.getNode_spec hi tid
  have hw := UTable.write_inv g1 (p := r.1) List.mem_cons_self nd
  have hm : t1.mem r.1 = some nd := by simp [t1, UTable.write]
  have hreg1 : ∀ q x, UTable.Reg ht t1 q x ↔ UTable.Reg ht t q x := by
    intro q x
    rw [UTable.write_reg g1 List.mem_cons_self nd q x]
    unfold UTable.Reg; rw [g2, g3]
  have hu1 : UTable.Uniq t1 := by
    refine UTable.write_uniq g1 List.mem_cons_self nd ?_
    intro v b; rw [g2, g3]; exact hu v b
  cases nl with
  | false =>
    obtain ⟨c, t', h1, h2, h3, h4, nc, h5, h6, h7⟩ := UTable.lookup_spec hw hu1 hm hv0 hv1 tid
    have hnc : nc = nd := by
      rcases h6 with ⟨h, _⟩ | ⟨h, _⟩
      · exact h
      · exact ((heq _ _).1 h).symm
    subst hnc
    refine ⟨c, t', h1, h2, h3, fun q x hq => h4 _ _ ((hreg1 q x).2 hq), h5, ?_, by simp⟩
    intro p x hx
    exact (h7 p x hx).imp (hreg1 p x).1 id
  | true =>
    obtain ⟨p1, p2⟩ := UTable.push_spec hw hm hv0 hv1
    have hnb : ¬ (TNode.var nd < 0 ∨ (NQUBITS : Int) ≤ TNode.var nd) := by omega
    refine ⟨r.1, _, by simp only [UTable.register, hm, hnb, if_false, if_true]; rfl, p1, ?_, ?_, ?_, ?_, ?_⟩
    · refine UTable.push_uniq hm hu1 ?_
      intro c hc nc hnc
      obtain ⟨nc', hr, _⟩ := hw.reg hc
      have : nc' = nc := Option.some.inj (hr.1.symm.trans hnc)
      subst this
      have hne := hnl rfl c nc' ((hreg1 c nc').1 hr)
      cases h : TNode.eqv nd nc' with
      | false => rfl
      | true => exact absurd ((heq _ _).1 h).symm hne
    · intro q x hq; exact (p2 q x).2 (.inl ((hreg1 q x).2 hq))
    · exact (p2 _ _).2 (.inr ⟨rfl, rfl⟩)
    · intro p x hx; exact ((p2 p x).1 hx).imp (hreg1 p x).1 id
    · intro _ x hx
      have := (hreg1 _ _).2 hx
      exact hw.ownChain r.1 List.mem_cons_self _ _ this.2

theorem fromVecLoop_spec {st : Ser W} (hst : SerOk hs src st) (hsu : UTable.Uniq src)
    (hsv : ∀ p nd, UTable.Reg hs src p nd → 0 ≤ TNode.var nd ∧ TNode.var nd < (NQUBITS : Int))
    (heq : ∀ a b : N, TNode.eqv a b = true ↔ a = b) {t0 : UTable N} (tid : Nat) (nl : Bool) :
    ∀ (cs : List (Content W)) (i : Nat) map t, 0 < i → st.tab.drop i = cs → i + cs.length = st.tab.length →
      FromOk hs ht src st t0 t i map → (nl = true → FreshOk ht t i map) →
      ∃ map' t', fromVecLoop ht tid nl cs i map t = .ok (map', t') ∧
        FromOk hs ht src st t0 t' st.tab.length map' := by
  intro cs
  induction cs with
  | nil =>
    intro i map t _ _ hl hf _
    simp at hl; subst hl
    exact ⟨map, t, rfl, hf⟩
  | cons c cs ih =>
    intro i map t hi hd hl hf hfr
    have hil : i < st.tab.length := by simp at hl; omega
    have hci : st.tab[i]? = some c := by
      have := congrArg (fun l => l[0]?) hd
      simpa using this
    obtain ⟨p, hp⟩ := hst.surj i hi hil
    obtain ⟨_, _, nd, c', hr, hc', hent⟩ := hst.ent p i hp
    rw [hci] at hc'; cases hc'
    obtain ⟨he1, he2, he3⟩ := hent
    -- the children
    have hkid : ∀ (j : Nat) (a : Edge W), (SNode.kids nd)[j]? = some a →
        ∃ x b, c.ks[j]? = some (a.w, x) ∧ map x = some b ∧ Iso hs ht src t a.n b ∧ st.map a.n = some x ∧ x < i := by
      intro j a hj
      obtain ⟨x, h1, h2, h3⟩ := he3 j a hj
      obtain ⟨b, h4, h5⟩ := hf.iso _ _ h3 h2
      exact ⟨x, b, h1, h4, h5, h3, h2⟩
    obtain ⟨es, hes1, hes2, hes3⟩ := fromKids_spec (map := map) c.ks (by
      intro w x hx
      obtain ⟨j, hj⟩ := List.getElem?_of_mem hx
      have hjl : j < (SNode.kids nd).length := by
        rw [← he2]; exact (List.getElem?_eq_some_iff.1 hj).1
      obtain ⟨x', b, h1, h2, _⟩ := hkid j _ (List.getElem?_eq_getElem hjl)
      rw [hj] at h1; cases h1
      exact ⟨b, h2⟩)
    have hlen : es.length = SNode.arity N := by rw [hes2, he2, SNode.kids_len]
    have hkes : ∀ (j : Nat) (a b : Edge W), (SNode.kids nd)[j]? = some a → es[j]? = some b →
        a.w = b.w ∧ ∃ x, map x = some b.n ∧ Iso hs ht src t a.n b.n ∧ st.map a.n = some x ∧ x < i := by
      intro j a b ha hb
      obtain ⟨x, n, h1, h2, h3, h4, h5⟩ := hkid j a ha
      have := hes3 j a.w x n h1 h2
      rw [hb] at this; cases this
      exact ⟨rfl, x, h2, h3, h4, h5⟩
    let nd' : N := SNode.build c.v es
    have hvar : TNode.var nd' = TNode.var nd := by rw [SNode.mk_var _ _ hlen, he1]
    have hkids' : SNode.kids nd' = es := SNode.mk_kids _ _ hlen
    have hnl : nl = true → ∀ q x, UTable.Reg ht t q x → x ≠ nd' := by
      intro hnl q x hq hx
      subst hx
      have hF := hfr hnl
      obtain ⟨k, hk0, hki, hmk⟩ := hF.cover q _ hq
      obtain ⟨p2, hp2⟩ := hst.surj k hk0 (by omega)
      obtain ⟨b, hb1, hb2⟩ := hf.iso _ _ hp2 hki
      rw [hmk] at hb1; cases hb1
      cases hb2 with
      | node g1 g2 g3 g4 g5 =>
        rename_i nd2 ndq
        have hq2 : ndq = nd' := Option.some.inj (g2.1.symm.trans hq.1)
        subst hq2
        obtain ⟨_, _, nd2', c2, f1, f2, f3⟩ := hst.ent p2 k hp2
        have : nd2' = nd2 := Option.some.inj (f1.1.symm.trans g1.1)
        subst this
        have hke : SNode.kids nd2' = SNode.kids nd := by
          apply List.ext_getElem?
          intro j
          by_cases hj : j < SNode.arity N
          · have a1 : (SNode.kids nd2')[j]? = some ((SNode.kids nd2')[j]'(by rw [SNode.kids_len]; exact hj)) :=
              List.getElem?_eq_getElem _
            have a2 : (SNode.kids nd)[j]? = some ((SNode.kids nd)[j]'(by rw [SNode.kids_len]; exact hj)) :=
              List.getElem?_eq_getElem _
            have a3 : es[j]? = some (es[j]'(by omega)) := List.getElem?_eq_getElem _
            obtain ⟨w1, x, m1, _, m2, m3⟩ := hkes j _ _ a2 a3
            have w2 := g4 j _ _ a1 (by rw [hkids']; exact a3)
            -- the child index of p2's entry
            obtain ⟨y, y1, y2, y3⟩ := f3.2.2 j _ a1
            obtain ⟨b', hb3, hb4⟩ := hf.iso _ _ y3 (by omega)
            have hb5 := g5 j _ _ a1 (by rw [hkids']; exact a3)
            -- both copies of that child coincide because the rebuilt map is injective
            have hbe : ∀ b1 b2, Iso hs ht src t ((SNode.kids nd2')[j]'(by rw [SNode.kids_len]; exact hj)).n b1 →
                Iso hs ht src t ((SNode.kids nd2')[j]'(by rw [SNode.kids_len]; exact hj)).n b2 → b1 = b2 := by
              intro b1 b2 i1 i2
              have key : ∀ a b1, Iso hs ht src t a b1 → ∀ b2, Iso hs ht src t a b2 → b1 = b2 := by
                intro a b1 h1
                induction h1 with
                | term => intro b2 h2; cases h2; rfl
                | node z1 z2 z3 z4 z5 ihz =>
                  intro b2 h2
                  cases h2 with
                  | node u1 u2 u3 u4 u5 =>
                    rename_i pz qz ndz ndz' qu ndu ndu'
                    have : ndu = ndz := Option.some.inj (u1.1.symm.trans z1.1)
                    subst this
                    have : ndz' = ndu' := by
                      rw [← SNode.mk_eta ndz', ← SNode.mk_eta ndu', ← z3, ← u3]
                      congr 1
                      apply List.ext_getElem?
                      intro j
                      by_cases hj : j < SNode.arity N
                      · have b1 : (SNode.kids ndu)[j]? = some ((SNode.kids ndu)[j]'(by rw [SNode.kids_len]; exact hj)) :=
                          List.getElem?_eq_getElem _
                        have b2 : (SNode.kids ndz')[j]? = some ((SNode.kids ndz')[j]'(by rw [SNode.kids_len]; exact hj)) :=
                          List.getElem?_eq_getElem _
                        have b3 : (SNode.kids ndu')[j]? = some ((SNode.kids ndu')[j]'(by rw [SNode.kids_len]; exact hj)) :=
                          List.getElem?_eq_getElem _
                        have e1 := z4 j _ _ b1 b2
                        have e2 := u4 j _ _ b1 b3
                        have e3 := ihz j _ _ b1 b2 _ (u5 j _ _ b1 b3)
                        rw [b2, b3]
                        congr 1
                        generalize (SNode.kids ndz')[j]'(by rw [SNode.kids_len]; exact hj) = ea at *
                        generalize (SNode.kids ndu')[j]'(by rw [SNode.kids_len]; exact hj) = eb at *
                        cases ea; cases eb; simp_all
                      · rw [List.getElem?_eq_none (by rw [SNode.kids_len]; omega),
                          List.getElem?_eq_none (by rw [SNode.kids_len]; omega)]
                    subst this
                    rw [reg_inj heq hf.uniq z2 u2]
              exact key _ _ i1 _ i2
            have hbb := hbe _ _ hb4 hb5
            subst hbb
            have hxy : x = y := hF.inj x y m3 (by omega) _ m1 hb3
            subst hxy
            have hn := hst.inj _ _ _ m2 y3
            rw [a1, a2]
            congr 1
            generalize (SNode.kids nd2')[j]'(by rw [SNode.kids_len]; exact hj) = ea at *
            generalize (SNode.kids nd)[j]'(by rw [SNode.kids_len]; exact hj) = eb at *
            cases ea; cases eb; simp_all
          · rw [List.getElem?_eq_none (by rw [SNode.kids_len]; omega),
              List.getElem?_eq_none (by rw [SNode.kids_len]; omega)]
        have hnn : nd2' = nd := by
          rw [← SNode.mk_eta nd2', ← SNode.mk_eta nd, hke, g3, hvar]
        subst hnn
        have hpp := reg_inj heq hsu f1 hr
        subst hpp
        rw [hp] at hp2; cases hp2; omega
    obtain ⟨q, t', s1, s2, s3, s4, s5, s6, s7⟩ := store_spec hf.inv hf.uniq nd'
      (by rw [hvar]; exact (hsv _ _ hr).1) (by rw [hvar]; exact (hsv _ _ hr).2) tid nl hnl heq
    have hisoq : Iso hs ht src t' (some p) (some q) := by
      refine .node hr s5 hvar.symm ?_ ?_
      · intro j a b ha hb; rw [hkids'] at hb; exact (hkes j a b ha hb).1
      · intro j a b ha hb
        rw [hkids'] at hb
        obtain ⟨_, x, _, h, _⟩ := hkes j a b ha hb
        exact h.ext s4
    have hrun : fromVecLoop ht tid nl (c :: cs) i map t =
        fromVecLoop ht tid nl cs (i + 1) (upd map i (some (some q))) t' := by
      rw [fromVecLoop]
      simp only [hes1]
      dsimp only [nd'] at s1
      rw [s1]
    rw [hrun]
    refine ih (i + 1) _ t' (Nat.succ_pos _) ?_ (by simp at hl; omega) ?_ ?_
    · rw [← List.drop_drop, hd]; rfl
    · refine ⟨s2, s3, hf.ext.trans s4, ?_, ?_⟩
      · intro a x ha hx
        by_cases e : x = i
        · subst e
          have : a = some p := hst.inj _ _ _ ha hp
          subst this
          exact ⟨some q, by simp, hisoq⟩
        · obtain ⟨b, h1, h2⟩ := hf.iso a x ha (by omega)
          exact ⟨b, by rw [upd_ne _ _ _ e]; exact h1, h2.ext s4⟩
      · intro q' x hq'
        rcases s6 q' x hq' with h | ⟨rfl, rfl⟩
        · rcases hf.new q' x h with h | ⟨p', h⟩
          · exact .inl h
          · exact .inr ⟨p', h.ext s4⟩
        · exact .inr ⟨p, hisoq⟩
    · intro hnl'
      have hF := hfr hnl'
      have hnew := s7 hnl'
      have hnq : ∀ x, x < i → map x ≠ some (some q) := by
        intro x hx he
        have hreg : ∃ ndq, UTable.Reg ht t q ndq := by
          by_cases e0 : x = 0
          · obtain ⟨b, h1, h2⟩ := hf.iso none 0 hst.term hi
            rw [e0, h1] at he; cases he; cases h2
          · obtain ⟨p2, hp2⟩ := hst.surj x (by omega) (by omega)
            obtain ⟨b, h1, h2⟩ := hf.iso _ _ hp2 hx
            rw [h1] at he; cases he
            cases h2 with
            | node _ g2 _ _ _ => exact ⟨_, g2⟩
        obtain ⟨ndq, h⟩ := hreg
        exact hnew _ h
      refine ⟨?_, ?_⟩
      · intro x y hx hy b hbx hby
        by_cases ex : x = i <;> by_cases ey : y = i
        · omega
        · subst ex; rw [upd_ne _ _ _ ey] at hby; simp at hbx; subst hbx
          exact absurd hby (hnq y (by omega))
        · subst ey; rw [upd_ne _ _ _ ex] at hbx; simp at hby; subst hby
          exact absurd hbx (hnq x (by omega))
        · rw [upd_ne _ _ _ ex] at hbx; rw [upd_ne _ _ _ ey] at hby
          exact hF.inj x y (by omega) (by omega) b hbx hby
      · intro q' x hq'
        rcases s6 q' x hq' with h | ⟨rfl, rfl⟩
        · obtain ⟨k, h1, h2, h3⟩ := hF.cover q' x h
          refine ⟨k, h1, by omega, ?_⟩
          rw [upd_ne _ _ _ (by omega)]; exact h3
        · exact ⟨i, hi, by omega, by simp⟩

/-- Rebuilding a serialised diagram in a table: an exact copy; the table only grows, by copies of source
nodes, and stays duplicate-free.  Without lookups the table must be empty at first. -/
theorem fromVec_spec {st : Ser W} (hst : SerOk hs src st) (hsu : UTable.Uniq src)
    (hsv : ∀ p nd, UTable.Reg hs src p nd → 0 ≤ TNode.var nd ∧ TNode.var nd < (NQUBITS : Int))
    (heq : ∀ a b : N, TNode.eqv a b = true ↔ a = b) {t : UTable N} (tid : Nat) (nl : Bool)
    (hi : UTable.TInv ht t []) (hu : UTable.Uniq t) (hnl : nl = true → ∀ q x, ¬ UTable.Reg ht t q x)
    {n : Option Nat} {i : Nat} (hn : st.map n = some i) (hlast : i + 1 = st.tab.length) :
    ∃ n' t', fromVec ht tid nl st.tab t = .ok (n', t') ∧ Iso hs ht src t' n n' ∧ UTable.TInv ht t' [] ∧
      UTable.Uniq t' ∧ UTable.Ext ht t t' ∧
      ∀ q x, UTable.Reg ht t' q x → UTable.Reg ht t q x ∨ ∃ p, Iso hs ht src t' (some p) (some q) := by
  have hpos := hst.pos
  have h0 : FromOk hs ht src st t t 1 (upd (fun _ => none) 0 (some none)) := by
    refine ⟨hi, hu, UTable.Ext.refl _, ?_, fun q x h => .inl h⟩
    intro a x ha hx
    have : x = 0 := by omega
    subst this
    have : a = none := hst.inj _ _ _ ha hst.term
    subst this
    exact ⟨none, by simp, .term⟩
  have hF : nl = true → FreshOk ht t 1 (upd (fun _ => none) 0 (some none)) := by
    intro h
    exact ⟨fun x y hx hy _ _ _ => by omega, fun q x hq => absurd hq (hnl h q x)⟩
  obtain ⟨map', t', h1, h2⟩ := fromVecLoop_spec (ht := ht) hst hsu hsv heq tid nl st.tab.tail 1 _ t
    (by omega) (by simp) (by simp; omega) h0 hF
  obtain ⟨b, h3, h4⟩ := h2.iso n i hn (by omega)
  refine ⟨b, t', ?_, h4, h2.inv, h2.uniq, h2.ext, h2.new⟩
  have : st.tab.length - 1 = i := by omega
  simp only [fromVec, h1, this, h3]

end proofs

end QDD
