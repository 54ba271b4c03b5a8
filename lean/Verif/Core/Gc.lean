import Verif.Core.Serial
import Verif.Core.Make
/-!
# gc, gc_mat, get_nNodes, save_binary / load_binary (dd.cpp 2167-2187, 2354-2458)
-/

set_option linter.unusedSectionVars false
set_option linter.unusedVariables false
set_option linter.unusedSimpArgs false

namespace QDD

section model
variable {W : Type} [WOps W]

/-- Recursion bound for serialising a live diagram: its levels are below `NQUBITS`. -/
def serDepth : Nat := NQUBITS + 1

/-- `get_nNodes` (dd.cpp 2354-2359). -/
def getNNodes (s : St W) (e : Edge W) : Except Err Nat :=
  match toVec s.vt.mem serDepth e.n Ser.init with
  | .error er => .error er
  | .ok (i, _) => .ok i

/-- `save_binary` (dd.cpp 2168-2177): the file's content; the root weight is not written. -/
def saveBinary (s : St W) (e : Edge W) : Except Err (List (Content W)) :=
  match toVec s.vt.mem serDepth e.n Ser.init with
  | .error er => .error er
  | .ok (_, st) => .ok st.tab

/-- `load_binary` (dd.cpp 2179-2187): the root weight is set to 1. -/
def loadBinary (env : Env W) (tid : Nat) (file : List (Content W)) (s : St W) :
    Except Err (Edge W × St W) :=
  match fromVec env.hv tid false file s.vt with
  | .error er => .error er
  | .ok (n, vt) => .ok (⟨WOps.one, n⟩, { s with vt := vt })

/-- The serialisation loop of `gc`/`gc_mat` (dd.cpp 2369-2375, 2420-2425): the number of nodes and the
vectors. -/
def serAll {N : Type} [TNode N] [SNode N W] (mem : Nat → Option N) :
    List (Edge W) → Except Err (Nat × List (List (Content W)))
  | [] => .ok (0, [])
  | e :: es => match toVec mem serDepth e.n Ser.init with
    | .error er => .error er
    | .ok (i, st) => match serAll mem es with
      | .error er => .error er
      | .ok (n, l) => .ok (i + n, st.tab :: l)

/-- The rebuild loop of `gc`/`gc_mat` (dd.cpp 2384-2386, 2433-2435); `first` is `i==0`. -/
def rebuild {N : Type} [TNode N] [SNode N W] (hash : N → Nat) (tid : Nat) :
    Bool → List (Edge W) → List (List (Content W)) → UTable N → Except Err (List (Edge W) × UTable N)
  | first, e :: es, v :: vs, t => match fromVec hash tid first v t with
    | .error er => .error er
    | .ok (n, t) => match rebuild hash tid false es vs t with
      | .error er => .error er
      | .ok (l, t) => .ok (⟨e.w, n⟩ :: l, t)
  | _, _, _, t => .ok ([], t)

/-- All caches emptied (`clearAll`, cache.hpp 91-112, 354-375; `_aCaches.clear()`). -/
def St.clearCaches (s : St W) : St W :=
  { s with av := fun _ _ _ => none, am := fun _ _ _ => none, cv := fun _ _ _ => none, cm := fun _ _ _ => none }

/-- `gc(states, force)` (dd.cpp 2362-2405).  `thr` is the global `GC_SIZE`; the result carries the new
threshold and whether a collection ran (only then the global `probs` memo is cleared).  Messages are not
modelled. -/
def gc (env : Env W) (tid : Nat) (force : Bool) (thr : Nat) (states : List (Edge W)) (s : St W) :
    Except Err (List (Edge W) × Nat × Bool × St W) :=
  if UTable.allocations tid s.vt < thr ∧ force = false then .ok (states, thr, false, s) else
  match serAll s.vt.mem states with
  | .error er => .error er
  | .ok (nNodes, v) =>
    let thr' := if nNodes > thr then thr * 2 else thr
    match rebuild env.hv tid true states v UTable.empty with
    | .error er => .error er
    | .ok (states', vt) => .ok (states', thr', true, { s.clearCaches with vt := vt })

/-- `gc_mat(mats, force)` (dd.cpp 2414-2452); `identityTable` is not used by any modelled function. -/
def gcMat (env : Env W) (tid : Nat) (force : Bool) (thr : Nat) (mats : List (Edge W)) (s : St W) :
    Except Err (List (Edge W) × Nat × Bool × St W) :=
  if UTable.allocations tid s.mt < thr ∧ force = false then .ok (mats, thr, false, s) else
  match serAll s.mt.mem mats with
  | .error er => .error er
  | .ok (nNodes, v) =>
    let thr' := if nNodes > thr then thr + nNodes else thr
    match rebuild env.hm tid true mats v UTable.empty with
    | .error er => .error er
    | .ok (mats', mt) => .ok (mats', thr', true, { s.clearCaches with mt := mt })

end model

section generic
variable {N W : Type} [TNode N] [SNode N W] [WOps W] {hs ht : N → Nat} {src : UTable N}

theorem Iso.symm {t t' : UTable N} {a b} (h : Iso hs ht t t' a b) : Iso ht hs t' t b a := by
  induction h with
  | term => exact .term
  | node h1 h2 h3 h4 _ ih =>
    exact .node h2 h1 h3.symm (fun j a b ha hb => (h4 j b a hb ha).symm) (fun j a b ha hb => ih j b a hb ha)

theorem Iso.functional (heq : ∀ a b : N, TNode.eqv a b = true ↔ a = b) {t t' : UTable N}
    (hu : UTable.Uniq t') {a b1} (h1 : Iso hs ht t t' a b1) : ∀ {b2}, Iso hs ht t t' a b2 → b1 = b2 := by
  induction h1 with
  | term => intro b2 h2; cases h2; rfl
  | node z1 z2 z3 z4 z5 ihz =>
    intro b2 h2
    cases h2 with
    | node u1 u2 u3 u4 u5 =>
      rename_i pz qz ndz ndz' qu ndu ndu'
      have : ndu = ndz := Option.some.inj (u1.1.symm.trans z1.1)
      subst this
      have : ndz' = ndu' := by
        rw [← SNode.mk_eta ndz', ← SNode.mk_eta ndu', ← z3, ← u3]
        congr 1
        apply List.ext_getElem?
        intro j
        by_cases hj : j < SNode.arity N
        · have b1 : (SNode.kids ndu)[j]? = some ((SNode.kids ndu)[j]'(by rw [SNode.kids_len]; exact hj)) :=
            List.getElem?_eq_getElem _
          have b2 : (SNode.kids ndz')[j]? = some ((SNode.kids ndz')[j]'(by rw [SNode.kids_len]; exact hj)) :=
            List.getElem?_eq_getElem _
          have b3 : (SNode.kids ndu')[j]? = some ((SNode.kids ndu')[j]'(by rw [SNode.kids_len]; exact hj)) :=
            List.getElem?_eq_getElem _
          have e1 := z4 j _ _ b1 b2
          have e2 := u4 j _ _ b1 b3
          have e3 := ihz j _ _ b1 b2 (u5 j _ _ b1 b3)
          rw [b2, b3]
          congr 1
          generalize (SNode.kids ndz')[j]'(by rw [SNode.kids_len]; exact hj) = ea at *
          generalize (SNode.kids ndu')[j]'(by rw [SNode.kids_len]; exact hj) = eb at *
          cases ea; cases eb; simp_all
        · rw [List.getElem?_eq_none (by rw [SNode.kids_len]; omega),
            List.getElem?_eq_none (by rw [SNode.kids_len]; omega)]
      subst this
      rw [reg_inj heq hu z2 u2]

/-- A live diagram is a copy of itself. -/
theorem Iso.self (hcl : Closed hs src) (hv : ∀ p nd, UTable.Reg hs src p nd → 0 ≤ TNode.var nd) :
    ∀ (f : Nat) (n : Option Nat), Below hs src f n → Iso hs hs src src n n := by
  intro f
  induction f with
  | zero =>
    rintro n (rfl | ⟨p, nd, rfl, hr, hlt⟩)
    · exact .term
    · have := hv p nd hr; omega
  | succ f ih =>
    rintro n (rfl | ⟨p, nd, rfl, hr, hlt⟩)
    · exact .term
    · refine .node hr hr rfl ?_ ?_
      · intro j a b ha hb; rw [ha] at hb; cases hb; rfl
      · intro j a b ha hb
        rw [ha] at hb; cases hb
        apply ih
        rcases hcl p nd hr a (List.mem_of_getElem? ha) with h | ⟨q, nq, h1, h2, h3⟩
        · exact .inl h
        · exact .inr ⟨q, nq, h1, h2, by push_cast at hlt; omega⟩

/-- The index returned by the serialiser is the number of distinct nodes reachable from the root. -/
theorem toVec_count (hcl : Closed hs src) (hv : ∀ p nd, UTable.Reg hs src p nd → 0 ≤ TNode.var nd)
    {f : Nat} {n : Option Nat} (hb : Below hs src f n) :
    ∃ i st, toVec src.mem (f + 1) n (Ser.init : Ser W) = .ok (i, st) ∧
      ∃ l : List Nat, l.Nodup ∧ l.length = i ∧ ∀ p, p ∈ l ↔ Reach hs src n (some p) := by
  obtain ⟨i, st, h1, h2, h3, h4, h5⟩ := toVec_spec (W := W) hcl hv hb
  refine ⟨i, st, h1, ?_⟩
  have hsur : ∀ j : Nat, ∃ p, j < i → st.map (some p) = some (j + 1) := by
    intro j
    by_cases hj : j < i
    · obtain ⟨p, hp⟩ := h2.surj (j + 1) (by omega) (by omega)
      exact ⟨p, fun _ => hp⟩
    · exact ⟨0, fun h => absurd h hj⟩
  choose g hg using hsur
  refine ⟨(List.range i).map g, ?_, by simp, ?_⟩
  · refine List.Nodup.map_on ?_ List.nodup_range
    intro x hx y hy hxy
    have a := hg x (List.mem_range.1 hx)
    have b := hg y (List.mem_range.1 hy)
    rw [hxy, b] at a; simp at a; omega
  · intro p
    rw [← h5 p, List.mem_map]
    constructor
    · rintro ⟨j, hj, rfl⟩; exact ⟨j + 1, hg j (List.mem_range.1 hj)⟩
    · rintro ⟨x, hx⟩
      obtain ⟨e1, e2, _⟩ := h2.ent p x hx
      refine ⟨x - 1, List.mem_range.2 (by omega), ?_⟩
      have a := hg (x - 1) (by omega)
      have : x - 1 + 1 = x := by omega
      rw [this] at a
      exact Option.some.inj (h2.inj _ _ _ a hx)

theorem serAll_spec (hcl : Closed hs src) (hv : ∀ p nd, UTable.Reg hs src p nd → 0 ≤ TNode.var nd) :
    ∀ es : List (Edge W), (∀ e ∈ es, Below hs src NQUBITS e.n) →
      ∃ n vs, serAll src.mem es = .ok (n, vs) ∧
        List.Forall₂ (fun (e : Edge W) v => ∃ st : Ser W, v = st.tab ∧ SerOk hs src st ∧
          ∃ i, st.map e.n = some i ∧ i + 1 = st.tab.length) es vs := by
  intro es
  induction es with
  | nil => intro _; exact ⟨0, [], rfl, .nil⟩
  | cons e es ih =>
    intro h
    obtain ⟨i, st, h1, h2, h3, h4, _⟩ := toVec_spec (W := W) hcl hv (h e List.mem_cons_self)
    obtain ⟨n, vs, h5, h6⟩ := ih (fun e' he' => h e' (List.mem_cons_of_mem _ he'))
    refine ⟨i + n, st.tab :: vs, ?_, .cons ⟨st, rfl, h2, i, h3, h4⟩ h6⟩
    simp [serAll, serDepth, h1, h5]

theorem rebuild_spec (hsu : UTable.Uniq src)
    (hsv : ∀ p nd, UTable.Reg hs src p nd → 0 ≤ TNode.var nd ∧ TNode.var nd < (NQUBITS : Int))
    (heq : ∀ a b : N, TNode.eqv a b = true ↔ a = b) (tid : Nat) :
    ∀ (es : List (Edge W)) vs (first : Bool) (t : UTable N),
      List.Forall₂ (fun (e : Edge W) v => ∃ st : Ser W, v = st.tab ∧ SerOk hs src st ∧
          ∃ i, st.map e.n = some i ∧ i + 1 = st.tab.length) es vs →
      UTable.TInv ht t [] → UTable.Uniq t → (first = true → ∀ q x, ¬ UTable.Reg ht t q x) →
      (∀ q x, UTable.Reg ht t q x → ∃ p, Iso hs ht src t (some p) (some q)) →
      ∃ es' t', rebuild ht tid first es vs t = .ok (es', t') ∧ UTable.TInv ht t' [] ∧ UTable.Uniq t' ∧
        UTable.Ext ht t t' ∧
        (∀ q x, UTable.Reg ht t' q x → ∃ p, Iso hs ht src t' (some p) (some q)) ∧
        List.Forall₂ (fun e e' : Edge W => e'.w = e.w ∧ Iso hs ht src t' e.n e'.n) es es' := by
  intro es
  induction es with
  | nil =>
    intro vs first t hf hi hu _ hn
    cases hf
    exact ⟨[], t, by simp [rebuild], hi, hu, UTable.Ext.refl _, hn, .nil⟩
  | cons e es ih =>
    intro vs first t hf hi hu hfirst hn
    cases hf with
    | cons h1 h2 =>
      rename_i v vs
      obtain ⟨st, rfl, hst, i, hi1, hi2⟩ := h1
      obtain ⟨n', t1, a1, a2, a3, a4, a5, a6⟩ := fromVec_spec (ht := ht) hst hsu hsv heq tid first hi hu
        hfirst hi1 hi2
      obtain ⟨es', t', b1, b2, b3, b4, b5, b6⟩ := ih vs false t1 h2 a3 a4 (by simp) (by
        intro q x hq
        rcases a6 q x hq with h | h
        · obtain ⟨p, hp⟩ := hn q x h; exact ⟨p, hp.ext a5⟩
        · exact h)
      exact ⟨⟨e.w, n'⟩ :: es', t', by simp [rebuild, a1, b1], b2, b3, a5.trans b4, b5,
        .cons ⟨rfl, a2.ext b4⟩ b6⟩

end generic

variable {W : Type} [Field W] [WOps W] [ExactW W] {env : Env W}

theorem Inv.vclosed {s : St W} (hi : Inv env s) : Closed env.hv s.vt := by
  intro p nd hr k hk
  obtain ⟨l, hl, _⟩ := hi.vlevel hr
  have : ∃ b, k = nd.child b := by
    simp [SNode.kids] at hk
    rcases hk with rfl | rfl
    · exact ⟨false, rfl⟩
    · exact ⟨true, rfl⟩
  obtain ⟨b, rfl⟩ := this
  rcases (hi.vn p nd hr).ok b hl with (⟨_, h⟩ | ⟨q, nq, h1, h2, h3⟩) | ⟨_, h⟩
  · exact .inl h
  · exact .inr ⟨q, nq, h1, h2, by simp; omega⟩
  · exact .inl h

theorem Inv.mclosed {s : St W} (hi : Inv env s) : Closed env.hm s.mt := by
  intro p nd hr k hk
  obtain ⟨l, hl, _⟩ := hi.mlevel hr
  have : ∃ b c, k = nd.child b c := by
    simp [SNode.kids] at hk
    rcases hk with rfl | rfl | rfl | rfl
    · exact ⟨false, false, rfl⟩
    · exact ⟨false, true, rfl⟩
    · exact ⟨true, false, rfl⟩
    · exact ⟨true, true, rfl⟩
  obtain ⟨b, c, rfl⟩ := this
  rcases (hi.mn p nd hr).ok b c with h | ⟨q, nq, h1, h2, h3⟩
  · exact .inl h
  · exact .inr ⟨q, nq, h1, h2, by simp; omega⟩

theorem Inv.vvar {s : St W} (hi : Inv env s) : ∀ p nd, UTable.Reg env.hv s.vt p nd →
    0 ≤ TNode.var nd ∧ TNode.var nd < (NQUBITS : Int) := fun _ _ h => hi.vt.reg_var h

theorem Inv.mvar {s : St W} (hi : Inv env s) : ∀ p nd, UTable.Reg env.hm s.mt p nd →
    0 ≤ TNode.var nd ∧ TNode.var nd < (NQUBITS : Int) := fun _ _ h => hi.mt.reg_var h

theorem Inv.vbelow {s : St W} (hi : Inv env s) {k e} (h : VOk env s k e) : Below env.hv s.vt NQUBITS e.n := by
  rcases h with (⟨_, h⟩ | ⟨q, nq, h1, h2, h3⟩) | ⟨_, h⟩
  · exact .inl h
  · exact .inr ⟨q, nq, h1, h2, (hi.vvar _ _ h2).2⟩
  · exact .inl h

theorem Inv.mbelow {s : St W} (hi : Inv env s) {n} (h : RegM env s n) : Below env.hm s.mt NQUBITS n := by
  rcases h with h | ⟨q, nq, h1, h2⟩
  · exact .inl h
  · exact .inr ⟨q, nq, h1, h2, (hi.mvar _ _ h2).2⟩

section iso
variable {hs ht : VNode W → Nat} {t t' : UTable (VNode W)}

theorem Iso.vchild {p q} (h : Iso hs ht t t' (some p) (some q)) :
    ∃ nd nd', UTable.Reg hs t p nd ∧ UTable.Reg ht t' q nd' ∧ nd.v = nd'.v ∧
      ∀ b, (nd.child b).w = (nd'.child b).w ∧ Iso hs ht t t' (nd.child b).n (nd'.child b).n := by
  cases h with
  | node h1 h2 h3 h4 h5 =>
    rename_i nd nd'
    refine ⟨nd, nd', h1, h2, h3, ?_⟩
    intro b
    cases b
    · exact ⟨h4 0 _ _ rfl rfl, h5 0 _ _ rfl rfl⟩
    · exact ⟨h4 1 _ _ rfl rfl, h5 1 _ _ rfl rfl⟩

theorem Iso.vptr {k a b} (h : Iso hs ht t t' a b) (i : Nat) : vptr t.mem k a i = vptr t'.mem k b i := by
  induction k generalizing a b with
  | zero => rfl
  | succ k ih =>
    cases a with
    | none => cases h; rfl
    | some p =>
      cases b with
      | none => cases h
      | some q =>
        obtain ⟨nd, nd', h1, h2, _, h4⟩ := h.vchild
        simp only [QDD.vptr, h1.1, h2.1]
        rw [(h4 _).1, ih (h4 _).2]

end iso

section isom
variable {hs ht : MNode W → Nat} {t t' : UTable (MNode W)}

theorem Iso.mchild {p q} (h : Iso hs ht t t' (some p) (some q)) :
    ∃ nd nd', UTable.Reg hs t p nd ∧ UTable.Reg ht t' q nd' ∧ nd.v = nd'.v ∧
      ∀ b c, (nd.child b c).w = (nd'.child b c).w ∧ Iso hs ht t t' (nd.child b c).n (nd'.child b c).n := by
  cases h with
  | node h1 h2 h3 h4 h5 =>
    rename_i nd nd'
    refine ⟨nd, nd', h1, h2, h3, ?_⟩
    intro b c
    cases b <;> cases c
    · exact ⟨h4 0 _ _ rfl rfl, h5 0 _ _ rfl rfl⟩
    · exact ⟨h4 1 _ _ rfl rfl, h5 1 _ _ rfl rfl⟩
    · exact ⟨h4 2 _ _ rfl rfl, h5 2 _ _ rfl rfl⟩
    · exact ⟨h4 3 _ _ rfl rfl, h5 3 _ _ rfl rfl⟩

theorem Iso.mptr {k a b} (h : Iso hs ht t t' a b) (i j : Nat) :
    mptr t.mem k a i j = mptr t'.mem k b i j := by
  induction k generalizing a b with
  | zero => rfl
  | succ k ih =>
    cases a with
    | none => cases h; rw [QDD.mptr, QDD.mptr, ih .term]
    | some p =>
      cases b with
      | none => cases h
      | some q =>
        obtain ⟨nd, nd', h1, h2, h3, h4⟩ := h.mchild
        simp only [QDD.mptr, h1.1, h2.1, h3]
        rw [(h4 _ _).1, ih (h4 _ _).2, ih h]

end isom

theorem Iso.vptrOk {s s' : St W} {hs : VNode W → Nat} {k : Nat} {a b} (h : Iso hs env.hv s.vt s'.vt a b)
    (hk : (k = 0 ∧ a = none) ∨ ∃ p nd, a = some p ∧ UTable.Reg hs s.vt p nd ∧ nd.v + 1 = (k : Int)) :
    VPtrOk env s' k b := by
  rcases hk with ⟨h0, rfl⟩ | ⟨p, nd, rfl, h1, h2⟩
  · cases h; exact .inl ⟨h0, rfl⟩
  · cases b with
    | none => cases h
    | some q =>
      obtain ⟨nd1, nd', g1, g2, g3, _⟩ := h.vchild
      have := Option.some.inj (g1.1.symm.trans h1.1)
      subst this
      exact .inr ⟨q, nd', rfl, g2, by omega⟩

theorem Iso.vok {s s' : St W} {env0 : Env W} {k} {a b : Edge W} (h : Iso env0.hv env.hv s.vt s'.vt a.n b.n)
    (hw : b.w = a.w) (hk : VOk env0 s k a) : VOk env s' k b := by
  rcases hk with hk | ⟨h1, h2⟩
  · exact .inl (h.vptrOk hk)
  · right
    rw [hw]
    refine ⟨h1, ?_⟩
    rw [h2] at h
    generalize b.n = x at h
    cases h; rfl

theorem Iso.vnorm {s s' : St W} {env0 : Env W} {p q nd nd'} (h : Iso env0.hv env.hv s.vt s'.vt (some p) (some q))
    (hr : UTable.Reg env0.hv s.vt p nd) (hr' : UTable.Reg env.hv s'.vt q nd') (hn : VNorm env0 s nd) :
    VNorm env s' nd' := by
  obtain ⟨nd1, nd1', g1, g2, g3, g4⟩ := h.vchild
  have := Option.some.inj (g1.1.symm.trans hr.1)
  subst this
  have := Option.some.inj (g2.1.symm.trans hr'.1)
  subst this
  have c0 := g4 false
  have c1 := g4 true
  simp only [VNode.child, Bool.false_eq_true, if_false, if_true] at c0 c1
  have z : ∀ a b : Edge W, a.w = b.w → Iso env0.hv env.hv s.vt s'.vt a.n b.n → (a.w = 0 → a.n = none) →
      b.w = 0 → b.n = none := by
    intro a b hw hi hz hb
    have := hz (hw.trans hb)
    rw [this] at hi
    generalize b.n = x at hi
    cases hi; rfl
  refine ⟨?_, ?_, z _ _ c0.1 c0.2 hn.z0, z _ _ c1.1 c1.2 hn.z1, ?_⟩
  · rw [← g3]; exact c0.2.vok c0.1.symm hn.ok0
  · rw [← g3]; exact c1.2.vok c1.1.symm hn.ok1
  · rw [← c0.1, ← c1.1]; exact hn.max

theorem Iso.mok {s s' : St W} {env0 : Env W} {k a b} (h : Iso env0.hm env.hm s.mt s'.mt a b)
    (hk : MOk env0 s k a) : MOk env s' k b := by
  rcases hk with rfl | ⟨p, nd, rfl, h1, h2⟩
  · cases h; exact .inl rfl
  · cases b with
    | none => cases h
    | some q =>
      obtain ⟨nd1, nd', g1, g2, g3, _⟩ := h.mchild
      have := Option.some.inj (g1.1.symm.trans h1.1)
      subst this
      exact .inr ⟨q, nd', rfl, g2, by omega⟩

theorem Iso.mnorm {s s' : St W} {env0 : Env W} {p q nd nd'} (h : Iso env0.hm env.hm s.mt s'.mt (some p) (some q))
    (hu : UTable.Uniq s.mt)
    (hr : UTable.Reg env0.hm s.mt p nd) (hr' : UTable.Reg env.hm s'.mt q nd') (hn : MNorm env0 s nd) :
    MNorm env s' nd' := by
  obtain ⟨nd1, nd1', g1, g2, g3, g4⟩ := h.mchild
  have := Option.some.inj (g1.1.symm.trans hr.1)
  subst this
  have := Option.some.inj (g2.1.symm.trans hr'.1)
  subst this
  have c0 := g4 false false
  have c1 := g4 false true
  have c2 := g4 true false
  have c3 := g4 true true
  simp only [MNode.child, Bool.false_eq_true, if_false, if_true] at c0 c1 c2 c3
  refine ⟨?_, ?_, ?_, ?_⟩
  · intro r c; rw [← g3]; exact (g4 r c).2.mok (hn.ok r c)
  · intro r c hw
    have h1 := hn.z r c ((g4 r c).1.trans hw)
    have h2 := (g4 r c).2
    rw [h1] at h2
    generalize (nd1'.child r c).n = x at h2
    cases h2; rfl
  · rw [← c0.1, ← c1.1, ← c2.1, ← c3.1]; exact hn.max
  · have hns := hn.nostrip
    by_contra hc
    rw [Bool.not_eq_false] at hc
    have : strips nd1.c0 nd1.c1 nd1.c2 nd1.c3 = true := by
      unfold strips at hc ⊢
      simp only [Bool.and_eq_true, beq_iff_eq] at hc ⊢
      obtain ⟨⟨⟨h1, h2⟩, h3⟩, h4⟩ := hc
      refine ⟨⟨⟨?_, by rw [c1.1]; exact h2⟩, by rw [c2.1]; exact h3⟩, by rw [c0.1, c3.1]; exact h4⟩
      have i0 := c0.2
      rw [h1] at i0
      exact i0.symm.functional meqv_iff hu c3.2.symm
    rw [this] at hns; cases hns

theorem Inv.cleared {s' : St W} (tv : UTable.TInv env.hv s'.vt []) (tm : UTable.TInv env.hm s'.mt [])
    (uv : UTable.Uniq s'.vt) (um : UTable.Uniq s'.mt)
    (nv : ∀ p nd, UTable.Reg env.hv s'.vt p nd → VNorm env s' nd)
    (nm : ∀ p nd, UTable.Reg env.hm s'.mt p nd → MNorm env s' nd)
    (h1 : s'.av = fun _ _ _ => none) (h2 : s'.am = fun _ _ _ => none) (h3 : s'.cv = fun _ _ _ => none)
    (h4 : s'.cm = fun _ _ _ => none) : Inv env s' where
  vt := tv
  mt := tm
  vu := uv
  mu := um
  vn := nv
  mn := nm
  av tid lv key e h := by rw [h1] at h; cases h
  am tid lv key e h := by rw [h2] at h; cases h
  cv tid lv key b h := by rw [h3] at h; cases h
  cm tid lv key b h := by rw [h4] at h; cases h

theorem VPtrOk.of_vt {s s' : St W} (h : s'.vt = s.vt) {k n} (hn : VPtrOk env s k n) : VPtrOk env s' k n := by
  unfold VPtrOk at *; rw [h]; exact hn

theorem VOk.of_vt {s s' : St W} (h : s'.vt = s.vt) {k e} (hn : VOk env s k e) : VOk env s' k e :=
  hn.imp (·.of_vt h) id

theorem VRep.of_vt {s s' : St W} (h : s'.vt = s.vt) {k e f} (hn : VRep env s k e f) : VRep env s' k e f :=
  ⟨hn.1.of_vt h, by rw [h]; exact hn.2⟩

theorem VNorm.of_vt {s s' : St W} (h : s'.vt = s.vt) {nd} (hn : VNorm env s nd) : VNorm env s' nd :=
  ⟨hn.ok0.of_vt h, hn.ok1.of_vt h, hn.z0, hn.z1, hn.max⟩

theorem MOk.of_mt {s s' : St W} (h : s'.mt = s.mt) {k n} (hn : MOk env s k n) : MOk env s' k n := by
  unfold MOk at *; rw [h]; exact hn

theorem MRep.of_mt {s s' : St W} (h : s'.mt = s.mt) {k e F} (hn : MRep env s k e F) : MRep env s' k e F :=
  ⟨hn.1.of_mt h, by rw [h]; exact hn.2⟩

theorem MNorm.of_mt {s s' : St W} (h : s'.mt = s.mt) {nd} (hn : MNorm env s nd) : MNorm env s' nd :=
  ⟨fun r c => (hn.ok r c).of_mt h, hn.z, hn.max, hn.nostrip⟩

/-- `gc` on live states: never fails; every state keeps its amplitudes, at every qubit count; matrices are
untouched; the engine invariant holds afterwards. -/
theorem gc_spec {s : St W} (hi : Inv env s) (tid : Nat) (force : Bool) (thr : Nat) (es : List (Edge W))
    (hes : ∀ e ∈ es, ∃ k, VOk env s k e) :
    ∃ es' thr' ran s', gc env tid force thr es s = .ok (es', thr', ran, s') ∧ Inv env s' ∧
      s'.mt = s.mt ∧ (ran = false → s' = s ∧ es' = es) ∧
      List.Forall₂ (fun e e' => e'.w = e.w ∧ ∀ k f, VRep env s k e f → VRep env s' k e' f) es es' := by
  unfold gc
  split
  · refine ⟨es, thr, false, s, rfl, hi, rfl, fun _ => ⟨rfl, rfl⟩, ?_⟩
    exact List.forall₂_same.2 fun e _ => ⟨rfl, fun k f h => h⟩
  · obtain ⟨n, vs, h1, h2⟩ := serAll_spec hi.vclosed (fun p nd h => (hi.vvar p nd h).1) es
      (fun e he => by obtain ⟨k, hk⟩ := hes e he; exact hi.vbelow hk)
    obtain ⟨es', t', a1, a2, a3, a4, a5, a6⟩ := rebuild_spec (ht := env.hv) hi.vu hi.vvar veqv_iff tid es vs
      true UTable.empty h2 UTable.empty_inv UTable.empty_uniq
      (by intro _ q x hq; simp [UTable.Reg, UTable.empty] at hq)
      (by intro q x hq; simp [UTable.Reg, UTable.empty] at hq)
    simp only [h1, a1]
    refine ⟨es', _, true, _, rfl, ?_, rfl, by simp, ?_⟩
    · refine Inv.cleared a2 hi.mt a3 hi.mu ?_ (fun p nd h => by refine MNorm.of_mt (s := s) ?_ (hi.mn p nd h); rfl) rfl rfl rfl rfl
      intro q nd' hq
      obtain ⟨p, hp⟩ := a5 q nd' hq
      obtain ⟨nd, _, g1, _⟩ := hp.vchild
      exact Iso.vnorm (s := s) (env0 := env) hp g1 hq (hi.vn p nd g1)
    · refine a6.imp ?_
      rintro e e' ⟨hw, hiso⟩
      refine ⟨hw, fun k f hf => ⟨Iso.vok (s := s) (env0 := env) hiso hw hf.1, fun i => ?_⟩⟩
      rw [← hf.2 i]
      unfold vden
      rw [hw, hiso.vptr i]

/-- `gc_mat` on live matrices. -/
theorem gcMat_spec {s : St W} (hi : Inv env s) (tid : Nat) (force : Bool) (thr : Nat) (es : List (Edge W))
    (hes : ∀ e ∈ es, ∃ k, MOk env s k e.n) :
    ∃ es' thr' ran s', gcMat env tid force thr es s = .ok (es', thr', ran, s') ∧ Inv env s' ∧
      s'.vt = s.vt ∧ (ran = false → s' = s ∧ es' = es) ∧
      List.Forall₂ (fun e e' => e'.w = e.w ∧ ∀ k F, MRep env s k e F → MRep env s' k e' F) es es' := by
  unfold gcMat
  split
  · refine ⟨es, thr, false, s, rfl, hi, rfl, fun _ => ⟨rfl, rfl⟩, ?_⟩
    exact List.forall₂_same.2 fun e _ => ⟨rfl, fun k f h => h⟩
  · obtain ⟨n, vs, h1, h2⟩ := serAll_spec hi.mclosed (fun p nd h => (hi.mvar p nd h).1) es
      (fun e he => by obtain ⟨k, hk⟩ := hes e he; exact hi.mbelow hk.regM)
    obtain ⟨es', t', a1, a2, a3, a4, a5, a6⟩ := rebuild_spec (ht := env.hm) hi.mu hi.mvar meqv_iff tid es vs
      true UTable.empty h2 UTable.empty_inv UTable.empty_uniq
      (by intro _ q x hq; simp [UTable.Reg, UTable.empty] at hq)
      (by intro q x hq; simp [UTable.Reg, UTable.empty] at hq)
    simp only [h1, a1]
    refine ⟨es', _, true, _, rfl, ?_, rfl, by simp, ?_⟩
    · refine Inv.cleared hi.vt a2 hi.vu a3 (fun p nd h => by refine VNorm.of_vt (s := s) ?_ (hi.vn p nd h); rfl) ?_ rfl rfl rfl rfl
      intro q nd' hq
      obtain ⟨p, hp⟩ := a5 q nd' hq
      obtain ⟨nd, _, g1, _⟩ := hp.mchild
      exact Iso.mnorm (s := s) (env0 := env) hp hi.mu g1 hq (hi.mn p nd g1)
    · refine a6.imp ?_
      rintro e e' ⟨hw, hiso⟩
      refine ⟨hw, fun k F hf => ⟨Iso.mok (s := s) (env0 := env) hiso hf.1, fun i j => ?_⟩⟩
      rw [← hf.2 i j]
      unfold mden
      rw [hw, hiso.mptr i j]

/-- `get_nNodes` counts the distinct nonterminal nodes reachable from the root. -/
theorem getNNodes_spec {s : St W} (hi : Inv env s) {k e} (he : VOk env s k e) :
    ∃ l : List Nat, getNNodes s e = .ok l.length ∧ l.Nodup ∧
      ∀ p, p ∈ l ↔ Reach env.hv s.vt e.n (some p) := by
  obtain ⟨i, st, h1, l, h2, h3, h4⟩ := toVec_count (W := W) hi.vclosed (fun p nd h => (hi.vvar p nd h).1)
    (hi.vbelow he)
  refine ⟨l, ?_, h2, h4⟩
  simp [getNNodes, serDepth, h1, h3]

/-- Serialise in one state, rebuild in another (same process later, another process, another rank): an exact
copy.  `env0` and `env` may hash differently. -/
theorem transfer_spec {env0 : Env W} {s0 s : St W} (hi0 : Inv env0 s0) (hi : Inv env s) {k e}
    (he : VOk env0 s0 k e) (tid : Nat) :
    ∃ file, saveBinary s0 e = .ok file ∧ ∃ n' vt', fromVec env.hv tid false file s.vt = .ok (n', vt') ∧
      Inv env { s with vt := vt' } ∧ SExt env s { s with vt := vt' } ∧
      Iso env0.hv env.hv s0.vt vt' e.n n' := by
  obtain ⟨i, st, h1, h2, h3, h4, _⟩ := toVec_spec (W := W) hi0.vclosed (fun p nd h => (hi0.vvar p nd h).1)
    (hi0.vbelow he)
  refine ⟨st.tab, by simp [saveBinary, serDepth, h1], ?_⟩
  obtain ⟨n', t', a1, a2, a3, a4, a5, a6⟩ := fromVec_spec (ht := env.hv) h2 hi0.vu hi0.vvar veqv_iff tid false
    hi.vt hi.vu (by simp) h3 h4
  have hx : SExt env s { s with vt := t' } := ⟨a5, UTable.Ext.refl _⟩
  refine ⟨n', t', a1, ?_, hx, a2⟩
  refine hi.grow hx a3 hi.mt a4 hi.mu ?_ (fun p nd h => .inl h) rfl rfl rfl rfl
  intro q nd' hq
  rcases a6 q nd' hq with h | ⟨p, hp⟩
  · exact .inl h
  · obtain ⟨nd, _, g1, _⟩ := hp.vchild
    exact .inr (Iso.vnorm (s := s0) (s' := { s with vt := t' }) (env0 := env0) hp g1 hq (hi0.vn p nd g1))

/-- The weights that `save_binary`/`load_binary` transport: all but the root's. -/
theorem load_spec {env0 : Env W} {s0 s : St W} (hi0 : Inv env0 s0) (hi : Inv env s) {k e}
    (he : VPtrOk env0 s0 k e.n) (tid : Nat) :
    ∃ file e' s', saveBinary s0 e = .ok file ∧ loadBinary env tid file s = .ok (e', s') ∧ Inv env s' ∧
      SExt env s s' ∧ VRep env s' k e' (fun i => vptr s0.vt.mem k e.n i) := by
  obtain ⟨file, h1, n', vt', h2, h3, h4, h5⟩ := transfer_spec hi0 hi (.inl he) tid
  refine ⟨file, ⟨WOps.one, n'⟩, _, h1, by simp [loadBinary, h2], h3, h4, .inl (h5.vptrOk (s := s0) (s' := { s with vt := vt' }) he), ?_⟩
  intro i
  unfold vden
  dsimp only
  rw [h5.vptr i]
  simp [ExactW.one_eq]

/-- Rebuilding in the table the diagram came from gives the very same node. -/
theorem rebuild_same {s : St W} (hi : Inv env s) {k e} (he : VOk env s k e) (tid : Nat) :
    ∃ file vt', saveBinary s e = .ok file ∧ fromVec env.hv tid false file s.vt = .ok (e.n, vt') := by
  obtain ⟨file, h1, n', vt', h2, h3, h4, h5⟩ := transfer_spec hi hi he tid
  have hs : Iso env.hv env.hv s.vt vt' e.n e.n :=
    (Iso.self hi.vclosed (fun p nd h => (hi.vvar p nd h).1) _ _ (hi.vbelow he)).ext h4.1
  have := h5.functional veqv_iff h3.vu hs
  subst this
  exact ⟨file, vt', h1, h2⟩

end QDD
