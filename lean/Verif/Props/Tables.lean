import Verif.Core.State
import Mathlib.Data.List.Induction
import Mathlib.Tactic.ByContra
/-!
# C14, C15, C16: the unique table and the operation caches

Nothing is assumed about weights, node equality or hash functions; each history is a sequence of atomic calls by any
threads in any order.
-/

set_option linter.unusedSectionVars false
set_option linter.unusedVariables false
set_option linter.unusedSimpArgs false

namespace QDD.Props

/-! ## C14: the unique table -/

section table
variable {N : Type} [TNode N]

/-- A call on the unique table, with its answer. -/
inductive TEv (N : Type)
  /-- `getNode()` by thread `tid` returned address `p` -/
  | get (tid p : Nat)
  /-- the client writes the node it holds at `p` -/
  | write (p : Nat) (nd : N)
  /-- `returnNode(p)` by thread `tid` -/
  | ret (tid p : Nat)
  /-- `lookup(p)` by thread `tid`, the node at `p` being `nd`, returned `c` -/
  | look (tid p : Nat) (nd : N) (c : Nat)

/-- One call.  `own` lists the nodes clients hold: handed out by `getNode`, and not yet looked up or returned.  Clients
write, return and look up only nodes they hold, and look up only nodes with a level below the number of qubits. -/
inductive TStep (hash : N → Nat) : UTable N → List Nat → TEv N → UTable N → List Nat → Prop
  | get {t own} (tid : Nat) : TStep hash t own (.get tid (t.getNode tid).1) (t.getNode tid).2 ((t.getNode tid).1 :: own)
  | write {t own p} (nd : N) : p ∈ own → TStep hash t own (.write p nd) (t.write p nd) own
  | ret {t own p} (tid : Nat) : p ∈ own → TStep hash t own (.ret tid p) (t.returnNode tid p) (own.erase p)
  | look {t own p nd c t'} (tid : Nat) : p ∈ own → t.mem p = some nd → 0 ≤ TNode.var nd →
      TNode.var nd < (NQUBITS : Int) → t.lookup hash tid p = .ok (c, t') →
      TStep hash t own (.look tid p nd c) t' (own.erase p)

/-- A sequence of calls from a given state. -/
inductive TRun (hash : N → Nat) (t : UTable N) (own : List Nat) : List (TEv N) → UTable N → List Nat → Prop
  | nil : TRun hash t own [] t own
  | snoc {es t1 own1 e t2 own2} : TRun hash t own es t1 own1 → TStep hash t1 own1 e t2 own2 →
      TRun hash t own (es ++ [e]) t2 own2

/-- A history: a sequence of calls on a fresh table. -/
abbrev THist (hash : N → Nat) (es : List (TEv N)) (t : UTable N) (own : List Nat) : Prop :=
  TRun hash UTable.empty [] es t own

variable {hash : N → Nat}

theorem perm_erase {own : List Nat} {p : Nat} (hp : p ∈ own) : (p :: own.erase p).Perm own :=
  (List.perm_cons_erase hp).symm

theorem tinv_perm {t : UTable N} {own own' : List Nat} (h : UTable.TInv hash t own) (hp : own'.Perm own) :
    UTable.TInv hash t own' :=
  ⟨h.chain, h.nodup, h.availLt, h.availChain, h.availNodup, h.availDisj, hp.nodup_iff.2 h.ownNodup,
    fun p hx => h.ownLt p (hp.mem_iff.1 hx), fun p hx => h.ownChain p (hp.mem_iff.1 hx),
    fun p hx => h.ownAvail p (hp.mem_iff.1 hx)⟩

/-- The table invariant. -/
def TGood (hash : N → Nat) (t : UTable N) (own : List Nat) : Prop := UTable.TInv hash t own ∧ UTable.Uniq t

theorem TStep.good {t t' : UTable N} {own own' : List Nat} {e : TEv N} (hs : TStep hash t own e t' own')
    (h : TGood hash t own) : TGood hash t' own' ∧ UTable.Ext hash t t' ∧
      match e with
      | .get _ p => ∀ x, ¬ UTable.Reg hash t p x
      | .look _ p nd c => ∃ nc, UTable.Reg hash t' c nc ∧ (nc = nd ∧ c = p ∨ TNode.eqv nd nc = true ∧ UTable.Reg hash t c nc)
      | _ => True := by
  cases hs with
  | get tid =>
    obtain ⟨h1, h2, h3⟩ := UTable.getNode_spec h.1 tid
    refine ⟨⟨h1, ?_⟩, ?_, ?_⟩
    · intro v b
      rw [h2, h3]; exact h.2 v b
    · intro p nd hr
      exact ⟨by rw [h3]; exact hr.1, by rw [h2]; exact hr.2⟩
    · intro x hr
      exact h1.ownChain _ List.mem_cons_self _ _ (by rw [h2]; exact hr.2)
  | write nd hp =>
    exact ⟨⟨UTable.write_inv h.1 hp nd, UTable.write_uniq h.1 hp nd h.2⟩,
      fun q x hr => (UTable.write_reg h.1 hp nd q x).2 hr, trivial⟩
  | ret tid hp =>
    have := tinv_perm h.1 (perm_erase hp)
    exact ⟨⟨UTable.return_inv this tid, UTable.return_uniq this tid h.2⟩,
      fun q x hr => (UTable.return_reg this tid q x).2 hr, trivial⟩
  | look tid hp hm hv0 hv1 hl =>
    obtain ⟨c', t'', h1, h2, h3, h4, nc, h5, h6, _⟩ :=
      UTable.lookup_spec (tinv_perm h.1 (perm_erase hp)) h.2 hm hv0 hv1 tid
    rw [hl] at h1
    cases h1
    exact ⟨⟨h2, h3⟩, h4, nc, h5, h6⟩

theorem TRun.good {t t' : UTable N} {own own' : List Nat} {es : List (TEv N)} (hr : TRun hash t own es t' own')
    (h : TGood hash t own) : TGood hash t' own' ∧ UTable.Ext hash t t' := by
  induction hr with
  | nil => exact ⟨h, UTable.Ext.refl _⟩
  | snoc _ hs ih =>
    obtain ⟨h1, h2, _⟩ := hs.good ih.1
    exact ⟨h1, ih.2.trans h2⟩

theorem THist.good {es : List (TEv N)} {t : UTable N} {own : List Nat} (h : THist hash es t own) : TGood hash t own :=
  (TRun.good h ⟨UTable.empty_inv, UTable.empty_uniq⟩).1

/-- **C14 (no failure).** `lookup` never fails on a node the client holds. -/
theorem C14_lookup_ok {es : List (TEv N)} {t : UTable N} {own : List Nat} (h : THist hash es t own) {p : Nat} {nd : N}
    (hp : p ∈ own) (hm : t.mem p = some nd) (hv0 : 0 ≤ TNode.var nd) (hv1 : TNode.var nd < (NQUBITS : Int)) (tid : Nat) :
    ∃ c t', t.lookup hash tid p = .ok (c, t') := by
  have hg := THist.good h
  obtain ⟨c', t'', h1, _⟩ := UTable.lookup_spec (tinv_perm hg.1 (perm_erase hp)) hg.2 hm hv0 hv1 tid
  exact ⟨_, _, h1⟩

/-- **C14 (contents).**  When, after any history, `lookup` of a node with content `nd` returns `c`, the node at `c` holds,
then and after every later sequence of calls, one and the same content, which is `nd` itself or equal to it under
`operator==`. -/
theorem C14_contents {es : List (TEv N)} {tid p c : Nat} {nd : N} {t t1 : UTable N} {own own1 : List Nat}
    (h : THist hash es t own) (hl : TStep hash t own (.look tid p nd c) t1 own1) :
    ∃ nc, (nc = nd ∧ c = p ∨ TNode.eqv nd nc = true) ∧
      ∀ es' t2 own2, TRun hash t1 own1 es' t2 own2 → t2.mem c = some nc := by
  obtain ⟨g, _, nc, h1, h2⟩ := hl.good (THist.good h)
  exact ⟨nc, h2.imp id And.left, fun es' t2 own2 hr => ((hr.good g).2 _ _ h1).1⟩

/-- **C14 (not handed out).**  An address returned by a `lookup` is never returned by a later `getNode`. -/
theorem C14_not_reused {es es' : List (TEv N)} {tid p c tid' : Nat} {nd : N} {t t1 t2 : UTable N}
    {own own1 own2 : List Nat} (h : THist hash es t own) (hl : TStep hash t own (.look tid p nd c) t1 own1)
    (hr : TRun hash t1 own1 es' t2 own2) : TEv.get tid' c ∉ es' := by
  obtain ⟨g, _, nc, h1, h2⟩ := hl.good (THist.good h)
  clear hl
  induction hr with
  | nil => simp
  | snoc hr hs ih =>
    intro hm
    rcases List.mem_append.1 hm with hm | hm
    · exact ih hm
    · have := List.mem_singleton.1 hm
      subst this
      obtain ⟨g', hext⟩ := hr.good g
      exact (hs.good g').2.2 nc (hext _ _ h1)

/-- Every address a lookup returned is registered from then on, with a content equal to the one looked up. -/
theorem TRun.look_reg {t t' : UTable N} {own own' : List Nat} {es : List (TEv N)} (hr : TRun hash t own es t' own')
    (h : TGood hash t own) {tid p c : Nat} {nd : N} (hm : TEv.look tid p nd c ∈ es) :
    ∃ x, UTable.Reg hash t' c x ∧ (x = nd ∨ TNode.eqv nd x = true) := by
  induction hr with
  | nil => cases hm
  | snoc hr hs ih =>
    have g := (hr.good h).1
    obtain ⟨_, hext, hev⟩ := hs.good g
    rcases List.mem_append.1 hm with hm | hm
    · obtain ⟨x, hx, he⟩ := ih hm
      exact ⟨x, hext _ _ hx, he⟩
    · have := List.mem_singleton.1 hm
      subst this
      obtain ⟨nc, h1, h2⟩ := hev
      exact ⟨nc, h1, h2.imp And.left And.left⟩

/-- **C14 (one node per content).**  Two different addresses returned by lookups, whose contents have the same level and
bucket: their contents are not equal under `operator==` (compared newer against older). -/
theorem C14_unique {es : List (TEv N)} {t : UTable N} {own : List Nat} (h : THist hash es t own)
    {tid p c tid' p' c' : Nat} {nd nd' : N} (h1 : TEv.look tid p nd c ∈ es) (h2 : TEv.look tid' p' nd' c' ∈ es)
    (hne : c ≠ c') : ∃ x y, t.mem c = some x ∧ t.mem c' = some y ∧
      (TNode.var x = TNode.var y → hash x % NBUCKETS = hash y % NBUCKETS →
        TNode.eqv x y = false ∨ TNode.eqv y x = false) := by
  have g0 : TGood hash (UTable.empty : UTable N) [] := ⟨UTable.empty_inv, UTable.empty_uniq⟩
  obtain ⟨x, hx, _⟩ := TRun.look_reg h g0 h1
  obtain ⟨y, hy, _⟩ := TRun.look_reg h g0 h2
  refine ⟨x, y, hx.1, hy.1, fun hv hb => ?_⟩
  have hy2 := hy.2
  rw [← hv, ← hb] at hy2
  have key : ∀ l : List Nat, l.Pairwise (fun p q => ∀ x y, t.mem p = some x → t.mem q = some y → TNode.eqv x y = false) →
      c ∈ l → c' ∈ l → TNode.eqv x y = false ∨ TNode.eqv y x = false := by
    intro l
    induction l with
    | nil => intro _ h; cases h
    | cons a l ih =>
      intro hp hc hc'
      obtain ⟨g1, g2⟩ := List.pairwise_cons.1 hp
      rcases List.mem_cons.1 hc with e | hcl
      · rcases List.mem_cons.1 hc' with e' | hcl'
        · exact absurd (e.trans e'.symm) hne
        · exact .inl (g1 _ hcl' _ _ (by rw [← e]; exact hx.1) hy.1)
      · rcases List.mem_cons.1 hc' with e' | hcl'
        · exact .inr (g1 _ hcl _ _ (by rw [← e']; exact hy.1) hx.1)
        · exact ih g2 hcl hcl'
  exact key _ ((THist.good h).2 _ _) hx.2 hy2

/-- **C14 (exact equality).**  If `operator==` is equality, two lookups of the same content return the same node, whatever
happened in between. -/
theorem C14_same_node (heq : ∀ x y : N, TNode.eqv x y = true ↔ x = y) {es : List (TEv N)} {t : UTable N}
    {own : List Nat} (h : THist hash es t own) {tid p c tid' p' c' : Nat} {nd : N} (h1 : TEv.look tid p nd c ∈ es)
    (h2 : TEv.look tid' p' nd c' ∈ es) : c = c' := by
  by_contra hne
  have g0 : TGood hash (UTable.empty : UTable N) [] := ⟨UTable.empty_inv, UTable.empty_uniq⟩
  have cont : ∀ {tid p c : Nat}, TEv.look tid p nd c ∈ es → t.mem c = some nd := by
    intro tid p c hm
    obtain ⟨x, hx, he⟩ := TRun.look_reg h g0 hm
    rw [hx.1]
    rcases he with rfl | he
    · rfl
    · rw [(heq _ _).1 he]
  obtain ⟨x, y, hx, hy, hxy⟩ := C14_unique h h1 h2 hne
  have e1 := cont h1
  have e2 := cont h2
  rw [hx] at e1
  rw [hy] at e2
  cases e1
  cases e2
  have := hxy rfl rfl
  rw [(heq nd nd).2 rfl] at this
  simp at this

/-- A history with two lookups of the same content by different threads exists (hypotheses are met). -/
example [DecidableEq N] (hash : N → Nat) (nd : N) (hv0 : 0 ≤ TNode.var nd) (hv1 : TNode.var nd < (NQUBITS : Int)) :
    ∃ es t own p p' c c', THist hash es t own ∧ TEv.look 0 p nd c ∈ es ∧ TEv.look 1 p' nd c' ∈ es := by
  have h0 : THist hash [] UTable.empty [] := .nil
  have h1 := (TRun.snoc h0 (.get 0)).snoc (.write nd List.mem_cons_self)
  obtain ⟨c, t1, hl⟩ := C14_lookup_ok h1 List.mem_cons_self (by simp [UTable.write]) hv0 hv1 0
  have h2 := h1.snoc (.look 0 List.mem_cons_self (by simp [UTable.write]) hv0 hv1 hl)
  have h3 := (TRun.snoc h2 (.get 1)).snoc (.write nd List.mem_cons_self)
  obtain ⟨c', t2, hl'⟩ := C14_lookup_ok h3 List.mem_cons_self (by simp [UTable.write]) hv0 hv1 1
  have h4 := h3.snoc (.look 1 List.mem_cons_self (by simp [UTable.write]) hv0 hv1 hl')
  exact ⟨_, _, _, _, _, c, c', h4,
    List.mem_append_left _ (List.mem_append_left _ (List.mem_append_left _ (List.mem_append_right _ (List.mem_singleton.2 rfl)))),
    List.mem_append_right _ (List.mem_singleton.2 rfl)⟩

end table

/-! ## C15: the addition cache -/

section addcache
variable {W : Type} [WOps W]

/-- A call on an `AddCache`, with the answer of `find` (`none`: a miss). -/
inductive AEv (W : Type)
  | set (l r res : Edge W)
  | find (l r : Edge W) (ans : Option (Edge W))
  | clear

/-- Histories of calls; the node memory (which gives the levels of the operands) may be any at each call. -/
inductive AHist (N : Type) [TNode N] (h : Edge W → Edge W → Nat) : List (AEv W) → ACache W → Prop
  | init : AHist N h [] (fun _ _ => none)
  | set {es c c'} (mem : Nat → Option N) {l r res} : AHist N h es c → c.set mem h l r res = .ok c' →
      AHist N h (es ++ [.set l r res]) c'
  | find {es c} (mem : Nat → Option N) {l r ans} : AHist N h es c → c.find mem h l r = .ok ans →
      AHist N h (es ++ [.find l r ans]) c
  | clear {es c} : AHist N h es c → AHist N h (es ++ [.clear]) (fun _ _ => none)

variable {N : Type} [TNode N] {h : Edge W → Edge W → Nat}

/-- `set a b x` happened, and no `clearAll` since. -/
def AStored (es : List (AEv W)) (a b x : Edge W) : Prop :=
  ∃ es1 es2, es = es1 ++ [.set a b x] ++ es2 ∧ AEv.clear ∉ es2

theorem AStored.snoc {es : List (AEv W)} {a b x : Edge W} (hs : AStored es a b x) {e : AEv W} (he : e ≠ .clear) :
    AStored (es ++ [e]) a b x := by
  obtain ⟨es1, es2, rfl, h2⟩ := hs
  refine ⟨es1, es2 ++ [e], by simp, fun hm => ?_⟩
  rcases List.mem_append.1 hm with hm | hm
  · exact h2 hm
  · exact he (List.mem_singleton.1 hm).symm

theorem acOrder_cases {mem : Nat → Option N} {l r l' r' : Edge W} {lv : Int}
    (ho : acOrder mem l r = .ok (l', r', lv)) : (l' = l ∧ r' = r) ∨ (l' = r ∧ r' = l) := by
  unfold acOrder at ho
  split at ho
  · cases ho
  · split at ho
    · cases ho
    · split at ho <;> cases ho
      · exact .inr ⟨rfl, rfl⟩
      · exact .inl ⟨rfl, rfl⟩

theorem AHist.entry {es : List (AEv W)} {c : ACache W} (hh : AHist N h es c) {lv : Int} {key : Nat} {e : AEnt W}
    (he : c lv key = some e) : AStored es e.lhs e.rhs e.res ∨ AStored es e.rhs e.lhs e.res := by
  induction hh generalizing lv key e with
  | init => cases he
  | @set es c c' mem l r res _ hset ih =>
    unfold ACache.set at hset
    split at hset
    · cases hset
    · rename_i l' r' lv' ho
      split at hset
      · cases hset
      · cases hset
        by_cases hl : lv = lv'
        · subst hl
          by_cases hk : key = h l' r' % NBUCKETS
          · subst hk
            simp only [upd_same] at he
            cases he
            have hs : AStored (es ++ [AEv.set l r res]) l r res := ⟨es, [], by simp, by simp⟩
            rcases acOrder_cases ho with ⟨rfl, rfl⟩ | ⟨rfl, rfl⟩
            · exact .inl hs
            · exact .inr hs
          · simp only [upd_same, upd_ne _ _ _ hk] at he
            exact (ih he).imp (·.snoc (by simp)) (·.snoc (by simp))
        · simp only [upd_ne _ _ _ hl] at he
          exact (ih he).imp (·.snoc (by simp)) (·.snoc (by simp))
  | find mem _ _ ih => exact (ih he).imp (·.snoc (by simp)) (·.snoc (by simp))
  | clear => cases he

/-- **C15.**  If after any history of calls `find(l, r)` returns `x`, then `set(a, b, x)` was called, after the last
`clearAll`, for operands equal to `l` and `r` under `operator==`, in this order or the other. -/
theorem C15_find {es : List (AEv W)} {c : ACache W} (hh : AHist N h es c) (mem : Nat → Option N) {l r x : Edge W}
    (hf : c.find mem h l r = .ok (some x)) :
    ∃ a b, AStored es a b x ∧ ((eeq a l = true ∧ eeq b r = true) ∨ (eeq a r = true ∧ eeq b l = true)) := by
  unfold ACache.find at hf
  split at hf
  · cases hf
  · rename_i l' r' lv ho
    split at hf
    · cases hf
    · split at hf
      · cases hf
      · rename_i e he
        split at hf
        · rename_i hm
          split at hf
          · cases hf
          · split at hf
            · cases hf
              simp only [Bool.and_eq_true] at hm
              rcases acOrder_cases ho with ⟨rfl, rfl⟩ | ⟨rfl, rfl⟩ <;> rcases hh.entry he with hs | hs
              · exact ⟨_, _, hs, .inl hm⟩
              · exact ⟨_, _, hs, .inr ⟨hm.2, hm.1⟩⟩
              · exact ⟨_, _, hs, .inr hm⟩
              · exact ⟨_, _, hs, .inl ⟨hm.2, hm.1⟩⟩
            · cases hf
        · cases hf

/-- **C15 (exact equality).**  If weight equality is equality, the stored operands are `l` and `r` themselves. -/
theorem C15_find_exact (heq : ∀ a b : W, WOps.ae a b = true ↔ a = b) {es : List (AEv W)} {c : ACache W}
    (hh : AHist N h es c) (mem : Nat → Option N) {l r x : Edge W} (hf : c.find mem h l r = .ok (some x)) :
    AStored es l r x ∨ AStored es r l x := by
  have he : ∀ a b : Edge W, eeq a b = true → a = b := by
    rintro ⟨aw, an⟩ ⟨bw, bn⟩ hab
    simp only [eeq, Bool.and_eq_true, heq, beq_iff_eq] at hab
    rw [hab.1, hab.2]
  obtain ⟨a, b, hs, ⟨h1, h2⟩ | ⟨h1, h2⟩⟩ := C15_find hh mem hf
  · rw [he _ _ h1, he _ _ h2] at hs; exact .inl hs
  · rw [he _ _ h1, he _ _ h2] at hs; exact .inr hs

/-- A hit happens: `set(l, r, x)` then `find(r, l)` with `l` above `r` in the diagram. -/
example (h : Edge W → Edge W → Nat) (hrefl : ∀ w : W, WOps.ae w w = true) (w : W) (x : Edge W) (hx : x.n = none) :
    ∃ c, AHist (VNode W) h [.set ⟨w, some 0⟩ ⟨w, none⟩ x] c ∧
      c.find (fun _ => some ⟨3, x, x⟩ : Nat → Option (VNode W)) h ⟨w, none⟩ ⟨w, some 0⟩ = .ok (some x) := by
  refine ⟨upd (fun _ _ => none) 3 (upd (fun _ => none) (h ⟨w, some 0⟩ ⟨w, none⟩ % NBUCKETS) (some ⟨⟨w, some 0⟩, ⟨w, none⟩, x⟩)),
    AHist.set (es := []) (c := fun _ _ => none) (fun _ => some ⟨3, x, x⟩ : Nat → Option (VNode W)) .init ?_, ?_⟩
  · simp [ACache.set, acOrder, evar, NQUBITS]
  · simp [ACache.find, acOrder, evar, NQUBITS, eeq, hrefl, hx]

end addcache

/-! ## C16: the multiplication cache -/

section mulcache
variable {W : Type} [WOps W]

/-- A call on a `MulCache`, with the answer of `find`. -/
inductive MEv (W : Type)
  | set (l : Nat) (r : Option Nat) (res : Edge W)
  | find (l : Nat) (r : Option Nat) (ans : Option (Edge W))
  | clear

/-- Histories of calls; node memory and the garbage in fresh buckets may be any at each call. -/
inductive MHist (N N' : Type) [TNode N] [TNode N'] (mur : Nat → Nat) : List (MEv W) → PCache W → Prop
  | init : MHist N N' mur [] (fun _ _ => none)
  | set {es c c'} (mem : Nat → Option N) (junk : Int → Nat → Nat → Bool) {l r res} : MHist N N' mur es c →
      c.set mem mur junk l r res = .ok c' → MHist N N' mur (es ++ [.set l r res]) c'
  | find {es c c'} (mem : Nat → Option N) (mem' : Nat → Option N') (junk : Int → Nat → Nat → Bool) {l r ans} :
      MHist N N' mur es c → c.find mem mem' mur junk l r = .ok (ans, c') → MHist N N' mur (es ++ [.find l r ans]) c'
  | clear {es c} : MHist N N' mur es c → MHist N N' mur (es ++ [.clear]) (fun _ _ => none)

variable {N N' : Type} [TNode N] [TNode N'] {mur : Nat → Nat}

/-- `set l r x` happened, and no `clearAll` since. -/
def MStored (es : List (MEv W)) (l : Nat) (r : Option Nat) (x : Edge W) : Prop :=
  ∃ es1 es2, es = es1 ++ [.set l r x] ++ es2 ∧ MEv.clear ∉ es2

theorem MStored.snoc {es : List (MEv W)} {l r} {x : Edge W} (hs : MStored es l r x) {e : MEv W} (he : e ≠ .clear) :
    MStored (es ++ [e]) l r x := by
  obtain ⟨es1, es2, rfl, h2⟩ := hs
  refine ⟨es1, es2 ++ [e], by simp, fun hm => ?_⟩
  rcases List.mem_append.1 hm with hm | hm
  · exact h2 hm
  · exact he (List.mem_singleton.1 hm).symm

/-- Every valid entry of a bucket was stored for its key. -/
def BGood (es : List (MEv W)) (b : List (PEnt W)) : Prop :=
  ∀ e ∈ b, e.valid = true → ∃ l x, e.lhs = some l ∧ e.res = some x ∧ MStored es l e.rhs x

theorem BGood.snoc {es : List (MEv W)} {b : List (PEnt W)} (hb : BGood es b) {ev : MEv W} (he : ev ≠ .clear) :
    BGood (es ++ [ev]) b := fun e hm hv => by
  obtain ⟨l, x, h1, h2, h3⟩ := hb e hm hv
  exact ⟨l, x, h1, h2, h3.snoc he⟩

theorem freshBucket_good (es : List (MEv W)) (junk : Nat → Bool) : BGood es (freshBucket W junk) := by
  intro e hm hv
  unfold freshBucket at hm
  obtain ⟨i, _, rfl⟩ := List.mem_map.1 hm
  cases hv

theorem bucketFind_good {mem : Nat → Option N'} {es : List (MEv W)} {l : Nat} {r : Option Nat} :
    ∀ {b b' : List (PEnt W)} {ans : Option (Edge W)}, bucketFind mem (some l) r b = .ok (ans, b') → BGood es b →
      BGood es b' ∧ ∀ x, ans = some x → MStored es l r x
  | [], b', ans, hf, hb => by
    cases hf
    exact ⟨hb, by simp⟩
  | e :: b, b', ans, hf, hb => by
    simp only [bucketFind] at hf
    split at hf
    · rename_i hm
      simp only [Bool.and_eq_true, beq_iff_eq] at hm
      obtain ⟨l0, x0, h1, h2, h3⟩ := hb e (by simp) hm.1.1
      rw [h2] at hf
      simp only at hf
      have hgood : ∀ pk : Int, BGood es ({ e with res := some x0, picked := pk } :: b) := by
        intro pk e' hm' hv'
        rcases List.mem_cons.1 hm' with rfl | hm'
        · exact ⟨l0, x0, h1, rfl, h3⟩
        · exact hb e' (by simp [hm']) hv'
      split at hf
      · cases hf
      · split at hf
        · cases hf
          refine ⟨hgood _, fun x hx => ?_⟩
          cases hx
          rw [hm.1.2] at h1
          cases h1
          rw [hm.2] at h3
          exact h3
        · cases hf
          exact ⟨hgood _, by simp⟩
    · split at hf
      · cases hf
      · rename_i x es' hf'
        cases hf
        obtain ⟨g1, g2⟩ := bucketFind_good hf' fun e hm => hb e (by simp [hm])
        refine ⟨fun e' hm' => ?_, g2⟩
        rcases List.mem_cons.1 hm' with rfl | hm'
        · exact hb _ (by simp)
        · exact g1 e' hm'

theorem putNull_mem {l r} {res : Edge W} : ∀ {b b' : List (PEnt W)}, putNull l r res b = some b' →
    ∀ e ∈ b', e = PEnt.put l r res ∨ e ∈ b
  | [], _, hp, e, he => by cases hp
  | a :: b, b', hp, e, he => by
    simp only [putNull] at hp
    split at hp
    · cases hp
      rcases List.mem_cons.1 he with h | h
      · exact .inl h
      · exact .inr (by simp [h])
    · cases hq : putNull l r res b with
      | none => rw [hq] at hp; cases hp
      | some b1 =>
        rw [hq] at hp
        cases hp
        rcases List.mem_cons.1 he with h | h
        · exact .inr (by simp [h])
        · exact (putNull_mem hq e h).imp id (fun h => by simp [h])

theorem bucketSet_good {es : List (MEv W)} {l : Nat} {r : Option Nat} {res : Edge W} {b : List (PEnt W)}
    (hb : BGood es b) : BGood (es ++ [.set l r res]) (bucketSet (some l) r res b) := by
  have hput : ∀ e, e = PEnt.put (some l) r res → ∃ l' x, e.lhs = some l' ∧ e.res = some x ∧
      MStored (es ++ [.set l r res]) l' e.rhs x := by
    rintro e rfl
    exact ⟨l, res, rfl, rfl, es, [], by simp [PEnt.put], by simp⟩
  intro e hm hv
  unfold bucketSet at hm
  split at hm
  · rename_i b' hp
    rcases putNull_mem hp e hm with h | h
    · exact hput e h
    · exact hb.snoc (by simp) e h hv
  · rcases List.mem_or_eq_of_mem_set hm with h | h
    · exact hb.snoc (by simp) e h hv
    · exact hput e h

theorem upd2_some {c : PCache W} {lv lv' : Int} {key key' : Nat} {b b' : List (PEnt W)}
    (h : upd c lv (upd (c lv) key (some b)) lv' key' = some b') : b' = b ∨ c lv' key' = some b' := by
  unfold upd at h
  by_cases e : lv' = lv
  · subst e
    simp only [if_true] at h
    split at h
    · left; exact (Option.some.inj h).symm
    · exact .inr h
  · simp only [if_neg e] at h; exact .inr h

theorem MHist.good {es : List (MEv W)} {c : PCache W} (hh : MHist N N' mur es c) :
    ∀ lv key b, c lv key = some b → BGood es b := by
  induction hh with
  | init => intro _ _ _ h; cases h
  | @set es c c' mem junk l r res _ hs ih =>
    intro lv key b hb
    unfold PCache.set at hs
    split at hs
    · cases hs
    · split at hs
      · cases hs
      · cases hs
        rcases upd2_some hb with rfl | h
        · refine bucketSet_good ?_
          rename_i lv' _ _
          cases hc : c lv' (mur l % NBUCKETS) with
          | none => exact freshBucket_good _ _
          | some b => exact ih _ _ _ hc
        · exact (ih _ _ _ h).snoc (by simp)
  | @find es c c' mem mem' junk l r ans _ hs ih =>
    intro lv key b hb
    unfold PCache.find at hs
    split at hs
    · cases hs
    · split at hs
      · cases hs
      · dsimp only at hs
        split at hs
        · cases hs
          rcases upd2_some hb with rfl | h
          · exact freshBucket_good _ _
          · exact (ih _ _ _ h).snoc (by simp)
        · rename_i b0 hc
          split at hs
          · cases hs
          · rename_i x b' hf
            cases hs
            rcases upd2_some hb with rfl | h
            · exact (bucketFind_good hf (ih _ _ _ hc)).1.snoc (by simp)
            · exact (ih _ _ _ h).snoc (by simp)
  | clear => intro _ _ _ h; cases h

/-- **C16.**  If after any history of calls (evictions, collisions, clearing, arbitrary garbage in fresh buckets)
`find(l, r)` returns `x`, then `set(l, r, x)` was called for exactly this pair after the last `clearAll`. -/
theorem C16_find {es : List (MEv W)} {c c' : PCache W} (hh : MHist N N' mur es c) (mem : Nat → Option N)
    (mem' : Nat → Option N') (junk : Int → Nat → Nat → Bool) {l : Nat} {r : Option Nat} {x : Edge W}
    (hf : c.find mem mem' mur junk l r = .ok (some x, c')) : MStored es l r x := by
  unfold PCache.find at hf
  split at hf
  · cases hf
  · split at hf
    · cases hf
    · dsimp only at hf
      split at hf
      · cases hf
      · rename_i b0 hc
        split at hf
        · cases hf
        · rename_i y b' hf'
          cases hf
          exact (bucketFind_good hf' (hh.good _ _ _ hc)).2 x rfl

/-- A hit happens: `set(0, 1, x)` then `find(0, 1)`. -/
example (mur : Nat → Nat) (x : Edge W) (hx : x.n = none) :
    ∃ c c', MHist (MNode W) (VNode W) mur [.set 0 (some 1) x] c ∧
      c.find (fun _ => some ⟨3, x, x, x, x⟩ : Nat → Option (MNode W)) (fun _ => none : Nat → Option (VNode W)) mur
        (fun _ _ _ => true) 0 (some 1) = .ok (some x, c') := by
  refine ⟨upd (fun _ _ => none) 3 (upd (fun _ => none) (mur 0 % NBUCKETS)
    (some (bucketSet (some 0) (some 1) x (freshBucket W fun _ => true)))),
    upd (upd (fun _ _ => none) 3 (upd (fun _ => none) (mur 0 % NBUCKETS)
      (some (bucketSet (some 0) (some 1) x (freshBucket W fun _ => true))))) 3
      (upd (upd (fun _ => none) (mur 0 % NBUCKETS)
      (some (bucketSet (some 0) (some 1) x (freshBucket W fun _ => true)))) (mur 0 % NBUCKETS) (some
      ({ PEnt.put (some 0) (some 1) x with picked := 2 } :: (freshBucket W fun _ => true).tail))),
    MHist.set (es := []) (c := fun _ _ => none) (fun _ => some ⟨3, x, x, x, x⟩ : Nat → Option (MNode W)) (fun _ _ _ => true) .init ?_, ?_⟩
  · simp [PCache.set, evar, NQUBITS]
  · simp [PCache.find, evar, NQUBITS, bucketSet, freshBucket, putNull, bucketFind, PEnt.put, hx, List.range_succ]

end mulcache

end QDD.Props
