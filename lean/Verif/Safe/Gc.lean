import Verif.Safe.Gates
/-!
# Memory safety without exact arithmetic: garbage collection

`gc`/`gc_mat` serialise the kept diagrams and rebuild them.  With tolerant comparison the rebuilt diagram need not be an
exact copy (similar nodes are merged), but it has the same levels.
-/

set_option linter.unusedSectionVars false
set_option linter.unusedVariables false
set_option linter.unusedSimpArgs false

namespace QDD
namespace Safe
open RoundW Prog

section generic
variable {N W : Type} [TNode N] [SNode N W] [WOps W] {hs ht : N → Nat} {src : UTable N}

/-- Both terminal, or registered nodes at the same level. -/
def SameLv (hs ht : N → Nat) (src t : UTable N) (a b : Option Nat) : Prop :=
  (a = none ∧ b = none) ∨ ∃ p q nd nd', a = some p ∧ b = some q ∧ UTable.Reg hs src p nd ∧ UTable.Reg ht t q nd' ∧
    TNode.var nd' = TNode.var nd

theorem SameLv.ext {t t' : UTable N} (he : UTable.Ext ht t t') {a b} (h : SameLv hs ht src t a b) :
    SameLv hs ht src t' a b := by
  rcases h with h | ⟨p, q, nd, nd', h1, h2, h3, h4, h5⟩
  · exact .inl h
  · exact .inr ⟨p, q, nd, nd', h1, h2, h3, he _ _ h4, h5⟩

/-- `x` has the level and weights of `nd`, with children at the same levels. -/
def Copies (hs ht : N → Nat) (src t : UTable N) (nd x : N) : Prop :=
  TNode.var x = TNode.var nd ∧ ∀ (j : Nat) (a b : Edge W), (SNode.kids nd)[j]? = some a → (SNode.kids x)[j]? = some b →
    a.w = b.w ∧ SameLv hs ht src t a.n b.n

theorem Copies.ext {t t' : UTable N} (he : UTable.Ext ht t t') {a b : N} (h : Copies hs ht src t a b) :
    Copies hs ht src t' a b := ⟨h.1, fun j x y hx hy => ⟨(h.2 j x y hx hy).1, (h.2 j x y hx hy).2.ext he⟩⟩

/-- What holds for the deserialiser's `map` after the entries below `i`. -/
structure FromLv (hs ht : N → Nat) (src : UTable N) (st : Ser W) (t0 t : UTable N) (i : Nat)
    (map : Nat → Option (Option Nat)) : Prop where
  inv : UTable.TInv ht t []
  ext : UTable.Ext ht t0 t
  lv : ∀ a x, st.map a = some x → x < i → ∃ b, map x = some b ∧ SameLv hs ht src t a b
  new : ∀ q x, UTable.Reg ht t q x → UTable.Reg ht t0 q x ∨ ∃ p nd, UTable.Reg hs src p nd ∧ Copies hs ht src t nd x

theorem store_ok {t : UTable N} (hi : UTable.TInv ht t []) (nd : N) (hv0 : 0 ≤ TNode.var nd)
    (hv1 : TNode.var nd < (NQUBITS : Int)) (tid : Nat) (nl : Bool)
    (heq : ∀ a b : N, TNode.eqv a b = true → TNode.var a = TNode.var b) :
    let r := UTable.getNode tid t
    let t1 := UTable.write r.1 nd r.2
    ∃ q t', (if nl then UTable.register ht r.1 t1 else UTable.lookup ht tid r.1 t1) = .ok (q, t') ∧
      UTable.TInv ht t' [] ∧ UTable.Ext ht t t' ∧ (∃ nc, UTable.Reg ht t' q nc ∧ TNode.var nc = TNode.var nd) ∧
      (∀ p x, UTable.Reg ht t' p x → UTable.Reg ht t p x ∨ x = nd) := by
  intro r t1
  obtain ⟨g1, g2, g3⟩ := UTable.getNode_spec hi tid
  have hw := UTable.write_inv g1 (p := r.1) List.mem_cons_self nd
  have hm : t1.mem r.1 = some nd := by simp [t1, UTable.write]
  have hreg1 : ∀ q x, UTable.Reg ht t1 q x ↔ UTable.Reg ht t q x := by
    intro q x
    rw [UTable.write_reg g1 List.mem_cons_self nd q x]
    unfold UTable.Reg; rw [g2, g3]
  cases nl with
  | false =>
    obtain ⟨c, t', h1, h2, h4, nc, h5, h6, h7⟩ := lookup_shape hw hm hv0 hv1 tid
    refine ⟨c, t', h1, h2, fun q x hq => h4 _ _ ((hreg1 q x).2 hq), ⟨nc, h5, ?_⟩, ?_⟩
    · rcases h6 with ⟨h, _⟩ | ⟨h, _⟩
      · rw [h]
      · exact (heq _ _ h).symm
    · intro p x hx
      exact (h7 p x hx).imp (hreg1 p x).1 (·.2)
  | true =>
    obtain ⟨p1, p2⟩ := UTable.push_spec hw hm hv0 hv1
    have hnb : ¬ (TNode.var nd < 0 ∨ (NQUBITS : Int) ≤ TNode.var nd) := by omega
    refine ⟨r.1, _, by simp only [UTable.register, hm, hnb, if_false, if_true]; rfl, p1, ?_, ?_, ?_⟩
    · intro q x hq; exact (p2 q x).2 (.inl ((hreg1 q x).2 hq))
    · exact ⟨nd, (p2 _ _).2 (.inr ⟨rfl, rfl⟩), rfl⟩
    · intro p x hx; exact ((p2 p x).1 hx).imp (hreg1 p x).1 (·.2)

theorem fromVecLoop_ok {st : Ser W} (hst : SerOk hs src st)
    (hsv : ∀ p nd, UTable.Reg hs src p nd → 0 ≤ TNode.var nd ∧ TNode.var nd < (NQUBITS : Int))
    (heq : ∀ a b : N, TNode.eqv a b = true → TNode.var a = TNode.var b) {t0 : UTable N} (tid : Nat) (nl : Bool) :
    ∀ (cs : List (Content W)) (i : Nat) map t, 0 < i → st.tab.drop i = cs → i + cs.length = st.tab.length →
      FromLv hs ht src st t0 t i map →
      ∃ map' t', fromVecLoop ht tid nl cs i map t = .ok (map', t') ∧
        FromLv hs ht src st t0 t' st.tab.length map' := by
  intro cs
  induction cs with
  | nil =>
    intro i map t _ _ hl hf
    simp at hl; subst hl
    exact ⟨map, t, rfl, hf⟩
  | cons c cs ih =>
    intro i map t hi hd hl hf
    have hil : i < st.tab.length := by simp at hl; omega
    have hci : st.tab[i]? = some c := by
      have := congrArg (fun l => l[0]?) hd
      simpa using this
    obtain ⟨p, hp⟩ := hst.surj i hi hil
    obtain ⟨_, _, nd, c', hr, hc', hent⟩ := hst.ent p i hp
    rw [hci] at hc'; cases hc'
    obtain ⟨he1, he2, he3⟩ := hent
    have hkid : ∀ (j : Nat) (a : Edge W), (SNode.kids nd)[j]? = some a →
        ∃ x b, c.ks[j]? = some (a.w, x) ∧ map x = some b ∧ SameLv hs ht src t a.n b := by
      intro j a hj
      obtain ⟨x, h1, h2, h3⟩ := he3 j a hj
      obtain ⟨b, h4, h5⟩ := hf.lv _ _ h3 h2
      exact ⟨x, b, h1, h4, h5⟩
    obtain ⟨es, hes1, hes2, hes3⟩ := fromKids_spec (map := map) c.ks (by
      intro w x hx
      obtain ⟨j, hj⟩ := List.getElem?_of_mem hx
      have hjl : j < (SNode.kids nd).length := by
        rw [← he2]; exact (List.getElem?_eq_some_iff.1 hj).1
      obtain ⟨x', b, h1, h2, _⟩ := hkid j _ (List.getElem?_eq_getElem hjl)
      rw [hj] at h1; cases h1
      exact ⟨b, h2⟩)
    have hlen : es.length = SNode.arity N := by rw [hes2, he2, SNode.kids_len]
    let nd' : N := SNode.build c.v es
    have hvar : TNode.var nd' = TNode.var nd := by rw [SNode.mk_var _ _ hlen, he1]
    have hkids' : SNode.kids nd' = es := SNode.mk_kids _ _ hlen
    have hcopy : Copies hs ht src t nd nd' := by
      refine ⟨hvar, fun j a b ha hb => ?_⟩
      rw [hkids'] at hb
      obtain ⟨x, n, h1, h2, h3⟩ := hkid j a ha
      have := hes3 j a.w x n h1 h2
      rw [hb] at this; cases this
      exact ⟨rfl, h3⟩
    obtain ⟨q, t', s1, s2, s4, ⟨nc, s5, s5'⟩, s6⟩ := store_ok (ht := ht) hf.inv nd'
      (by rw [hvar]; exact (hsv _ _ hr).1) (by rw [hvar]; exact (hsv _ _ hr).2) tid nl heq
    have hrun : fromVecLoop ht tid nl (c :: cs) i map t =
        fromVecLoop ht tid nl cs (i + 1) (upd map i (some (some q))) t' := by
      rw [fromVecLoop]
      simp only [hes1]
      dsimp only [nd'] at s1
      rw [s1]
    rw [hrun]
    refine ih (i + 1) _ t' (Nat.succ_pos _) ?_ (by simp at hl; omega) ?_
    · rw [← List.drop_drop, hd]; rfl
    · refine ⟨s2, hf.ext.trans s4, ?_, ?_⟩
      · intro a x ha hx
        by_cases e : x = i
        · subst e
          have : a = some p := hst.inj _ _ _ ha hp
          subst this
          exact ⟨some q, by simp, .inr ⟨p, q, nd, nc, rfl, rfl, hr, s5, s5'.trans hvar⟩⟩
        · obtain ⟨b, h1, h2⟩ := hf.lv a x ha (by omega)
          exact ⟨b, by rw [upd_ne _ _ _ e]; exact h1, h2.ext s4⟩
      · intro q' x hq'
        rcases s6 q' x hq' with h | rfl
        · rcases hf.new q' x h with h | ⟨p', nd2, h, h'⟩
          · exact .inl h
          · exact .inr ⟨p', nd2, h, h'.ext s4⟩
        · exact .inr ⟨p, nd, hr, hcopy.ext s4⟩

theorem fromVec_ok {st : Ser W} (hst : SerOk hs src st)
    (hsv : ∀ p nd, UTable.Reg hs src p nd → 0 ≤ TNode.var nd ∧ TNode.var nd < (NQUBITS : Int))
    (heq : ∀ a b : N, TNode.eqv a b = true → TNode.var a = TNode.var b) {t : UTable N} (tid : Nat) (nl : Bool)
    (hi : UTable.TInv ht t []) {n : Option Nat} {i : Nat} (hn : st.map n = some i) (hlast : i + 1 = st.tab.length) :
    ∃ n' t', fromVec ht tid nl st.tab t = .ok (n', t') ∧ SameLv hs ht src t' n n' ∧ UTable.TInv ht t' [] ∧
      UTable.Ext ht t t' ∧
      ∀ q x, UTable.Reg ht t' q x → UTable.Reg ht t q x ∨ ∃ p nd, UTable.Reg hs src p nd ∧ Copies hs ht src t' nd x := by
  have hpos := hst.pos
  have h0 : FromLv hs ht src st t t 1 (upd (fun _ => none) 0 (some none)) := by
    refine ⟨hi, UTable.Ext.refl _, ?_, fun q x h => .inl h⟩
    intro a x ha hx
    have : x = 0 := by omega
    subst this
    have : a = none := hst.inj _ _ _ ha hst.term
    subst this
    exact ⟨none, by simp, .inl ⟨rfl, rfl⟩⟩
  obtain ⟨map', t', h1, h2⟩ := fromVecLoop_ok (ht := ht) hst hsv heq tid nl st.tab.tail 1 _ t
    (by omega) (by simp) (by simp; omega) h0
  obtain ⟨b, h3, h4⟩ := h2.lv n i hn (by omega)
  refine ⟨b, t', ?_, h4, h2.inv, h2.ext, h2.new⟩
  have : st.tab.length - 1 = i := by omega
  simp only [fromVec, h1, this, h3]

theorem rebuild_ok
    (hsv : ∀ p nd, UTable.Reg hs src p nd → 0 ≤ TNode.var nd ∧ TNode.var nd < (NQUBITS : Int))
    (heq : ∀ a b : N, TNode.eqv a b = true → TNode.var a = TNode.var b) (tid : Nat) :
    ∀ (es : List (Edge W)) vs (first : Bool) (t : UTable N),
      List.Forall₂ (fun (e : Edge W) v => ∃ st : Ser W, v = st.tab ∧ SerOk hs src st ∧
          ∃ i, st.map e.n = some i ∧ i + 1 = st.tab.length) es vs →
      UTable.TInv ht t [] →
      (∀ q x, UTable.Reg ht t q x → ∃ p nd, UTable.Reg hs src p nd ∧ Copies hs ht src t nd x) →
      ∃ es' t', rebuild ht tid first es vs t = .ok (es', t') ∧ UTable.TInv ht t' [] ∧ UTable.Ext ht t t' ∧
        (∀ q x, UTable.Reg ht t' q x → ∃ p nd, UTable.Reg hs src p nd ∧ Copies hs ht src t' nd x) ∧
        List.Forall₂ (fun e e' : Edge W => e'.w = e.w ∧ SameLv hs ht src t' e.n e'.n) es es' := by
  intro es
  induction es with
  | nil =>
    intro vs first t hf hi hn
    cases hf
    exact ⟨[], t, by simp [rebuild], hi, UTable.Ext.refl _, hn, .nil⟩
  | cons e es ih =>
    intro vs first t hf hi hn
    cases hf with
    | cons h1 h2 =>
      rename_i v vs
      obtain ⟨st, rfl, hst, i, hi1, hi2⟩ := h1
      obtain ⟨n', t1, a1, a2, a3, a5, a6⟩ := fromVec_ok (ht := ht) hst hsv heq tid first hi hi1 hi2
      obtain ⟨es', t', b1, b2, b4, b5, b6⟩ := ih vs false t1 h2 a3 (by
        intro q x hq
        rcases a6 q x hq with h | h
        · obtain ⟨p, nd, hp, hc⟩ := hn q x h; exact ⟨p, nd, hp, hc.ext a5⟩
        · exact h)
      exact ⟨⟨e.w, n'⟩ :: es', t', by simp [rebuild, a1, b1], b2, a5.trans b4, b5, .cons ⟨rfl, a2.ext b4⟩ b6⟩

end generic

variable {W : Type} [WOps W] [RoundW W] {env : Env W}

theorem veqv_var (a b : VNode W) (h : TNode.eqv a b = true) : TNode.var a = TNode.var b := by
  simp only [TNode.eqv, Bool.and_eq_true, beq_iff_eq] at h
  exact h.1.1

theorem meqv_var (a b : MNode W) (h : TNode.eqv a b = true) : TNode.var a = TNode.var b := by
  simp only [TNode.eqv, Bool.and_eq_true, beq_iff_eq] at h
  exact h.1.1.1.1

theorem Inv.vclosed {s : St W} (hi : Inv env s) : Closed env.hv s.vt := by
  intro p nd hr k hk
  obtain ⟨l, hl, _⟩ := hi.vlevel hr
  have : ∃ b, k = nd.child b := by
    simp [SNode.kids] at hk
    rcases hk with rfl | rfl
    · exact ⟨false, rfl⟩
    · exact ⟨true, rfl⟩
  obtain ⟨b, rfl⟩ := this
  rcases hi.vchild hr b hl with (⟨_, h⟩ | ⟨q, nq, h1, h2, h3⟩) | ⟨_, h⟩
  · exact .inl h
  · exact .inr ⟨q, nq, h1, h2, by simp; omega⟩
  · exact .inl h

theorem Inv.mclosed {s : St W} (hi : Inv env s) : Closed env.hm s.mt := by
  intro p nd hr k hk
  obtain ⟨l, hl, _⟩ := hi.mlevel hr
  have : ∃ b c, k = nd.child b c := by
    simp [SNode.kids] at hk
    rcases hk with rfl | rfl | rfl | rfl
    · exact ⟨false, false, rfl⟩
    · exact ⟨false, true, rfl⟩
    · exact ⟨true, false, rfl⟩
    · exact ⟨true, true, rfl⟩
  obtain ⟨b, c, rfl⟩ := this
  rcases hi.mchild hr b c hl with h | ⟨q, nq, h1, h2, h3⟩
  · exact .inl h
  · exact .inr ⟨q, nq, h1, h2, by simp; omega⟩

theorem SameLv.vptr {s s' : St W} {k a b} (h : SameLv env.hv env.hv s.vt s'.vt a b) (ha : VPtr env s k a) :
    VPtr env s' k b := by
  rcases h with ⟨rfl, rfl⟩ | ⟨p, q, nd, nd', rfl, rfl, h3, h4, h5⟩
  · rcases ha with ha | ⟨_, _, h, _⟩
    · exact .inl ha
    · cases h
  · rcases ha with ⟨_, h⟩ | ⟨p', x, e, h6, h7⟩
    · cases h
    · cases e
      rw [reg_fun h6 h3] at h7
      exact .inr ⟨q, nd', rfl, h4, by have h5 : nd'.v = nd.v := h5; omega⟩

theorem SameLv.vlv {s s' : St W} {k} {a b : Edge W} (h : SameLv env.hv env.hv s.vt s'.vt a.n b.n) (hw : b.w = a.w)
    (ha : VLv env s k a) : VLv env s' k b := by
  rcases ha with ha | ⟨hz, hn⟩
  · exact .inl (h.vptr ha)
  · rcases h with ⟨_, h⟩ | ⟨p, _, _, _, h, _⟩
    · exact .inr ⟨hw ▸ hz, h⟩
    · rw [hn] at h; cases h

theorem SameLv.mlv {s s' : St W} {k a b} (h : SameLv env.hm env.hm s.mt s'.mt a b) (ha : MLv env s k a) :
    MLv env s' k b := by
  rcases h with ⟨rfl, rfl⟩ | ⟨p, q, nd, nd', rfl, rfl, h3, h4, h5⟩
  · exact .inl rfl
  · rcases ha with h | ⟨p', x, e, h6, h7⟩
    · cases h
    · cases e
      rw [reg_fun h6 h3] at h7
      exact .inr ⟨q, nd', rfl, h4, by have h5 : nd'.v = nd.v := h5; omega⟩

/-- `gc` never fails on live states; every state keeps its qubit count and root weight. -/
theorem gc_ok {s : St W} (hi : Inv env s) (tid : Nat) (force : Bool) (thr : Nat) (es : List (Edge W))
    (hes : ∀ e ∈ es, ∃ k, VLv env s k e) :
    ∃ es' thr' ran s', gc env tid force thr es s = .ok (es', thr', ran, s') ∧ Inv env s' ∧ s'.mt = s.mt ∧
      (ran = false → s' = s) ∧
      List.Forall₂ (fun e e' => ∀ k, VLv env s k e → VLv env s' k e') es es' := by
  unfold gc
  split
  · refine ⟨es, thr, false, s, rfl, hi, rfl, fun _ => rfl, ?_⟩
    exact List.forall₂_same.2 fun e _ k h => h
  · obtain ⟨n, vs, h1, h2⟩ := serAll_spec hi.vclosed (fun p nd h => (hi.vt.reg_var h).1) es
      (fun e he => by
        obtain ⟨k, hk⟩ := hes e he
        rcases hk with (⟨_, h⟩ | ⟨q, nq, h1, h2, h3⟩) | ⟨_, h⟩
        · exact .inl h
        · exact .inr ⟨q, nq, h1, h2, (hi.vt.reg_var h2).2⟩
        · exact .inl h)
    obtain ⟨es', t', a1, a2, a4, a5, a6⟩ := rebuild_ok (ht := env.hv) (fun p nd h => hi.vt.reg_var h) veqv_var tid es vs
      true UTable.empty h2 UTable.empty_inv (by intro q x hq; simp [UTable.Reg, UTable.empty] at hq)
    simp only [h1, a1]
    refine ⟨es', _, true, { s.clearCaches with vt := t' }, rfl, ?_, rfl, fun h => (by cases h), ?_⟩
    · refine ⟨a2, hi.mt, ?_, ?_, ?_, fun _ _ _ _ h => (by cases h), fun _ _ _ _ h => (by cases h),
        fun _ _ _ _ h => (by cases h), fun _ _ _ _ h => (by cases h), fun _ _ _ _ h => (by cases h)⟩
      · intro q x hq b
        obtain ⟨p, nd, hp, hc⟩ := a5 q x hq
        have hv : x.v = nd.v := hc.1
        rw [hv]
        have hk : (nd.child b).w = (x.child b).w ∧ SameLv env.hv env.hv s.vt t' (nd.child b).n (x.child b).n := by
          cases b
          · exact hc.2 0 _ _ rfl rfl
          · exact hc.2 1 _ _ rfl rfl
        exact SameLv.vlv (s := s) (s' := { s.clearCaches with vt := t' }) hk.2 hk.1.symm (hi.vn p nd hp b)
      · intro q x hq
        obtain ⟨p, nd, hp, hc⟩ := a5 q x hq
        have hv : x.v = nd.v := hc.1
        obtain ⟨b, hb1, hb2⟩ := hi.un p nd hp
        have hk : (nd.child b).w = (x.child b).w ∧ SameLv env.hv env.hv s.vt t' (nd.child b).n (x.child b).n := by
          cases b
          · exact hc.2 0 _ _ rfl rfl
          · exact hc.2 1 _ _ rfl rfl
        refine ⟨b, by rw [← hk.1, hb1], ?_⟩
        rw [hv]
        exact SameLv.vptr (s := s) (s' := { s.clearCaches with vt := t' }) hk.2 hb2
      · intro p nd h r c
        exact hi.mn p nd h r c
    · refine a6.imp ?_
      rintro e e' ⟨hw, hl⟩ k hk
      exact SameLv.vlv (s := s) (s' := { s.clearCaches with vt := t' }) hl hw hk

/-- `gc_mat` never fails on live matrices; they keep their levels. -/
theorem gcMat_ok {s : St W} (hi : Inv env s) (tid : Nat) (force : Bool) (thr : Nat) (es : List (Edge W))
    (hes : ∀ e ∈ es, MReg env s e.n) :
    ∃ es' thr' ran s', gcMat env tid force thr es s = .ok (es', thr', ran, s') ∧ Inv env s' ∧ s'.vt = s.vt ∧
      List.Forall₂ (fun e e' => ∀ k, MLv env s k e.n → MLv env s' k e'.n) es es' := by
  unfold gcMat
  split
  · refine ⟨es, thr, false, s, rfl, hi, rfl, ?_⟩
    exact List.forall₂_same.2 fun e _ k h => h
  · obtain ⟨n, vs, h1, h2⟩ := serAll_spec hi.mclosed (fun p nd h => (hi.mt.reg_var h).1) es
      (fun e he => by
        rcases hes e he with h | ⟨q, nq, h1, h2⟩
        · exact .inl h
        · exact .inr ⟨q, nq, h1, h2, (hi.mt.reg_var h2).2⟩)
    obtain ⟨es', t', a1, a2, a4, a5, a6⟩ := rebuild_ok (ht := env.hm) (fun p nd h => hi.mt.reg_var h) meqv_var tid es vs
      true UTable.empty h2 UTable.empty_inv (by intro q x hq; simp [UTable.Reg, UTable.empty] at hq)
    simp only [h1, a1]
    refine ⟨es', _, true, { s.clearCaches with mt := t' }, rfl, ?_, rfl, ?_⟩
    · refine ⟨hi.vt, a2, ?_, ?_, ?_, fun _ _ _ _ h => (by cases h), fun _ _ _ _ h => (by cases h),
        fun _ _ _ _ h => (by cases h), fun _ _ _ _ h => (by cases h), fun _ _ _ _ h => (by cases h)⟩
      · intro p nd h b
        exact hi.vn p nd h b
      · intro p nd h
        exact hi.un p nd h
      · intro q x hq r c
        obtain ⟨p, nd, hp, hc⟩ := a5 q x hq
        have hv : x.v = nd.v := hc.1
        rw [hv]
        have hk : SameLv env.hm env.hm s.mt t' (nd.child r c).n (x.child r c).n := by
          cases r <;> cases c
          · exact (hc.2 0 _ _ rfl rfl).2
          · exact (hc.2 1 _ _ rfl rfl).2
          · exact (hc.2 2 _ _ rfl rfl).2
          · exact (hc.2 3 _ _ rfl rfl).2
        exact SameLv.mlv (s := s) (s' := { s.clearCaches with mt := t' }) hk (hi.mn p nd hp r c)
    · refine a6.imp ?_
      rintro e e' ⟨hw, hl⟩ k hk
      exact SameLv.mlv (s := s) (s' := { s.clearCaches with mt := t' }) hl hk

end Safe
end QDD
