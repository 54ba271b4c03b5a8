import Verif.Num.Gates
import Verif.Safe.Gc
/-!
# Numerical accuracy of garbage collection

The rebuilt diagrams are copies of the kept ones up to the tolerance of node comparison: two nodes with weights that are
approximately equal may be merged.
-/

set_option linter.unusedSectionVars false
set_option linter.unusedVariables false
set_option linter.unusedSimpArgs false

namespace QDD
namespace Num
open RoundW NumW Prog Safe

section generic
variable {N W : Type} [TNode N] [SNode N W] [WOps W] {hs ht : N → Nat} {src : UTable N}

/-- Weights that are the same up to one tolerant comparison. -/
def WNear (a b : W) : Prop := a = b ∨ WOps.ae a b = true

/-- Copies up to the tolerance: same shape, weights of corresponding edges approximately equal. -/
inductive Near (hs ht : N → Nat) (src t : UTable N) : Option Nat → Option Nat → Prop
  | term : Near hs ht src t none none
  | node {p q nd nd'} : UTable.Reg hs src p nd → UTable.Reg ht t q nd' → TNode.var nd' = TNode.var nd →
      (∀ (j : Nat) (a b : Edge W), (SNode.kids nd)[j]? = some a → (SNode.kids nd')[j]? = some b → WNear a.w b.w) →
      (∀ (j : Nat) (a b : Edge W), (SNode.kids nd)[j]? = some a → (SNode.kids nd')[j]? = some b → Near hs ht src t a.n b.n) →
      Near hs ht src t (some p) (some q)

theorem Near.ext {t t' : UTable N} (he : UTable.Ext ht t t') {a b} (h : Near hs ht src t a b) : Near hs ht src t' a b := by
  induction h with
  | term => exact .term
  | node h1 h2 h3 h4 h5 ih => exact .node h1 (he _ _ h2) h3 h4 ih

/-- `x` has the level and weights of `nd`, with children near those of `nd`. -/
def CopyN (hs ht : N → Nat) (src t : UTable N) (nd x : N) : Prop :=
  TNode.var x = TNode.var nd ∧ ∀ (j : Nat) (a b : Edge W), (SNode.kids nd)[j]? = some a → (SNode.kids x)[j]? = some b →
    a.w = b.w ∧ Near hs ht src t a.n b.n

theorem CopyN.ext {t t' : UTable N} (he : UTable.Ext ht t t') {a b : N} (h : CopyN hs ht src t a b) :
    CopyN hs ht src t' a b := ⟨h.1, fun j x y hx hy => ⟨(h.2 j x y hx hy).1, (h.2 j x y hx hy).2.ext he⟩⟩

/-- What holds for the deserialiser's `map` after the entries below `i`. -/
structure FromN (hs ht : N → Nat) (src : UTable N) (st : Ser W) (t0 t : UTable N) (i : Nat)
    (map : Nat → Option (Option Nat)) : Prop where
  inv : UTable.TInv ht t []
  ext : UTable.Ext ht t0 t
  lv : ∀ a x, st.map a = some x → x < i → ∃ b, map x = some b ∧ Near hs ht src t a b
  new : ∀ q x, UTable.Reg ht t q x → UTable.Reg ht t0 q x ∨ ∃ p nd, UTable.Reg hs src p nd ∧ CopyN hs ht src t nd x

/-- Comparison of nodes: levels, child pointers, approximately equal weights. -/
def EqvOk (N : Type) {W : Type} [TNode N] [SNode N W] [WOps W] : Prop :=
  ∀ a b : N, TNode.eqv a b = true → TNode.var a = TNode.var b ∧
    ∀ (j : Nat) (x y : Edge W), (SNode.kids a)[j]? = some x → (SNode.kids b)[j]? = some y → WOps.ae x.w y.w = true ∧ x.n = y.n

theorem store_num {t : UTable N} (hi : UTable.TInv ht t []) (nd : N) (hv0 : 0 ≤ TNode.var nd)
    (hv1 : TNode.var nd < (NQUBITS : Int)) (tid : Nat) (nl : Bool) :
    let r := UTable.getNode tid t
    let t1 := UTable.write r.1 nd r.2
    ∃ q t', (if nl then UTable.register ht r.1 t1 else UTable.lookup ht tid r.1 t1) = .ok (q, t') ∧
      UTable.TInv ht t' [] ∧ UTable.Ext ht t t' ∧ (∃ nc, UTable.Reg ht t' q nc ∧ (nc = nd ∨ TNode.eqv nd nc = true)) ∧
      (∀ p x, UTable.Reg ht t' p x → UTable.Reg ht t p x ∨ x = nd) := by
  intro r t1
  obtain ⟨g1, g2, g3⟩ := UTable.getNode_spec hi tid
  have hw := UTable.write_inv g1 (p := r.1) List.mem_cons_self nd
  have hm : t1.mem r.1 = some nd := by simp [t1, UTable.write]
  have hreg1 : ∀ q x, UTable.Reg ht t1 q x ↔ UTable.Reg ht t q x := by
    intro q x
    rw [UTable.write_reg g1 List.mem_cons_self nd q x]
    unfold UTable.Reg; rw [g2, g3]
  cases nl with
  | false =>
    obtain ⟨c, t', h1, h2, h4, nc, h5, h6, h7⟩ := lookup_shape hw hm hv0 hv1 tid
    refine ⟨c, t', h1, h2, fun q x hq => h4 _ _ ((hreg1 q x).2 hq), ⟨nc, h5, ?_⟩, ?_⟩
    · exact h6.imp (·.1) (·.1)
    · intro p x hx
      exact (h7 p x hx).imp (hreg1 p x).1 (·.2)
  | true =>
    obtain ⟨p1, p2⟩ := UTable.push_spec hw hm hv0 hv1
    have hnb : ¬ (TNode.var nd < 0 ∨ (NQUBITS : Int) ≤ TNode.var nd) := by omega
    refine ⟨r.1, _, by simp only [UTable.register, hm, hnb, if_false, if_true]; rfl, p1, ?_, ?_, ?_⟩
    · intro q x hq; exact (p2 q x).2 (.inl ((hreg1 q x).2 hq))
    · exact ⟨nd, (p2 _ _).2 (.inr ⟨rfl, rfl⟩), .inl rfl⟩
    · intro p x hx; exact ((p2 p x).1 hx).imp (hreg1 p x).1 (·.2)

theorem fromVecLoop_num {st : Ser W} (hst : SerOk hs src st)
    (hsv : ∀ p nd, UTable.Reg hs src p nd → 0 ≤ TNode.var nd ∧ TNode.var nd < (NQUBITS : Int))
    (heq : EqvOk N) {t0 : UTable N} (tid : Nat) (nl : Bool) :
    ∀ (cs : List (Content W)) (i : Nat) map t, 0 < i → st.tab.drop i = cs → i + cs.length = st.tab.length →
      FromN hs ht src st t0 t i map →
      ∃ map' t', fromVecLoop ht tid nl cs i map t = .ok (map', t') ∧
        FromN hs ht src st t0 t' st.tab.length map' := by
  intro cs
  induction cs with
  | nil =>
    intro i map t _ _ hl hf
    simp at hl; subst hl
    exact ⟨map, t, rfl, hf⟩
  | cons c cs ih =>
    intro i map t hi hd hl hf
    have hil : i < st.tab.length := by simp at hl; omega
    have hci : st.tab[i]? = some c := by
      have := congrArg (fun l => l[0]?) hd
      simpa using this
    obtain ⟨p, hp⟩ := hst.surj i hi hil
    obtain ⟨_, _, nd, c', hr, hc', hent⟩ := hst.ent p i hp
    rw [hci] at hc'; cases hc'
    obtain ⟨he1, he2, he3⟩ := hent
    have hkid : ∀ (j : Nat) (a : Edge W), (SNode.kids nd)[j]? = some a →
        ∃ x b, c.ks[j]? = some (a.w, x) ∧ map x = some b ∧ Near hs ht src t a.n b := by
      intro j a hj
      obtain ⟨x, h1, h2, h3⟩ := he3 j a hj
      obtain ⟨b, h4, h5⟩ := hf.lv _ _ h3 h2
      exact ⟨x, b, h1, h4, h5⟩
    obtain ⟨es, hes1, hes2, hes3⟩ := fromKids_spec (map := map) c.ks (by
      intro w x hx
      obtain ⟨j, hj⟩ := List.getElem?_of_mem hx
      have hjl : j < (SNode.kids nd).length := by
        rw [← he2]; exact (List.getElem?_eq_some_iff.1 hj).1
      obtain ⟨x', b, h1, h2, _⟩ := hkid j _ (List.getElem?_eq_getElem hjl)
      rw [hj] at h1; cases h1
      exact ⟨b, h2⟩)
    have hlen : es.length = SNode.arity N := by rw [hes2, he2, SNode.kids_len]
    let nd' : N := SNode.build c.v es
    have hvar : TNode.var nd' = TNode.var nd := by rw [SNode.mk_var _ _ hlen, he1]
    have hkids' : SNode.kids nd' = es := SNode.mk_kids _ _ hlen
    have hcopy : CopyN hs ht src t nd nd' := by
      refine ⟨hvar, fun j a b ha hb => ?_⟩
      rw [hkids'] at hb
      obtain ⟨x, n, h1, h2, h3⟩ := hkid j a ha
      have := hes3 j a.w x n h1 h2
      rw [hb] at this; cases this
      exact ⟨rfl, h3⟩
    obtain ⟨q, t', s1, s2, s4, ⟨nc, s5, s5'⟩, s6⟩ := store_num (ht := ht) hf.inv nd'
      (by rw [hvar]; exact (hsv _ _ hr).1) (by rw [hvar]; exact (hsv _ _ hr).2) tid nl
    have hrun : fromVecLoop ht tid nl (c :: cs) i map t =
        fromVecLoop ht tid nl cs (i + 1) (upd map i (some (some q))) t' := by
      rw [fromVecLoop]
      simp only [hes1]
      dsimp only [nd'] at s1
      rw [s1]
    have hnear : Near hs ht src t' (some p) (some q) := by
      rcases s5' with e | e
      · rw [e] at s5
        exact .node hr s5 hvar (fun j a b ha hb => .inl (hcopy.2 j a b ha hb).1)
          (fun j a b ha hb => (hcopy.2 j a b ha hb).2.ext s4)
      · obtain ⟨e1, e2⟩ := heq _ _ e
        have step : ∀ (j : Nat) (a b : Edge W), (SNode.kids nd)[j]? = some a → (SNode.kids nc)[j]? = some b →
            ∃ x, (SNode.kids nd')[j]? = some x := by
          intro j a b ha hb
          have h1 := (List.getElem?_eq_some_iff.1 ha).1
          rw [SNode.kids_len, ← SNode.kids_len nd'] at h1
          exact ⟨_, List.getElem?_eq_getElem h1⟩
        refine .node hr s5 (e1.symm.trans hvar) (fun j a b ha hb => ?_) (fun j a b ha hb => ?_)
        · obtain ⟨x, hx⟩ := step j a b ha hb
          rw [(hcopy.2 j a x ha hx).1]
          exact .inr (e2 j x b hx hb).1
        · obtain ⟨x, hx⟩ := step j a b ha hb
          rw [← (e2 j x b hx hb).2]
          exact (hcopy.2 j a x ha hx).2.ext s4
    rw [hrun]
    refine ih (i + 1) _ t' (Nat.succ_pos _) ?_ (by simp at hl; omega) ?_
    · rw [← List.drop_drop, hd]; rfl
    · refine ⟨s2, hf.ext.trans s4, ?_, ?_⟩
      · intro a x ha hx
        by_cases e : x = i
        · subst e
          have : a = some p := hst.inj _ _ _ ha hp
          subst this
          exact ⟨some q, by simp, hnear⟩
        · obtain ⟨b, h1, h2⟩ := hf.lv a x ha (by omega)
          exact ⟨b, by rw [upd_ne _ _ _ e]; exact h1, h2.ext s4⟩
      · intro q' x hq'
        rcases s6 q' x hq' with h | rfl
        · rcases hf.new q' x h with h | ⟨p', nd2, h, h'⟩
          · exact .inl h
          · exact .inr ⟨p', nd2, h, h'.ext s4⟩
        · exact .inr ⟨p, nd, hr, hcopy.ext s4⟩

theorem fromVec_num {st : Ser W} (hst : SerOk hs src st)
    (hsv : ∀ p nd, UTable.Reg hs src p nd → 0 ≤ TNode.var nd ∧ TNode.var nd < (NQUBITS : Int))
    (heq : EqvOk N) {t : UTable N} (tid : Nat) (nl : Bool)
    (hi : UTable.TInv ht t []) {n : Option Nat} {i : Nat} (hn : st.map n = some i) (hlast : i + 1 = st.tab.length) :
    ∃ n' t', fromVec ht tid nl st.tab t = .ok (n', t') ∧ Near hs ht src t' n n' ∧ UTable.TInv ht t' [] ∧
      UTable.Ext ht t t' ∧
      ∀ q x, UTable.Reg ht t' q x → UTable.Reg ht t q x ∨ ∃ p nd, UTable.Reg hs src p nd ∧ CopyN hs ht src t' nd x := by
  have hpos := hst.pos
  have h0 : FromN hs ht src st t t 1 (upd (fun _ => none) 0 (some none)) := by
    refine ⟨hi, UTable.Ext.refl _, ?_, fun q x h => .inl h⟩
    intro a x ha hx
    have : x = 0 := by omega
    subst this
    have : a = none := hst.inj _ _ _ ha hst.term
    subst this
    exact ⟨none, by simp, .term⟩
  obtain ⟨map', t', h1, h2⟩ := fromVecLoop_num (ht := ht) hst hsv heq tid nl st.tab.tail 1 _ t
    (by omega) (by simp) (by simp; omega) h0
  obtain ⟨b, h3, h4⟩ := h2.lv n i hn (by omega)
  refine ⟨b, t', ?_, h4, h2.inv, h2.ext, h2.new⟩
  have : st.tab.length - 1 = i := by omega
  simp only [fromVec, h1, this, h3]

theorem rebuild_num
    (hsv : ∀ p nd, UTable.Reg hs src p nd → 0 ≤ TNode.var nd ∧ TNode.var nd < (NQUBITS : Int))
    (heq : EqvOk N) (tid : Nat) :
    ∀ (es : List (Edge W)) vs (first : Bool) (t : UTable N),
      List.Forall₂ (fun (e : Edge W) v => ∃ st : Ser W, v = st.tab ∧ SerOk hs src st ∧
          ∃ i, st.map e.n = some i ∧ i + 1 = st.tab.length) es vs →
      UTable.TInv ht t [] →
      (∀ q x, UTable.Reg ht t q x → ∃ p nd, UTable.Reg hs src p nd ∧ CopyN hs ht src t nd x) →
      ∃ es' t', rebuild ht tid first es vs t = .ok (es', t') ∧ UTable.TInv ht t' [] ∧ UTable.Ext ht t t' ∧
        (∀ q x, UTable.Reg ht t' q x → ∃ p nd, UTable.Reg hs src p nd ∧ CopyN hs ht src t' nd x) ∧
        List.Forall₂ (fun e e' : Edge W => e'.w = e.w ∧ Near hs ht src t' e.n e'.n) es es' := by
  intro es
  induction es with
  | nil =>
    intro vs first t hf hi hn
    cases hf
    exact ⟨[], t, by simp [rebuild], hi, UTable.Ext.refl _, hn, .nil⟩
  | cons e es ih =>
    intro vs first t hf hi hn
    cases hf with
    | cons h1 h2 =>
      rename_i v vs
      obtain ⟨st, rfl, hst, i, hi1, hi2⟩ := h1
      obtain ⟨n', t1, a1, a2, a3, a5, a6⟩ := fromVec_num (ht := ht) hst hsv heq tid first hi hi1 hi2
      obtain ⟨es', t', b1, b2, b4, b5, b6⟩ := ih vs false t1 h2 a3 (by
        intro q x hq
        rcases a6 q x hq with h | h
        · obtain ⟨p, nd, hp, hc⟩ := hn q x h; exact ⟨p, nd, hp, hc.ext a5⟩
        · exact h)
      exact ⟨⟨e.w, n'⟩ :: es', t', by simp [rebuild, a1, b1], b2, a5.trans b4, b5, .cons ⟨rfl, a2.ext b4⟩ b6⟩

end generic

variable {W : Type} [WOps W] [RoundW W] [NumW W] {env : Env W}

local notation "ε" => NumW.eps W

theorem veqv_ok : EqvOk (VNode W) := by
  intro a b h
  simp only [TNode.eqv, Bool.and_eq_true, beq_iff_eq] at h
  refine ⟨h.1.1, fun j x y hx hy => ?_⟩
  match j with
  | 0 => simp [SNode.kids] at hx hy; subst hx hy; have := h.1.2; simp [eeq] at this; exact ⟨this.1, this.2⟩
  | 1 => simp [SNode.kids] at hx hy; subst hx hy; have := h.2; simp [eeq] at this; exact ⟨this.1, this.2⟩
  | j + 2 => simp [SNode.kids] at hx

theorem meqv_ok : EqvOk (MNode W) := by
  intro a b h
  simp only [TNode.eqv, Bool.and_eq_true, beq_iff_eq] at h
  refine ⟨h.1.1.1.1, fun j x y hx hy => ?_⟩
  match j with
  | 0 => simp [SNode.kids] at hx hy; subst hx hy; have := h.1.1.1.2; simp [eeq] at this; exact ⟨this.1, this.2⟩
  | 1 => simp [SNode.kids] at hx hy; subst hx hy; have := h.1.1.2; simp [eeq] at this; exact ⟨this.1, this.2⟩
  | 2 => simp [SNode.kids] at hx hy; subst hx hy; have := h.1.2; simp [eeq] at this; exact ⟨this.1, this.2⟩
  | 3 => simp [SNode.kids] at hx hy; subst hx hy; have := h.2; simp [eeq] at this; exact ⟨this.1, this.2⟩
  | j + 4 => simp [SNode.kids] at hx

theorem WNear.close {a b : W} (h : WNear a b) : ‖val b - val a‖ ≤ ε := by
  rcases h with rfl | h
  · simpa using eps_nn (W := W)
  · rw [norm_sub_rev]; exact ae_close h

/-- `k ε` is small. -/
theorem keps_le {k : Nat} (hk : k ≤ NQUBITS) : (k : ℝ) * ε ≤ 1 / 10 ^ 6 := by
  have h := eps_le (W := W)
  have e0 := eps_nn (W := W)
  have hk' : (k : ℝ) ≤ 100 := by have : k ≤ 100 := hk; exact_mod_cast this
  have : (k : ℝ) * ε ≤ 100 * (1 / 10 ^ 8) := mul_le_mul hk' h e0 (by norm_num)
  norm_num at this ⊢
  linarith

theorem vkid (nd : VNode W) (b : Bool) : (SNode.kids nd)[if b then 1 else 0]? = some (nd.child b) := by cases b <;> rfl

theorem mkid (nd : MNode W) (r c : Bool) : (SNode.kids nd)[(if r then 2 else 0) + if c then 1 else 0]? = some (nd.child r c) := by
  cases r <;> cases c <;> rfl

/-- Amplitudes of a copy. -/
theorem near_vp {s s' : St W} (hi : NInv env s) (hi' : NInv env s') : ∀ {k a b}, k ≤ NQUBITS →
    (VPtr env s k a ∨ a = none) → Near env.hv env.hv s.vt s'.vt a b → ∀ i,
    ‖vp s'.vt.mem k b i - vp s.vt.mem k a i‖ ≤ 11 / 10 * k * ε
  | 0, a, b, _, _, _, i => by simp [vp]
  | k + 1, a, b, hk, ha, h, i => by
    have e0 := eps_nn (W := W)
    cases h with
    | term => simp [vp]; positivity
    | node h1 h2 h3 h4 h5 =>
      rename_i p q nd nd'
      have hv : nd.v = (k : Int) := by
        rcases ha with (⟨h, _⟩ | ⟨q, x, e, h6, h7⟩) | h
        · cases h
        · cases e; have := reg_fun h6 h1; subst this; push_cast at h7; omega
        · cases h
      have hv' : nd'.v = (k : Int) := by have h3 : nd'.v = nd.v := h3; omega
      simp only [vp, h1.1, h2.1]
      set c := i.testBit k with hc
      have w := (h4 _ _ _ (vkid nd c) (vkid nd' c)).close
      have n := h5 _ _ _ (vkid nd c) (vkid nd' c)
      have ih := near_vp hi hi' (Nat.le_of_lt hk) ((hi.base.vchild h1 c hv).imp id (·.2)) n i
      have b1 := vp_le' hi' (Nat.le_of_lt hk) ((hi'.base.vchild h2 c hv').imp id (·.2)) i
      have b2 := (hi.vw _ _ h1 c).1
      have tri : val (nd'.child c).w * vp s'.vt.mem k (nd'.child c).n i - val (nd.child c).w * vp s.vt.mem k (nd.child c).n i =
          (val (nd'.child c).w - val (nd.child c).w) * vp s'.vt.mem k (nd'.child c).n i +
          val (nd.child c).w * (vp s'.vt.mem k (nd'.child c).n i - vp s.vt.mem k (nd.child c).n i) := by ring
      rw [tri]
      refine (norm_add_le _ _).trans ?_
      rw [norm_mul, norm_mul]
      have t1 := mul_le_mul w b1 (norm_nonneg _) e0
      have t2 := mul_le_mul b2 ih (norm_nonneg _) bet_pos.le
      have t3 := mul_le_mul_of_nonneg_right (keps_le (W := W) (Nat.le_of_lt hk)) e0
      unfold bet at t2
      push_cast
      nlinarith

theorem near_vlv {s s' : St W} {a b : Option Nat} (h : Near env.hv env.hv s.vt s'.vt a b) :
    SameLv env.hv env.hv s.vt s'.vt a b := by
  cases h with
  | term => exact .inl ⟨rfl, rfl⟩
  | node h1 h2 h3 h4 h5 => exact .inr ⟨_, _, _, _, rfl, rfl, h1, h2, h3⟩

theorem near_mlv {s s' : St W} {a b : Option Nat} (h : Near env.hm env.hm s.mt s'.mt a b) :
    SameLv env.hm env.hm s.mt s'.mt a b := by
  cases h with
  | term => exact .inl ⟨rfl, rfl⟩
  | node h1 h2 h3 h4 h5 => exact .inr ⟨_, _, _, _, rfl, rfl, h1, h2, h3⟩

/-- A copy of a zero edge of a node. -/
theorem near_zero {s' : St W} (hi' : NInv env s') {q nd'} (h2 : UTable.Reg env.hm s'.mt q nd') {r c : Bool} {a : W}
    (ha : a = WOps.zero) (hw : WNear a (nd'.child r c).w) : nd'.child r c = zeroE := by
  refine (hi'.mw _ _ h2 r c).2 ?_
  subst ha
  rcases hw with h | h
  · rw [← h]; exact z_az z_zero
  · rw [← ae_zero]; exact ae_symm h

/-- The support and the rows of a copy. -/
theorem near_mp {s s' : St W} (hi : NInv env s) (hi' : NInv env s') : ∀ {k a b N}, k ≤ NQUBITS →
    Near env.hm env.hm s.mt s'.mt a b → Sup env s k a N →
    Sup env s' k b N ∧ ∀ i, bsum k (fun j => ‖mp s'.mt.mem k b i j - mp s.mt.mem k a i j‖) ≤ 11 / 10 * k * N * ε
  | 0, a, b, N, _, h, hs => by
    obtain ⟨rfl, h1⟩ := hs
    cases h
    exact ⟨⟨rfl, h1⟩, fun i => by simp [bsum, mp]⟩
  | k + 1, a, b, N, hk, h, hs => by
    have e0 := eps_nn (W := W)
    have hk0 := Nat.le_of_lt hk
    have skipd : ∀ {s : St W} {n}, MLv env s k n → ∀ i j, mp s.mt.mem (k + 1) n i j =
        if i.testBit k = j.testBit k then mp s.mt.mem k n i j else 0 := by
      intro s n hn i j
      rcases hn with rfl | ⟨p, nd, rfl, h1, h2⟩
      · rfl
      · simp only [mp, h1.1]
        rw [if_neg (by omega)]
    rcases hs with ⟨h1, h2⟩ | ⟨p, nd, rfl, h2, h3, h0, M, h4, h5⟩
    · obtain ⟨q1, q2⟩ := near_mp hi hi' hk0 h h2
      have hb : MLv env s' k b := (near_mlv h).mlv h1
      refine ⟨.inl ⟨hb, q1⟩, fun i => ?_⟩
      have hN : (0 : ℝ) ≤ N * ε := by positivity
      have hc : ∀ j, ‖mp s'.mt.mem k b i (2 ^ k + j) - mp s.mt.mem k a i (2 ^ k + j)‖ =
          ‖mp s'.mt.mem k b i j - mp s.mt.mem k a i j‖ := fun j => by
        rw [mp_congr _ _ _ (fun _ _ => rfl) (lowEq_add k j), mp_congr s.mt.mem _ _ (fun _ _ => rfl) (lowEq_add k j)]
      have key : bsum (k + 1) (fun j => ‖mp s'.mt.mem (k + 1) b i j - mp s.mt.mem (k + 1) a i j‖) ≤
          bsum k (fun j => ‖mp s'.mt.mem k b i j - mp s.mt.mem k a i j‖) := by
        have z : bsum k (fun _ : Nat => (0 : ℝ)) = 0 := by rw [bsum_eq]; simp
        simp only [bsum, skipd hb, skipd h1]
        cases hbk : i.testBit k
        · have e1 : bsum k (fun j => ‖(if false = j.testBit k then mp s'.mt.mem k b i j else 0) -
              if false = j.testBit k then mp s.mt.mem k a i j else 0‖) =
              bsum k fun j => ‖mp s'.mt.mem k b i j - mp s.mt.mem k a i j‖ :=
            bsum_congr fun j hj => by simp [testBit_lt hj]
          have e2 : bsum k (fun j => ‖(if false = (2 ^ k + j).testBit k then mp s'.mt.mem k b i (2 ^ k + j) else 0) -
              if false = (2 ^ k + j).testBit k then mp s.mt.mem k a i (2 ^ k + j) else 0‖) = bsum k fun _ => (0 : ℝ) :=
            bsum_congr fun j hj => by simp [testBit_add hj]
          rw [e1, e2, z, add_zero]
        · have e1 : bsum k (fun j => ‖(if true = j.testBit k then mp s'.mt.mem k b i j else 0) -
              if true = j.testBit k then mp s.mt.mem k a i j else 0‖) = bsum k fun _ => (0 : ℝ) :=
            bsum_congr fun j hj => by simp [testBit_lt hj]
          have e2 : bsum k (fun j => ‖(if true = (2 ^ k + j).testBit k then mp s'.mt.mem k b i (2 ^ k + j) else 0) -
              if true = (2 ^ k + j).testBit k then mp s.mt.mem k a i (2 ^ k + j) else 0‖) =
              bsum k fun j => ‖mp s'.mt.mem k b i j - mp s.mt.mem k a i j‖ :=
            bsum_congr fun j hj => by simp only [testBit_add hj, if_true]; exact hc j
          rw [e1, e2, z, zero_add]
      refine key.trans ((q2 i).trans ?_)
      push_cast
      nlinarith
    · cases h with
      | node g1 g2 g3 g4 g5 =>
      rename_i q nd0 nd'
      have := reg_fun g1 h2
      subst this
      have hv' : nd'.v = (k : Int) := by have g3 : nd'.v = nd0.v := g3; omega
      have kid : ∀ r c, (nd0.child r c = zeroE ∧ nd'.child r c = zeroE) ∨
          (Sup env s k (nd0.child r c).n (M r c) ∧ Sup env s' k (nd'.child r c).n (M r c) ∧
            ∀ i, bsum k (fun j => ‖mp s'.mt.mem k (nd'.child r c).n i j - mp s.mt.mem k (nd0.child r c).n i j‖) ≤
              11 / 10 * k * M r c * ε) := by
        intro r c
        rcases h4 r c with h | h
        · have w := g4 _ _ _ (mkid nd0 r c) (mkid nd' r c)
          exact .inl ⟨h, near_zero hi' g2 (by rw [h]; rfl) w⟩
        · obtain ⟨q1, q2⟩ := near_mp hi hi' hk0 (g5 _ _ _ (mkid nd0 r c) (mkid nd' r c)) h
          exact .inr ⟨h, q1, q2⟩
      refine ⟨.inr ⟨q, nd', rfl, g2, hv', h0, M, fun r c => (kid r c).imp (·.2) (·.2.1), h5⟩, fun i => ?_⟩
      have half : ∀ c, bsum k (fun j => ‖val (nd'.child (i.testBit k) c).w * mp s'.mt.mem k (nd'.child (i.testBit k) c).n i j -
          val (nd0.child (i.testBit k) c).w * mp s.mt.mem k (nd0.child (i.testBit k) c).n i j‖) ≤
          11 / 10 * (k + 1) * M (i.testBit k) c * ε := by
        intro c
        set r := i.testBit k
        rcases kid r c with ⟨z1, z2⟩ | ⟨z1, z2, z3⟩
        · have e : bsum k (fun j => ‖val (nd'.child r c).w * mp s'.mt.mem k (nd'.child r c).n i j -
              val (nd0.child r c).w * mp s.mt.mem k (nd0.child r c).n i j‖) = bsum k fun _ => (0 : ℝ) :=
            bsum_congr fun j hj => by rw [z1, z2]; simp [zeroE, val_zero]
          rw [e, show bsum k (fun _ : Nat => (0 : ℝ)) = 0 by rw [bsum_eq]; simp]
          positivity
        · have w := (g4 _ _ _ (mkid nd0 r c) (mkid nd' r c)).close
          have b2 := (hi.mw _ _ g1 r c).1
          have rs := rowS_le' hi' hk0 z2 i
          have p : ∀ j < 2 ^ k, ‖val (nd'.child r c).w * mp s'.mt.mem k (nd'.child r c).n i j -
              val (nd0.child r c).w * mp s.mt.mem k (nd0.child r c).n i j‖ ≤
              ε * ‖mp s'.mt.mem k (nd'.child r c).n i j‖ +
              bet W * ‖mp s'.mt.mem k (nd'.child r c).n i j - mp s.mt.mem k (nd0.child r c).n i j‖ := by
            intro j _
            have tri : val (nd'.child r c).w * mp s'.mt.mem k (nd'.child r c).n i j -
                val (nd0.child r c).w * mp s.mt.mem k (nd0.child r c).n i j =
                (val (nd'.child r c).w - val (nd0.child r c).w) * mp s'.mt.mem k (nd'.child r c).n i j +
                val (nd0.child r c).w * (mp s'.mt.mem k (nd'.child r c).n i j - mp s.mt.mem k (nd0.child r c).n i j) := by ring
            rw [tri]
            refine (norm_add_le _ _).trans ?_
            rw [norm_mul, norm_mul]
            exact add_le_add (mul_le_mul_of_nonneg_right w (norm_nonneg _)) (mul_le_mul_of_nonneg_right b2 (norm_nonneg _))
          refine (bsum_le k p).trans ?_
          rw [bsum_add, bsum_mul, bsum_mul]
          unfold rowS at rs
          have t1 := mul_le_mul_of_nonneg_left rs e0
          have t2 := mul_le_mul_of_nonneg_left (z3 i) (bet_pos (W := W)).le
          have hM : (0 : ℝ) ≤ M r c * ε := by positivity
          have t3 := mul_le_mul_of_nonneg_right (keps_le (W := W) hk0) hM
          unfold bet at t2 ⊢
          nlinarith
      simp only [bsum, mp, g1.1, g2.1, if_pos hv', if_pos h3]
      have e0' : bsum k (fun j => ‖val (nd'.child (i.testBit k) (j.testBit k)).w * mp s'.mt.mem k (nd'.child (i.testBit k) (j.testBit k)).n i j -
          val (nd0.child (i.testBit k) (j.testBit k)).w * mp s.mt.mem k (nd0.child (i.testBit k) (j.testBit k)).n i j‖) =
          bsum k (fun j => ‖val (nd'.child (i.testBit k) false).w * mp s'.mt.mem k (nd'.child (i.testBit k) false).n i j -
          val (nd0.child (i.testBit k) false).w * mp s.mt.mem k (nd0.child (i.testBit k) false).n i j‖) :=
        bsum_congr fun j hj => by rw [testBit_lt hj]
      have e1' : bsum k (fun j => ‖val (nd'.child (i.testBit k) ((2 ^ k + j).testBit k)).w *
            mp s'.mt.mem k (nd'.child (i.testBit k) ((2 ^ k + j).testBit k)).n i (2 ^ k + j) -
          val (nd0.child (i.testBit k) ((2 ^ k + j).testBit k)).w *
            mp s.mt.mem k (nd0.child (i.testBit k) ((2 ^ k + j).testBit k)).n i (2 ^ k + j)‖) =
          bsum k (fun j => ‖val (nd'.child (i.testBit k) true).w * mp s'.mt.mem k (nd'.child (i.testBit k) true).n i j -
          val (nd0.child (i.testBit k) true).w * mp s.mt.mem k (nd0.child (i.testBit k) true).n i j‖) :=
        bsum_congr fun j hj => by
          rw [testBit_add hj, mp_congr _ _ _ (fun _ _ => rfl) (lowEq_add k j), mp_congr s.mt.mem _ _ (fun _ _ => rfl) (lowEq_add k j)]
      rw [e0', e1']
      refine (add_le_add (half false) (half true)).trans ?_
      have hN' : (M (i.testBit k) false : ℝ) + M (i.testBit k) true ≤ N := by exact_mod_cast h5 (i.testBit k)
      have hp : 0 ≤ 11 / 10 * ((k : ℝ) + 1) * ε := by positivity
      have := mul_le_mul_of_nonneg_left hN' hp
      push_cast
      linarith

/-- Accuracy of `gc`. -/
theorem gc_num {s : St W} (hi : NInv env s) (tid : Nat) (force : Bool) (thr : Nat) (es : List (Edge W))
    (hes : ∀ e ∈ es, ∃ k, VLv env s k e) :
    ∃ es' thr' ran s', gc env tid force thr es s = .ok (es', thr', ran, s') ∧ NInv env s' ∧ s'.mt = s.mt ∧
      (ran = false → s' = s) ∧
      List.Forall₂ (fun e e' => e'.w = e.w ∧ ∀ k, k ≤ NQUBITS → VLv env s k e →
        VLv env s' k e' ∧ ∀ i, ‖vp s'.vt.mem k e'.n i - vp s.vt.mem k e.n i‖ ≤ 11 / 10 * k * ε) es es' := by
  obtain ⟨es0, thr0, ran0, s0, hgc, hb, _⟩ := gc_ok hi.base tid force thr es hes
  have e0 := eps_nn (W := W)
  unfold gc at hgc ⊢
  by_cases hrun : UTable.allocations tid s.vt < thr ∧ force = false
  · rw [if_pos hrun]
    refine ⟨es, thr, false, s, rfl, hi, rfl, fun _ => rfl, ?_⟩
    exact List.forall₂_same.2 fun e _ => ⟨rfl, fun k _ h => ⟨h, fun i => by rw [sub_self, norm_zero]; positivity⟩⟩
  · rw [if_neg hrun] at hgc ⊢
    obtain ⟨n, vs, h1, h2⟩ := serAll_spec hi.base.vclosed (fun p nd h => (hi.base.vt.reg_var h).1) es
      (fun e he => by
        obtain ⟨k, hk⟩ := hes e he
        rcases hk with (⟨_, h⟩ | ⟨q, nq, h1, h2, h3⟩) | ⟨_, h⟩
        · exact .inl h
        · exact .inr ⟨q, nq, h1, h2, (hi.base.vt.reg_var h2).2⟩
        · exact .inl h)
    obtain ⟨es', t', a1, a2, a4, a5, a6⟩ := rebuild_num (ht := env.hv) (fun p nd h => hi.base.vt.reg_var h) veqv_ok tid es vs
      true UTable.empty h2 UTable.empty_inv (by intro q x hq; simp [UTable.Reg, UTable.empty] at hq)
    simp only [h1, a1] at hgc ⊢
    have hs0 : { s.clearCaches with vt := t' } = s0 := by
      have := Except.ok.inj hgc
      exact congrArg (fun x => x.2.2.2) this
    subst hs0
    have hinv : NInv env { s.clearCaches with vt := t' } := by
      refine ⟨hb, ?_, fun p nd h => hi.mw p nd h, fun p nd h => hi.mu p nd h, fun _ _ _ _ h => (by cases h),
        fun _ _ _ _ h => (by cases h), fun _ _ _ _ h => (by cases h), fun _ _ _ _ h => (by cases h)⟩
      intro q x hq b
      obtain ⟨p, nd, hp, hc⟩ := a5 q x hq
      obtain ⟨k1, k2⟩ := hc.2 _ _ _ (vkid nd b) (vkid x b)
      refine ⟨k1 ▸ (hi.vw p nd hp b).1, fun hz => ?_⟩
      have hz0 := (hi.vw p nd hp b).2 (k1.symm ▸ hz)
      rw [hz0] at k1 k2
      generalize hx : x.child b = y at k1 k2
      obtain ⟨yw, yn⟩ := y
      cases k2
      simp only [zeroE] at k1 ⊢
      rw [← k1]
    refine ⟨es', _, true, _, rfl, hinv, rfl, (by intro h; cases h), ?_⟩
    refine a6.imp ?_
    rintro e e' ⟨hw, hl⟩
    refine ⟨hw, fun k hk hv => ⟨SameLv.vlv (s := s) (s' := { s.clearCaches with vt := t' }) (near_vlv hl) hw hv, fun i => ?_⟩⟩
    exact near_vp hi hinv hk (hv.imp id (·.2)) hl i

/-- Accuracy of `gc_mat`. -/
theorem gcMat_num {s : St W} (hi : NInv env s) (tid : Nat) (force : Bool) (thr : Nat) (es : List (Edge W))
    (hes : ∀ e ∈ es, MReg env s e.n) :
    ∃ es' thr' ran s', gcMat env tid force thr es s = .ok (es', thr', ran, s') ∧ NInv env s' ∧ s'.vt = s.vt ∧
      List.Forall₂ (fun e e' => e'.w = e.w ∧ (e.n = none → e'.n = none) ∧ ∀ k N, k ≤ NQUBITS → Sup env s k e.n N →
        Sup env s' k e'.n N ∧ ∀ i, bsum k (fun j => ‖mp s'.mt.mem k e'.n i j - mp s.mt.mem k e.n i j‖) ≤ 11 / 10 * k * N * ε)
        es es' := by
  obtain ⟨es0, thr0, ran0, s0, hgc, hb, _⟩ := gcMat_ok hi.base tid force thr es hes
  have e0 := eps_nn (W := W)
  unfold gcMat at hgc ⊢
  by_cases hrun : UTable.allocations tid s.mt < thr ∧ force = false
  · rw [if_pos hrun]
    refine ⟨es, thr, false, s, rfl, hi, rfl, ?_⟩
    refine List.forall₂_same.2 fun e _ => ⟨rfl, id, fun k N _ h => ⟨h, fun i => ?_⟩⟩
    simp only [sub_self, norm_zero]
    rw [show bsum k (fun _ : Nat => (0 : ℝ)) = 0 by rw [bsum_eq]; simp]
    positivity
  · rw [if_neg hrun] at hgc ⊢
    obtain ⟨n, vs, h1, h2⟩ := serAll_spec hi.base.mclosed (fun p nd h => (hi.base.mt.reg_var h).1) es
      (fun e he => by
        rcases hes e he with h | ⟨q, nq, h1, h2⟩
        · exact .inl h
        · exact .inr ⟨q, nq, h1, h2, (hi.base.mt.reg_var h2).2⟩)
    obtain ⟨es', t', a1, a2, a4, a5, a6⟩ := rebuild_num (ht := env.hm) (fun p nd h => hi.base.mt.reg_var h) meqv_ok tid es vs
      true UTable.empty h2 UTable.empty_inv (by intro q x hq; simp [UTable.Reg, UTable.empty] at hq)
    simp only [h1, a1] at hgc ⊢
    have hs0 : { s.clearCaches with mt := t' } = s0 := by
      have := Except.ok.inj hgc
      exact congrArg (fun x => x.2.2.2) this
    subst hs0
    have hinv : NInv env { s.clearCaches with mt := t' } := by
      refine ⟨hb, fun p nd h => hi.vw p nd h, ?_, ?_, fun _ _ _ _ h => (by cases h), fun _ _ _ _ h => (by cases h),
        fun _ _ _ _ h => (by cases h), fun _ _ _ _ h => (by cases h)⟩
      rotate_left
      · intro q x hq
        obtain ⟨p, nd, hp, hc⟩ := a5 q x hq
        obtain ⟨r, c, h⟩ := hi.mu p nd hp
        exact ⟨r, c, (hc.2 _ _ _ (mkid nd r c) (mkid x r c)).1 ▸ h⟩
      intro q x hq r c
      obtain ⟨p, nd, hp, hc⟩ := a5 q x hq
      obtain ⟨k1, k2⟩ := hc.2 _ _ _ (mkid nd r c) (mkid x r c)
      refine ⟨k1 ▸ (hi.mw p nd hp r c).1, fun hz => ?_⟩
      have hz0 := (hi.mw p nd hp r c).2 (k1.symm ▸ hz)
      rw [hz0] at k1 k2
      generalize hx : x.child r c = y at k1 k2
      obtain ⟨yw, yn⟩ := y
      cases k2
      simp only [zeroE] at k1 ⊢
      rw [← k1]
    refine ⟨es', _, true, _, rfl, hinv, rfl, ?_⟩
    refine a6.imp ?_
    rintro e e' ⟨hw, hl⟩
    refine ⟨hw, fun hz => ?_, fun k N hk hv => near_mp hi hinv hk hl hv⟩
    rw [hz] at hl
    generalize e'.n = y at hl
    cases hl
    rfl

end Num
end QDD
