import Verif.Core.Gc
import Verif.Core.Kron
/-!
# Memory safety without exact arithmetic: arithmetic laws, heap shape, invariant

The proofs of `Verif/Core` use exact arithmetic.  Here the weights are only assumed to satisfy the few laws of `RoundW`,
which hold of IEEE double arithmetic as long as no operation overflows or produces NaN, whatever the rounding and the
tolerance.  What is proved is about the *shape* of the heap: which nodes exist and at which levels.
-/

set_option linter.unusedSectionVars false
set_option linter.unusedVariables false
set_option linter.unusedSimpArgs false

namespace QDD

/-- Floating-point weights.  `Z` marks the exact zeros (both components `±0.0`).  Nothing is said about sums or products
of other numbers. -/
class RoundW (W : Type) [WOps W] where
  Z : W → Prop
  z_zero : Z WOps.zero
  z_az : ∀ {a : W}, Z a → WOps.az a = true
  z_aone : ∀ {a : W}, Z a → WOps.aone a = false
  z_add : ∀ {a b : W}, Z a → Z b → Z (WOps.add a b)
  z_mul_left : ∀ {a : W} (b : W), Z a → Z (WOps.mul a b)
  z_mul_right : ∀ {b : W} (a : W), Z b → Z (WOps.mul a b)
  /-- dividing zero by a number that is not approximately zero -/
  z_div : ∀ {a b : W}, Z a → WOps.az b = false → Z (WOps.div a b)
  /-- `isApproximatelyEqual` is reflexive and symmetric, and equality with zero is `isApproximatelyZero` -/
  ae_refl : ∀ a : W, WOps.ae a a = true
  ae_symm : ∀ {a b : W}, WOps.ae a b = true → WOps.ae b a = true
  ae_zero : ∀ a : W, WOps.ae a WOps.zero = WOps.az a
  az_one : WOps.az (WOps.one : W) = false
  /-- multiplying by one is exact (`+0.0` and `-0.0` are not told apart) -/
  mul_one : ∀ a : W, WOps.mul a WOps.one = a

namespace Safe
open RoundW Prog
variable {W : Type} [WOps W] [RoundW W]

/-! ## Tables -/

/-- `lookup` on an owned node, without any law about `operator==`. -/
theorem lookup_shape {N : Type} [TNode N] {hash : N → Nat} {t : UTable N} {own} {p : Nat} {nd : N}
    (h : UTable.TInv hash t (p :: own)) (hm : t.mem p = some nd) (hv0 : 0 ≤ TNode.var nd)
    (hv1 : TNode.var nd < (NQUBITS : Int)) (tid : Nat) :
    ∃ c t', UTable.lookup hash tid p t = .ok (c, t') ∧ UTable.TInv hash t' own ∧ UTable.Ext hash t t' ∧
      ∃ nc, UTable.Reg hash t' c nc ∧ (nc = nd ∧ c = p ∨ TNode.eqv nd nc = true ∧ UTable.Reg hash t c nc) ∧
        ∀ q x, UTable.Reg hash t' q x → UTable.Reg hash t q x ∨ (q = c ∧ x = nd) := by
  have hnb : ¬ (TNode.var nd < 0 ∨ (NQUBITS : Int) ≤ TNode.var nd) := by omega
  rcases UTable.scan_spec h nd (TNode.var nd) (hash nd % NBUCKETS) _ (fun _ hp => hp) with
    ⟨c, nc, h1, h2, h3, h4⟩ | ⟨h1, h2⟩
  · refine ⟨c, UTable.returnNode tid p t, by simp [UTable.lookup, hm, hnb, h1], UTable.return_inv h tid,
      fun q x hq => (UTable.return_reg h tid q x).2 hq, ?_⟩
    obtain ⟨nc', hr, _⟩ := h.reg h2
    have : nc' = nc := by have := hr.1; rw [h3] at this; exact (Option.some.inj this).symm
    subst this
    exact ⟨nc', (UTable.return_reg h tid c nc').2 hr, .inr ⟨h4, hr⟩,
      fun q x hq => .inl ((UTable.return_reg h tid q x).1 hq)⟩
  · obtain ⟨hi, hr⟩ := UTable.push_spec h hm hv0 hv1
    refine ⟨p, _, by simp only [UTable.lookup, hm, hnb, h1, if_false], hi,
      fun q x hq => (hr q x).2 (.inl hq), nd, (hr p nd).2 (.inr ⟨rfl, rfl⟩), .inl ⟨rfl, rfl⟩,
      fun q x hq => (hr q x).1 hq⟩

theorem reg_fun {N : Type} [TNode N] {hash : N → Nat} {t : UTable N} {p nd nd'}
    (h : UTable.Reg hash t p nd) (h' : UTable.Reg hash t p nd') : nd = nd' :=
  Option.some.inj (h.1.symm.trans h'.1)

/-! ## Shape of edges -/

variable (env : Env W)

/-- `n` is a vector node at level `k` (terminal at level 0). -/
def VPtr (s : St W) (k : Nat) (n : Option Nat) : Prop :=
  (k = 0 ∧ n = none) ∨ ∃ p nd, n = some p ∧ UTable.Reg env.hv s.vt p nd ∧ nd.v + 1 = (k : Int)

/-- `e` is a `k`-qubit vector edge: it points to level `k`, or is a terminal edge with weight zero. -/
def VLv (s : St W) (k : Nat) (e : Edge W) : Prop := VPtr env s k e.n ∨ (Z e.w ∧ e.n = none)

/-- A child `makeVEdge` accepts: a `k`-qubit edge, or any edge with weight zero (`vv_kronecker` makes those). -/
def VLv0 (s : St W) (k : Nat) (e : Edge W) : Prop := VPtr env s k e.n ∨ Z e.w

/-- `n` is terminal or a matrix node below level `k`. -/
def MLv (s : St W) (k : Nat) (n : Option Nat) : Prop :=
  n = none ∨ ∃ p nd, n = some p ∧ UTable.Reg env.hm s.mt p nd ∧ nd.v < (k : Int)

/-- `n` is terminal or a registered matrix node. -/
def MReg (s : St W) (n : Option Nat) : Prop := n = none ∨ ∃ p nd, n = some p ∧ UTable.Reg env.hm s.mt p nd

/-- A cached vector sum has the level of its operands. -/
def AVEnt (s : St W) (e : AEnt W) : Prop :=
  ∃ k, VPtr env s k e.lhs.n ∧ VPtr env s k e.rhs.n ∧ VLv env s k e.res

/-- The result of a matrix operation is no higher than its operands. -/
def Cov (s : St W) (l r x : Option Nat) : Prop := ∀ k, MLv env s k l → MLv env s k r → MLv env s k x

/-- A cached matrix sum. -/
def AMEnt (s : St W) (e : AEnt W) : Prop :=
  MReg env s e.lhs.n ∧ MReg env s e.rhs.n ∧ Cov env s e.lhs.n e.rhs.n e.res.n

/-- A cached matrix-vector product. -/
def PVEnt (s : St W) (l r : Option Nat) (res : Edge W) : Prop :=
  ∃ k, MLv env s k l ∧ VPtr env s k r ∧ VLv env s k res

/-- A cached matrix product. -/
def PMEnt (s : St W) (l r : Option Nat) (res : Edge W) : Prop :=
  MReg env s l ∧ MReg env s r ∧ Cov env s l r res.n

/-- A weight snapped to one. -/
def snap (w : W) : W := if WOps.aone w = true then WOps.one else w

/-- An edge that stands for weight `w` on node `n`: possibly snapped, or both approximately zero. -/
def Cpt (w : W) (n : Option Nat) (x : Edge W) : Prop :=
  (WOps.az w = true ∧ WOps.az x.w = true) ∨ (WOps.az w = false ∧ x.n = n ∧ (x.w = w ∨ x.w = snap w))

/-- The bucket holds a valid entry for `(l, r)` with result `y`. -/
def BHas (b : List (PEnt W)) (l r : Option Nat) (y : Option (Edge W)) : Prop :=
  ∃ e ∈ b, e.valid = true ∧ e.lhs = l ∧ e.rhs = r ∧ e.res = y

/-- All entries of a bucket for the same operands stand for the same result. -/
def BUni (b : List (PEnt W)) : Prop :=
  b ≠ [] ∧ ∀ l r, ∃ w n, ∀ y, BHas b l r y → ∃ x, y = some x ∧ Cpt w n x

/-- One child carries the weight one exactly (the normalisation) and is not a zero edge. -/
def VUnit (s : St W) (nd : VNode W) : Prop :=
  ∃ b, (nd.child b).w = WOps.one ∧ VPtr env s nd.v.toNat (nd.child b).n

/-- The shape invariant of the engine between atomic steps. -/
structure Inv (s : St W) : Prop where
  vt : UTable.TInv env.hv s.vt []
  mt : UTable.TInv env.hm s.mt []
  vn : ∀ p nd, UTable.Reg env.hv s.vt p nd → ∀ b, VLv env s nd.v.toNat (nd.child b)
  un : ∀ p nd, UTable.Reg env.hv s.vt p nd → VUnit env s nd
  mn : ∀ p nd, UTable.Reg env.hm s.mt p nd → ∀ r c, MLv env s nd.v.toNat (nd.child r c).n
  av : ∀ tid lv key e, s.av tid lv key = some e → AVEnt env s e
  am : ∀ tid lv key e, s.am tid lv key = some e → AMEnt env s e
  cv : ∀ tid lv key b, s.cv tid lv key = some b → ∀ e ∈ b, e.valid = true →
    ∃ x, e.res = some x ∧ PVEnt env s e.lhs e.rhs x
  cm : ∀ tid lv key b, s.cm tid lv key = some b → ∀ e ∈ b, e.valid = true →
    ∃ x, e.res = some x ∧ PMEnt env s e.lhs e.rhs x
  uni : ∀ tid lv key b, s.cm tid lv key = some b → BUni b

/-- Registered nodes survive. -/
def Grow (s s' : St W) : Prop := UTable.Ext env.hv s.vt s'.vt ∧ UTable.Ext env.hm s.mt s'.mt

theorem Grow.refl (s : St W) : Grow env s s := ⟨UTable.Ext.refl _, UTable.Ext.refl _⟩

variable {env}

theorem Grow.trans {a b c : St W} (h : Grow env a b) (h' : Grow env b c) : Grow env a c :=
  ⟨h.1.trans h'.1, h.2.trans h'.2⟩

variable (env) in
/-- The rely/guarantee world. -/
def world : Prog.World (St W) := ⟨Inv env, Grow env, Grow.refl env, fun h h' => h.trans h'⟩

theorem VPtr.ext {s s' : St W} {k n} (h : VPtr env s k n) (he : Grow env s s') : VPtr env s' k n := by
  rcases h with h | ⟨p, nd, h1, h2, h3⟩
  · exact .inl h
  · exact .inr ⟨p, nd, h1, he.1 _ _ h2, h3⟩

theorem VLv.ext {s s' : St W} {k e} (h : VLv env s k e) (he : Grow env s s') : VLv env s' k e :=
  h.imp (·.ext he) id

theorem VLv0.ext {s s' : St W} {k e} (h : VLv0 env s k e) (he : Grow env s s') : VLv0 env s' k e :=
  h.imp (·.ext he) id

theorem VLv.lv0 {s : St W} {k e} (h : VLv env s k e) : VLv0 env s k e := h.imp id (·.1)

theorem VUnit.ext {s s' : St W} {nd} (h : VUnit env s nd) (he : Grow env s s') : VUnit env s' nd := by
  obtain ⟨b, h1, h2⟩ := h
  exact ⟨b, h1, h2.ext he⟩

theorem MLv.ext {s s' : St W} {k n} (h : MLv env s k n) (he : Grow env s s') : MLv env s' k n := by
  rcases h with h | ⟨p, nd, h1, h2, h3⟩
  · exact .inl h
  · exact .inr ⟨p, nd, h1, he.2 _ _ h2, h3⟩

theorem MReg.ext {s s' : St W} {n} (h : MReg env s n) (he : Grow env s s') : MReg env s' n := by
  rcases h with h | ⟨p, nd, h1, h2⟩
  · exact .inl h
  · exact .inr ⟨p, nd, h1, he.2 _ _ h2⟩

theorem MLv.reg {s : St W} {k n} (h : MLv env s k n) : MReg env s n := by
  rcases h with h | ⟨p, nd, h1, h2, _⟩
  · exact .inl h
  · exact .inr ⟨p, nd, h1, h2⟩

theorem MLv.mono {s : St W} {k k' n} (h : MLv env s k n) (hk : k ≤ k') : MLv env s k' n := by
  rcases h with h | ⟨p, nd, h1, h2, h3⟩
  · exact .inl h
  · exact .inr ⟨p, nd, h1, h2, by omega⟩

theorem MReg.back {s s' : St W} {k n} (h : MReg env s n) (he : Grow env s s') (h' : MLv env s' k n) :
    MLv env s k n := by
  rcases h with h | ⟨p, nd, h1, h2⟩
  · exact .inl h
  · subst h1
    rcases h' with h' | ⟨p', nd', e, h3, h4⟩
    · cases h'
    · cases e
      have := reg_fun (he.2 _ _ h2) h3
      subst this
      exact .inr ⟨p, nd, rfl, h2, h4⟩

theorem Cov.ext {s s' : St W} (he : Grow env s s') {l r x} (hl : MReg env s l) (hr : MReg env s r)
    (h : Cov env s l r x) : Cov env s' l r x := fun k h1 h2 => (h k (hl.back he h1) (hr.back he h2)).ext he

theorem Cov.symm {s : St W} {l r x} (h : Cov env s l r x) : Cov env s r l x := fun k h1 h2 => h k h2 h1

theorem Inv.vlevel {s : St W} (hi : Inv env s) {p nd} (h : UTable.Reg env.hv s.vt p nd) :
    ∃ k : Nat, nd.v = k ∧ k < NQUBITS := by
  have := hi.vt.reg_var h
  exact ⟨nd.v.toNat, by simp at this; omega, by simp at this; omega⟩

theorem Inv.mlevel {s : St W} (hi : Inv env s) {p nd} (h : UTable.Reg env.hm s.mt p nd) :
    ∃ k : Nat, nd.v = k ∧ k < NQUBITS := by
  have := hi.mt.reg_var h
  exact ⟨nd.v.toNat, by simp at this; omega, by simp at this; omega⟩

theorem Inv.vchild {s : St W} (hi : Inv env s) {p nd} (h : UTable.Reg env.hv s.vt p nd) (b : Bool) {k : Nat}
    (hk : nd.v = k) : VLv env s k (nd.child b) := by
  have := hi.vn p nd h b
  rwa [show nd.v.toNat = k by omega] at this

theorem Inv.mchild {s : St W} (hi : Inv env s) {p nd} (h : UTable.Reg env.hm s.mt p nd) (r c : Bool) {k : Nat}
    (hk : nd.v = k) : MLv env s k (nd.child r c).n := by
  have := hi.mn p nd h r c
  rwa [show nd.v.toNat = k by omega] at this

theorem AVEnt.ext {s s' : St W} (he : Grow env s s') {e} (h : AVEnt env s e) : AVEnt env s' e := by
  obtain ⟨k, h1, h2, h3⟩ := h
  exact ⟨k, h1.ext he, h2.ext he, h3.ext he⟩

theorem AMEnt.ext {s s' : St W} (he : Grow env s s') {e} (h : AMEnt env s e) : AMEnt env s' e :=
  ⟨h.1.ext he, h.2.1.ext he, h.2.2.ext he h.1 h.2.1⟩

theorem PVEnt.ext {s s' : St W} (he : Grow env s s') {l r x} (h : PVEnt env s l r x) : PVEnt env s' l r x := by
  obtain ⟨k, h1, h2, h3⟩ := h
  exact ⟨k, h1.ext he, h2.ext he, h3.ext he⟩

theorem PMEnt.ext {s s' : St W} (he : Grow env s s') {l r x} (h : PMEnt env s l r x) : PMEnt env s' l r x :=
  ⟨h.1.ext he, h.2.1.ext he, h.2.2.ext he h.1 h.2.1⟩

/-- Growing the tables by well-shaped nodes, keeping the caches. -/
theorem Inv.grow {s s' : St W} (hi : Inv env s) (he : Grow env s s')
    (tv : UTable.TInv env.hv s'.vt []) (tm : UTable.TInv env.hm s'.mt [])
    (nv : ∀ p nd, UTable.Reg env.hv s'.vt p nd → UTable.Reg env.hv s.vt p nd ∨
      (∀ b, VLv env s' nd.v.toNat (nd.child b)) ∧ VUnit env s' nd)
    (nm : ∀ p nd, UTable.Reg env.hm s'.mt p nd → UTable.Reg env.hm s.mt p nd ∨
      ∀ r c, MLv env s' nd.v.toNat (nd.child r c).n)
    (h1 : s'.av = s.av) (h2 : s'.am = s.am) (h3 : s'.cv = s.cv) (h4 : s'.cm = s.cm) : Inv env s' where
  vt := tv
  mt := tm
  vn p nd h := (nv p nd h).elim (fun h b => (hi.vn p nd h b).ext he) (·.1)
  un p nd h := (nv p nd h).elim (fun h => (hi.un p nd h).ext he) (·.2)
  mn p nd h := (nm p nd h).elim (fun h r c => (hi.mn p nd h r c).ext he) id
  av tid lv key e h := (hi.av tid lv key e (h1 ▸ h)).ext he
  am tid lv key e h := (hi.am tid lv key e (h2 ▸ h)).ext he
  cv tid lv key b h e he' hv := by
    obtain ⟨x, hx, hp⟩ := hi.cv tid lv key b (h3 ▸ h) e he' hv
    exact ⟨x, hx, hp.ext he⟩
  cm tid lv key b h e he' hv := by
    obtain ⟨x, hx, hp⟩ := hi.cm tid lv key b (h4 ▸ h) e he' hv
    exact ⟨x, hx, hp.ext he⟩
  uni tid lv key b h := hi.uni tid lv key b (h4 ▸ h)

/-- Changing only cache contents. -/
theorem Inv.caches {s s' : St W} (hi : Inv env s) (hv : s'.vt = s.vt) (hm : s'.mt = s.mt)
    (av : ∀ tid lv key e, s'.av tid lv key = some e → AVEnt env s e)
    (am : ∀ tid lv key e, s'.am tid lv key = some e → AMEnt env s e)
    (cv : ∀ tid lv key b, s'.cv tid lv key = some b → ∀ e ∈ b, e.valid = true →
      ∃ x, e.res = some x ∧ PVEnt env s e.lhs e.rhs x)
    (cm : ∀ tid lv key b, s'.cm tid lv key = some b → ∀ e ∈ b, e.valid = true →
      ∃ x, e.res = some x ∧ PMEnt env s e.lhs e.rhs x)
    (uni : ∀ tid lv key b, s'.cm tid lv key = some b → BUni b) : Inv env s' ∧ Grow env s s' := by
  have he : Grow env s s' := ⟨by rw [hv]; exact UTable.Ext.refl _, by rw [hm]; exact UTable.Ext.refl _⟩
  refine ⟨⟨hv ▸ hi.vt, hm ▸ hi.mt, ?_, ?_, ?_, ?_, ?_, ?_, ?_, uni⟩, he⟩
  · intro p nd h b; exact (hi.vn p nd (hv ▸ h) b).ext he
  · intro p nd h; exact (hi.un p nd (hv ▸ h)).ext he
  · intro p nd h r c; exact (hi.mn p nd (hm ▸ h) r c).ext he
  · intro tid lv key e h; exact (av tid lv key e h).ext he
  · intro tid lv key e h; exact (am tid lv key e h).ext he
  · intro tid lv key b h e h1 h2
    obtain ⟨x, hx, hp⟩ := cv tid lv key b h e h1 h2
    exact ⟨x, hx, hp.ext he⟩
  · intro tid lv key b h e h1 h2
    obtain ⟨x, hx, hp⟩ := cm tid lv key b h e h1 h2
    exact ⟨x, hx, hp.ext he⟩

theorem init_inv : Inv env (St.init : St W) where
  vt := UTable.empty_inv
  mt := UTable.empty_inv
  vn p nd h := by simp [UTable.Reg, UTable.empty, St.init] at h
  un p nd h := by simp [UTable.Reg, UTable.empty, St.init] at h
  mn p nd h := by simp [UTable.Reg, UTable.empty, St.init] at h
  av _ _ _ _ h := by cases h
  am _ _ _ _ h := by cases h
  cv _ _ _ _ h := by cases h
  cm _ _ _ _ h := by cases h
  uni _ _ _ _ h := by cases h

theorem zeroE_vlv (s : St W) (k : Nat) : VLv env s k zeroE := .inr ⟨z_zero, rfl⟩

theorem oneE_vlv (s : St W) : VLv env s 0 oneE := .inl (.inl ⟨rfl, rfl⟩)

theorem VPtr.level {s : St W} {k k' n} (h : VPtr env s k n) (h' : VPtr env s k' n) : k = k' := by
  rcases h with ⟨h1, h2⟩ | ⟨p, nd, rfl, h2, h3⟩
  · rcases h' with ⟨h3, _⟩ | ⟨p, nd, h3, _⟩
    · omega
    · rw [h2] at h3; cases h3
  · rcases h' with ⟨_, h4⟩ | ⟨p, nd', h4, h5, h6⟩
    · cases h4
    · cases h4
      have := reg_fun h2 h5
      subst this
      omega

theorem VLv.term {s : St W} (hi : Inv env s) {e : Edge W} (h : VLv env s 0 e) : e.n = none := by
  rcases h with (⟨_, h⟩ | ⟨p, nd, _, h2, h3⟩) | ⟨_, h⟩
  · exact h
  · obtain ⟨k, hk, _⟩ := hi.vlevel h2
    push_cast at h3; omega
  · exact h

theorem MLv.term {s : St W} (hi : Inv env s) {n} (h : MLv env s 0 n) : n = none := by
  rcases h with h | ⟨p, nd, _, h2, h3⟩
  · exact h
  · obtain ⟨k, hk, _⟩ := hi.mlevel h2
    push_cast at h3; omega

theorem VLv.evar {s : St W} (hi : Inv env s) {k e} (h : VLv env s k e) :
    ∃ v, evar s.vt.mem e.n = .ok v ∧ -1 ≤ v := by
  have none : e.n = none → ∃ v, QDD.evar s.vt.mem e.n = .ok v ∧ -1 ≤ v := fun h => by
    rw [h]; exact ⟨-1, rfl, le_refl _⟩
  rcases h with (h | ⟨p, nd, h1, h2, h3⟩) | h
  · exact none h.2
  · rw [h1]
    obtain ⟨k, hk, _⟩ := hi.vlevel h2
    exact ⟨nd.v, by simp [QDD.evar, h2.1], by omega⟩
  · exact none h.2

theorem MReg.evar {s : St W} (hi : Inv env s) {n} (h : MReg env s n) :
    ∃ v : Int, evar s.mt.mem n = .ok v ∧ -1 ≤ v ∧ v < NQUBITS ∧ (n ≠ none → 0 ≤ v) ∧
      ∀ k : Nat, MLv env s k n ↔ v < k := by
  rcases h with rfl | ⟨p, nd, rfl, h2⟩
  · exact ⟨-1, rfl, le_refl _, by decide, by simp, fun k => ⟨fun _ => by omega, fun _ => .inl rfl⟩⟩
  · obtain ⟨k, hk, hk'⟩ := hi.mlevel h2
    refine ⟨nd.v, by simp [QDD.evar, h2.1], by omega, by omega, fun _ => by omega, fun m => ⟨fun h => ?_, fun h =>
      .inr ⟨p, nd, rfl, h2, h⟩⟩⟩
    rcases h with h | ⟨q, nd', e, h3, h4⟩
    · cases h
    · cases e
      rw [reg_fun h2 h3]; exact h4

theorem MReg.top {s : St W} (hi : Inv env s) {n} (h : MReg env s n) : MLv env s NQUBITS n := by
  obtain ⟨v, _, _, h3, _, h5⟩ := h.evar hi
  exact (h5 _).2 h3

theorem VPtr.evar {s : St W} {k : Nat} {n} (h : VPtr env s k n) : evar s.vt.mem n = .ok ((k : Int) - 1) := by
  rcases h with ⟨rfl, rfl⟩ | ⟨p, nd, rfl, h2, h3⟩
  · rfl
  · simp only [QDD.evar, h2.1, VNode.tvar]; congr 1; omega

theorem not_z {a : W} (h : ¬ WOps.az a = true) : ¬ Z a := fun hz => h (z_az hz)

theorem VLv.ptr {s : St W} {k e} (h : VLv env s k e) (hw : ¬ WOps.az e.w = true) : VPtr env s k e.n :=
  h.resolve_right fun h => not_z hw h.1

theorem VLv.mulL {s : St W} {k} {e : Edge W} (h : VLv env s k e) (c : W) : VLv env s k ⟨WOps.mul c e.w, e.n⟩ :=
  h.imp id fun h => ⟨z_mul_right _ h.1, h.2⟩

theorem VLv.mulR {s : St W} {k} {e : Edge W} (h : VLv env s k e) (c : W) : VLv env s k ⟨WOps.mul e.w c, e.n⟩ :=
  h.imp id fun h => ⟨z_mul_left _ h.1, h.2⟩

theorem VLv.le {s : St W} (hi : Inv env s) {k e} (h : VLv env s k e) (hw : ¬ WOps.az e.w = true) : k ≤ NQUBITS := by
  rcases h.ptr hw with ⟨h, _⟩ | ⟨p, nd, _, h2, h3⟩
  · rw [h]; exact Nat.zero_le _
  · obtain ⟨m, hm, hm'⟩ := hi.vlevel h2
    omega

/-! ## `makeVEdge`, `makeMEdge` -/

theorem makeVEdge_shape {s : St W} (hi : Inv env s) (tid : Nat) {k : Nat} (hk : k < NQUBITS)
    {c0 c1 : Edge W} (h0 : VLv0 env s k c0) (h1 : VLv0 env s k c1) :
    ∃ e s', makeVEdge env tid k c0 c1 s = .ok (e, s') ∧ Inv env s' ∧ Grow env s s' ∧ VLv env s' (k + 1) e := by
  unfold makeVEdge
  obtain ⟨hg, hgc, hgm⟩ := UTable.getNode_spec hi.vt tid
  generalize UTable.getNode tid s.vt = pt at hg hgc hgm
  obtain ⟨p, t⟩ := pt
  simp only at hg hgc hgm ⊢
  have hpo : p ∈ [p] := List.mem_cons_self
  have hreg : ∀ q x, UTable.Reg env.hv t q x ↔ UTable.Reg env.hv s.vt q x :=
    UTable.reg_of_mem_eq hgc (fun _ _ _ _ => by rw [hgm])
  have hw := UTable.write_inv hg hpo ⟨(k : Int), c0, c1⟩
  have hwr : ∀ q x, UTable.Reg env.hv (t.write p ⟨(k : Int), c0, c1⟩) q x ↔ UTable.Reg env.hv s.vt q x :=
    fun q x => (UTable.write_reg hg hpo _ q x).trans (hreg q x)
  generalize t.write p ⟨(k : Int), c0, c1⟩ = t1 at hw hwr
  have hzero : ∃ e s',
      (match (Except.ok (zeroE, t1.returnNode tid p) : Except Err (Edge W × UTable (VNode W))) with
        | .error e => Except.error e
        | .ok (e, t') => match evar t'.mem e.n with
          | .error er => .error er
          | .ok v => if v = (k : Int) ∨ e.n = none then .ok (e, { s with vt := t' }) else .error .assert) =
        .ok (e, s') ∧ Inv env s' ∧ Grow env s s' ∧ VLv env s' (k + 1) e := by
    have hr : ∀ q x, UTable.Reg env.hv (t1.returnNode tid p) q x ↔ UTable.Reg env.hv s.vt q x :=
      fun q x => (UTable.return_reg hw tid q x).trans (hwr q x)
    refine ⟨zeroE, { s with vt := t1.returnNode tid p }, by simp [zeroE, evar], ?_, ?_, zeroE_vlv _ _⟩
    · exact hi.grow ⟨fun q x h => (hr q x).2 h, UTable.Ext.refl _⟩ (UTable.return_inv hw tid) hi.mt
        (fun q x h => .inl ((hr q x).1 h)) (fun q x h => .inl h) rfl rfl rfl rfl
    · exact ⟨fun q x h => (hr q x).2 h, UTable.Ext.refl _⟩
  unfold normalizeV
  by_cases haz : (WOps.az c0.w && WOps.az c1.w) = true
  · rw [if_pos haz]; exact hzero
  rw [if_neg haz]
  simp only
  generalize hmw : (if WOps.lt c0.w c1.w = true then c1.w else c0.w) = mw
  by_cases hnaz : WOps.az (WOps.mul mw WOps.one) = true
  · rw [if_pos hnaz]; exact hzero
  rw [if_neg hnaz]
  have hnaz' : WOps.az mw = false := by rw [RoundW.mul_one] at hnaz; simpa using hnaz
  have big : ∀ c : Edge W, VLv0 env s k c → c.w = mw → VLv env s k ⟨WOps.one, c.n⟩ := by
    intro c hc hcw
    refine .inl (hc.resolve_right fun hz => ?_)
    rw [hcw] at hz
    exact not_z hnaz (z_mul_left _ hz)
  have small : ∀ c : Edge W, VLv0 env s k c → VLv env s k (if WOps.aone (WOps.div c.w mw) = true then ⟨WOps.one, c.n⟩
      else if WOps.az (WOps.div c.w mw) = true then zeroE else ⟨WOps.div c.w mw, c.n⟩) := by
    intro c hc
    rcases hc with hc | hz
    · split
      · exact .inl hc
      split
      · exact zeroE_vlv _ _
      · exact .inl hc
    · have hz' : Z (WOps.div c.w mw) := z_div hz hnaz'
      rw [if_neg (by rw [z_aone hz']; simp), if_pos (z_az hz')]
      exact zeroE_vlv _ _
  generalize hN : (if WOps.lt c0.w c1.w = true then _ else _ : VNode W) = nd
  have hv : nd.v = k := by rw [← hN]; split <;> rfl
  have hch : ∀ b, VLv env s k (nd.child b) := by
    intro b
    rw [← hN]
    split
    · next hlt =>
      rw [if_pos hlt] at hmw
      cases b
      · exact small _ h0
      · exact big _ h1 hmw
    · next hlt =>
      rw [if_neg hlt] at hmw
      cases b
      · exact big _ h0 hmw
      · exact small _ h1
  have hun : VUnit env s nd := by
    have hv' : nd.v.toNat = k := by omega
    unfold VUnit
    rw [hv']
    have bigp : ∀ c : Edge W, VLv0 env s k c → c.w = mw → VPtr env s k c.n := by
      intro c hc hcw
      refine hc.resolve_right fun hz => ?_
      rw [hcw] at hz
      exact not_z hnaz (z_mul_left _ hz)
    rw [← hN]
    split
    · next hlt =>
      rw [if_pos hlt] at hmw
      exact ⟨true, rfl, bigp c1 h1 hmw⟩
    · next hlt =>
      rw [if_neg hlt] at hmw
      exact ⟨false, rfl, bigp c0 h0 hmw⟩
  have hw2 := UTable.write_inv hw hpo nd
  have hwr2 : ∀ q x, UTable.Reg env.hv (t1.write p nd) q x ↔ UTable.Reg env.hv s.vt q x :=
    fun q x => (UTable.write_reg hw hpo _ q x).trans (hwr q x)
  obtain ⟨c, t', hl, hi', he', nc, hrc, hcase, hback⟩ := lookup_shape hw2 (nd := nd)
    (by simp [UTable.write]) (by simp [hv]) (by simp [hv]; exact_mod_cast hk) tid
  have hncv : nc.v = k := by
    rcases hcase with ⟨h, _⟩ | ⟨h, _⟩
    · rw [h, hv]
    · simp only [TNode.eqv, Bool.and_eq_true, beq_iff_eq] at h
      rw [← h.1.1, hv]
  have hext : Grow env s { s with vt := t' } :=
    ⟨fun q x h => he' q x ((hwr2 q x).2 h), UTable.Ext.refl _⟩
  have hinv : Inv env { s with vt := t' } :=
    hi.grow hext hi' hi.mt
      (fun q x h => (hback q x h).elim (fun h => .inl ((hwr2 q x).1 h)) (fun h => .inr ⟨fun b => by
        rw [h.2, show nd.v.toNat = k by omega]; exact (hch b).ext hext, by rw [h.2]; exact hun.ext hext⟩))
      (fun q x h => .inl h) rfl rfl rfl rfl
  generalize (if WOps.aone (WOps.mul mw WOps.one) = true then WOps.one else WOps.mul mw WOps.one) = nw
  refine ⟨⟨nw, some c⟩, { s with vt := t' }, ?_, hinv, hext, .inl (.inr ⟨c, nc, rfl, hrc, by rw [hncv]; push_cast; rfl⟩)⟩
  simp only [hl, evar, hrc.1, VNode.tvar, hncv, true_or, if_true]

theorem makeMEdge_shape {s : St W} (hi : Inv env s) (tid : Nat) {k : Nat} (hk : k < NQUBITS)
    {c0 c1 c2 c3 : Edge W} (h0 : MLv env s k c0.n) (h1 : MLv env s k c1.n) (h2 : MLv env s k c2.n)
    (h3 : MLv env s k c3.n) :
    ∃ e s', makeMEdge env tid k c0 c1 c2 c3 s = .ok (e, s') ∧ Inv env s' ∧ Grow env s s' ∧ MLv env s' (k + 1) e.n := by
  unfold makeMEdge
  by_cases hs : strips c0 c1 c2 c3 = true
  · rw [if_pos hs]
    exact ⟨_, s, rfl, hi, Grow.refl env s, h0.mono (Nat.le_succ k)⟩
  rw [if_neg hs]
  obtain ⟨hg, hgc, hgm⟩ := UTable.getNode_spec hi.mt tid
  generalize UTable.getNode tid s.mt = pt at hg hgc hgm
  obtain ⟨p, t⟩ := pt
  simp only at hg hgc hgm ⊢
  have hpo : p ∈ [p] := List.mem_cons_self
  have hreg : ∀ q x, UTable.Reg env.hm t q x ↔ UTable.Reg env.hm s.mt q x :=
    UTable.reg_of_mem_eq hgc (fun _ _ _ _ => by rw [hgm])
  have hw := UTable.write_inv hg hpo ⟨(k : Int), c0, c1, c2, c3⟩
  have hwr : ∀ q x, UTable.Reg env.hm (t.write p ⟨(k : Int), c0, c1, c2, c3⟩) q x ↔ UTable.Reg env.hm s.mt q x :=
    fun q x => (UTable.write_reg hg hpo _ q x).trans (hreg q x)
  generalize t.write p ⟨(k : Int), c0, c1, c2, c3⟩ = t1 at hw hwr
  have hr : ∀ q x, UTable.Reg env.hm (t1.returnNode tid p) q x ↔ UTable.Reg env.hm s.mt q x :=
    fun q x => (UTable.return_reg hw tid q x).trans (hwr q x)
  have hz : Inv env { s with mt := t1.returnNode tid p } ∧ Grow env s { s with mt := t1.returnNode tid p } := by
    have hext : Grow env s { s with mt := t1.returnNode tid p } := ⟨UTable.Ext.refl _, fun q x h => (hr q x).2 h⟩
    exact ⟨hi.grow hext hi.vt (UTable.return_inv hw tid) (fun q x h => .inl h)
      (fun q x h => .inl ((hr q x).1 h)) rfl rfl rfl rfl, hext⟩
  unfold normalizeM
  by_cases haz : (WOps.nz c0.w && WOps.nz c1.w && WOps.nz c2.w && WOps.nz c3.w) = true
  · rw [if_pos haz]
    exact ⟨zeroE, _, rfl, hz.1, hz.2, .inl rfl⟩
  rw [if_neg haz]
  simp only
  generalize maxW4 c0.w c1.w c2.w c3.w = mw
  by_cases hnaz : WOps.az (WOps.mul mw WOps.one) = true
  · rw [if_pos hnaz]
    exact ⟨zeroE, _, rfl, hz.1, hz.2, .inl rfl⟩
  rw [if_neg hnaz]
  have small : ∀ c : Edge W, MLv env s k c.n → MLv env s k (if WOps.az (WOps.div c.w mw) = true then zeroE
      else if WOps.aone (WOps.div c.w mw) = true then (⟨WOps.one, c.n⟩ : Edge W) else ⟨WOps.div c.w mw, c.n⟩).n := by
    intro c hc
    split
    · exact .inl rfl
    split
    · exact hc
    · exact hc
  have small0 := small c0 h0
  have small1 := small c1 h1
  have small2 := small c2 h2
  have small3 := small c3 h3
  generalize (if WOps.az (WOps.div c0.w mw) = true then zeroE
      else if WOps.aone (WOps.div c0.w mw) = true then (⟨WOps.one, c0.n⟩ : Edge W) else ⟨WOps.div c0.w mw, c0.n⟩) = d0
    at small0 ⊢
  generalize (if WOps.az (WOps.div c1.w mw) = true then zeroE
      else if WOps.aone (WOps.div c1.w mw) = true then (⟨WOps.one, c1.n⟩ : Edge W) else ⟨WOps.div c1.w mw, c1.n⟩) = d1
    at small1 ⊢
  generalize (if WOps.az (WOps.div c2.w mw) = true then zeroE
      else if WOps.aone (WOps.div c2.w mw) = true then (⟨WOps.one, c2.n⟩ : Edge W) else ⟨WOps.div c2.w mw, c2.n⟩) = d2
    at small2 ⊢
  generalize (if WOps.az (WOps.div c3.w mw) = true then zeroE
      else if WOps.aone (WOps.div c3.w mw) = true then (⟨WOps.one, c3.n⟩ : Edge W) else ⟨WOps.div c3.w mw, c3.n⟩) = d3
    at small3 ⊢
  generalize hN : (⟨(k : Int), d0, d1, d2, d3⟩ : MNode W) = nd
  have hv : nd.v = k := by rw [← hN]
  have hch : ∀ r c, MLv env s k (nd.child r c).n := by
    intro r c
    rw [← hN]
    cases r <;> cases c
    · exact small0
    · exact small1
    · exact small2
    · exact small3
  have hw2 := UTable.write_inv hw hpo nd
  have hwr2 : ∀ q x, UTable.Reg env.hm (t1.write p nd) q x ↔ UTable.Reg env.hm s.mt q x :=
    fun q x => (UTable.write_reg hw hpo _ q x).trans (hwr q x)
  obtain ⟨c, t', hl, hi', he', nc, hrc, hcase, hback⟩ := lookup_shape hw2 (nd := nd)
    (by simp [UTable.write]) (by simp [hv]) (by simp [hv]; exact_mod_cast hk) tid
  have hncv : nc.v = k := by
    rcases hcase with ⟨h, _⟩ | ⟨h, _⟩
    · rw [h, hv]
    · simp only [TNode.eqv, Bool.and_eq_true, beq_iff_eq] at h
      rw [← h.1.1.1.1, hv]
  have hext : Grow env s { s with mt := t' } :=
    ⟨UTable.Ext.refl _, fun q x h => he' q x ((hwr2 q x).2 h)⟩
  have hinv : Inv env { s with mt := t' } :=
    hi.grow hext hi.vt hi' (fun q x h => .inl h)
      (fun q x h => (hback q x h).elim (fun h => .inl ((hwr2 q x).1 h)) (fun h => .inr fun r c => by
        rw [h.2, show nd.v.toNat = k by omega]; exact (hch r c).ext hext))
      rfl rfl rfl rfl
  generalize (if WOps.aone (WOps.mul mw WOps.one) = true then WOps.one else WOps.mul mw WOps.one) = nw
  refine ⟨⟨nw, some c⟩, { s with mt := t' }, ?_, hinv, hext, .inr ⟨c, nc, rfl, hrc, by rw [hncv]; push_cast; omega⟩⟩
  have : ((k : Int) ≥ -1) := by omega
  simp only [hl, evar, hrc.1, MNode.tvar, hncv, this, if_true]

end Safe
end QDD
