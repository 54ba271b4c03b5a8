import Verif.Core.Ops
import Mathlib.Algebra.Field.Basic
import Mathlib.Algebra.BigOperators.Intervals
import Mathlib.Algebra.BigOperators.Ring.Finset
import Mathlib.Tactic.Ring
import Mathlib.Tactic.FieldSimp
/-!
# Exact weights, denotation of diagrams, heap invariants
-/

set_option linter.unusedSectionVars false

namespace QDD

/-- Exact weights: the operations of `WOps` are those of a field, tolerance 0, and `lt` compares magnitudes. -/
class ExactW (W : Type) [Field W] [WOps W] : Prop where
  zero_eq : (WOps.zero : W) = 0
  one_eq : (WOps.one : W) = 1
  add_eq : ∀ a b : W, WOps.add a b = a + b
  mul_eq : ∀ a b : W, WOps.mul a b = a * b
  div_eq : ∀ a b : W, b ≠ 0 → WOps.div a b = a / b
  az_iff : ∀ a : W, WOps.az a = true ↔ a = 0
  ae_iff : ∀ a b : W, WOps.ae a b = true ↔ a = b
  nz_iff : ∀ a : W, WOps.nz a = true ↔ a = 0
  lt_zero : ∀ a : W, WOps.lt a 0 = false
  zero_lt : ∀ a : W, WOps.lt 0 a = true ↔ a ≠ 0
  lt_scale : ∀ c a b : W, c ≠ 0 → WOps.lt (c * a) (c * b) = WOps.lt a b
  lt_irrefl : ∀ a : W, WOps.lt a a = false
  lt_cotrans : ∀ a b c : W, WOps.lt a c = true → WOps.lt a b = true ∨ WOps.lt b c = true

variable {W : Type} [Field W] [WOps W]

section den

/-- Amplitude function of a vector node at level `k`: the product of the edge weights along the path chosen
by the bits `k-1, …, 0` of the index.  A terminal above level 0 is a constant (dd.cpp 1329-1335). -/
def vptr (mem : Nat → Option (VNode W)) : Nat → Option Nat → Nat → W
  | 0, _, _ => 1
  | _ + 1, none, _ => 1
  | k + 1, some p, i => match mem p with
    | none => 0
    | some nd => (nd.child (i.testBit k)).w * vptr mem k (nd.child (i.testBit k)).n i

/-- Amplitude `i` of the vector edge `e` read as a `k`-qubit vector. -/
def vden (mem : Nat → Option (VNode W)) (k : Nat) (e : Edge W) (i : Nat) : W := e.w * vptr mem k e.n i

/-- Entry function of a matrix node read as a `2^k × 2^k` matrix; skipped levels are identities. -/
def mptr (mem : Nat → Option (MNode W)) : Nat → Option Nat → Nat → Nat → W
  | 0, _, _, _ => 1
  | k + 1, none, i, j => if i.testBit k = j.testBit k then mptr mem k none i j else 0
  | k + 1, some p, i, j => match mem p with
    | none => 0
    | some nd =>
      if nd.v = (k : Int) then
        (nd.child (i.testBit k) (j.testBit k)).w * mptr mem k (nd.child (i.testBit k) (j.testBit k)).n i j
      else if i.testBit k = j.testBit k then mptr mem k (some p) i j else 0

/-- Entry `(i, j)` of the matrix edge `e` read as a `k`-qubit matrix. -/
def mden (mem : Nat → Option (MNode W)) (k : Nat) (e : Edge W) (i j : Nat) : W := e.w * mptr mem k e.n i j

/-- The two indices agree on the bits below `k`. -/
def LowEq (k i i' : Nat) : Prop := ∀ b < k, i.testBit b = i'.testBit b

theorem LowEq.mono {k k' i i'} (h : LowEq k i i') (hk : k' ≤ k) : LowEq k' i i' :=
  fun b hb => h b (Nat.lt_of_lt_of_le hb hk)

theorem vptr_congr (mem : Nat → Option (VNode W)) : ∀ k n {i i'}, LowEq k i i' →
    vptr mem k n i = vptr mem k n i'
  | 0, _, _, _, _ => rfl
  | k + 1, none, _, _, _ => rfl
  | k + 1, some p, i, i', h => by
    simp only [vptr]
    cases mem p with
    | none => rfl
    | some nd =>
      simp only [h k (Nat.lt_succ_self k)]
      rw [vptr_congr mem k _ (h.mono (Nat.le_succ k))]

theorem mptr_congr (mem : Nat → Option (MNode W)) : ∀ k n {i i' j j'}, LowEq k i i' → LowEq k j j' →
    mptr mem k n i j = mptr mem k n i' j'
  | 0, _, _, _, _, _, _, _ => rfl
  | k + 1, none, i, i', j, j', h, h' => by
    simp only [mptr, h k (Nat.lt_succ_self k), h' k (Nat.lt_succ_self k)]
    rw [mptr_congr mem k _ (h.mono (Nat.le_succ k)) (h'.mono (Nat.le_succ k))]
  | k + 1, some p, i, i', j, j', h, h' => by
    simp only [mptr]
    cases mem p with
    | none => rfl
    | some nd =>
      simp only [h k (Nat.lt_succ_self k), h' k (Nat.lt_succ_self k)]
      rw [mptr_congr mem k _ (h.mono (Nat.le_succ k)) (h'.mono (Nat.le_succ k)),
        mptr_congr mem k (some p) (h.mono (Nat.le_succ k)) (h'.mono (Nat.le_succ k))]

theorem lowEq_add (k j : Nat) : LowEq k (2 ^ k + j) j := fun _ hb => Nat.testBit_two_pow_add_gt hb j

theorem testBit_lt {k j : Nat} (h : j < 2 ^ k) : j.testBit k = false := Nat.testBit_lt_two_pow h

theorem testBit_add {k j : Nat} (h : j < 2 ^ k) : (2 ^ k + j).testBit k = true := by
  rw [Nat.testBit_two_pow_add_eq, testBit_lt h]; rfl

/-- Sum over all `k`-bit indices, by halves. -/
def bsum {W : Type} [Field W] : Nat → (Nat → W) → W
  | 0, f => f 0
  | k + 1, f => bsum k f + bsum k (fun j => f (2 ^ k + j))

omit [WOps W] in
theorem bsum_eq (k : Nat) (f : Nat → W) : bsum k f = ∑ j ∈ Finset.range (2 ^ k), f j := by
  induction k generalizing f with
  | zero => simp [bsum]
  | succ k ih =>
    rw [bsum, ih, ih, pow_succ, mul_two, Finset.sum_range_add]

omit [WOps W] in
theorem bsum_congr {k : Nat} {f g : Nat → W} (h : ∀ j < 2 ^ k, f j = g j) : bsum k f = bsum k g := by
  rw [bsum_eq, bsum_eq]
  exact Finset.sum_congr rfl fun j hj => h j (Finset.mem_range.1 hj)

omit [WOps W] in
theorem bsum_add (k : Nat) (f g : Nat → W) : bsum k (fun j => f j + g j) = bsum k f + bsum k g := by
  simp [bsum_eq, Finset.sum_add_distrib]

omit [WOps W] in
theorem bsum_mul (k : Nat) (c : W) (f : Nat → W) : bsum k (fun j => c * f j) = c * bsum k f := by
  simp [bsum_eq, Finset.mul_sum]

omit [WOps W] in
@[simp] theorem bsum_zero (k : Nat) : bsum k (fun _ => (0 : W)) = 0 := by simp [bsum_eq]

end den

variable (env : Env W)

/-- `n` is a vector node at level `k` (terminal at level 0). -/
def VPtrOk (s : St W) (k : Nat) (n : Option Nat) : Prop :=
  (k = 0 ∧ n = none) ∨ ∃ p nd, n = some p ∧ UTable.Reg env.hv s.vt p nd ∧ nd.v + 1 = (k : Int)

/-- `e` is a `k`-qubit vector edge: it points to level `k`, or is the terminal zero edge. -/
def VOk (s : St W) (k : Nat) (e : Edge W) : Prop := VPtrOk env s k e.n ∨ (e.w = 0 ∧ e.n = none)

/-- `n` is a matrix node below level `k`, or terminal. -/
def MOk (s : St W) (k : Nat) (n : Option Nat) : Prop :=
  n = none ∨ ∃ p nd, n = some p ∧ UTable.Reg env.hm s.mt p nd ∧ nd.v < (k : Int)

/-- Normal form of a stored vector node: zero children are the terminal zero edge, the children are one
level below, and the larger child (first on ties) has weight 1. -/
structure VNorm (s : St W) (nd : VNode W) : Prop where
  ok0 : VOk env s nd.v.toNat nd.c0
  ok1 : VOk env s nd.v.toNat nd.c1
  z0 : nd.c0.w = 0 → nd.c0.n = none
  z1 : nd.c1.w = 0 → nd.c1.n = none
  max : (if WOps.lt nd.c0.w nd.c1.w then nd.c1.w else nd.c0.w) = 1

/-- Normal form of a stored matrix node. -/
structure MNorm (s : St W) (nd : MNode W) : Prop where
  ok : ∀ r c, MOk env s nd.v.toNat (nd.child r c).n
  z : ∀ r c, (nd.child r c).w = 0 → (nd.child r c).n = none
  max : maxW4 nd.c0.w nd.c1.w nd.c2.w nd.c3.w = 1
  nostrip : strips nd.c0 nd.c1 nd.c2 nd.c3 = false

/-- A cached vector sum is right. -/
def AVEnt (s : St W) (e : AEnt W) : Prop :=
  ∃ k, VPtrOk env s k e.lhs.n ∧ VPtrOk env s k e.rhs.n ∧ VOk env s k e.res ∧
    ∀ i, vden s.vt.mem k e.res i = vden s.vt.mem k e.lhs i + vden s.vt.mem k e.rhs i

/-- `n` is terminal or registered. -/
def RegM (s : St W) (n : Option Nat) : Prop := n = none ∨ ∃ p nd, n = some p ∧ UTable.Reg env.hm s.mt p nd

/-- A cached matrix sum is right at every qubit count covering the operands. -/
def AMEnt (s : St W) (e : AEnt W) : Prop :=
  RegM env s e.lhs.n ∧ RegM env s e.rhs.n ∧ ∀ k, MOk env s k e.lhs.n → MOk env s k e.rhs.n →
    MOk env s k e.res.n ∧
    ∀ i j, mden s.mt.mem k e.res i j = mden s.mt.mem k e.lhs i j + mden s.mt.mem k e.rhs i j

/-- A cached matrix-vector product is right. -/
def PVEnt (s : St W) (l r : Option Nat) (res : Edge W) : Prop :=
  ∃ k, MOk env s k l ∧ VPtrOk env s k r ∧ VOk env s k res ∧
    ∀ i, vden s.vt.mem k res i = bsum k (fun j => mptr s.mt.mem k l i j * vptr s.vt.mem k r j)

/-- A cached matrix product is right at every qubit count covering the operands. -/
def PMEnt (s : St W) (l r : Option Nat) (res : Edge W) : Prop :=
  RegM env s l ∧ RegM env s r ∧ ∀ k, MOk env s k l → MOk env s k r →
    MOk env s k res.n ∧
    ∀ i j, mden s.mt.mem k res i j = bsum k (fun m => mptr s.mt.mem k l i m * mptr s.mt.mem k r m j)

/-- The invariant of the engine between atomic steps. -/
structure Inv (s : St W) : Prop where
  vt : UTable.TInv env.hv s.vt []
  mt : UTable.TInv env.hm s.mt []
  vu : UTable.Uniq s.vt
  mu : UTable.Uniq s.mt
  vn : ∀ p nd, UTable.Reg env.hv s.vt p nd → VNorm env s nd
  mn : ∀ p nd, UTable.Reg env.hm s.mt p nd → MNorm env s nd
  av : ∀ tid lv key e, s.av tid lv key = some e → AVEnt env s e
  am : ∀ tid lv key e, s.am tid lv key = some e → AMEnt env s e
  cv : ∀ tid lv key b, s.cv tid lv key = some b → ∀ e ∈ b, e.valid = true →
    ∃ x, e.res = some x ∧ PVEnt env s e.lhs e.rhs x
  cm : ∀ tid lv key b, s.cm tid lv key = some b → ∀ e ∈ b, e.valid = true →
    ∃ x, e.res = some x ∧ PMEnt env s e.lhs e.rhs x

/-- Registered nodes survive. -/
def SExt (s s' : St W) : Prop := UTable.Ext env.hv s.vt s'.vt ∧ UTable.Ext env.hm s.mt s'.mt

theorem SExt.refl (s : St W) : SExt env s s := ⟨UTable.Ext.refl _, UTable.Ext.refl _⟩
theorem SExt.trans {a b c : St W} (h : SExt env a b) (h' : SExt env b c) : SExt env a c :=
  ⟨h.1.trans h'.1, h.2.trans h'.2⟩

/-- The rely/guarantee world of the engine under exact arithmetic. -/
def world : Prog.World (St W) := ⟨Inv env, SExt env, SExt.refl env, fun h h' => h.trans env h'⟩

variable {env}

theorem VPtrOk.ext {s s' : St W} {k n} (h : VPtrOk env s k n) (he : SExt env s s') : VPtrOk env s' k n := by
  rcases h with h | ⟨p, nd, h1, h2, h3⟩
  · exact .inl h
  · exact .inr ⟨p, nd, h1, he.1 _ _ h2, h3⟩

theorem VOk.ext {s s' : St W} {k e} (h : VOk env s k e) (he : SExt env s s') : VOk env s' k e :=
  h.imp (·.ext he) id

theorem MOk.ext {s s' : St W} {k n} (h : MOk env s k n) (he : SExt env s s') : MOk env s' k n := by
  rcases h with h | ⟨p, nd, h1, h2, h3⟩
  · exact .inl h
  · exact .inr ⟨p, nd, h1, he.2 _ _ h2, h3⟩

theorem RegM.ext {s s' : St W} {n} (h : RegM env s n) (he : SExt env s s') : RegM env s' n := by
  rcases h with h | ⟨p, nd, h1, h2⟩
  · exact .inl h
  · exact .inr ⟨p, nd, h1, he.2 _ _ h2⟩

theorem MOk.regM {s : St W} {k n} (h : MOk env s k n) : RegM env s n := by
  rcases h with h | ⟨p, nd, h1, h2, _⟩
  · exact .inl h
  · exact .inr ⟨p, nd, h1, h2⟩

theorem MOk.mono {s : St W} {k k' n} (h : MOk env s k n) (hk : k ≤ k') : MOk env s k' n := by
  rcases h with h | ⟨p, nd, h1, h2, h3⟩
  · exact .inl h
  · exact .inr ⟨p, nd, h1, h2, by omega⟩

theorem Reg.inj {N : Type} [TNode N] {hash : N → Nat} {t : UTable N} {p nd nd'}
    (h : UTable.Reg hash t p nd) (h' : UTable.Reg hash t p nd') : nd = nd' :=
  Option.some.inj (h.1.symm.trans h'.1)

theorem RegM.back {s s' : St W} {k n} (h : RegM env s n) (he : SExt env s s') (h' : MOk env s' k n) :
    MOk env s k n := by
  rcases h with h | ⟨p, nd, h1, h2⟩
  · exact .inl h
  · subst h1
    rcases h' with h' | ⟨p', nd', e, h3, h4⟩
    · cases h'
    · cases e
      have := Reg.inj (he.2 _ _ h2) h3
      subst this
      exact .inr ⟨p, nd, rfl, h2, h4⟩

/-- Level of a registered vector node as a natural number. -/
theorem Inv.vlevel {s : St W} (hi : Inv env s) {p nd} (h : UTable.Reg env.hv s.vt p nd) :
    ∃ k : Nat, nd.v = k ∧ k < NQUBITS := by
  have := hi.vt.reg_var h
  exact ⟨nd.v.toNat, by simp at this; omega, by simp at this; omega⟩

theorem Inv.mlevel {s : St W} (hi : Inv env s) {p nd} (h : UTable.Reg env.hm s.mt p nd) :
    ∃ k : Nat, nd.v = k ∧ k < NQUBITS := by
  have := hi.mt.reg_var h
  exact ⟨nd.v.toNat, by simp at this; omega, by simp at this; omega⟩

theorem VNorm.ok {s : St W} {nd : VNode W} (h : VNorm env s nd) (b : Bool) {k : Nat} (hk : nd.v = k) :
    VOk env s k (nd.child b) := by
  have e : nd.v.toNat = k := by omega
  cases b
  · simpa [VNode.child, e] using h.ok0
  · simpa [VNode.child, e] using h.ok1

theorem vptr_none (mem : Nat → Option (VNode W)) (k i : Nat) : vptr mem k none i = 1 := by
  cases k <;> rfl

/-- Amplitudes of registered vector diagrams never change. -/
theorem vptr_ext {s s' : St W} (hi : Inv env s) (he : SExt env s s') : ∀ {k n}, VPtrOk env s k n →
    ∀ i, vptr s'.vt.mem k n i = vptr s.vt.mem k n i := by
  intro k
  induction k with
  | zero => intro n _ i; rfl
  | succ k ih =>
    intro n h i
    rcases h with ⟨h, _⟩ | ⟨p, nd, rfl, h2, h3⟩
    · cases h
    · have hk : nd.v = k := by push_cast at h3; omega
      simp only [vptr, h2.1, (he.1 _ _ h2).1]
      rcases (hi.vn p nd h2).ok (i.testBit k) hk with hc | ⟨hw, hn⟩
      · rw [ih hc]
      · rw [hw]; simp

theorem vden_ext {s s' : St W} (hi : Inv env s) (he : SExt env s s') {k e} (h : VOk env s k e) (i : Nat) :
    vden s'.vt.mem k e i = vden s.vt.mem k e i := by
  unfold vden
  rcases h with h | ⟨hw, hn⟩
  · rw [vptr_ext hi he h]
  · rw [hw]; simp

theorem mptr_ext {s s' : St W} (hi : Inv env s) (he : SExt env s s') : ∀ {k n}, MOk env s k n →
    ∀ i j, mptr s'.mt.mem k n i j = mptr s.mt.mem k n i j := by
  intro k
  induction k with
  | zero => intro n _ i j; rfl
  | succ k ih =>
    intro n h i j
    rcases h with rfl | ⟨p, nd, rfl, h2, h3⟩
    · simp only [mptr]; rw [ih (.inl rfl)]
    · simp only [mptr, h2.1, (he.2 _ _ h2).1]
      split
      · next hk =>
        have hc := (hi.mn p nd h2).ok (i.testBit k) (j.testBit k)
        have e : nd.v.toNat = k := by omega
        rw [e] at hc
        rw [ih hc]
      · next hk => rw [ih (.inr ⟨p, nd, rfl, h2, by push_cast at h3; omega⟩)]

theorem mden_ext {s s' : St W} (hi : Inv env s) (he : SExt env s s') {k e} (h : MOk env s k e.n) (i j : Nat) :
    mden s'.mt.mem k e i j = mden s.mt.mem k e i j := by
  unfold mden; rw [mptr_ext hi he h]

theorem AVEnt.ext {s s' : St W} (hi : Inv env s) (he : SExt env s s') {e} (h : AVEnt env s e) :
    AVEnt env s' e := by
  obtain ⟨k, h1, h2, h3, h4⟩ := h
  refine ⟨k, h1.ext he, h2.ext he, h3.ext he, fun i => ?_⟩
  rw [vden_ext hi he h3, vden_ext hi he (.inl h1), vden_ext hi he (.inl h2), h4]

theorem AMEnt.ext {s s' : St W} (hi : Inv env s) (he : SExt env s s') {e} (h : AMEnt env s e) :
    AMEnt env s' e := by
  obtain ⟨h1, h2, h3⟩ := h
  refine ⟨h1.ext he, h2.ext he, fun k hl hr => ?_⟩
  have hl' := h1.back he hl
  have hr' := h2.back he hr
  obtain ⟨ho, hd⟩ := h3 k hl' hr'
  refine ⟨ho.ext he, fun i j => ?_⟩
  rw [mden_ext hi he ho, mden_ext hi he hl', mden_ext hi he hr', hd]

theorem PVEnt.ext {s s' : St W} (hi : Inv env s) (he : SExt env s s') {l r x} (h : PVEnt env s l r x) :
    PVEnt env s' l r x := by
  obtain ⟨k, h1, h2, h3, h4⟩ := h
  refine ⟨k, h1.ext he, h2.ext he, h3.ext he, fun i => ?_⟩
  rw [vden_ext hi he h3, h4]
  exact bsum_congr fun j _ => by rw [mptr_ext hi he h1, vptr_ext hi he h2]

theorem PMEnt.ext {s s' : St W} (hi : Inv env s) (he : SExt env s s') {l r x} (h : PMEnt env s l r x) :
    PMEnt env s' l r x := by
  obtain ⟨h1, h2, h3⟩ := h
  refine ⟨h1.ext he, h2.ext he, fun k hl hr => ?_⟩
  have hl' := h1.back he hl
  have hr' := h2.back he hr
  obtain ⟨ho, hd⟩ := h3 k hl' hr'
  refine ⟨ho.ext he, fun i j => ?_⟩
  rw [mden_ext hi he ho, hd]
  exact bsum_congr fun m _ => by rw [mptr_ext hi he hl', mptr_ext hi he hr']

theorem VNorm.ext {s s' : St W} (he : SExt env s s') {nd} (h : VNorm env s nd) : VNorm env s' nd :=
  ⟨h.ok0.ext he, h.ok1.ext he, h.z0, h.z1, h.max⟩

theorem MNorm.ext {s s' : St W} (he : SExt env s s') {nd} (h : MNorm env s nd) : MNorm env s' nd :=
  ⟨fun r c => (h.ok r c).ext he, h.z, h.max, h.nostrip⟩

variable (env)

/-- `e` is a well-formed `k`-qubit vector edge with amplitudes `f`. -/
def VRep (s : St W) (k : Nat) (e : Edge W) (f : Nat → W) : Prop :=
  VOk env s k e ∧ ∀ i, vden s.vt.mem k e i = f i

/-- `e` is a well-formed matrix edge with entries `F` when read with `k` qubits. -/
def MRep (s : St W) (k : Nat) (e : Edge W) (F : Nat → Nat → W) : Prop :=
  MOk env s k e.n ∧ ∀ i j, mden s.mt.mem k e i j = F i j

variable {env}

theorem VRep.ext {s s' : St W} (hi : Inv env s) (he : SExt env s s') {k e f} (h : VRep env s k e f) :
    VRep env s' k e f := ⟨h.1.ext he, fun i => by rw [vden_ext hi he h.1, h.2]⟩

theorem MRep.ext {s s' : St W} (hi : Inv env s) (he : SExt env s s') {k e F} (h : MRep env s k e F) :
    MRep env s' k e F := ⟨h.1.ext he, fun i j => by rw [mden_ext hi he h.1, h.2]⟩

theorem VRep.congr {s : St W} {k e f g} (h : VRep env s k e f) (hfg : ∀ i, f i = g i) : VRep env s k e g :=
  ⟨h.1, fun i => by rw [h.2, hfg]⟩

theorem MRep.congr {s : St W} {k e F G} (h : MRep env s k e F) (hfg : ∀ i j, F i j = G i j) :
    MRep env s k e G := ⟨h.1, fun i j => by rw [h.2, hfg]⟩

end QDD
