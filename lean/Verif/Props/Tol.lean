import Verif.Core.Cx
import Mathlib.Tactic.SplitIfs
import Mathlib.Tactic.Push
import Mathlib.Tactic.GCongr
import Mathlib.Tactic.Positivity
import Mathlib.Tactic.NormNum
/-!
# C46: what the tolerance can change

`Complex` of dd.h with its real, positive `TOLERANCE` (`Cx K tol`).  Arithmetic on the components is exact; the
approximate comparisons and the snapping to 0 and 1 are those of the code.
-/

set_option linter.unusedSectionVars false
set_option linter.unusedVariables false
set_option linter.unusedSimpArgs false

namespace QDD.Props
open QDD Cx

namespace Tol
variable {K : Type} [Field K] [LinearOrder K] [IsStrictOrderedRing K] {tol : K}

/-- Size of a complex number: `|re| + |im|`. -/
def n1 (a : Cx K tol) : K := |a.r| + |a.i|

theorem n1_nonneg (a : Cx K tol) : 0 ≤ n1 a := add_nonneg (abs_nonneg _) (abs_nonneg _)

theorem n1_add (a b : Cx K tol) : n1 (a + b) ≤ n1 a + n1 b := by
  have h1 := abs_add_le a.r b.r
  have h2 := abs_add_le a.i b.i
  simp only [n1, add_r, add_i]; linarith

theorem n1_neg (a : Cx K tol) : n1 (-a) = n1 a := by simp [n1]

theorem n1_sub (a b : Cx K tol) : n1 (a - b) ≤ n1 a + n1 b := by
  rw [sub_eq_add_neg]; exact le_trans (n1_add _ _) (by rw [n1_neg])

theorem n1_mul (a b : Cx K tol) : n1 (a * b) ≤ n1 a * n1 b := by
  have h1 : |a.r * b.r - a.i * b.i| ≤ |a.r| * |b.r| + |a.i| * |b.i| := by
    rw [← abs_mul, ← abs_mul]; exact abs_sub _ _
  have h2 : |a.r * b.i + a.i * b.r| ≤ |a.r| * |b.i| + |a.i| * |b.r| := by
    rw [← abs_mul, ← abs_mul]; exact abs_add_le _ _
  simp only [n1, mul_r, mul_i]
  have : (|a.r| + |a.i|) * (|b.r| + |b.i|) = |a.r| * |b.r| + |a.i| * |b.i| + (|a.r| * |b.i| + |a.i| * |b.r|) := by ring
  rw [this]; exact add_le_add h1 h2

theorem n1_az {a : Cx K tol} (h : WOps.az a = true) : n1 a ≤ 2 * tol := by
  have h : |a.r| ≤ tol ∧ |a.i| ≤ tol := by simpa [WOps.az] using h
  unfold n1; linarith [h.1, h.2]

theorem n1_ae (ht : 0 ≤ tol) {a b : Cx K tol} (h : WOps.ae a b = true) : n1 (a - b) ≤ 2 * tol := by
  have h : (a.r = b.r ∧ a.i = b.i) ∨ (|a.r - b.r| ≤ tol ∧ |a.i - b.i| ≤ tol) := by simpa [WOps.ae] using h
  rcases h with ⟨h1, h2⟩ | ⟨h1, h2⟩
  · simp only [n1, sub_r, sub_i, h1, h2, sub_self, abs_zero, add_zero]; linarith
  · simp only [n1, sub_r, sub_i]; linarith

theorem sq_le (a : Cx K tol) : n1 a * n1 a ≤ 2 * mag2 a := by
  have h1 := abs_mul_abs_self a.r
  have h2 := abs_mul_abs_self a.i
  have h3 := mul_self_nonneg (|a.r| - |a.i|)
  unfold n1 mag2; rw [← h1, ← h2]; nlinarith

theorem n1_le_of_mag2 {a : Cx K tol} {c : K} (hc : 0 ≤ c) (h : mag2 a ≤ 2 * (c * c)) : n1 a ≤ 2 * c := by
  by_contra hn
  push Not at hn
  have := mul_self_lt_mul_self (by linarith) hn
  have := sq_le a
  nlinarith

theorem n1_quot {a b : Cx K tol} (h : mag2 a ≤ mag2 b) : n1 (a / b) ≤ 2 := by
  have : mag2 (a / b) ≤ 1 := by
    rcases eq_or_ne b 0 with rfl | hb
    · simp [mag2]
    · have hb' : 0 < mag2 b := lt_of_le_of_ne (mag2_nonneg b) fun h' => hb (mag2_eq_zero.1 h'.symm)
      have he : mag2 (a / b) * mag2 b = mag2 a := by rw [← mag2_mul, div_mul_cancel₀ _ hb]
      nlinarith [mag2_nonneg (a / b)]
  have := n1_le_of_mag2 (a := a / b) (c := 1) zero_le_one (by linarith)
  simpa using this

theorem cdiv_eq (a b : Cx K tol) : WOps.div a b = a / b := by
  rw [div_eq_mul_inv]
  show cdiv a b = _
  ext
  · simp only [cdiv, mul_r, inv_r, inv_i, mag2]; rw [neg_div, mul_neg, sub_neg_eq_add, add_div, mul_div_assoc, mul_div_assoc]
  · simp only [cdiv, mul_i, inv_r, inv_i, mag2]; rw [neg_div, mul_neg, sub_div, mul_div_assoc, mul_div_assoc]; ring

/-- The child weight the code asks for (dd.cpp 122-138). -/
def snap (mw : Cx K tol) (c : Edge (Cx K tol)) : Edge (Cx K tol) :=
  let r := WOps.div c.w mw
  if WOps.aone r then ⟨WOps.one, c.n⟩ else if WOps.az r then zeroE else ⟨r, c.n⟩

theorem snap_spec (ht : 0 ≤ tol) (mw : Cx K tol) (c : Edge (Cx K tol)) :
    n1 ((snap mw c).w - c.w / mw) ≤ 2 * tol ∧
      ((snap mw c).n = c.n ∨ (snap mw c = zeroE ∧ n1 (c.w / mw) ≤ 2 * tol)) := by
  unfold snap
  rw [cdiv_eq]
  simp only
  split_ifs with h1 h2
  · refine ⟨?_, .inl rfl⟩
    rw [← neg_sub, n1_neg]
    exact n1_ae ht h1
  · refine ⟨?_, .inr ⟨rfl, n1_az h2⟩⟩
    rw [← neg_sub, n1_neg]
    have : c.w / mw - (zeroE : Edge (Cx K tol)).w = c.w / mw := by
      show c.w / mw - 0 = _; rw [sub_zero]
    rw [this]; exact n1_az h2
  · refine ⟨?_, .inl rfl⟩
    simp only [sub_self]
    simp [n1]; exact ht

variable (env : Env (Cx K tol))

/-- A vector pointer for `k` qubits: the terminal node, or a registered node of level `k - 1`. -/
def PtrOk (t : UTable (VNode (Cx K tol))) (k : Nat) (n : Option Nat) : Prop :=
  n = none ∨ ∃ p nd, n = some p ∧ UTable.Reg env.hv t p nd ∧ nd.v + 1 = (k : Int)

/-- The table invariant kept by every sequence of `makeVEdge` calls. -/
structure TolInv (t : UTable (VNode (Cx K tol))) : Prop where
  inv : UTable.TInv env.hv t []
  uniq : UTable.Uniq t
  closed : ∀ p nd, UTable.Reg env.hv t p nd → ∀ k : Nat, nd.v = (k : Int) → ∀ b, PtrOk env t k (nd.child b).n

variable {env}

theorem PtrOk.ext {t t' : UTable (VNode (Cx K tol))} {k n} (h : PtrOk env t k n) (he : UTable.Ext env.hv t t') :
    PtrOk env t' k n := by
  rcases h with h | ⟨p, nd, h1, h2, h3⟩
  · exact .inl h
  · exact .inr ⟨p, nd, h1, he _ _ h2, h3⟩

/-- Existing diagrams keep their amplitudes. -/
theorem vptr_ext {t t' : UTable (VNode (Cx K tol))} (hi : TolInv env t) (he : UTable.Ext env.hv t t') :
    ∀ k n, PtrOk env t k n → ∀ i, vptr t'.mem k n i = vptr t.mem k n i
  | 0, _, _, _ => rfl
  | k + 1, n, h, i => by
    rcases h with rfl | ⟨p, nd, rfl, h2, h3⟩
    · simp [vptr]
    · have hv : nd.v = (k : Int) := by push_cast at h3; omega
      simp only [vptr, h2.1, (he _ _ h2).1]
      rw [vptr_ext hi he k _ (hi.closed p nd h2 k hv _)]

theorem eeq_spec (ht : 0 ≤ tol) {a b : Edge (Cx K tol)} (h : eeq a b = true) : n1 (b.w - a.w) ≤ 2 * tol ∧ b.n = a.n := by
  simp only [eeq, Bool.and_eq_true, beq_iff_eq] at h
  rw [← neg_sub, n1_neg]
  exact ⟨n1_ae ht h.1, h.2.symm⟩

theorem eqv_spec (ht : 0 ≤ tol) {a b : VNode (Cx K tol)} (h : TNode.eqv a b = true) (x : Bool) :
    b.v = a.v ∧ n1 ((b.child x).w - (a.child x).w) ≤ 2 * tol ∧ (b.child x).n = (a.child x).n := by
  simp only [TNode.eqv, Bool.and_eq_true, beq_iff_eq] at h
  obtain ⟨⟨h1, h2⟩, h3⟩ := h
  cases x
  · exact ⟨h1.symm, eeq_spec ht h2⟩
  · exact ⟨h1.symm, eeq_spec ht h3⟩

theorem bound {mw nw cw x : Cx K tol} (ht : 0 ≤ tol) (hm : mw ≠ 0) (hn : n1 (nw - mw) ≤ 2 * tol) (hr : n1 (cw / mw) ≤ 2)
    (hx : n1 (x - cw / mw) ≤ 4 * tol) : n1 (nw * x - cw) ≤ 4 * tol * (1 + n1 nw) := by
  have e : nw * x - cw = nw * (x - cw / mw) + (nw - mw) * (cw / mw) := by
    have : mw * (cw / mw) = cw := mul_div_cancel₀ cw hm
    linear_combination (1 : Cx K tol) * this
  rw [e]
  have h1 := n1_mul nw (x - cw / mw)
  have h2 := n1_mul (nw - mw) (cw / mw)
  have h3 := n1_add (nw * (x - cw / mw)) ((nw - mw) * (cw / mw))
  have h4 : n1 nw * n1 (x - cw / mw) ≤ n1 nw * (4 * tol) := mul_le_mul_of_nonneg_left hx (n1_nonneg _)
  have h5 : n1 (nw - mw) * n1 (cw / mw) ≤ 2 * tol * 2 := mul_le_mul hn hr (n1_nonneg _) (by linarith)
  nlinarith

theorem bound0 {mw nw cw x a : Cx K tol} {A : K} (ht : 0 ≤ tol) (hm : mw ≠ 0) (hn : n1 (nw - mw) ≤ 2 * tol)
    (hr : n1 (cw / mw) ≤ 2) (hr' : n1 (cw / mw) ≤ 2 * tol) (hx : n1 x ≤ 2 * tol) (hA : 1 ≤ A) (ha : n1 a ≤ A) :
    n1 (nw * x - cw * a) ≤ 4 * tol * (1 + n1 nw) * A := by
  have e : cw = nw * (cw / mw) - (nw - mw) * (cw / mw) := by
    have : mw * (cw / mw) = cw := mul_div_cancel₀ cw hm
    linear_combination (-1 : Cx K tol) * this
  have h0 : n1 cw ≤ n1 nw * (2 * tol) + 2 * tol * 2 := by
    calc n1 cw = n1 (nw * (cw / mw) - (nw - mw) * (cw / mw)) := by rw [← e]
      _ ≤ _ := n1_sub _ _
      _ ≤ _ := add_le_add (le_trans (n1_mul _ _) (mul_le_mul_of_nonneg_left hr' (n1_nonneg _)))
        (le_trans (n1_mul _ _) (mul_le_mul hn hr (n1_nonneg _) (by linarith)))
  have h1 : n1 (nw * x) ≤ n1 nw * (2 * tol) := le_trans (n1_mul _ _) (mul_le_mul_of_nonneg_left hx (n1_nonneg _))
  have h2 : n1 (cw * a) ≤ (n1 nw * (2 * tol) + 2 * tol * 2) * A :=
    le_trans (n1_mul _ _) (mul_le_mul h0 ha (n1_nonneg _) (by nlinarith [n1_nonneg nw, n1_nonneg cw]))
  have h3 := n1_sub (nw * x) (cw * a)
  have h4 : n1 nw * (2 * tol) ≤ n1 nw * (2 * tol) * A := le_mul_of_one_le_right (by nlinarith [n1_nonneg nw]) hA
  nlinarith

/-- Everything that holds of the requested child weight. -/
structure Req (mw : Cx K tol) (c q : Edge (Cx K tol)) : Prop where
  ratio : n1 (c.w / mw) ≤ 2
  near : n1 (q.w - c.w / mw) ≤ 2 * tol
  ptr : q.n = c.n ∨ (q = zeroE ∧ n1 (c.w / mw) ≤ 2 * tol)

theorem req_snap (ht : 0 ≤ tol) {mw : Cx K tol} {c : Edge (Cx K tol)} (h : mag2 c.w ≤ mag2 mw) : Req mw c (snap mw c) :=
  ⟨n1_quot h, (snap_spec ht mw c).1, (snap_spec ht mw c).2⟩

theorem req_max (ht : 0 ≤ tol) {c : Edge (Cx K tol)} (h : c.w ≠ 0) : Req c.w c ⟨WOps.one, c.n⟩ := by
  have e : c.w / c.w = 1 := div_self h
  refine ⟨by rw [e]; simp [n1], ?_, .inl rfl⟩
  rw [e]
  have : (WOps.one : Cx K tol) - 1 = 0 := sub_self (1 : Cx K tol)
  show n1 (WOps.one - 1) ≤ _
  rw [this]; simpa [n1] using ht

/-- The child selected by a bit. -/
def pick (b : Bool) (c0 c1 : Edge (Cx K tol)) : Edge (Cx K tol) := if b then c1 else c0

end Tol
open Tol

variable {K : Type} [Field K] [LinearOrder K] [IsStrictOrderedRing K] {tol : K}

/-- **C46.** With the real tolerance, one construction step `makeVEdge(k, {c0, c1})` on any table built so far, by any
thread: it never fails; existing diagrams keep their amplitudes (`TolInv`, `Ext`); if it answers "zero" both requested
weights had `|re| + |im| ≤ 2 tol`; otherwise the returned node has the requested level, and on
each branch the weight `e.w * child.w` read back differs from the requested one by at most `4 tol (1 + |e.w|)`; and
every amplitude of the new diagram differs from the requested amplitude by at most that times the largest amplitude
below. -/
theorem C46_makeVEdge (env : Env (Cx K tol)) (ht : 0 ≤ tol) (s : St (Cx K tol)) (hi : TolInv env s.vt) (tid k : Nat)
    (hk : k < NQUBITS) (c0 c1 : Edge (Cx K tol)) (h0 : PtrOk env s.vt k c0.n) (h1 : PtrOk env s.vt k c1.n) :
    ∃ e s', makeVEdge env tid k c0 c1 s = .ok (e, s') ∧ TolInv env s'.vt ∧ UTable.Ext env.hv s.vt s'.vt ∧
      PtrOk env s'.vt (k + 1) e.n ∧
      (e.n = none → e.w = 0 ∧ ∀ b, n1 (pick b c0 c1).w ≤ 2 * tol) ∧
      (∀ p nd, e.n = some p → UTable.Reg env.hv s'.vt p nd → ∀ b,
        n1 (e.w * (nd.child b).w - (pick b c0 c1).w) ≤ 4 * tol * (1 + n1 e.w)) ∧
      ∀ (A : K) (i : Nat), 1 ≤ A → n1 (vptr s.vt.mem k (pick (i.testBit k) c0 c1).n i) ≤ A →
        n1 (vden s'.vt.mem (k + 1) e i - vden s.vt.mem k (pick (i.testBit k) c0 c1) i) ≤ 4 * tol * (1 + n1 e.w) * A := by
  unfold makeVEdge
  obtain ⟨hg, hgc, hgm⟩ := UTable.getNode_spec hi.inv tid
  generalize UTable.getNode tid s.vt = pt at hg hgc hgm
  obtain ⟨p, t⟩ := pt
  simp only at hg hgc hgm ⊢
  have hpo : p ∈ [p] := List.mem_cons_self
  have hu : UTable.Uniq t := UTable.uniq_of_mem_eq hgc (fun _ _ _ _ => by rw [hgm]) hi.uniq
  have hreg : ∀ q x, UTable.Reg env.hv t q x ↔ UTable.Reg env.hv s.vt q x :=
    UTable.reg_of_mem_eq hgc (fun _ _ _ _ => by rw [hgm])
  have hw := UTable.write_inv hg hpo ⟨(k : Int), c0, c1⟩
  have hwu := UTable.write_uniq hg hpo ⟨(k : Int), c0, c1⟩ hu
  have hwr : ∀ q x, UTable.Reg env.hv (t.write p ⟨(k : Int), c0, c1⟩) q x ↔ UTable.Reg env.hv s.vt q x :=
    fun q x => (UTable.write_reg hg hpo _ q x).trans (hreg q x)
  generalize t.write p ⟨(k : Int), c0, c1⟩ = t1 at hw hwu hwr
  have hpick : ∀ b, PtrOk env s.vt k (pick b c0 c1).n := by intro b; cases b <;> assumption
  have hzero : (∀ b, n1 (pick b c0 c1).w ≤ 2 * tol) → ∃ e s',
      (match (Except.ok (zeroE, t1.returnNode tid p) : Except Err (Edge (Cx K tol) × UTable (VNode (Cx K tol)))) with
        | .error e => Except.error e
        | .ok (e, t') => match evar t'.mem e.n with
          | .error er => .error er
          | .ok v => if v = (k : Int) ∨ e.n = none then .ok (e, { s with vt := t' }) else .error .assert) =
        .ok (e, s') ∧ TolInv env s'.vt ∧ UTable.Ext env.hv s.vt s'.vt ∧
      PtrOk env s'.vt (k + 1) e.n ∧
      (e.n = none → e.w = 0 ∧ ∀ b, n1 (pick b c0 c1).w ≤ 2 * tol) ∧
      (∀ p nd, e.n = some p → UTable.Reg env.hv s'.vt p nd → ∀ b,
        n1 (e.w * (nd.child b).w - (pick b c0 c1).w) ≤ 4 * tol * (1 + n1 e.w)) ∧
      ∀ (A : K) (i : Nat), 1 ≤ A → n1 (vptr s.vt.mem k (pick (i.testBit k) c0 c1).n i) ≤ A →
        n1 (vden s'.vt.mem (k + 1) e i - vden s.vt.mem k (pick (i.testBit k) c0 c1) i) ≤ 4 * tol * (1 + n1 e.w) * A := by
    intro hz
    have hr : ∀ q x, UTable.Reg env.hv (t1.returnNode tid p) q x ↔ UTable.Reg env.hv s.vt q x :=
      fun q x => (UTable.return_reg hw tid q x).trans (hwr q x)
    have he : UTable.Ext env.hv s.vt (t1.returnNode tid p) := fun q x h => (hr q x).2 h
    refine ⟨zeroE, { s with vt := t1.returnNode tid p }, by simp [zeroE, evar], ?_, he, .inl rfl, fun _ => ⟨rfl, hz⟩,
      fun p nd (h : none = some p) => (nomatch h), fun A i hA ha => ?_⟩
    · exact ⟨UTable.return_inv hw tid, UTable.return_uniq hw tid hwu,
        fun q x h k' hk' b => (hi.closed q x ((hr q x).1 h) k' hk' b).ext he⟩
    · have e0 : ∀ m, vden m (k + 1) (zeroE : Edge (Cx K tol)) i = 0 := fun m => by
        show (0 : Cx K tol) * _ = 0
        rw [zero_mul]
      rw [e0, zero_sub, n1_neg]; unfold vden
      have h1 := n1_mul (pick (i.testBit k) c0 c1).w (vptr s.vt.mem k (pick (i.testBit k) c0 c1).n i)
      have h2 := mul_le_mul (hz (i.testBit k)) ha (n1_nonneg _) (by linarith)
      have h3 : n1 (zeroE : Edge (Cx K tol)).w = 0 := by simp [n1, zeroE, WOps.zero]
      rw [h3, add_zero, mul_one]; have h4 := mul_nonneg ht (by linarith : (0 : K) ≤ A); refine le_trans h1 (le_trans h2 ?_); nlinarith
  unfold normalizeV
  by_cases haz : (WOps.az c0.w && WOps.az c1.w) = true
  · rw [if_pos haz]
    rw [Bool.and_eq_true] at haz
    exact hzero (by intro b; cases b; exacts [n1_az haz.1, n1_az haz.2])
  · rw [if_neg haz]
    simp only
    generalize hmw : (if WOps.lt c0.w c1.w = true then c1.w else c0.w) = mw
    have hmax : ∀ b, mag2 (pick b c0 c1).w ≤ mag2 mw := by
      intro b
      rw [← hmw]
      split
      · next hlt =>
        have hlt : mag2 c0.w < mag2 c1.w := by simpa [WOps.lt] using hlt
        cases b
        · exact le_of_lt hlt
        · exact le_refl _
      · next hlt =>
        have hlt : mag2 c1.w ≤ mag2 c0.w := by simpa [WOps.lt] using hlt
        cases b
        · exact le_refl _
        · exact hlt
    have hnw : WOps.mul mw WOps.one = mw := mul_one mw
    rw [hnw]
    by_cases hnaz : WOps.az mw = true
    · rw [if_pos hnaz]
      refine hzero fun b => n1_le_of_mag2 ht (le_trans (hmax b) ?_)
      have h : |mw.r| ≤ tol ∧ |mw.i| ≤ tol := by simpa [WOps.az] using hnaz
      have h1 := abs_mul_abs_self mw.r
      have h2 := abs_mul_abs_self mw.i
      have h3 := mul_le_mul h.1 h.1 (abs_nonneg _) ht
      have h4 := mul_le_mul h.2 h.2 (abs_nonneg _) ht
      unfold mag2; linarith
    rw [if_neg hnaz]
    have hm : mw ≠ 0 := by
      rintro rfl; exact hnaz (by simp [WOps.az, ht])
    generalize hnw' : (if WOps.aone mw = true then WOps.one else mw) = nw
    have hn : n1 (nw - mw) ≤ 2 * tol := by
      rw [← hnw']
      split
      · next h => rw [← neg_sub, n1_neg]; exact n1_ae ht h
      · simp [n1]; exact ht
    have hsn : ∀ c : Edge (Cx K tol), (if WOps.aone (WOps.div c.w mw) = true then (⟨WOps.one, c.n⟩ : Edge (Cx K tol))
        else if WOps.az (WOps.div c.w mw) = true then zeroE else ⟨WOps.div c.w mw, c.n⟩) = snap mw c := fun _ => rfl
    simp only [hsn]
    generalize hN : (if WOps.lt c0.w c1.w = true then (⟨(k : Int), snap mw c0, ⟨WOps.one, c1.n⟩⟩ : VNode (Cx K tol))
        else ⟨(k : Int), ⟨WOps.one, c0.n⟩, snap mw c1⟩) = nd
    have hv : nd.v = k := by rw [← hN]; split <;> rfl
    have hreq : ∀ b, Req mw (pick b c0 c1) (nd.child b) := by
      intro b
      rw [← hN]
      split
      · next hlt =>
        rw [if_pos hlt] at hmw
        cases b
        · exact req_snap ht (hmax false)
        · subst hmw; exact req_max ht hm
      · next hlt =>
        rw [if_neg hlt] at hmw
        cases b
        · subst hmw; exact req_max ht hm
        · exact req_snap ht (hmax true)
    have hw2 := UTable.write_inv hw hpo nd
    have hwu2 := UTable.write_uniq hw hpo nd hwu
    have hwr2 : ∀ q x, UTable.Reg env.hv (t1.write p nd) q x ↔ UTable.Reg env.hv s.vt q x :=
      fun q x => (UTable.write_reg hw hpo _ q x).trans (hwr q x)
    obtain ⟨c, t', hl, hi', hu', he', nc, hrc, hcase, hback⟩ := UTable.lookup_spec hw2 hwu2 (nd := nd)
      (by simp [UTable.write]) (by simp [hv]) (by simp [hv]; exact_mod_cast hk) tid
    have hnear : ∀ b, nc.v = nd.v ∧ n1 ((nc.child b).w - (nd.child b).w) ≤ 2 * tol ∧ (nc.child b).n = (nd.child b).n := by
      intro b
      rcases hcase with ⟨h, _⟩ | ⟨h, _⟩
      · subst h; exact ⟨rfl, by simp [n1]; exact ht, rfl⟩
      · exact eqv_spec ht h b
    have hext : UTable.Ext env.hv s.vt t' := fun q x h => he' q x ((hwr2 q x).2 h)
    have hsum : ∀ b, n1 ((nc.child b).w - (pick b c0 c1).w / mw) ≤ 4 * tol := by
      intro b
      have e : (nc.child b).w - (pick b c0 c1).w / mw =
        ((nc.child b).w - (nd.child b).w) + ((nd.child b).w - (pick b c0 c1).w / mw) := by ring
      rw [e]
      have := n1_add ((nc.child b).w - (nd.child b).w) ((nd.child b).w - (pick b c0 c1).w / mw)
      linarith [(hnear b).2.1, (hreq b).near]
    have hndp : ∀ b, PtrOk env t' k (nd.child b).n := by
      intro b
      rcases (hreq b).ptr with h | ⟨h, _⟩
      · rw [h]; exact (hpick b).ext hext
      · rw [h]; exact .inl rfl
    have hinv : TolInv env t' := by
      refine ⟨hi', hu', fun q x h k' hk' b => ?_⟩
      rcases hback q x h with h | ⟨_, h⟩
      · exact (hi.closed q x ((hwr2 q x).1 h) k' hk' b).ext hext
      · rw [h] at hk' ⊢
        have : k' = k := by rw [hv] at hk'; exact_mod_cast hk'.symm
        rw [this]; exact hndp b
    refine ⟨⟨nw, some c⟩, { s with vt := t' }, ?_, hinv, hext, ?_, fun (h : some c = none) => (nomatch h), ?_, ?_⟩
    · simp only [hl, evar, hrc.1, VNode.tvar, (hnear false).1, hv, true_or, if_true]
    · exact .inr ⟨c, nc, rfl, hrc, by rw [(hnear false).1, hv]; push_cast; rfl⟩
    · intro p' nd' hp' hr' b
      cases hp'
      have : nd' = nc := by have := hr'.1.symm.trans hrc.1; injection this
      subst this
      exact bound ht hm hn (hreq b).ratio (hsum b)
    · intro A i hA ha
      have hmem : t'.mem c = some nc := hrc.1
      simp only [vden, vptr, hmem]
      generalize i.testBit k = b at ha ⊢
      rcases (hreq b).ptr with h | ⟨h, h'⟩
      · rw [(hnear b).2.2, h, Tol.vptr_ext hi hext k _ (hpick b), ← mul_assoc, ← sub_mul]
        refine le_trans (n1_mul _ _) (mul_le_mul (bound ht hm hn (hreq b).ratio (hsum b)) ha (n1_nonneg _) ?_)
        have := n1_nonneg nw; positivity
      · rw [(hnear b).2.2, h]
        have e : vptr t'.mem k (zeroE : Edge (Cx K tol)).n i = 1 := by cases k <;> rfl
        rw [e, mul_one]
        refine bound0 ht hm hn (hreq b).ratio h' ?_ hA ha
        have := (hnear b).2.1
        rw [h] at this
        have e : (nc.child b).w - (zeroE : Edge (Cx K tol)).w = (nc.child b).w := sub_zero ((nc.child b).w)
        rwa [e] at this

/-- A history of `makeVEdge` calls on a fresh table, by any threads; the children of each call are terminal or name
nodes built before, one level down. -/
inductive TolHist (env : Env (Cx K tol)) : St (Cx K tol) → Prop
  | init : TolHist env St.init
  | make {s s' tid k c0 c1 e} : TolHist env s → k < NQUBITS → PtrOk env s.vt k c0.n → PtrOk env s.vt k c1.n →
      makeVEdge env tid (k : Nat) c0 c1 s = .ok (e, s') → TolHist env s'

/-- The hypothesis `TolInv` of `C46_makeVEdge` holds after every history. -/
theorem C46_reachable (env : Env (Cx K tol)) (ht : 0 ≤ tol) (s : St (Cx K tol)) (h : TolHist env s) : TolInv env s.vt := by
  induction h with
  | init => exact ⟨UTable.empty_inv, UTable.empty_uniq, fun p nd h => by cases h.1⟩
  | @make s s' tid k c0 c1 e _ hk h0 h1 hm ih =>
    obtain ⟨e', s'', h2, h3, _⟩ := C46_makeVEdge env ht s ih tid k hk c0 c1 h0 h1
    rw [hm] at h2; cases h2; exact h3

/-- Non-vacuous: with tolerance 1/10, after building the node of `[1, 1/2]`, a request for `[1, 11/20]` succeeds, and
the bound of `C46_makeVEdge` applies to it; the request is not within rounding of exact equality. -/
example (env : Env (Cx ℚ (1/10))) : ∃ e s e' s', makeVEdge env 0 (0 : Nat) ⟨⟨1, 0⟩, none⟩ ⟨⟨1/2, 0⟩, none⟩ St.init = .ok (e, s) ∧
    TolInv env s.vt ∧ makeVEdge env 1 (0 : Nat) ⟨⟨1, 0⟩, none⟩ ⟨⟨11/20, 0⟩, none⟩ s = .ok (e', s') ∧ TolInv env s'.vt ∧
    n1 (vden s'.vt.mem 1 e' 1 - ⟨11/20, 0⟩) ≤ 4 * (1/10) * (1 + n1 e'.w) * 1 := by
  have ht : (0 : ℚ) ≤ 1/10 := by norm_num
  obtain ⟨e, s, h1, h2, _⟩ := C46_makeVEdge env ht St.init (C46_reachable env ht _ .init) 0 0 (by decide)
    ⟨⟨1, 0⟩, none⟩ ⟨⟨1/2, 0⟩, none⟩ (.inl rfl) (.inl rfl)
  obtain ⟨e', s', h3, h4, _, _, _, _, h5⟩ := C46_makeVEdge env ht s h2 1 0 (by decide)
    ⟨⟨1, 0⟩, none⟩ ⟨⟨11/20, 0⟩, none⟩ (.inl rfl) (.inl rfl)
  refine ⟨e, s, e', s', h1, h2, h3, h4, ?_⟩
  have := h5 1 1 le_rfl (by simp [vptr, n1])
  simpa [vden, vptr, pick] using this

end QDD.Props
