import Verif.Props.Demo2
import Mathlib.Tactic.NormNum
import Mathlib.Tactic.Positivity
/-!
# C45: `prune` (src/dd.cpp 2466-2496)
-/

set_option linter.unusedSectionVars false
set_option linter.unusedVariables false
set_option linter.unusedSimpArgs false

namespace QDD

section model
variable {W : Type} [WOps W]

/-- Node memory. -/
abbrev VMem (W : Type) := Nat → Option (VNode W)

/-- `prune(vEdge &v, thr, num)` (dd.cpp 2466-2480).  `small w` is `sqrt(w.mag2()) < thr`.  Nodes are edited in place: the
result is the new value of the edge `v`, the count, and the new memory.  The code does not test for the terminal node: its
two child edges are zero-initialised with a null pointer (dd.cpp 50, dd.h 148-150), so there the calls either overwrite
those unused edges (`small 0`) or go through the null pointer.  The first argument bounds the depth (the level of `v`). -/
def pruneV (small : W → Bool) : Nat → Edge W → W → VMem W → Except Err (Edge W × Nat × VMem W)
  | k, e, num, mem =>
    let cur := WOps.mul num e.w
    if small cur then .ok (zeroE, 1, mem) else
    match e.n with
    | none => if small (WOps.mul cur WOps.zero) then .ok (e, 2, mem) else .error .badNode
    | some p => match k with
      | 0 => .error .assert
      | k + 1 => match mem p with
        | none => .error .badNode
        | some nd => match pruneV small k nd.c0 cur mem with
          | .error er => .error er
          | .ok (c0, r0, mem) => match mem p with
            | none => .error .badNode
            | some nd => match pruneV small k nd.c1 cur (upd mem p (some { nd with c0 := c0 })) with
              | .error er => .error er
              | .ok (c1, r1, mem) => match mem p with
                | none => .error .badNode
                | some nd => .ok (e, r0 + r1, upd mem p (some { nd with c1 := c1 }))

end model

namespace Props
namespace Prn
variable {W : Type} [Field W] [WOps W] [ExactW W]
open ExactW

/-- The new memory differs from the old one only by child edges replaced by zero edges. -/
def Le (m m' : VMem W) : Prop := ∀ p nd, m p = some nd → ∃ nd', m' p = some nd' ∧ nd'.v = nd.v ∧
  ∀ b, nd'.child b = nd.child b ∨ nd'.child b = zeroE

theorem Le.refl (m : VMem W) : Le m m := fun p nd h => ⟨nd, h, rfl, fun _ => .inl rfl⟩

theorem Le.trans {a b c : VMem W} (h : Le a b) (h' : Le b c) : Le a c := by
  intro p nd hp
  obtain ⟨n1, h1, h2, h3⟩ := h p nd hp
  obtain ⟨n2, h4, h5, h6⟩ := h' p n1 h1
  refine ⟨n2, h4, h5.trans h2, fun x => ?_⟩
  rcases h6 x with h | h
  · rw [h]; exact h3 x
  · exact .inr h

theorem Le.upd {m : VMem W} {p : Nat} {nd nd' : VNode W} (h : m p = some nd) (hv : nd'.v = nd.v)
    (hc : ∀ b, nd'.child b = nd.child b ∨ nd'.child b = zeroE) : Le m (upd m p (some nd')) := by
  intro q x hq
  by_cases e : q = p
  · subst e; rw [h] at hq; cases hq; exact ⟨nd', by simp, hv, hc⟩
  · exact ⟨x, by rw [upd_ne _ _ _ e]; exact hq, rfl, fun _ => .inl rfl⟩

/-- Whatever the diagram, `prune` only replaces edges by zero edges. -/
theorem prune_le (small : W → Bool) : ∀ (k : Nat) (e : Edge W) (num : W) (m : VMem W) e' r m',
    pruneV small k e num m = .ok (e', r, m') → Le m m' ∧ (e' = e ∨ e' = zeroE)
  | k, e, num, m, e', r, m', h => by
    unfold pruneV at h
    dsimp only at h
    split at h
    · cases h; exact ⟨Le.refl _, .inr rfl⟩
    split at h
    · split at h
      · cases h; exact ⟨Le.refl _, .inl rfl⟩
      · cases h
    next p hp =>
    cases k with
    | zero => cases h
    | succ k =>
      dsimp only at h
      split at h
      · cases h
      next nd hnd =>
      split at h
      · cases h
      next c0 r0 m1 h0 =>
      obtain ⟨l0, z0⟩ := prune_le small k _ _ _ _ _ _ h0
      obtain ⟨nd1, hnd1, hv1, hc1⟩ := l0 p nd hnd
      rw [hnd1] at h
      dsimp only at h
      split at h
      · cases h
      next c1 r1 m2 h1 =>
      obtain ⟨l1, z1⟩ := prune_le small k _ _ _ _ _ _ h1
      obtain ⟨nd2, hnd2, hv2, hc2⟩ := l1 p ⟨nd1.v, c0, nd1.c1⟩ (by simp)
      rw [hnd2] at h
      cases h
      refine ⟨?_, .inl rfl⟩
      have hm1 : ∀ q x, q ≠ p → m q = some x → ∃ y, m2 q = some y ∧ y.v = x.v ∧
          ∀ b, y.child b = x.child b ∨ y.child b = zeroE := by
        intro q x eq hq
        obtain ⟨y, h1, h2, h3⟩ := l0 q x hq
        obtain ⟨z, h4, h5, h6⟩ := l1 q y (by rw [upd_ne _ _ _ eq]; exact h1)
        refine ⟨z, h4, h5.trans h2, fun b => ?_⟩
        rcases h6 b with h | h
        · rw [h]; exact h3 b
        · exact .inr h
      intro q x hq
      by_cases eq : q = p
      · subst eq
        rw [hnd] at hq; cases hq
        refine ⟨⟨nd2.v, nd2.c0, c1⟩, by simp, hv2.trans hv1, fun b => ?_⟩
        cases b
        · show nd2.c0 = nd.c0 ∨ nd2.c0 = zeroE
          rcases hc2 false with h | h
          · have h : nd2.c0 = c0 := h
            rw [h]; exact z0
          · exact .inr h
        · show c1 = nd.c1 ∨ c1 = zeroE
          rcases z1 with h | h
          · rw [h]; exact hc1 true
          · exact .inr h
      · obtain ⟨y, h1, h2, h3⟩ := hm1 q x eq hq
        exact ⟨y, by rw [upd_ne _ _ _ eq]; exact h1, h2, h3⟩

/-- Well-levelled: every pointer below `n` leads to a node, at most `k` levels deep. -/
def WL (m : VMem W) : Nat → Option Nat → Prop
  | _, none => True
  | 0, some _ => False
  | k + 1, some p => ∃ nd, m p = some nd ∧ WL m k nd.c0.n ∧ WL m k nd.c1.n

theorem zeroE_n : (zeroE : Edge W).n = none := rfl

theorem WL.none (m : VMem W) (k : Nat) : WL m k none := by cases k <;> trivial

theorem Le.wl {m m' : VMem W} (h : Le m m') : ∀ {k n}, WL m k n → WL m' k n
  | k, .none, _ => WL.none _ _
  | 0, some _, hw => hw
  | k + 1, some p, ⟨nd, h1, h2, h3⟩ => by
    obtain ⟨nd', h4, _, h5⟩ := h p nd h1
    refine ⟨nd', h4, ?_, ?_⟩
    · rcases h5 false with h' | h' <;> replace h' : nd'.c0 = _ := h' <;> rw [h']
      · exact h.wl h2
      · exact WL.none _ _
    · rcases h5 true with h' | h' <;> replace h' : nd'.c1 = _ := h' <;> rw [h']
      · exact h.wl h3
      · exact WL.none _ _

theorem WL.edge {m m' : VMem W} {k : Nat} {e e' : Edge W} (h : Le m m') (hw : WL m k e.n)
    (he : e' = e ∨ e' = zeroE) : WL m' k e'.n := by
  rcases he with rfl | rfl
  · exact h.wl hw
  · exact WL.none _ _

/-- Under `Le` every amplitude is kept or becomes 0. -/
theorem Le.vptr {m m' : VMem W} (h : Le m m') : ∀ k n i, WL m k n → vptr m' k n i = vptr m k n i ∨ vptr m' k n i = 0
  | 0, _, _, _ => .inl rfl
  | _ + 1, .none, _, _ => .inl rfl
  | k + 1, some p, i, ⟨nd, hp, w0, w1⟩ => by
    simp only [QDD.vptr]
    obtain ⟨nd', h1, _, h3⟩ := h p nd hp
    rw [h1, hp]
    dsimp only
    have hw : WL m k (nd.child (i.testBit k)).n := by cases i.testBit k; exacts [w0, w1]
    rcases h3 (i.testBit k) with e | e <;> rw [e]
    · rcases h.vptr k (nd.child (i.testBit k)).n i hw with e | e <;> rw [e]
      · exact .inl rfl
      · exact .inr (mul_zero _)
    · exact .inr (by simp [zeroE, zero_eq])

/-- With a positive threshold `prune` returns on every well-levelled diagram. -/
theorem prune_total (small : W → Bool) (h0 : small 0 = true) : ∀ (k : Nat) (e : Edge W) (num : W) (m : VMem W),
    WL m k e.n → ∃ e' r m', pruneV small k e num m = .ok (e', r, m')
  | k, e, num, m, hw => by
    unfold pruneV
    dsimp only
    split
    · exact ⟨_, _, _, rfl⟩
    split
    · simp only [mul_eq, zero_eq, mul_zero, h0, if_true]; exact ⟨_, _, _, rfl⟩
    next p hp =>
    rw [hp] at hw
    cases k with
    | zero => exact hw.elim
    | succ k =>
      obtain ⟨nd, h1, h2, h3⟩ := hw
      obtain ⟨c0, r0, m1, e0⟩ := prune_total small h0 k nd.c0 (WOps.mul num e.w) m h2
      obtain ⟨l0, z0⟩ := prune_le small k _ _ _ _ _ _ e0
      obtain ⟨nd1, hnd1, hv1, hc1⟩ := l0 p nd h1
      have l01 : Le m (upd m1 p (some ⟨nd1.v, c0, nd1.c1⟩)) := by
        intro q x hq
        by_cases eq : q = p
        · subst eq
          rw [h1] at hq; cases hq
          refine ⟨⟨nd1.v, c0, nd1.c1⟩, by simp, hv1, fun b => ?_⟩
          cases b
          · exact z0
          · exact hc1 true
        · obtain ⟨y, h1, h2, h3⟩ := l0 q x hq
          exact ⟨y, by rw [upd_ne _ _ _ eq]; exact h1, h2, h3⟩
      obtain ⟨c1, r1, m2, e1⟩ := prune_total small h0 k nd1.c1 (WOps.mul num e.w) _
        (WL.edge l01 h3 (hc1 true))
      obtain ⟨l1, z1⟩ := prune_le small k _ _ _ _ _ _ e1
      obtain ⟨nd2, hnd2, hv2, hc2⟩ := l1 p ⟨nd1.v, c0, nd1.c1⟩ (by simp)
      simp only [h1, e0, hnd1, e1, hnd2]
      exact ⟨_, _, _, rfl⟩

/-- No node is shared: `s` is the set of nodes below `n`. -/
def Tree (m : VMem W) : Nat → Option Nat → Finset Nat → Prop
  | _, none, s => s = ∅
  | 0, some _, _ => False
  | k + 1, some p, s => ∃ nd s0 s1, m p = some nd ∧ Tree m k nd.c0.n s0 ∧ Tree m k nd.c1.n s1 ∧
      Disjoint s0 s1 ∧ p ∉ s0 ∧ p ∉ s1 ∧ s = insert p (s0 ∪ s1)

theorem Tree.none (m : VMem W) (k : Nat) : Tree m k none ∅ := by cases k <;> rfl

theorem Tree.wl {m : VMem W} : ∀ {k n s}, Tree m k n s → WL m k n
  | k, .none, _, _ => WL.none _ _
  | 0, some _, _, h => h.elim
  | k + 1, some p, _, ⟨nd, _, _, h1, h2, h3, _⟩ => ⟨nd, h1, h2.wl, h3.wl⟩

theorem Tree.frame {m m' : VMem W} : ∀ {k n s}, Tree m k n s → (∀ q ∈ s, m' q = m q) →
    Tree m' k n s ∧ ∀ i, vptr m' k n i = vptr m k n i
  | k, .none, _, h, _ => by
    refine ⟨by cases k <;> exact h, fun i => by cases k <;> rfl⟩
  | 0, some _, _, h, _ => h.elim
  | k + 1, some p, _, ⟨nd, s0, s1, h1, h2, h3, h4, h5, h6, rfl⟩, hq => by
    have a0 := h2.frame (m' := m') (fun q h => hq q (by simp [h]))
    have a1 := h3.frame (m' := m') (fun q h => hq q (by simp [h]))
    have hp : m' p = some nd := by rw [hq p (by simp), h1]
    refine ⟨⟨nd, s0, s1, hp, a0.1, a1.1, h4, h5, h6, rfl⟩, fun i => ?_⟩
    simp only [QDD.vptr, hp, h1]
    cases i.testBit k
    · rw [show (nd.child false) = nd.c0 from rfl, a0.2]
    · rw [show (nd.child true) = nd.c1 from rfl, a1.2]

/-- Some prefix of the weights met on the path of index `i` (starting from the factor `num`) has a small product. -/
def Cut (small : W → Bool) (m : VMem W) : Nat → Edge W → W → Nat → Prop
  | 0, e, num, _ => small (num * e.w) = true
  | k + 1, e, num, i => small (num * e.w) = true ∨ ∃ p nd, e.n = some p ∧ m p = some nd ∧
      Cut small m k (nd.child (i.testBit k)) (num * e.w) i

theorem Cut.frame {small : W → Bool} {m m' : VMem W} : ∀ {k e s num i}, Tree m k e.n s → (∀ q ∈ s, m' q = m q) →
    Cut small m' k e num i → Cut small m k e num i
  | 0, _, _, _, _, _, _, h => h
  | k + 1, e, s, num, i, ht, hq, h => by
    rcases h with h | ⟨p, nd, h1, h2, h3⟩
    · exact .inl h
    · rw [h1] at ht
      obtain ⟨nd', s0, s1, g1, g2, g3, g4, g5, g6, rfl⟩ := ht
      rw [hq p (by simp), g1] at h2; cases h2
      refine .inr ⟨p, nd, h1, g1, ?_⟩
      revert h3
      cases i.testBit k
      · exact Cut.frame (e := nd.c0) g2 (fun q h => hq q (by simp [h]))
      · exact Cut.frame (e := nd.c1) g3 (fun q h => hq q (by simp [h]))

theorem prune_tree (small : W → Bool) (h0 : small 0 = true) : ∀ (k : Nat) (e : Edge W) (num : W) (m : VMem W) s,
    Tree m k e.n s → ∀ e' r m', pruneV small k e num m = .ok (e', r, m') →
    (∀ q, q ∉ s → m' q = m q) ∧ (∃ s', s' ⊆ s ∧ Tree m' k e'.n s') ∧
    ∀ i, vden m' k e' i = vden m k e i ∨ (vden m' k e' i = 0 ∧ Cut small m k e num i)
  | k, e, num, m, s, ht, e', r, m', h => by
    unfold pruneV at h
    dsimp only at h
    split at h
    · next hs =>
      cases h
      refine ⟨fun _ _ => rfl, ⟨∅, by simp, Tree.none _ _⟩, fun i => .inr ⟨?_, ?_⟩⟩
      · simp [vden, zeroE, zero_eq]
      · rw [mul_eq] at hs; cases k
        · exact hs
        · exact .inl hs
    split at h
    · split at h
      · cases h; exact ⟨fun _ _ => rfl, ⟨s, fun _ h => h, ht⟩, fun i => .inl rfl⟩
      · cases h
    next p hp =>
    rw [hp] at ht
    cases k with
    | zero => cases h
    | succ k =>
      obtain ⟨nd, s0, s1, h1, t0, t1, hd, hp0, hp1, rfl⟩ := ht
      rw [h1] at h
      dsimp only at h
      split at h
      · cases h
      next c0 r0 m1 e0 =>
      obtain ⟨f0, ⟨s0', hs0, t0'⟩, v0⟩ := prune_tree small h0 k _ _ _ _ t0 _ _ _ e0
      rw [f0 p hp0, h1] at h
      dsimp only at h
      split at h
      · cases h
      next c1 r1 m2 e1 =>
      have fr1 : ∀ q ∈ s1, upd m1 p (some ⟨nd.v, c0, nd.c1⟩) q = m q := by
        intro q hq
        rw [upd_ne _ _ _ (fun e : q = p => hp1 (e ▸ hq))]
        exact f0 q (fun h => (Finset.disjoint_left.1 hd h) hq)
      have T1 := t1.frame fr1
      obtain ⟨f1, ⟨s1', hs1, t1'⟩, v1⟩ := prune_tree small h0 k _ _ _ _ T1.1 _ _ _ e1
      rw [f1 p hp1, upd_same] at h
      cases h
      have fr0 : ∀ q ∈ s0', upd m2 p (some ⟨nd.v, c0, c1⟩) q = m1 q := by
        intro q hq
        have hq' := hs0 hq
        rw [upd_ne _ _ _ (fun e : q = p => hp0 (e ▸ hq')), f1 q (Finset.disjoint_left.1 hd hq'),
          upd_ne _ _ _ (fun e : q = p => hp0 (e ▸ hq'))]
      have fr2 : ∀ q ∈ s1', upd m2 p (some ⟨nd.v, c0, c1⟩) q = m2 q := by
        intro q hq
        rw [upd_ne _ _ _ (fun e : q = p => hp1 (e ▸ hs1 hq))]
      have T0 := t0'.frame fr0
      have T2 := t1'.frame fr2
      refine ⟨?_, ⟨insert p (s0' ∪ s1'), ?_, ?_⟩, fun i => ?_⟩
      · intro q hq
        simp only [Finset.mem_insert, Finset.mem_union, not_or] at hq
        rw [upd_ne _ _ _ hq.1, f1 q hq.2.2, upd_ne _ _ _ hq.1, f0 q hq.2.1]
      · exact Finset.insert_subset_insert _ (Finset.union_subset_union hs0 hs1)
      · rw [hp]
        exact ⟨⟨nd.v, c0, c1⟩, s0', s1', by simp, T0.1, T2.1, Finset.disjoint_of_subset_left hs0
          (Finset.disjoint_of_subset_right hs1 hd), fun h => hp0 (hs0 h), fun h => hp1 (hs1 h), rfl⟩
      · have hv : vden (upd m2 p (some ⟨nd.v, c0, c1⟩)) (k + 1) e i = e.w * (if i.testBit k then vden m2 k c1 i else vden m1 k c0 i) := by
          simp only [vden, hp, QDD.vptr, upd_same]
          cases i.testBit k
          · have := T0.2 i
            simp only [VNode.child, Bool.false_eq_true, if_false, this]
          · have := T2.2 i
            simp only [VNode.child, if_true, this]
        have hv' : vden m (k + 1) e i = e.w * (if i.testBit k then vden m k nd.c1 i else vden m k nd.c0 i) := by
          simp only [vden, hp, QDD.vptr, h1]
          cases i.testBit k <;> rfl
        rw [hv, hv']
        cases hb : i.testBit k
        · rcases v0 i with hh | ⟨hh, hc⟩
          · left; simp [hh]
          · right
            refine ⟨by simp [hh], .inr ⟨p, nd, hp, h1, ?_⟩⟩
            rw [hb, ← mul_eq]; exact hc
        · rcases v1 i with hh | ⟨hh, hc⟩
          · left; simp only [if_true, hh]; simp only [vden, T1.2]
          · right
            refine ⟨by simp [hh], .inr ⟨p, nd, hp, h1, ?_⟩⟩
            rw [hb, ← mul_eq]; exact Cut.frame t1 fr1 hc

end Prn

open Spec Api Prn Cx
variable {K : Type} [Field K] [LinearOrder K] [IsStrictOrderedRing K]

/-- `sqrt(w.mag2()) < thr` (dd.cpp 2469, 2471), for a threshold that is not negative. -/
def belowThr (thr : K) (w : C K) : Bool := decide (mag2 w < thr * thr)

theorem belowThr_zero {thr : K} (ht : 0 < thr) : belowThr thr (0 : C K) = true := by
  have := mul_pos ht ht
  simpa [belowThr, mag2] using this

namespace Prn

theorem WL.of_inv {env : Env (C K)} {s : St (C K)} (hi : Inv env s) : ∀ {k n}, VPtrOk env s k n → WL s.vt.mem k n := by
  intro k
  induction k with
  | zero =>
    rintro n (⟨_, rfl⟩ | ⟨p, nd, rfl, h2, h3⟩)
    · exact WL.none _ _
    · obtain ⟨k, hk, _⟩ := hi.vlevel h2; omega
  | succ k ih =>
    rintro n (⟨h, _⟩ | ⟨p, nd, rfl, h2, h3⟩)
    · cases h
    · have hk : nd.v = k := by push_cast at h3; omega
      have hc : ∀ b, WL s.vt.mem k (nd.child b).n := fun b => by
        rcases (hi.vn p nd h2).ok b hk with h | ⟨_, h⟩
        · exact ih h
        · rw [h]; exact WL.none _ _
      exact ⟨nd, h2.1, hc false, hc true⟩

theorem WL.of_vok {env : Env (C K)} {s : St (C K)} (hi : Inv env s) {k e} (h : VOk env s k e) : WL s.vt.mem k e.n := by
  rcases h with h | ⟨_, h⟩
  · exact WL.of_inv hi h
  · rw [h]; exact WL.none _ _

theorem child_le {env : Env (C K)} {s : St (C K)} (hi : Inv env s) {p nd} (h : UTable.Reg env.hv s.vt p nd) (b : Bool) :
    mag2 (nd.child b).w ≤ 1 := by
  have hm := (hi.vn p nd h).max
  have hlt : ∀ a b : C K, WOps.lt a b = decide (mag2 a < mag2 b) := fun _ _ => rfl
  rw [hlt] at hm
  by_cases hd : mag2 nd.c0.w < mag2 nd.c1.w
  · simp only [hd, decide_true, if_true] at hm
    cases b
    · show mag2 nd.c0.w ≤ 1
      rw [hm, mag2_one] at hd; exact hd.le
    · show mag2 nd.c1.w ≤ 1
      rw [hm, mag2_one]
  · simp only [hd, decide_false, Bool.false_eq_true, if_false] at hm
    cases b
    · show mag2 nd.c0.w ≤ 1
      rw [hm, mag2_one]
    · show mag2 nd.c1.w ≤ 1
      rw [hm, mag2_one] at hd; exact not_lt.1 hd

theorem vptr_le {env : Env (C K)} {s : St (C K)} (hi : Inv env s) : ∀ {k n}, VPtrOk env s k n → ∀ i,
    mag2 (vptr s.vt.mem k n i) ≤ 1 := by
  intro k
  induction k with
  | zero => intro n _ i; simp [vptr, mag2_one]
  | succ k ih =>
    rintro n (⟨h, _⟩ | ⟨p, nd, rfl, h2, h3⟩) i
    · cases h
    · have hk : nd.v = k := by push_cast at h3; omega
      simp only [vptr, h2.1, mag2_mul]
      have h1 := child_le hi h2 (i.testBit k)
      rcases (hi.vn p nd h2).ok (i.testBit k) hk with h | ⟨h, _⟩
      · exact mul_le_one₀ h1 (mag2_nonneg _) (ih h i)
      · rw [h]; simp [mag2]

theorem vden_le {env : Env (C K)} {s : St (C K)} (hi : Inv env s) {k e} (h : VOk env s k e) (i : Nat) :
    mag2 (vden s.vt.mem k e i) ≤ mag2 e.w := by
  unfold vden
  rw [mag2_mul]
  rcases h with h | ⟨h, _⟩
  · exact mul_le_of_le_one_right (mag2_nonneg _) (vptr_le hi h i)
  · rw [h]; simp [mag2]

/-- A small prefix product makes the amplitude small. -/
theorem Cut.small {env : Env (C K)} {s : St (C K)} (hi : Inv env s) {thr : K} : ∀ {k e num i}, VOk env s k e →
    Cut (belowThr thr) s.vt.mem k e num i → mag2 (num * vden s.vt.mem k e i) < thr * thr := by
  have base : ∀ {k e num i}, VOk env s k e → belowThr thr (num * e.w) = true →
      mag2 (num * vden s.vt.mem k e i) < thr * thr := by
    intro k e num i h hc
    have hc : mag2 (num * e.w) < thr * thr := by simpa [belowThr] using hc
    refine lt_of_le_of_lt ?_ hc
    rw [mag2_mul, mag2_mul]
    exact mul_le_mul_of_nonneg_left (vden_le hi h i) (mag2_nonneg _)
  intro k
  induction k with
  | zero => intro e num i h hc; exact base h hc
  | succ k ih =>
    intro e num i h hc
    rcases hc with hc | ⟨p, nd, h1, h2, h3⟩
    · exact base h hc
    · rcases h with (⟨h, _⟩ | ⟨p', nd', g1, g2, g3⟩) | ⟨_, h⟩
      · cases h
      · rw [h1] at g1; cases g1
        rw [g2.1] at h2; cases h2
        have hk : nd.v = k := by push_cast at g3; omega
        have := ih ((hi.vn p nd g2).ok (i.testBit k) hk) h3
        have e2 : vden s.vt.mem (k + 1) e i = e.w * vden s.vt.mem k (nd.child (i.testBit k)) i := by
          simp only [vden, h1, vptr, g2.1]
        rw [e2, ← mul_assoc]; exact this
      · rw [h1] at h; cases h

end Prn

/-- **C45, for every diagram.**  After any history and for every live vector, `prune` with a positive threshold returns,
and every amplitude read afterwards through this handle, or through any other live vector handle (they may share nodes),
is the old one or 0: pruning never produces a new value. -/
theorem C45_only_zeroes (cfg : Cfg K) (gthr gthrM : Nat) (cs : List (Cmd K)) (h : Heap K) (σ : Sys K) (os : List (Obs K))
    (hR : Hist cfg gthr gthrM cs h σ os) (v : Nat) (V : Vec K) (hv : h.vs[v]? = some V) (thr : K) (ht : 0 < thr) :
    ∃ e e' r mem', σ.d.vs[v]? = some e ∧ pruneV (belowThr thr) V.k e 1 σ.st.vt.mem = .ok (e', r, mem') ∧
      (∀ i < 2 ^ V.k, vden mem' V.k e' i = V.f i ∨ vden mem' V.k e' i = 0) ∧
      ∀ (u : Nat) (U : Vec K), h.vs[u]? = some U → ∃ eu, σ.d.vs[u]? = some eu ∧
        ∀ i < 2 ^ U.k, vden mem' U.k eu i = U.f i ∨ vden mem' U.k eu i = 0 := by
  have hr := hR.rel
  obtain ⟨e, he, h1, h2, h3⟩ := forall₂_get hr.data.vs hv
  obtain ⟨e', r, mem', hp⟩ := prune_total (belowThr thr) (belowThr_zero ht) V.k e 1 σ.st.vt.mem (WL.of_vok hr.inv h2)
  obtain ⟨hl, hz⟩ := prune_le _ _ _ _ _ _ _ _ hp
  have key : ∀ k x, VOk cfg.env σ.st k x → ∀ i, vden mem' k x i = vden σ.st.vt.mem k x i ∨ vden mem' k x i = 0 := by
    intro k x hx i
    unfold vden
    rcases hl.vptr k x.n i (WL.of_vok hr.inv hx) with h | h <;> rw [h]
    · exact .inl rfl
    · exact .inr (mul_zero _)
  refine ⟨e, e', r, mem', he, hp, fun i hi => ?_, fun u U hu => ?_⟩
  · rcases hz with rfl | rfl
    · rw [← h3 i hi]; exact key _ _ h2 i
    · exact .inr (vden_zero_w rfl i)
  · obtain ⟨eu, heu, g1, g2, g3⟩ := forall₂_get hr.data.vs hu
    exact ⟨eu, heu, fun i hi => by rw [← g3 i hi]; exact key _ _ g2 i⟩

/-- **C45, partial.**  If no node of the diagram is shared, `prune` with threshold `thr > 0` changes the amplitude of a
basis state only if its magnitude was below `thr`, and then it becomes 0.  Missing: diagrams with shared nodes, for which
the claim is false (`C45_shared_wrong`). -/
theorem C45_tree_partial (cfg : Cfg K) (gthr gthrM : Nat) (cs : List (Cmd K)) (h : Heap K) (σ : Sys K) (os : List (Obs K))
    (hR : Hist cfg gthr gthrM cs h σ os) (v : Nat) (V : Vec K) (hv : h.vs[v]? = some V) (thr : K) (ht : 0 < thr)
    (e : Edge (C K)) (he : σ.d.vs[v]? = some e) (nodes : Finset Nat) (htree : Tree σ.st.vt.mem V.k e.n nodes) :
    ∃ e' r mem', pruneV (belowThr thr) V.k e 1 σ.st.vt.mem = .ok (e', r, mem') ∧
      ∀ i < 2 ^ V.k, vden mem' V.k e' i = V.f i ∨ (vden mem' V.k e' i = 0 ∧ mag2 (V.f i) < thr * thr) := by
  have hr := hR.rel
  obtain ⟨e', he', h1, h2, h3⟩ := forall₂_get hr.data.vs hv
  rw [he] at he'; cases he'
  obtain ⟨e', r, mem', hp⟩ := prune_total (belowThr thr) (belowThr_zero ht) V.k e 1 σ.st.vt.mem (WL.of_vok hr.inv h2)
  obtain ⟨_, _, hv⟩ := prune_tree _ (belowThr_zero ht) _ _ _ _ _ htree _ _ _ hp
  refine ⟨e', r, mem', hp, fun i hi => ?_⟩
  rcases hv i with h | ⟨h, hc⟩
  · left; rw [h, h3 i hi]
  · right
    refine ⟨h, ?_⟩
    have := Cut.small hr.inv h2 hc
    rwa [one_mul, h3 i hi] at this

/-- The state with amplitudes 1/2, 1/8, 1, 1/4. -/
def shV : Vec ℚ := ⟨2, fun i => if i = 0 then ⟨1/2, 0⟩ else if i = 1 then ⟨1/8, 0⟩ else if i = 2 then ⟨1, 0⟩ else ⟨1/4, 0⟩⟩

namespace Prn

theorem sh_shape {env : Env (C ℚ)} {s : St (C ℚ)} (hi : Inv env s) {e : Edge (C ℚ)} (hr : VRel env s shV e) :
    e.w = 1 ∧ ∃ p q nd nd', e.n = some p ∧ s.vt.mem p = some nd ∧ s.vt.mem q = some nd' ∧ p ≠ q ∧
      nd.c0 = ⟨⟨1/2, 0⟩, some q⟩ ∧ nd.c1 = ⟨1, some q⟩ ∧ nd'.c0 = ⟨1, none⟩ ∧ nd'.c1 = ⟨⟨1/4, 0⟩, none⟩ := by
  have hlt : ∀ a b : C ℚ, WOps.lt a b = decide (mag2 a < mag2 b) := fun _ _ => rfl
  have half : (⟨1/2, 0⟩ : C ℚ) * (1 + 1) = 1 := by ext <;> simp <;> norm_num
  have quart : (⟨1/4, 0⟩ : C ℚ) * (1 + 1) * (1 + 1) = 1 := by ext <;> simp <;> norm_num
  have eig : (1 + 1) * (⟨1/8, 0⟩ : C ℚ) = ⟨1/4, 0⟩ := by ext <;> simp <;> norm_num
  have two : (1 + 1 : C ℚ) ≠ 0 := fun h => by
    have h : (1 : ℚ) + 1 = 0 := congrArg Cx.r h
    norm_num at h
  have one' : (⟨1, 0⟩ : C ℚ) = 1 := rfl
  obtain ⟨ho, hw⟩ := hr.nonzero ⟨2, by decide, by show (⟨1, 0⟩ : C ℚ) ≠ 0; rw [one']; exact one_ne_zero⟩
  rcases ho with ⟨h, _⟩ | ⟨p, nd, hp, h2, h3⟩
  · cases h
  have hk : nd.v = (1 : Nat) := by have : nd.v + 1 = ((2 : Nat) : Int) := h3; push_cast at this ⊢; omega
  have hn := hi.vn p nd h2
  have amp : ∀ b i, i < 2 → e.w * ((nd.child b).w * vptr s.vt.mem 1 (nd.child b).n i) = shV.f (bidx 1 b i) := by
    intro b i hi'
    rw [← hr.2.2 _ (bidx_lt (k := 1) hi' b)]
    show _ = vden s.vt.mem (1 + 1) e (bidx 1 b i)
    rw [vden, hp, vptr_top h2.1 b hi', vden]
  have a00 := amp false 0 (by decide)
  have a01 := amp false 1 (by decide)
  have a10 := amp true 0 (by decide)
  have a11 := amp true 1 (by decide)
  replace a00 : e.w * ((nd.child false).w * vptr s.vt.mem 1 (nd.child false).n 0) = ⟨1/2, 0⟩ := a00
  replace a01 : e.w * ((nd.child false).w * vptr s.vt.mem 1 (nd.child false).n 1) = ⟨1/8, 0⟩ := a01
  replace a10 : e.w * ((nd.child true).w * vptr s.vt.mem 1 (nd.child true).n 0) = 1 := a10
  replace a11 : e.w * ((nd.child true).w * vptr s.vt.mem 1 (nd.child true).n 1) = ⟨1/4, 0⟩ := a11
  have w0 : (nd.child false).w ≠ 0 := fun h => by
    rw [h] at a00; have := congrArg Cx.r a00; simp at this
  have w1 : (nd.child true).w ≠ 0 := fun h => by
    rw [h] at a10; simp at a10
  have o0 := (hn.ok false hk).resolve_right fun h => w0 h.1
  have o1 := (hn.ok true hk).resolve_right fun h => w1 h.1
  have hc := vptr_canon hi (c := (nd.child true).w / ((1 + 1) * (nd.child false).w)) o0 o1
    (div_ne_zero w1 (mul_ne_zero two w0)) (by
      intro i hi'
      have : i = 0 ∨ i = 1 := by have : i < 2 := hi'; omega
      rw [div_mul_eq_mul_div, eq_div_iff (mul_ne_zero two w0)]
      rcases this with rfl | rfl
      · apply mul_left_cancel₀ hw
        linear_combination (1 + 1) * a00 - a10 + half
      · apply mul_left_cancel₀ hw
        linear_combination (1 + 1) * a01 - a11 + eig)
  obtain ⟨hq, hc⟩ := hc
  have hc : (nd.child true).w = (1 + 1) * (nd.child false).w := by
    rw [div_eq_one_iff_eq (mul_ne_zero two w0)] at hc; exact hc
  have m4 : ∀ a : C ℚ, a ≠ 0 → mag2 a < mag2 ((1 + 1) * a) := fun a ha => by
    have h0 : 0 < mag2 a := lt_of_le_of_ne (mag2_nonneg a) fun h => ha (mag2_eq_zero.1 h.symm)
    rw [mag2_mul]
    have : mag2 (1 + 1 : C ℚ) = 4 := by simp [mag2]; norm_num
    rw [this]; linarith
  have hm := hn.max
  rw [hlt, show nd.c1.w = (1 + 1) * nd.c0.w from hc, decide_eq_true (m4 nd.c0.w w0), if_pos rfl] at hm
  have e0 : (nd.child false).w = ⟨1/2, 0⟩ := by
    have : (1 + 1) * (nd.child false).w = 1 := hm
    apply mul_left_cancel₀ two
    rw [this, mul_comm, half]
  have e1 : (nd.child true).w = 1 := by rw [hc]; exact hm
  rcases o1 with ⟨h, _⟩ | ⟨q, nd', hq1, g2, g3⟩
  · cases h
  have hk' : nd'.v = (0 : Nat) := by push_cast at g3 ⊢; omega
  have hn' := hi.vn q nd' g2
  have vq : ∀ b, vptr s.vt.mem 1 (some q) (bidx 0 b 0) = (nd'.child b).w := by
    intro b
    rw [show (1 : Nat) = 0 + 1 from rfl, vptr_top g2.1 b (by decide), vden]
    simp [vptr]
  rw [hq1, e1, one_mul] at a10 a11
  have vq0 : vptr s.vt.mem 1 (some q) 0 = (nd'.child false).w := vq false
  have vq1 : vptr s.vt.mem 1 (some q) 1 = (nd'.child true).w := vq true
  rw [vq0] at a10
  rw [vq1] at a11
  have u1 : (nd'.child true).w ≠ 0 := fun h => by
    rw [h] at a11; have := congrArg Cx.r a11; simp at this
  have u0 : (nd'.child false).w ≠ 0 := fun h => by rw [h] at a10; simp at a10
  have hr4 : (nd'.child false).w = (1 + 1) * ((1 + 1) * (nd'.child true).w) := by
    apply mul_left_cancel₀ hw
    linear_combination a10 - (1 + 1) * (1 + 1) * a11 - quart
  have hm' := hn'.max
  have hge : ¬ mag2 nd'.c0.w < mag2 nd'.c1.w := by
    have h1 := m4 _ u1
    have h2 := m4 _ (mul_ne_zero two u1)
    rw [show nd'.c0.w = (1 + 1) * ((1 + 1) * nd'.c1.w) from hr4]
    exact not_lt.2 (h1.trans h2).le
  rw [hlt, decide_eq_false hge, if_neg (by simp)] at hm'
  have hew : e.w = 1 := by
    rw [show (nd'.child false).w = 1 from hm', mul_one] at a10; exact a10
  have hch : ∀ b, (nd'.child b).n = none := by
    intro b
    rcases hn'.ok b hk' with (⟨_, h⟩ | ⟨x, y, h, hx, hy⟩) | ⟨_, h⟩
    · exact h
    · obtain ⟨k, hk, _⟩ := hi.vlevel hx; omega
    · exact h
  refine ⟨hew, p, q, nd, nd', hp, h2.1, g2.1, ?_, ?_, ?_, ?_, ?_⟩
  · intro h; subst h
    have := Reg.inj h2 g2; subst this
    rw [hk] at hk'; exact absurd hk' (by decide)
  · show nd.child false = _
    rw [show nd.child false = ⟨(nd.child false).w, (nd.child false).n⟩ from rfl, e0, hq, hq1]
  · show nd.child true = _
    rw [show nd.child true = ⟨(nd.child true).w, (nd.child true).n⟩ from rfl, e1, hq1]
  · show nd'.child false = _
    rw [show nd'.child false = ⟨(nd'.child false).w, (nd'.child false).n⟩ from rfl, hch false, show (nd'.child false).w = 1 from hm']
  · show nd'.child true = _
    rw [show nd'.child true = ⟨(nd'.child true).w, (nd'.child true).n⟩ from rfl, hch true]
    rw [hew, one_mul] at a11; rw [a11]

end Prn

/-- **C45 is false with shared nodes.**  After any history, for every live handle of the state (1/2, 1/8, 1, 1/4), pruning
with threshold 1/5 sets the amplitude 1/4 of index 3 to 0. -/
theorem C45_shared_wrong (cfg : Cfg ℚ) (gthr gthrM : Nat) (cs : List (Cmd ℚ)) (h : Heap ℚ) (σ : Sys ℚ) (os : List (Obs ℚ))
    (hR : Hist cfg gthr gthrM cs h σ os) (v : Nat) (V : Vec ℚ) (hv : h.vs[v]? = some V) (hk : V.k = 2)
    (hf : ∀ i < 4, V.f i = shV.f i) :
    ∃ e e' r mem', σ.d.vs[v]? = some e ∧ pruneV (belowThr (1/5)) 2 e 1 σ.st.vt.mem = .ok (e', r, mem') ∧
      vden mem' 2 e' 3 = 0 ∧ V.f 3 = ⟨1/4, 0⟩ ∧ ¬ mag2 (V.f 3) < (1/5) * (1/5) := by
  have hr := hR.rel
  obtain ⟨e, he, h1, h2, h3⟩ := forall₂_get hr.data.vs hv
  have hV : V.f 3 = ⟨1/4, 0⟩ := by rw [hf 3 (by decide)]; rfl
  obtain ⟨hw, p, q, nd, nd', e1, e2, e3, hpq, e4, e5, e6, e7⟩ := sh_shape (env := cfg.env) hr.inv (e := e)
    ⟨by decide, by rw [hk] at h2; exact h2, fun i hi => by rw [← hf i hi, ← h3 i (by rw [hk]; exact hi), hk]; rfl⟩
  have bt : ∀ w : C ℚ, belowThr (1/5) w = decide (mag2 w < 1/25) := fun w => by unfold belowThr; norm_num
  have r1 : ∀ a : C ℚ, WOps.mul a 1 = a := fun a => mul_one a
  have r2 : ∀ a : C ℚ, WOps.mul 1 a = a := fun a => one_mul a
  have b1 : belowThr (1/5) (1 : C ℚ) = false := by rw [bt]; simp [mag2]; norm_num
  have b2 : belowThr (1/5) (⟨1/2, 0⟩ : C ℚ) = false := by rw [bt]; simp [mag2]; norm_num
  have b0 : belowThr (1/5) (WOps.mul (⟨1/2, 0⟩ : C ℚ) WOps.zero) = true := by
    rw [bt]; simp [mag2, WOps.mul, WOps.zero, cmul]
  have b0' : belowThr (1/5) (WOps.zero : C ℚ) = true := by
    rw [bt]; simp [mag2, WOps.zero]
  have b8 : belowThr (1/5) (WOps.mul (⟨1/2, 0⟩ : C ℚ) ⟨1/4, 0⟩) = true := by
    rw [bt]; simp [mag2, WOps.mul, cmul]; norm_num
  have run : pruneV (belowThr (1/5)) 2 e 1 σ.st.vt.mem = .ok (e, 6, upd (upd (upd (upd (upd (upd σ.st.vt.mem q
      (some ⟨nd'.v, ⟨1, none⟩, ⟨⟨1/4, 0⟩, none⟩⟩)) q (some ⟨nd'.v, ⟨1, none⟩, zeroE⟩)) p
      (some ⟨nd.v, ⟨⟨1/2, 0⟩, some q⟩, ⟨1, some q⟩⟩)) q (some ⟨nd'.v, ⟨1, none⟩, zeroE⟩)) q
      (some ⟨nd'.v, ⟨1, none⟩, zeroE⟩)) p (some ⟨nd.v, ⟨⟨1/2, 0⟩, some q⟩, ⟨1, some q⟩⟩)) := by
    have hqp := hpq.symm
    obtain ⟨ndv, nd0, nd1⟩ := nd
    obtain ⟨ndv', nd0', nd1'⟩ := nd'
    simp only at e4 e5 e6 e7
    subst e4 e5 e6 e7
    simp only [pruneV, hw, r1, r2, b1, e1, e2, e3, b2, b0, b0', b8, if_true, if_false, upd, hpq, hqp, zeroE,
      Bool.false_eq_true, reduceCtorEq]
  refine ⟨e, e, _, _, he, run, ?_, hV, ?_⟩
  · have t1 : Nat.testBit 3 1 = true := rfl
    have t0 : Nat.testBit 3 0 = true := rfl
    have hz : (zeroE : Edge (C ℚ)).w = 0 := rfl
    rw [vden, e1, vptr, upd_same]
    simp only [t1, VNode.child, if_true]
    rw [vptr, upd_ne _ _ _ hpq.symm, upd_same]
    simp only [t0, VNode.child, if_true, hz, zero_mul, mul_zero]
  · rw [hV]; norm_num [mag2]

/-- **C45 fails for the threshold 0** (and below): no product is under it, so the recursion runs past the terminal node
into its null child pointers.  After any history, for every live vector. -/
theorem C45_thr0_wrong (cfg : Cfg K) (gthr gthrM : Nat) (cs : List (Cmd K)) (h : Heap K) (σ : Sys K) (os : List (Obs K))
    (hR : Hist cfg gthr gthrM cs h σ os) (v : Nat) (V : Vec K) (hv : h.vs[v]? = some V) :
    ∃ e, σ.d.vs[v]? = some e ∧ pruneV (belowThr 0) V.k e 1 σ.st.vt.mem = .error .badNode := by
  have hr := hR.rel
  obtain ⟨e, he, h1, h2, h3⟩ := forall₂_get hr.data.vs hv
  have hb : ∀ w : C K, belowThr 0 w = false := fun w => by simp [belowThr, mag2_nonneg]
  refine ⟨e, he, ?_⟩
  have key : ∀ k e num, VOk cfg.env σ.st k e → pruneV (belowThr 0) k e num σ.st.vt.mem = .error .badNode := by
    intro k
    induction k with
    | zero =>
      intro e num ho
      have hn : e.n = none := by
        rcases ho with (⟨_, h⟩ | ⟨p, nd, hp, g2, g3⟩) | ⟨_, h⟩
        · exact h
        · obtain ⟨k, hk, _⟩ := hr.inv.vlevel g2; omega
        · exact h
      simp [pruneV, hb, hn]
    | succ k ih =>
      intro e num ho
      rcases ho with (⟨h, _⟩ | ⟨p, nd, hp, g2, g3⟩) | ⟨_, h⟩
      · cases h
      · have hk : nd.v = k := by push_cast at g3; omega
        have := ih nd.c0 (WOps.mul num e.w) ((hr.inv.vn p nd g2).ok false hk)
        unfold pruneV
        simp [hb, hp, g2.1, this]
      · simp [pruneV, hb, h]
  exact key _ _ _ h2

/-! ## Non-vacuity -/

/-- Single-qubit gates whose first columns are (1/2, 1) and (1, 1/4). -/
def shA : Nat → Nat → C ℚ := fun r c => if c = 0 then (if r = 0 then ⟨1/2, 0⟩ else ⟨1, 0⟩) else 0
def shB : Nat → Nat → C ℚ := fun r c => if c = 0 then (if r = 0 then ⟨1, 0⟩ else ⟨1/4, 0⟩) else 0
def shMA : Mat ℚ := ⟨1, Spec.gate1 1 shA 0 []⟩
def shMB : Mat ℚ := ⟨1, Spec.gate1 1 shB 0 []⟩
def shCmds : List (Cmd ℚ) := [.zero 1, .gate 1 shA 0 [], .gate 1 shB 0 [], .mv 0 0, .mv 1 0, .vkron 1 2]
def shHeap : Heap ℚ := ⟨[basis 1 0, shMA.apply (basis 1 0), shMB.apply (basis 1 0),
  (shMA.apply (basis 1 0)).kron (shMB.apply (basis 1 0))], [shMA, shMB]⟩

theorem sh_f {g : Nat → Nat → C ℚ} {i : Nat} (hi : i < 2) :
    ((⟨1, Spec.gate1 1 g 0 []⟩ : Mat ℚ).apply (basis 1 0)).f i = g i 0 := by
  have hb : ∀ x, x < 2 → bit (x.testBit 0) = x := by decide
  have hat : ∀ i j, i < 2 → j < 2 → (⟨1, Spec.gate1 1 g 0 []⟩ : Mat ℚ).at 1 i j = g i j := by
    intro i j hi hj
    rw [show (1 : Nat) = (⟨1, Spec.gate1 1 g 0 []⟩ : Mat ℚ).k from rfl, at_self _ (by simpa using hi) (by simpa using hj)]
    show Spec.gate1 1 g 0 [] i j = _
    unfold Spec.gate1
    rw [if_pos (by intro b hb h; omega), if_pos (by intro c hc; simp at hc), hb i hi, hb j hj]
  show ∑ j ∈ Finset.range 2, (⟨1, Spec.gate1 1 g 0 []⟩ : Mat ℚ).at 1 i j * (basis 1 0 : Vec ℚ).f j = _
  rw [Finset.sum_range_succ, Finset.sum_range_one, hat i 0 hi (by decide), hat i 1 hi (by decide)]
  simp [basis]

theorem sh_runs (sqrt : ℚ → ℚ) : Runs sqrt NQUBITS shCmds shHeap [.unit, .unit, .unit, .unit, .unit, .unit] := by
  have r0 : Runs sqrt NQUBITS ([] : List (Cmd ℚ)) ⟨[], []⟩ [] := .nil
  have r1 := r0.cons (c := .zero 1) ⟨by decide, by decide⟩ rfl
  have r2 := r1.cons (c := .gate 1 shA 0 []) ⟨by decide, by decide, by simp, by simp⟩ rfl
  have r3 := r2.cons (c := .gate 1 shB 0 []) ⟨by decide, by decide, by simp, by simp⟩ rfl
  have r4 := r3.cons (c := .mv 0 0) ⟨shMA, basis 1 0, rfl, rfl, le_refl _⟩ rfl
  have r5 := r4.cons (c := .mv 1 0) ⟨shMB, basis 1 0, rfl, rfl, le_refl _⟩ rfl
  have r6 := r5.cons (c := .vkron 1 2) ⟨shMA.apply (basis 1 0), shMB.apply (basis 1 0), rfl, rfl,
    ⟨1, by decide, by rw [shMA, sh_f (by decide)]; exact one_ne_zero⟩,
    ⟨0, by decide, by rw [shMB, sh_f (by decide)]; exact one_ne_zero⟩, by decide⟩ rfl
  exact r6

/-- `C45_only_zeroes`, `C45_shared_wrong` and `C45_thr0_wrong` apply to a reachable state. -/
example (cfg : Cfg ℚ) : ∃ σ, Hist cfg 5 5 shCmds shHeap σ [.unit, .unit, .unit, .unit, .unit, .unit] ∧
    ∃ V, shHeap.vs[3]? = some V ∧ V.k = 2 ∧ ∀ i < 4, V.f i = shV.f i := by
  obtain ⟨σ, hσ⟩ := Hist.of_runs cfg 5 5 (sh_runs cfg.sqrt)
  refine ⟨σ, hσ, _, rfl, rfl, fun i hi => ?_⟩
  show (shMA.apply (basis 1 0)).f (i / 2 ^ 1) * (shMB.apply (basis 1 0)).f (i % 2 ^ 1) = _
  rw [shMA, shMB, sh_f (by omega), sh_f (by omega)]
  have : i = 0 ∨ i = 1 ∨ i = 2 ∨ i = 3 := by omega
  rcases this with rfl | rfl | rfl | rfl <;> ext <;> simp [shA, shB, shV] <;> norm_num

/-- `C45_tree_partial` applies: a one-qubit state with amplitudes 3/5, 4/5 has one node; with threshold 7/10 the smaller
amplitude is pruned. -/
example (cfg : Cfg ℚ) : ∃ σ e nodes, Hist cfg 5 5 rotCmds rotHeap σ [.unit, .unit, .unit] ∧
    (rotHeap : Heap ℚ).vs[1]? = some rotV ∧ σ.d.vs[1]? = some e ∧ Tree σ.st.vt.mem 1 e.n nodes ∧
    mag2 ((rotV : Vec ℚ).f 0) < 7/10 * (7/10) ∧ ¬ mag2 ((rotV : Vec ℚ).f 1) < 7/10 * (7/10) := by
  obtain ⟨σ, hσ⟩ := rot_hist (K := ℚ) cfg 5 5
  have hr := hσ.rel
  obtain ⟨e, he, hrel⟩ := forall₂_get hr.data.vs (show (rotHeap : Heap ℚ).vs[1]? = some rotV from rfl)
  obtain ⟨ho, hw⟩ := hrel.nonzero rotV_nonzero
  rcases ho with ⟨h, _⟩ | ⟨p, nd, hp, h2, h3⟩
  · cases h
  have hk : nd.v = (0 : Nat) := by
    have h3 : nd.v + 1 = ((1 : Nat) : Int) := h3
    push_cast at h3 ⊢; omega
  have hch : ∀ b, (nd.child b).n = none := by
    intro b
    rcases (hr.inv.vn p nd h2).ok b hk with (⟨_, h⟩ | ⟨x, y, h, hx, hy⟩) | ⟨_, h⟩
    · exact h
    · obtain ⟨k, hk, _⟩ := hr.inv.vlevel hx; omega
    · exact h
  refine ⟨σ, e, {p}, hσ, rfl, he, ?_, ?_, ?_⟩
  · rw [hp]
    exact ⟨nd, ∅, ∅, h2.1, by rw [show nd.c0.n = none from hch false]; rfl, by rw [show nd.c1.n = none from hch true]; rfl,
      by simp, by simp, by simp, by simp⟩
  · rw [rotV_0]; norm_num [mag2]
  · rw [rotV_1]; norm_num [mag2]

end Props
end QDD
