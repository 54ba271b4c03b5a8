import Verif.Core.Den
import Mathlib.Tactic.LinearCombination
/-!
# Canonicity: equal nonzero denotations are equal edges
-/

set_option linter.unusedSectionVars false

namespace QDD
open ExactW
variable {W : Type} [Field W] [WOps W] [ExactW W] {env : Env W}

/-- Index with top bit `b` and low part `i`. -/
def bidx (k : Nat) (b : Bool) (i : Nat) : Nat := if b then 2 ^ k + i else i

theorem bidx_bit {k i : Nat} (h : i < 2 ^ k) (b : Bool) : (bidx k b i).testBit k = b := by
  cases b
  · simp [bidx, testBit_lt h]
  · simp only [bidx, if_true]; exact testBit_add h

theorem bidx_low (k i : Nat) (b : Bool) : LowEq k (bidx k b i) i := by
  cases b
  · intro _ _; rfl
  · exact lowEq_add k i

theorem bidx_lt {k i : Nat} (h : i < 2 ^ k) (b : Bool) : bidx k b i < 2 ^ (k + 1) := by
  cases b <;> simp [bidx, Nat.pow_succ] <;> omega

theorem vptr_top {mem : Nat → Option (VNode W)} {k p nd} (hm : mem p = some nd) (b : Bool) {i : Nat}
    (h : i < 2 ^ k) : vptr mem (k + 1) (some p) (bidx k b i) = vden mem k (nd.child b) i := by
  simp only [vptr, hm, bidx_bit h, vden]
  rw [vptr_congr mem k _ (bidx_low k i b)]

theorem mptr_top {mem : Nat → Option (MNode W)} {k : Nat} {p nd} (hm : mem p = some nd) (hv : nd.v = (k : Int))
    (r c : Bool) {i j : Nat} (h : i < 2 ^ k) (h' : j < 2 ^ k) :
    mptr mem (k + 1) (some p) (bidx k r i) (bidx k c j) = mden mem k (nd.child r c) i j := by
  simp only [mptr, hm, bidx_bit h, bidx_bit h', mden, hv, if_true]
  rw [mptr_congr mem k _ (bidx_low k i r) (bidx_low k j c)]

/-- `n` has no node at level `k` or above. -/
def NoTop (mem : Nat → Option (MNode W)) (k : Nat) (n : Option Nat) : Prop :=
  ∀ p nd, n = some p → mem p = some nd → nd.v ≠ (k : Int)

theorem mptr_skip {mem : Nat → Option (MNode W)} {k : Nat} {n : Option Nat} (hn : NoTop mem k n)
    (hs : ∀ p, n = some p → ∃ nd, mem p = some nd) (r c : Bool) {i j : Nat} (h : i < 2 ^ k) (h' : j < 2 ^ k) :
    mptr mem (k + 1) n (bidx k r i) (bidx k c j) = if r = c then mptr mem k n i j else 0 := by
  cases n with
  | none =>
    simp only [mptr, bidx_bit h, bidx_bit h']
    rw [mptr_congr mem k _ (bidx_low k i r) (bidx_low k j c)]
  | some p =>
    obtain ⟨nd, hm⟩ := hs p rfl
    simp only [mptr, hm, hn p nd rfl hm, if_false, bidx_bit h, bidx_bit h']
    rw [mptr_congr mem k _ (bidx_low k i r) (bidx_low k j c)]

theorem eeq_iff (a b : Edge W) : eeq a b = true ↔ a = b := by
  unfold eeq
  rw [Bool.and_eq_true, ae_iff, beq_iff_eq]
  constructor
  · rintro ⟨h1, h2⟩; cases a; cases b; simp_all
  · rintro rfl; exact ⟨rfl, rfl⟩

theorem veqv_iff (a b : VNode W) : TNode.eqv a b = true ↔ a = b := by
  show ((a.v == b.v) && eeq a.c0 b.c0 && eeq a.c1 b.c1) = true ↔ _
  simp only [Bool.and_eq_true, beq_iff_eq, eeq_iff]
  constructor
  · rintro ⟨⟨h1, h2⟩, h3⟩; cases a; cases b; simp_all
  · rintro rfl; simp

theorem meqv_iff (a b : MNode W) : TNode.eqv a b = true ↔ a = b := by
  show ((a.v == b.v) && eeq a.c0 b.c0 && eeq a.c1 b.c1 && eeq a.c2 b.c2 && eeq a.c3 b.c3) = true ↔ _
  simp only [Bool.and_eq_true, beq_iff_eq, eeq_iff]
  constructor
  · rintro ⟨⟨⟨⟨h1, h2⟩, h3⟩, h4⟩, h5⟩; cases a; cases b; simp_all
  · rintro rfl; simp

theorem pairwise_mem {α : Type} {R : α → α → Prop} {l : List α} (h : l.Pairwise R) {a b : α} (ha : a ∈ l)
    (hb : b ∈ l) (hne : a ≠ b) : R a b ∨ R b a := by
  induction l with
  | nil => cases ha
  | cons x xs ih =>
    rw [List.pairwise_cons] at h
    rcases List.mem_cons.1 ha with rfl | ha' <;> rcases List.mem_cons.1 hb with rfl | hb'
    · exact (hne rfl).elim
    · exact .inl (h.1 _ hb')
    · exact .inr (h.1 _ ha')
    · exact ih h.2 ha' hb'

/-- Two registered nodes with the same content are the same node. -/
theorem reg_unique {N : Type} [TNode N] {hash : N → Nat} {t : UTable N} (hu : UTable.Uniq t) {p q : Nat}
    {nd : N} (hr : TNode.eqv nd nd = true) (hp : UTable.Reg hash t p nd) (hq : UTable.Reg hash t q nd) :
    p = q := by
  by_contra hne
  rcases pairwise_mem (hu _ _) hp.2 hq.2 hne with h | h
  · rw [h _ _ hp.1 hq.1] at hr; cases hr
  · rw [h _ _ hq.1 hp.1] at hr; cases hr

theorem VNode.ext_child {a b : VNode W} (hv : a.v = b.v) (hc : ∀ x, a.child x = b.child x) : a = b := by
  have h0 := hc false; have h1 := hc true
  cases a; cases b; simp_all [VNode.child]

theorem MNode.ext_child {a b : MNode W} (hv : a.v = b.v) (hc : ∀ x y, a.child x y = b.child x y) : a = b := by
  have h0 := hc false false; have h1 := hc false true
  have h2 := hc true false; have h3 := hc true true
  cases a; cases b; simp_all [MNode.child]

theorem VNorm.maxChild {s : St W} {nd : VNode W} (h : VNorm env s nd) : ∃ b, (nd.child b).w = 1 := by
  have := h.max
  split at this
  · exact ⟨true, by simpa [VNode.child] using this⟩
  · exact ⟨false, by simpa [VNode.child] using this⟩

theorem maxW4_mem (a b c d : W) : maxW4 a b c d = a ∨ maxW4 a b c d = b ∨ maxW4 a b c d = c ∨
    maxW4 a b c d = d := by
  unfold maxW4
  simp only
  split_ifs <;> simp

theorem maxW4_scale (x a b c d : W) (hx : x ≠ 0) :
    maxW4 (x * a) (x * b) (x * c) (x * d) = x * maxW4 a b c d := by
  unfold maxW4
  simp only [lt_scale x _ _ hx]
  split_ifs <;> simp_all [lt_scale x _ _ hx]

theorem MNorm.maxChild {s : St W} {nd : MNode W} (h : MNorm env s nd) : ∃ r c, (nd.child r c).w = 1 := by
  have := h.max
  rcases maxW4_mem nd.c0.w nd.c1.w nd.c2.w nd.c3.w with e | e | e | e <;> rw [e] at this
  · exact ⟨false, false, by simpa [MNode.child] using this⟩
  · exact ⟨false, true, by simpa [MNode.child] using this⟩
  · exact ⟨true, false, by simpa [MNode.child] using this⟩
  · exact ⟨true, true, by simpa [MNode.child] using this⟩

/-- A stored vector node is not the zero vector. -/
theorem vptr_nonzero {s : St W} (hi : Inv env s) : ∀ {k n}, VPtrOk env s k n →
    ∃ i, i < 2 ^ k ∧ vptr s.vt.mem k n i ≠ 0 := by
  intro k
  induction k with
  | zero => intro n _; exact ⟨0, by simp, by simp [vptr]⟩
  | succ k ih =>
    intro n h
    rcases h with ⟨h, _⟩ | ⟨p, nd, rfl, h2, h3⟩
    · cases h
    · have hk : nd.v = k := by push_cast at h3; omega
      have hn := hi.vn p nd h2
      obtain ⟨b, hb⟩ := hn.maxChild
      rcases hn.ok b hk with hc | ⟨hw, _⟩
      · obtain ⟨i, hi1, hi2⟩ := ih hc
        refine ⟨bidx k b i, bidx_lt hi1 b, ?_⟩
        rw [vptr_top h2.1 b hi1, vden, hb, one_mul]
        exact hi2
      · rw [hb] at hw; exact (one_ne_zero hw).elim

theorem MOk.deref {s : St W} {k n} (h : MOk env s k n) : ∀ p, n = some p → ∃ nd, s.mt.mem p = some nd := by
  rcases h with rfl | ⟨p, nd, rfl, h2, _⟩
  · intro p h; cases h
  · intro q e; cases e; exact ⟨nd, h2.1⟩

/-- Either the node is at the top level or the level is skipped. -/
theorem MOk.split {s : St W} {k n} (h : MOk env s (k + 1) n) :
    (∃ p nd, n = some p ∧ UTable.Reg env.hm s.mt p nd ∧ nd.v = (k : Int)) ∨
    (MOk env s k n ∧ NoTop s.mt.mem k n) := by
  rcases h with rfl | ⟨p, nd, rfl, h2, h3⟩
  · exact .inr ⟨.inl rfl, fun p nd h => by cases h⟩
  · by_cases hk : nd.v = (k : Int)
    · exact .inl ⟨p, nd, rfl, h2, hk⟩
    · refine .inr ⟨.inr ⟨p, nd, rfl, h2, by push_cast at h3; omega⟩, ?_⟩
      intro q nd' e hm
      cases e
      rw [h2.1] at hm; cases hm; exact hk

theorem MNorm.ok' {s : St W} {nd : MNode W} (h : MNorm env s nd) (r c : Bool) {k : Nat} (hk : nd.v = k) :
    MOk env s k (nd.child r c).n := by
  have e : nd.v.toNat = k := by omega
  have := h.ok r c
  rwa [e] at this

/-- A stored matrix node is not the zero matrix. -/
theorem mptr_nonzero {s : St W} (hi : Inv env s) : ∀ {k n}, MOk env s k n →
    ∃ i j, i < 2 ^ k ∧ j < 2 ^ k ∧ mptr s.mt.mem k n i j ≠ 0 := by
  intro k
  induction k with
  | zero => intro n _; exact ⟨0, 0, by simp, by simp, by simp [mptr]⟩
  | succ k ih =>
    intro n h
    rcases h.split with ⟨p, nd, rfl, h2, hk⟩ | ⟨hok, hnt⟩
    · have hn := hi.mn p nd h2
      obtain ⟨r, c, hb⟩ := hn.maxChild
      obtain ⟨i, j, h1, h3, h4⟩ := ih (hn.ok' r c hk)
      refine ⟨bidx k r i, bidx k c j, bidx_lt h1 r, bidx_lt h3 c, ?_⟩
      rw [mptr_top h2.1 hk r c h1 h3, mden, hb, one_mul]
      exact h4
    · obtain ⟨i, j, h1, h3, h4⟩ := ih hok
      refine ⟨bidx k false i, bidx k false j, bidx_lt h1 _, bidx_lt h3 _, ?_⟩
      rw [mptr_skip hnt hok.deref false false h1 h3, if_pos rfl]
      exact h4

/-- Proportional stored vector nodes are equal, with factor 1. -/
theorem vptr_canon {s : St W} (hi : Inv env s) : ∀ {k n n'} {c : W}, VPtrOk env s k n → VPtrOk env s k n' →
    c ≠ 0 → (∀ i < 2 ^ k, vptr s.vt.mem k n i = c * vptr s.vt.mem k n' i) → n = n' ∧ c = 1 := by
  intro k
  induction k with
  | zero =>
    intro n n' c h h' _ he
    rcases h with ⟨_, rfl⟩ | ⟨p, nd, rfl, h2, h3⟩
    · rcases h' with ⟨_, rfl⟩ | ⟨p, nd, rfl, h2, h3⟩
      · have := he 0 (by simp); simp [vptr] at this; exact ⟨rfl, this.symm⟩
      · obtain ⟨k, hk, _⟩ := hi.vlevel h2; omega
    · obtain ⟨k, hk, _⟩ := hi.vlevel h2; omega
  | succ k ih =>
    intro n n' c h h' hc he
    rcases h with ⟨h, _⟩ | ⟨p, nd, rfl, h2, h3⟩
    · cases h
    rcases h' with ⟨h', _⟩ | ⟨p', nd', rfl, h2', h3'⟩
    · cases h'
    have hk : nd.v = k := by push_cast at h3; omega
    have hk' : nd'.v = k := by push_cast at h3'; omega
    have hn := hi.vn p nd h2
    have hn' := hi.vn p' nd' h2'
    have hden : ∀ b, ∀ i < 2 ^ k, vden s.vt.mem k (nd.child b) i = c * vden s.vt.mem k (nd'.child b) i := by
      intro b i hlt
      have := he (bidx k b i) (bidx_lt hlt b)
      rwa [vptr_top h2.1 b hlt, vptr_top h2'.1 b hlt] at this
    have hz : ∀ b, (nd.child b).w = 0 → (nd.child b).n = none := by
      intro b; cases b
      · exact hn.z0
      · exact hn.z1
    have hz' : ∀ b, (nd'.child b).w = 0 → (nd'.child b).n = none := by
      intro b; cases b
      · exact hn'.z0
      · exact hn'.z1
    have hch : ∀ b, (nd.child b).n = (nd'.child b).n ∧ (nd.child b).w = c * (nd'.child b).w := by
      intro b
      by_cases hw : (nd.child b).w = 0
      · have hw' : (nd'.child b).w = 0 := by
          by_contra hw'
          rcases hn'.ok b hk' with ho | ⟨h0, _⟩
          · obtain ⟨i, hlt, hne⟩ := vptr_nonzero hi ho
            have := hden b i hlt
            simp only [vden, hw, zero_mul] at this
            exact mul_ne_zero hc (mul_ne_zero hw' hne) this.symm
          · exact hw' h0
        exact ⟨by rw [hz b hw, hz' b hw'], by rw [hw, hw', mul_zero]⟩
      · have ho : VPtrOk env s k (nd.child b).n := (hn.ok b hk).resolve_right fun h => hw h.1
        have hw' : (nd'.child b).w ≠ 0 := by
          intro hw'
          obtain ⟨i, hlt, hne⟩ := vptr_nonzero hi ho
          have := hden b i hlt
          simp only [vden, hw', zero_mul, mul_zero] at this
          exact mul_ne_zero hw hne this
        have ho' : VPtrOk env s k (nd'.child b).n := (hn'.ok b hk').resolve_right fun h => hw' h.1
        have hr := ih (c := c * (nd'.child b).w / (nd.child b).w) ho ho'
          (div_ne_zero (mul_ne_zero hc hw') hw) (by
            intro i hlt
            have := hden b i hlt
            simp only [vden] at this
            field_simp
            linear_combination this)
        refine ⟨hr.1, ?_⟩
        have := hr.2
        field_simp at this
        exact this.symm
    have hc1 : c = 1 := by
      have hm := hn.max
      have hm' := hn'.max
      have e0 := (hch false).2
      have e1 := (hch true).2
      simp only [VNode.child] at e0 e1
      simp only [Bool.false_eq_true, if_false, if_true] at e0 e1
      rw [e0, e1, lt_scale c _ _ hc] at hm
      split at hm <;> simp_all
    subst hc1
    have hnd : nd = nd' := VNode.ext_child (by rw [hk, hk']) fun b => by
      obtain ⟨a1, a2⟩ := hch b
      rw [one_mul] at a2
      cases ha : nd.child b; cases hb : nd'.child b
      simp_all
    subst hnd
    exact ⟨by rw [reg_unique hi.vu ((veqv_iff _ _).2 rfl) h2 h2'], rfl⟩

/-- Proportional stored matrix nodes are equal, with factor 1; this uses identity stripping. -/
theorem mptr_canon {s : St W} (hi : Inv env s) : ∀ {k n n'} {c : W}, MOk env s k n → MOk env s k n' →
    c ≠ 0 → (∀ i < 2 ^ k, ∀ j < 2 ^ k, mptr s.mt.mem k n i j = c * mptr s.mt.mem k n' i j) →
    n = n' ∧ c = 1 := by
  intro k
  induction k with
  | zero =>
    intro n n' c h h' _ he
    rcases h with rfl | ⟨p, nd, rfl, h2, h3⟩
    · rcases h' with rfl | ⟨p, nd, rfl, h2, h3⟩
      · have := he 0 (by simp) 0 (by simp); simp [mptr] at this; exact ⟨rfl, this.symm⟩
      · obtain ⟨k, hk, _⟩ := hi.mlevel h2; omega
    · obtain ⟨k, hk, _⟩ := hi.mlevel h2; omega
  | succ k ih =>
    -- a top node cannot be proportional to a matrix skipping that level
    have mixed : ∀ {p nd n'} {c : W}, UTable.Reg env.hm s.mt p nd → nd.v = (k : Int) → MOk env s k n' →
        NoTop s.mt.mem k n' → c ≠ 0 →
        (∀ i < 2 ^ (k + 1), ∀ j < 2 ^ (k + 1),
          mptr s.mt.mem (k + 1) (some p) i j = c * mptr s.mt.mem (k + 1) n' i j) → False := by
      intro p nd n' c h2 hk hok hnt hc he
      have hn := hi.mn p nd h2
      have hden : ∀ r q, ∀ i < 2 ^ k, ∀ j < 2 ^ k, mden s.mt.mem k (nd.child r q) i j =
          c * if r = q then mptr s.mt.mem k n' i j else 0 := by
        intro r q i hi1 j hj
        have := he _ (bidx_lt hi1 r) _ (bidx_lt hj q)
        rwa [mptr_top h2.1 hk r q hi1 hj, mptr_skip hnt hok.deref r q hi1 hj] at this
      have off : ∀ r q, r ≠ q → (nd.child r q).w = 0 := by
        intro r q hrq
        by_contra hw
        obtain ⟨i, j, h3, h4, h5⟩ := mptr_nonzero hi (hn.ok' r q hk)
        have := hden r q i h3 j h4
        rw [if_neg hrq, mul_zero, mden] at this
        exact mul_ne_zero hw h5 this
      have diag : ∀ r, (nd.child r r).n = n' ∧ (nd.child r r).w = c := by
        intro r
        have hw : (nd.child r r).w ≠ 0 := by
          intro hw
          obtain ⟨i, j, h3, h4, h5⟩ := mptr_nonzero hi hok
          have := hden r r i h3 j h4
          rw [if_pos rfl, mden, hw, zero_mul] at this
          exact mul_ne_zero hc h5 this.symm
        have hr := ih (c := c / (nd.child r r).w) (hn.ok' r r hk) hok (div_ne_zero hc hw) (by
          intro i hi1 j hj
          have := hden r r i hi1 j hj
          rw [if_pos rfl, mden] at this
          field_simp
          linear_combination this)
        refine ⟨hr.1, ?_⟩
        have := hr.2
        field_simp at this
        exact this.symm
      have hs : strips nd.c0 nd.c1 nd.c2 nd.c3 = true := by
        have d0 := diag false; have d1 := diag true
        have o1 := off false true (by simp); have o2 := off true false (by simp)
        simp only [MNode.child, Bool.false_eq_true, if_false, if_true] at d0 d1 o1 o2
        simp only [strips, Bool.and_eq_true, beq_iff_eq, az_iff, ae_iff]
        exact ⟨⟨⟨by rw [d0.1, d1.1], o1⟩, o2⟩, by rw [d0.2, d1.2]⟩
      rw [hn.nostrip] at hs
      cases hs
    intro n n' c h h' hc he
    rcases h.split with ⟨p, nd, rfl, h2, hk⟩ | ⟨hok, hnt⟩
    · rcases h'.split with ⟨p', nd', rfl, h2', hk'⟩ | ⟨hok', hnt'⟩
      · have hn := hi.mn p nd h2
        have hn' := hi.mn p' nd' h2'
        have hden : ∀ r q, ∀ i < 2 ^ k, ∀ j < 2 ^ k, mden s.mt.mem k (nd.child r q) i j =
            c * mden s.mt.mem k (nd'.child r q) i j := by
          intro r q i hi1 j hj
          have := he _ (bidx_lt hi1 r) _ (bidx_lt hj q)
          rwa [mptr_top h2.1 hk r q hi1 hj, mptr_top h2'.1 hk' r q hi1 hj] at this
        have hch : ∀ r q, (nd.child r q).n = (nd'.child r q).n ∧ (nd.child r q).w = c * (nd'.child r q).w := by
          intro r q
          have ho := hn.ok' r q hk
          have ho' := hn'.ok' r q hk'
          by_cases hw : (nd.child r q).w = 0
          · have hw' : (nd'.child r q).w = 0 := by
              by_contra hw'
              obtain ⟨i, j, h3, h4, hne⟩ := mptr_nonzero hi ho'
              have := hden r q i h3 j h4
              simp only [mden, hw, zero_mul] at this
              exact mul_ne_zero hc (mul_ne_zero hw' hne) this.symm
            exact ⟨by rw [hn.z r q hw, hn'.z r q hw'], by rw [hw, hw', mul_zero]⟩
          · have hw' : (nd'.child r q).w ≠ 0 := by
              intro hw'
              obtain ⟨i, j, h3, h4, hne⟩ := mptr_nonzero hi ho
              have := hden r q i h3 j h4
              simp only [mden, hw', zero_mul, mul_zero] at this
              exact mul_ne_zero hw hne this
            have hr := ih (c := c * (nd'.child r q).w / (nd.child r q).w) ho ho'
              (div_ne_zero (mul_ne_zero hc hw') hw) (by
                intro i h3 j h4
                have := hden r q i h3 j h4
                simp only [mden] at this
                field_simp
                linear_combination this)
            refine ⟨hr.1, ?_⟩
            have := hr.2
            field_simp at this
            exact this.symm
        have hc1 : c = 1 := by
          have hm := hn.max
          have e0 := (hch false false).2
          have e1 := (hch false true).2
          have e2 := (hch true false).2
          have e3 := (hch true true).2
          simp only [MNode.child, Bool.false_eq_true, if_false, if_true] at e0 e1 e2 e3
          rw [e0, e1, e2, e3, maxW4_scale c _ _ _ _ hc, hn'.max, mul_one] at hm
          exact hm
        subst hc1
        have hnd : nd = nd' := MNode.ext_child (by rw [hk, hk']) fun r q => by
          obtain ⟨a1, a2⟩ := hch r q
          rw [one_mul] at a2
          cases ha : nd.child r q; cases hb : nd'.child r q
          simp_all
        subst hnd
        exact ⟨by rw [reg_unique hi.mu ((meqv_iff _ _).2 rfl) h2 h2'], rfl⟩
      · exact (mixed h2 hk hok' hnt' hc he).elim
    · rcases h'.split with ⟨p', nd', rfl, h2', hk'⟩ | ⟨hok', hnt'⟩
      · refine (mixed h2' hk' hok hnt (inv_ne_zero hc) fun i h3 j h4 => ?_).elim
        rw [he i h3 j h4]; field_simp
      · refine ih hok hok' hc fun i h3 j h4 => ?_
        have := he _ (bidx_lt h3 false) _ (bidx_lt h4 false)
        rwa [mptr_skip hnt hok.deref false false h3 h4, mptr_skip hnt' hok'.deref false false h3 h4,
          if_pos rfl] at this

/-- Nonzero vector edges with equal amplitudes are equal. -/
theorem vden_canon {s : St W} (hi : Inv env s) {k} {e e' : Edge W} (h : VOk env s k e) (h' : VOk env s k e')
    (hw : e.w ≠ 0) (he : ∀ i < 2 ^ k, vden s.vt.mem k e i = vden s.vt.mem k e' i) : e = e' := by
  have ho := h.resolve_right fun h => hw h.1
  have hw' : e'.w ≠ 0 := by
    intro h0
    obtain ⟨i, h1, h2⟩ := vptr_nonzero hi ho
    have := he i h1
    simp only [vden, h0, zero_mul] at this
    exact mul_ne_zero hw h2 this
  have ho' := h'.resolve_right fun h => hw' h.1
  have hr := vptr_canon hi (c := e'.w / e.w) ho ho' (div_ne_zero hw' hw) (by
    intro i h1
    have := he i h1
    simp only [vden] at this
    field_simp
    linear_combination this)
  have h2 := hr.2
  field_simp at h2
  cases e; cases e'
  simp_all

/-- Nonzero matrix edges with equal entries are equal. -/
theorem mden_canon {s : St W} (hi : Inv env s) {k} {e e' : Edge W} (h : MOk env s k e.n)
    (h' : MOk env s k e'.n) (hw : e.w ≠ 0)
    (he : ∀ i < 2 ^ k, ∀ j < 2 ^ k, mden s.mt.mem k e i j = mden s.mt.mem k e' i j) : e = e' := by
  have hw' : e'.w ≠ 0 := by
    intro h0
    obtain ⟨i, j, h1, h2, h3⟩ := mptr_nonzero hi h
    have := he i h1 j h2
    simp only [mden, h0, zero_mul] at this
    exact mul_ne_zero hw h3 this
  have hr := mptr_canon hi (c := e'.w / e.w) h h' (div_ne_zero hw' hw) (by
    intro i h1 j h2
    have := he i h1 j h2
    simp only [mden] at this
    field_simp
    linear_combination this)
  have h2 := hr.2
  field_simp at h2
  cases e; cases e'
  simp_all

end QDD
