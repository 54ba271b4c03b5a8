import Verif.Core.Measure
import Mathlib.Algebra.BigOperators.Fin
/-!
# measureAll, measureOne, measureOneCollapsing: specifications
-/

set_option linter.unusedSectionVars false
set_option linter.unusedVariables false
set_option linter.unusedSimpArgs false

namespace QDD
open ExactW Prog

variable {K : Type} [Field K] [LinearOrder K] [IsStrictOrderedRing K] {env : Env (CW K)}

/-- The first `j` characters are the bits of `x`, the others those of `res`. -/
def BitsOf (j x : Nat) (res r : List Bool) : Prop :=
  r.length = res.length ∧ ∀ q, r[q]? = if q < j then some (x.testBit q) else res[q]?

theorem sampleLoop_spec {s : St (CW K)} (hi : Inv env s) {m : Memo K} (hm : PInv env s m) :
    ∀ (j : Nat) (n : Option Nat), VPtrOk env s j n → m n ≠ none →
    ∃ lo hi' : Nat → Nat → K,
      (∀ x u, 0 ≤ lo x u ∧ lo x u ≤ hi' x u ∧ hi' x u ≤ 1) ∧
      (∀ x < 2 ^ j, ∏ u ∈ Finset.range j, (hi' x u - lo x u) = (vptr s.vt.mem j n x).mag2 / nrm s.vt.mem j n) ∧
      ∀ (t : Nat) (res : List Bool) (draw : Nat → K), j ≤ res.length →
        (∀ q < j, res[q]? = some false) → (∀ u < j, 0 ≤ draw (t + u) ∧ draw (t + u) < 1) →
        ∃ x r, x < 2 ^ j ∧ sampleLoop s.vt.mem m draw j t n res = .ok r ∧ BitsOf j x res r ∧
          ∀ y < 2 ^ j, (y = x ↔ ∀ u < j, lo y u ≤ draw (t + u) ∧ draw (t + u) < hi' y u) := by
  intro j
  induction j with
  | zero =>
    intro n _ _
    refine ⟨fun _ _ => 0, fun _ _ => 0, by simp, ?_, ?_⟩
    · intro x _; simp [vptr, nrm_zero, Cx.mag2_one]
    · intro t res draw _ _ _
      refine ⟨0, res, by simp, rfl, ⟨rfl, by simp⟩, ?_⟩
      intro y hy; simp at hy; simp [hy]
  | succ j ih =>
    intro n hn hmem
    rcases hn with ⟨h, _⟩ | ⟨p, nd, rfl, hr, hv⟩
    · cases h
    have hv' : nd.v = (j : Int) := by push_cast at hv; omega
    obtain ⟨x0, x1, h1, h2, h3, h4⟩ := hm.kids hi hr hv' hmem
    have hN : nrm s.vt.mem (j + 1) (some p) = x0 * nd.c0.w.mag2 + x1 * nd.c1.w.mag2 := by
      rw [nrm_succ hr.1, h3, h4]
    have hpos : 0 < x0 * nd.c0.w.mag2 + x1 * nd.c1.w.mag2 := by
      rw [← hN]; exact nrm_pos hi (.inr ⟨p, nd, rfl, hr, hv⟩)
    have hA : 0 ≤ x0 * nd.c0.w.mag2 := by
      rw [h3]; exact mul_nonneg (Cx.mag2_nonneg _) (nrm_nonneg _ _ _)
    have hB : 0 ≤ x1 * nd.c1.w.mag2 := by
      rw [h4]; exact mul_nonneg (Cx.mag2_nonneg _) (nrm_nonneg _ _ _)
    generalize hp0 : x0 * nd.c0.w.mag2 / (x0 * nd.c0.w.mag2 + x1 * nd.c1.w.mag2) = p0 at *
    have hp00 : 0 ≤ p0 := by rw [← hp0]; exact div_nonneg hA hpos.le
    have hp01 : p0 ≤ 1 := by rw [← hp0, div_le_one hpos]; linarith
    have hp1 : 1 - p0 = x1 * nd.c1.w.mag2 / (x0 * nd.c0.w.mag2 + x1 * nd.c1.w.mag2) := by
      rw [← hp0, eq_div_iff hpos.ne', sub_mul, div_mul_cancel₀ _ hpos.ne']; ring
    -- side length of the first coordinate
    have hside : ∀ b : Bool, (if b then 1 - p0 else p0) =
        (nd.child b).w.mag2 * nrm s.vt.mem j (nd.child b).n / nrm s.vt.mem (j + 1) (some p) := by
      intro b
      rw [hN]
      cases b
      · simp only [VNode.child, Bool.false_eq_true, if_false]; rw [← h3, hp0]
      · simp only [VNode.child, if_true]; rw [← h4, hp1]
    -- the two subtrees
    have hsub : ∀ b : Bool, ∃ lo hi' : Nat → Nat → K,
        (∀ x u, 0 ≤ lo x u ∧ lo x u ≤ hi' x u ∧ hi' x u ≤ 1) ∧
        ((nd.child b).w ≠ 0 → (∀ x < 2 ^ j, ∏ u ∈ Finset.range j, (hi' x u - lo x u) =
            (vptr s.vt.mem j (nd.child b).n x).mag2 / nrm s.vt.mem j (nd.child b).n) ∧
          ∀ (t : Nat) (res : List Bool) (draw : Nat → K), j ≤ res.length →
            (∀ q < j, res[q]? = some false) → (∀ u < j, 0 ≤ draw (t + u) ∧ draw (t + u) < 1) →
            ∃ x r, x < 2 ^ j ∧ sampleLoop s.vt.mem m draw j t (nd.child b).n res = .ok r ∧ BitsOf j x res r ∧
              ∀ y < 2 ^ j, (y = x ↔ ∀ u < j, lo y u ≤ draw (t + u) ∧ draw (t + u) < hi' y u)) := by
      intro b
      by_cases hw : (nd.child b).w = 0
      · exact ⟨fun _ _ => 0, fun _ _ => 0, by simp, fun h => absurd hw h⟩
      · have hc : VPtrOk env s j (nd.child b).n := by
          rcases (hi.vn p nd hr).ok b hv' with hc | ⟨hw', _⟩
          · exact hc
          · exact absurd hw' hw
        obtain ⟨lo, hi', a1, a2, a3⟩ := ih _ hc (hm.child hr hmem b)
        exact ⟨lo, hi', a1, fun _ => ⟨a2, a3⟩⟩
    choose lo' hi1 hb hs using hsub
    have hzero : ∀ b : Bool, (nd.child b).w = 0 → (if b then 1 - p0 else p0) = 0 := by
      intro b hw; rw [hside, hw]; simp [Cx.mag2]
    refine ⟨fun x u => match u with
        | 0 => if x.testBit j then p0 else 0
        | u + 1 => lo' (x.testBit j) (x % 2 ^ j) u,
      fun x u => match u with
        | 0 => if x.testBit j then 1 else p0
        | u + 1 => hi1 (x.testBit j) (x % 2 ^ j) u, ?_, ?_, ?_⟩
    · intro x u
      cases u with
      | zero => dsimp only; split <;> simp [hp00, hp01]
      | succ u => exact hb _ _ _
    · intro x hx
      rw [Finset.prod_range_succ']
      dsimp only
      have e1 : (if x.testBit j then 1 else p0) - (if x.testBit j then p0 else 0) =
          if x.testBit j then 1 - p0 else p0 := by split <;> simp
      rw [e1]
      have hval : (vptr s.vt.mem (j + 1) (some p) x).mag2 =
          (nd.child (x.testBit j)).w.mag2 * (vptr s.vt.mem j (nd.child (x.testBit j)).n x).mag2 := by
        simp only [vptr, hr.1, Cx.mag2_mul]
      by_cases hw : (nd.child (x.testBit j)).w = 0
      · rw [hzero _ hw, hval, hw]; simp [Cx.mag2]
      · have hc : VPtrOk env s j (nd.child (x.testBit j)).n := by
          rcases (hi.vn p nd hr).ok (x.testBit j) hv' with hc | ⟨hw', _⟩
          · exact hc
          · exact absurd hw' hw
        rw [(hs _ hw).1 (x % 2 ^ j) (Nat.mod_lt _ (Nat.two_pow_pos j)), hside, hval]
        rw [vptr_congr s.vt.mem j _ (i := x % 2 ^ j) (i' := x) (fun b hb => by
          rw [Nat.testBit_mod_two_pow]; simp [hb])]
        have := (nrm_pos hi hc).ne'
        field_simp
    · intro t res draw hlen hfalse hdraw
      have hd0 := hdraw 0 (by omega)
      simp only [Nat.add_zero] at hd0
      have hdraw' : ∀ u < j, 0 ≤ draw (t + 1 + u) ∧ draw (t + 1 + u) < 1 := by
        intro u hu; have := hdraw (u + 1) (by omega); rwa [show t + (u + 1) = t + 1 + u by omega] at this
      -- the chosen branch
      have hbranch : ∃ b : Bool, (if b then p0 ≤ draw t else draw t < p0) := by
        by_cases h : draw t < p0
        · exact ⟨false, by simpa using h⟩
        · exact ⟨true, by simpa using not_lt.1 h⟩
      obtain ⟨b, hbr⟩ := hbranch
      have hw : (nd.child b).w ≠ 0 := by
        intro hw
        have := hzero b hw
        cases b
        · simp at this hbr; rw [this] at hbr; exact absurd hbr (not_lt.2 hd0.1)
        · simp at this hbr; exact absurd (lt_of_le_of_lt hbr hd0.2) (by rw [← sub_eq_zero.1 this]; exact lt_irrefl _)
      let res' := if b then res.set nd.v.toNat true else res
      have hres' : res'.length = res.length := by simp only [res']; split <;> simp
      obtain ⟨x, r, c1, c2, c3, c4⟩ := (hs b hw).2 (t + 1) res' draw (by omega) (by
        intro q hq
        simp only [res']
        split
        · rw [hv', Int.toNat_natCast, List.getElem?_set_ne (by omega)]; exact hfalse q (by omega)
        · exact hfalse q (by omega)) hdraw'
      let X := (if b then 2 ^ j else 0) + x
      have hXbit : X.testBit j = b := by
        simp only [X]; cases b
        · simp [testBit_lt c1]
        · simp only [if_true]; exact testBit_add c1
      have hXlow : X % 2 ^ j = x := by
        simp only [X]; cases b
        · simp [Nat.mod_eq_of_lt c1]
        · simp [Nat.mod_eq_of_lt c1]
      have hXlt : X < 2 ^ (j + 1) := by
        have : 2 ^ (j + 1) = 2 ^ j + 2 ^ j := by rw [pow_succ]; omega
        simp only [X]; split <;> omega
      have hrun : sampleLoop s.vt.mem m draw (j + 1) t (some p) res =
          sampleLoop s.vt.mem m draw j (t + 1) (nd.child b).n res' := by
        simp only [sampleLoop, hr.1, h1, h2, ne_eq, hpos.ne', not_false_eq_true, if_true, hp0]
        cases b
        · simp at hbr; simp [hbr, res', VNode.child]
        · simp at hbr
          have hnb : ¬ (nd.v < 0 ∨ (res.length : Int) ≤ nd.v) := by omega
          simp [not_lt.2 hbr, hnb, res', VNode.child]
      refine ⟨X, r, hXlt, by rw [hrun]; exact c2, ⟨c3.1.trans hres', ?_⟩, ?_⟩
      · intro q
        rw [c3.2 q]
        by_cases hq : q < j
        · have : q < j + 1 := by omega
          simp only [hq, this, if_true]
          congr 1
          rw [← hXlow, Nat.testBit_mod_two_pow]; simp [hq]
        · simp only [hq, if_false]
          by_cases hqj : q = j
          · subst hqj
            simp only [Nat.lt_succ_self, if_true, hXbit]
            simp only [res']
            cases b
            · simp; exact hfalse q (by omega)
            · simp only [if_true, hv', Int.toNat_natCast]
              rw [List.getElem?_set_self (by omega)]
          · have : ¬ q < j + 1 := by omega
            simp only [this, if_false, res']
            split
            · rw [hv', Int.toNat_natCast, List.getElem?_set_ne (by omega)]
            · rfl
      · intro y hy
        have hsplit : y = X ↔ y.testBit j = b ∧ y % 2 ^ j = x := by
          constructor
          · rintro rfl; exact ⟨hXbit, hXlow⟩
          · rintro ⟨e1, e2⟩
            apply Nat.eq_of_testBit_eq
            intro q
            rcases Nat.lt_trichotomy q j with h | h | h
            · have := congrArg (·.testBit q) (e2.trans hXlow.symm)
              simpa [Nat.testBit_mod_two_pow, h] using this
            · subst h; rw [e1, hXbit]
            · rw [Nat.testBit_lt_two_pow (lt_of_lt_of_le hy (Nat.pow_le_pow_right (by omega) h)),
                Nat.testBit_lt_two_pow (lt_of_lt_of_le hXlt (Nat.pow_le_pow_right (by omega) h))]
        rw [hsplit]
        constructor
        · rintro ⟨e1, e2⟩ u hu
          cases u with
          | zero =>
            simp only [e1, Nat.add_zero]
            cases b
            · simp at hbr ⊢; exact ⟨hd0.1, hbr⟩
            · simp at hbr ⊢; exact ⟨hbr, hd0.2⟩
          | succ u =>
            have := (c4 (y % 2 ^ j) (Nat.mod_lt _ (Nat.two_pow_pos j))).1 e2 u (by omega)
            dsimp only
            rw [e1, show t + (u + 1) = t + 1 + u by omega]
            exact this
        · intro h
          have h0 := h 0 (by omega)
          simp only [Nat.add_zero] at h0
          have e1 : y.testBit j = b := by
            cases hyb : y.testBit j <;> cases b <;> simp [hyb] at h0 hbr ⊢
            · exact absurd h0.2 (not_lt.2 hbr)
            · exact absurd hbr (not_lt.2 h0.1)
          refine ⟨e1, (c4 _ (Nat.mod_lt _ (Nat.two_pow_pos j))).2 fun u hu => ?_⟩
          have := h (u + 1) (by omega)
          dsimp only at this
          rw [e1, show t + (u + 1) = t + 1 + u by omega] at this
          exact this

/-- The memo step shared by `measureAll` and `determineMeasurementProbabilities`. -/
theorem memo_step {s : St (CW K)} (hi : Inv env s) {m : Memo K} (hm : PInv env s m) {k : Nat}
    {e : Edge (CW K)} (he : VPtrOk env s k e.n) :
    ∃ m', ensureProbs s.vt.mem e m = .ok m' ∧ PInv env s m' ∧ m' e.n ≠ none := by
  unfold ensureProbs
  cases hx : m e.n with
  | some x => exact ⟨m, rfl, hm, by simp [hx]⟩
  | none =>
    obtain ⟨m', h1, h2, h3, h4⟩ := assignProbs_spec hi (NQUBITS + 1) k e m (.inl he)
      (Nat.le_succ_of_le (he.le hi)) hm
    exact ⟨m', by simp only [h1], h2, h4⟩

/-- The characters of a `k`-bit index, by qubit. -/
def bitList (k x : Nat) : List Bool := (List.range k).map x.testBit

/-- `measureAll`'s sampling: for every choice of draws a basis state is returned; the draws that lead to it
form a box whose volume is its Born probability. -/
theorem sampleAll_spec {s : St (CW K)} (hi : Inv env s) {k : Nat} {e : Edge (CW K)}
    (he : VPtrOk env s k e.n) (hw : e.w ≠ 0) :
    ∃ lo hi' : Nat → Nat → K,
      (∀ x u, 0 ≤ lo x u ∧ lo x u ≤ hi' x u ∧ hi' x u ≤ 1) ∧
      (∀ x < 2 ^ k, ∏ u ∈ Finset.range k, (hi' x u - lo x u) = born s.vt.mem k e x) ∧
      ∀ (s1 : St (CW K)) (m : Memo K) (draw : Nat → K), Inv env s1 → SExt env s s1 → PInv env s1 m →
        (∀ u < k, 0 ≤ draw u ∧ draw u < 1) →
        ∃ x m', x < 2 ^ k ∧ sampleAll s1 e m draw = .ok (bitList k x, m') ∧ PInv env s1 m' ∧
          ∀ y < 2 ^ k, (y = x ↔ ∀ u < k, lo y u ≤ draw u ∧ draw u < hi' y u) := by
  -- the box does not depend on the memo: take the one of the complete memo
  obtain ⟨mA, hA1, hA2, hA3, hA4⟩ := assignProbs_spec hi (NQUBITS + 1) k e (fun _ => none) (.inl he)
    (Nat.le_succ_of_le (he.le hi)) (PInv.empty s)
  obtain ⟨lo, hi', b1, b2, b3⟩ := sampleLoop_spec hi hA2 k e.n he hA4
  refine ⟨lo, hi', b1, fun x hx => by rw [b2 x hx, born_eq hw], ?_⟩
  intro s1 m draw hi1 he1 hm hdraw
  obtain ⟨m', h1, h2, h3⟩ := memo_step hi1 hm (he.ext he1)
  -- two valid memos drive the loop identically
  have key : ∀ j t n res, VPtrOk env s j n → m' n ≠ none → mA n ≠ none →
      (∀ u < j, 0 ≤ draw (t + u) ∧ draw (t + u) < 1) →
      sampleLoop s1.vt.mem m' draw j t n res = sampleLoop s.vt.mem mA draw j t n res := by
    intro j
    induction j with
    | zero => intro t n res _ _ _ _; rfl
    | succ j ih =>
      intro t n res hn hm1 hm2 hd
      rcases hn with ⟨h, _⟩ | ⟨p, nd, rfl, hr, hv⟩
      · cases h
      have hv' : nd.v = (j : Int) := by push_cast at hv; omega
      have hr1 := he1.1 _ _ hr
      obtain ⟨x0, x1, g1, g2, g3, g4⟩ := h2.kids hi1 hr1 hv' hm1
      obtain ⟨y0, y1, f1, f2, f3, f4⟩ := hA2.kids hi hr hv' hm2
      have hd0 := hd 0 (by omega)
      simp only [Nat.add_zero] at hd0
      have hnc : ∀ b, (nd.child b).w.mag2 * nrm s1.vt.mem j (nd.child b).n =
          (nd.child b).w.mag2 * nrm s.vt.mem j (nd.child b).n := by
        intro b
        rcases (hi.vn p nd hr).ok b hv' with hc | ⟨hw', _⟩
        · rw [nrm_ext hi he1 hc]
        · rw [hw']; simp [Cx.mag2]
      rw [show nd.c0 = nd.child false from rfl, hnc false] at g3
      rw [show nd.c1 = nd.child true from rfl, hnc true] at g4
      simp only [VNode.child, Bool.false_eq_true, if_false, if_true] at g3 g4
      simp only [sampleLoop, hr.1, hr1.1, g1, g2, f1, f2, g3, g4, f3, f4]
      have hN := nrm_succ (k := j) hr.1
      have hpos : 0 < nd.c0.w.mag2 * nrm s.vt.mem j nd.c0.n + nd.c1.w.mag2 * nrm s.vt.mem j nd.c1.n := by
        rw [← hN]; exact nrm_pos hi (.inr ⟨p, nd, rfl, hr, hv⟩)
      simp only [ne_eq, hpos.ne', not_false_eq_true, if_true]
      have hd' : ∀ u < j, 0 ≤ draw (t + 1 + u) ∧ draw (t + 1 + u) < 1 := by
        intro u hu; have := hd (u + 1) (by omega); rwa [show t + (u + 1) = t + 1 + u by omega] at this
      have hchild : ∀ b, (nd.child b).w ≠ 0 → VPtrOk env s j (nd.child b).n := by
        intro b hb
        rcases (hi.vn p nd hr).ok b hv' with hc | ⟨hw', _⟩
        · exact hc
        · exact absurd hw' hb
      split
      · next hlt =>
        have hw0 : nd.c0.w ≠ 0 := by
          intro h0; rw [h0] at hlt; simp [Cx.mag2] at hlt; exact absurd hlt (not_lt.2 hd0.1)
        exact ih _ _ _ (hchild false hw0) (h2.child hr1 hm1 false) (hA2.child hr hm2 false) hd'
      · next hge =>
        split
        · rfl
        · have hw1 : nd.c1.w ≠ 0 := by
            intro h0
            rw [h0] at hge hpos
            simp [Cx.mag2] at hge hpos
            have hne : nd.c0.w.mag2 * nrm s.vt.mem j nd.c0.n ≠ 0 := by
              intro h; unfold Cx.mag2 at h; rw [h] at hpos; exact lt_irrefl _ hpos
            have : nd.c0.w.mag2 * nrm s.vt.mem j nd.c0.n / (nd.c0.w.mag2 * nrm s.vt.mem j nd.c0.n) = 1 :=
              div_self hne
            unfold Cx.mag2 at this
            rw [this] at hge
            exact absurd hd0.2 (not_lt.2 hge)
          exact ih _ _ _ (hchild true hw1) (h2.child hr1 hm1 true) (hA2.child hr hm2 true) hd'
  obtain ⟨x, r, c1, c2, c3, c4⟩ := b3 0 (List.replicate k false) draw (by simp) (by
    intro q hq; simp [hq]) (by simpa using hdraw)
  refine ⟨x, m', c1, ?_, h2, by simpa using c4⟩
  have hk1 : ((k : Int) - 1 + 1).toNat = k := by omega
  have hr : r = bitList k x := by
    apply List.ext_getElem?
    intro q
    rw [c3.2 q]
    by_cases hq : q < k
    · simp [bitList, hq]
    · simp [bitList, hq, List.getElem?_eq_none]
  simp only [sampleAll, evar_spec (he.ext he1), h1, hk1]
  rw [key k 0 e.n _ he h3 hA4 (by simpa using hdraw), c2, hr]

/-- The amplitudes of the basis state `x`. -/
def basisVec (K : Type) [Field K] [LinearOrder K] [IsStrictOrderedRing K] (k x : Nat) (i : Nat) : CW K :=
  if LowEq k i x then 1 else 0

theorem collapseLoop_sat (x : Nat) : ∀ (n p : Nat) {s : St (CW K)} {e : Edge (CW K)}, p + n ≤ NQUBITS →
    Inv env s → VRep env s p e (basisVec K p x) →
    Sat (world env) (collapseLoop env ((List.range' p n).map x.testBit) p e) s
      (fun s' e => VRep env s' (p + n) e (basisVec K (p + n) x)) := by
  intro n
  induction n with
  | zero => intro p s e _ hi h; exact Sat.pure fun s' _ he => h.ext hi he
  | succ n ih =>
    intro p s e hn hi h
    rw [List.range'_succ, List.map_cons]
    unfold collapseLoop
    have st : Sat (world env) (mkV env p (if x.testBit p then zeroE else e) (if x.testBit p then e else zeroE)) s
        (fun s' e => VRep env s' (p + 1) e (basisVec K (p + 1) x)) := by
      cases hb : x.testBit p
      · refine Sat.mono (mkV_sat hi (by omega) h (zeroE_vrep s p)) fun s' e' _ _ hr => hr.congr fun i => ?_
        simp only [basisVec, lowEq_succ, hb]
        cases i.testBit p <;> simp
      · refine Sat.mono (mkV_sat hi (by omega) (zeroE_vrep s p) h) fun s' e' _ _ hr => hr.congr fun i => ?_
        simp only [basisVec, lowEq_succ, hb]
        cases i.testBit p <;> simp
    refine Sat.bind st fun s1 e1 hi1 he1 h1 => ?_
    have := ih (p + 1) (by omega) hi1 h1
    rwa [show p + 1 + n = p + (n + 1) by omega] at this

/-- `measureAll` (exact weights): see `sampleAll_spec`; with `collapse` the new state is the basis state
named by the string. -/
theorem measureAll_sat {s : St (CW K)} (hi : Inv env s) {k : Nat} {e : Edge (CW K)}
    (he : VPtrOk env s k e.n) (hw : e.w ≠ 0) :
    ∃ lo hi' : Nat → Nat → K,
      (∀ x u, 0 ≤ lo x u ∧ lo x u ≤ hi' x u ∧ hi' x u ≤ 1) ∧
      (∀ x < 2 ^ k, ∏ u ∈ Finset.range k, (hi' x u - lo x u) = born s.vt.mem k e x) ∧
      ∀ (collapse : Bool) (m : Memo K) (draw : Nat → K), PInv env s m →
        (∀ u < k, 0 ≤ draw u ∧ draw u < 1) →
        Sat (world env) (measureAll env e collapse m draw) s (fun s' r =>
          ∃ x < 2 ^ k, r.1 = (bitList k x).reverse ∧
            (if collapse then VRep env s' k r.2.1 (basisVec K k x) else r.2.1 = e) ∧ PInv env s' r.2.2 ∧
            ∀ y < 2 ^ k, (y = x ↔ ∀ u < k, lo y u ≤ draw u ∧ draw u < hi' y u)) := by
  obtain ⟨lo, hi', b1, b2, b3⟩ := sampleAll_spec hi he hw
  refine ⟨lo, hi', b1, b2, fun collapse m draw hm hdraw => ?_⟩
  unfold measureAll
  refine Sat.bind (Q := fun s' (r : List Bool × Memo K) => ∃ x < 2 ^ k, r.1 = bitList k x ∧ PInv env s' r.2 ∧
      ∀ y < 2 ^ k, (y = x ↔ ∀ u < k, lo y u ≤ draw u ∧ draw u < hi' y u)) ?_ ?_
  · refine Sat.atom fun s1 tid hi1 he1 => ?_
    obtain ⟨x, m', c1, c2, c3, c4⟩ := b3 s1 m draw hi1 he1 (hm.ext hi he1) hdraw
    refine ⟨(bitList k x, m'), s1, by simp only [c2], hi1, (world env).refl _, ?_⟩
    intro s' _ he'
    exact ⟨x, c1, rfl, c3.ext hi1 he', c4⟩
  · rintro s1 ⟨res, m'⟩ hi1 he1 ⟨x, c1, c2, c3, c4⟩
    dsimp only at c2 c3 ⊢
    subst c2
    cases collapse
    · simp only [Bool.false_eq_true, if_false]
      exact Sat.pure fun s' hi' he' => ⟨x, c1, rfl, rfl, c3.ext hi1 he', c4⟩
    · simp only [if_true]
      have hk := he.le hi
      have hc := collapseLoop_sat (env := env) x k 0 (s := s1) (e := oneE) (by omega) hi1
        ((oneE_vrep s1).congr fun i => by simp [basisVec, LowEq])
      rw [← List.range_eq_range'] at hc
      refine Sat.bind hc fun s2 e2 hi2 he2 h2 => ?_
      refine Sat.pure fun s' hi' he' => ⟨x, c1, rfl, ?_, c3.ext hi1 ((world env).trans he2 he'), c4⟩
      have := h2.ext hi2 he'
      rwa [Nat.zero_add] at this

end QDD
