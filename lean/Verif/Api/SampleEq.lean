import Verif.Api.Machine
/-!
# `measureAll` draws exactly what `Spec.sample` draws
-/

set_option linter.unusedSectionVars false
set_option linter.unusedVariables false
set_option linter.unusedSimpArgs false

namespace QDD.Api
open ExactW Prog Spec

variable {K : Type} [Field K] [LinearOrder K] [IsStrictOrderedRing K] {env : Env (C K)}

theorem sample_lt (draw : Nat → K) : ∀ j t (f : Nat → C K), sample draw j t f < 2 ^ j
  | 0, _, _ => by simp [sample]
  | j + 1, t, f => by
    have h1 := sample_lt draw j (t + 1) f
    have h2 := sample_lt draw j (t + 1) (fun i => f (2 ^ j + i))
    have : 2 ^ (j + 1) = 2 ^ j + 2 ^ j := by rw [pow_succ]; omega
    simp only [sample]
    split <;> omega

/-- Weight of the amplitudes represented below a node, scaled. -/
theorem sum_scaled {mem : Nat → Option (VNode (C K))} {j : Nat} {n : Option Nat} {c : C K} {f : Nat → C K}
    (hf : ∀ i < 2 ^ j, f i = c * vptr mem j n i) :
    ∑ i ∈ Finset.range (2 ^ j), (f i).mag2 = c.mag2 * nrm mem j n := by
  unfold nrm wsum
  rw [← bsum_mul, bsum_eq]
  refine Finset.sum_congr rfl fun i hi => ?_
  rw [hf i (Finset.mem_range.1 hi), Cx.mag2_mul, one_mul]

theorem sampleLoop_eq {s : St (C K)} (hi : Inv env s) {m : Memo K} (hm : PInv env s m) :
    ∀ (j : Nat) (n : Option Nat), VPtrOk env s j n → m n ≠ none →
    ∀ (t : Nat) (res : List Bool) (draw : Nat → K) (c : C K) (f : Nat → C K), c ≠ 0 →
      (∀ i < 2 ^ j, f i = c * vptr s.vt.mem j n i) → j ≤ res.length →
      (∀ q < j, res[q]? = some false) → (∀ u < j, 0 ≤ draw (t + u) ∧ draw (t + u) < 1) →
      ∃ r, sampleLoop s.vt.mem m draw j t n res = .ok r ∧ BitsOf j (sample draw j t f) res r := by
  intro j
  induction j with
  | zero => intro n _ _ t res draw c f _ _ _ _ _; exact ⟨res, rfl, rfl, by simp⟩
  | succ j ih =>
    intro n hn hmem t res draw c f hc hf hlen hfalse hdraw
    rcases hn with ⟨h, _⟩ | ⟨p, nd, rfl, hr, hv⟩
    · cases h
    have hv' : nd.v = (j : Int) := by push_cast at hv; omega
    obtain ⟨x0, x1, h1, h2, h3, h4⟩ := hm.kids hi hr hv' hmem
    have hN : nrm s.vt.mem (j + 1) (some p) = x0 * nd.c0.w.mag2 + x1 * nd.c1.w.mag2 := by
      rw [nrm_succ hr.1, h3, h4]
    have hpos : 0 < x0 * nd.c0.w.mag2 + x1 * nd.c1.w.mag2 := by
      rw [← hN]; exact nrm_pos hi (.inr ⟨p, nd, rfl, hr, hv⟩)
    have hd0 := hdraw 0 (by omega)
    simp only [Nat.add_zero] at hd0
    have hdraw' : ∀ u < j, 0 ≤ draw (t + 1 + u) ∧ draw (t + 1 + u) < 1 := by
      intro u hu; have := hdraw (u + 1) (by omega); rwa [show t + (u + 1) = t + 1 + u by omega] at this
    have hpow : 2 ^ (j + 1) = 2 ^ j + 2 ^ j := by rw [pow_succ]; omega
    have hf0 : ∀ i < 2 ^ j, f i = (c * nd.c0.w) * vptr s.vt.mem j nd.c0.n i := by
      intro i hi'
      rw [hf i (by omega), vptr]
      simp only [hr.1, testBit_lt hi', VNode.child, Bool.false_eq_true, if_false]; ring
    have hf1 : ∀ i < 2 ^ j, f (2 ^ j + i) = (c * nd.c1.w) * vptr s.vt.mem j nd.c1.n i := by
      intro i hi'
      rw [hf _ (by omega), vptr]
      simp only [hr.1, testBit_add hi', VNode.child, if_true]
      rw [vptr_congr s.vt.mem j _ (lowEq_add j i)]; ring
    have hcm : 0 < c.mag2 := mag2_pos hc
    have hA : 0 ≤ x0 * nd.c0.w.mag2 := by
      rw [h3]; exact mul_nonneg (Cx.mag2_nonneg _) (nrm_nonneg _ _ _)
    have hB : 0 ≤ x1 * nd.c1.w.mag2 := by
      rw [h4]; exact mul_nonneg (Cx.mag2_nonneg _) (nrm_nonneg _ _ _)
    have hratio : (∑ i ∈ Finset.range (2 ^ j), (f i).mag2) / (∑ i ∈ Finset.range (2 ^ (j + 1)), (f i).mag2) =
        x0 * nd.c0.w.mag2 / (x0 * nd.c0.w.mag2 + x1 * nd.c1.w.mag2) := by
      rw [sum_scaled hf0, sum_scaled hf, hN, Cx.mag2_mul, h3, mul_assoc]
      rw [mul_div_mul_left _ _ hcm.ne']
    have hchild : ∀ b, (nd.child b).w ≠ 0 → VPtrOk env s j (nd.child b).n := by
      intro b hb
      rcases (hi.vn p nd hr).ok b hv' with hc | ⟨hw', _⟩
      · exact hc
      · exact absurd hw' hb
    simp only [sampleLoop, hr.1, h1, h2, ne_eq, hpos.ne', not_false_eq_true, if_true, sample, hratio]
    split
    · next hlt =>
      have hw0 : nd.c0.w ≠ 0 := by
        intro h0; rw [h0] at hlt; simp [Cx.mag2] at hlt; exact absurd hlt (not_lt.2 hd0.1)
      obtain ⟨r, c1, c2⟩ := ih _ (hchild false hw0) (hm.child hr hmem false) (t + 1) res draw (c * nd.c0.w) f
        (mul_ne_zero hc hw0) hf0 (by omega) (fun q hq => hfalse q (by omega)) hdraw'
      refine ⟨r, c1, c2.1, fun q => ?_⟩
      rw [c2.2 q]
      by_cases hq : q < j
      · simp [hq, show q < j + 1 by omega]
      · by_cases hqj : q = j
        · subst hqj
          simp only [Nat.lt_irrefl, if_false, Nat.lt_succ_self, if_true]
          rw [hfalse q (by omega), testBit_lt (sample_lt _ _ _ _)]
        · simp [hq, show ¬ q < j + 1 by omega]
    · next hge =>
      have hw1 : nd.c1.w ≠ 0 := by
        intro h0
        have hz : x1 * nd.c1.w.mag2 = 0 := by rw [h0]; simp [Cx.mag2]
        rw [hz, add_zero] at hge hpos
        rw [div_self hpos.ne'] at hge
        exact absurd hd0.2 hge
      have hnb : ¬ (nd.v < 0 ∨ (res.length : Int) ≤ nd.v) := by omega
      rw [if_neg hnb, hv', Int.toNat_natCast]
      obtain ⟨r, c1, c2⟩ := ih _ (hchild true hw1) (hm.child hr hmem true) (t + 1) (res.set j true) draw
        (c * nd.c1.w) (fun i => f (2 ^ j + i)) (mul_ne_zero hc hw1) hf1 (by rw [List.length_set]; omega)
        (fun q hq => by rw [List.getElem?_set_ne (by omega)]; exact hfalse q (by omega)) hdraw'
      refine ⟨r, c1, by rw [c2.1, List.length_set], fun q => ?_⟩
      rw [c2.2 q]
      by_cases hq : q < j
      · simp only [hq, show q < j + 1 by omega, if_true]
        rw [Nat.testBit_two_pow_add_gt hq]
      · by_cases hqj : q = j
        · subst hqj
          simp only [Nat.lt_irrefl, if_false, Nat.lt_succ_self, if_true]
          rw [testBit_add (sample_lt _ _ _ _), List.getElem?_set_self (by omega)]
        · simp only [hq, show ¬ q < j + 1 by omega, if_false]
          rw [List.getElem?_set_ne (by omega)]

theorem sampleAll_eq {s : St (C K)} (hi : Inv env s) {m : Memo K} (hm : PInv env s m) {k : Nat} {e : Edge (C K)}
    (he : VPtrOk env s k e.n) (hw : e.w ≠ 0) {f : Nat → C K} (hf : ∀ i < 2 ^ k, vden s.vt.mem k e i = f i)
    {draw : Nat → K} (hdraw : ∀ u < k, 0 ≤ draw u ∧ draw u < 1) :
    ∃ m', sampleAll s e m draw = .ok (bitList k (sample draw k 0 f), m') ∧ PInv env s m' := by
  obtain ⟨m', h1, h2, h3⟩ := memo_step hi hm he
  obtain ⟨r, c1, c2⟩ := sampleLoop_eq hi h2 k e.n he h3 0 (List.replicate k false) draw e.w f hw
    (fun i hi' => (hf i hi').symm) (by simp) (by intro q hq; simp [hq]) (by simpa using hdraw)
  refine ⟨m', ?_, h2⟩
  have hk1 : ((k : Int) - 1 + 1).toNat = k := by omega
  have hr : r = bitList k (sample draw k 0 f) := by
    apply List.ext_getElem?
    intro q
    rw [c2.2 q]
    by_cases hq : q < k
    · simp [bitList, hq]
    · simp [bitList, hq, List.getElem?_eq_none]
  simp only [sampleAll, evar_spec he, h1, hk1, c1, hr]

theorem measureAll_eq {s : St (C K)} (hi : Inv env s) {m : Memo K} (hm : PInv env s m) {k : Nat} {e : Edge (C K)}
    (he : VPtrOk env s k e.n) (hw : e.w ≠ 0) {f : Nat → C K} (hf : ∀ i < 2 ^ k, vden s.vt.mem k e i = f i)
    {draw : Nat → K} (hdraw : ∀ u < k, 0 ≤ draw u ∧ draw u < 1) (collapse : Bool) :
    Sat (world env) (measureAll env e collapse m draw) s (fun s' r =>
      r.1 = bits k (sample draw k 0 f) ∧ PInv env s' r.2.2 ∧
      if collapse then VRep env s' k r.2.1 (basisVec K k (sample draw k 0 f)) else r.2.1 = e) := by
  unfold measureAll
  set x := sample draw k 0 f with hx
  refine Sat.bind (Q := fun s' (r : List Bool × Memo K) => r.1 = bitList k x ∧ PInv env s' r.2) ?_ ?_
  · refine Sat.atom fun s1 tid hi1 he1 => ?_
    obtain ⟨m', c2, c3⟩ := sampleAll_eq hi1 (hm.ext hi he1) (he.ext he1) hw
      (fun i hi' => (vden_ext hi he1 (.inl he) i).trans (hf i hi')) hdraw
    refine ⟨(bitList k x, m'), s1, by simp only [c2, hx], hi1, (world env).refl _, ?_⟩
    intro s' _ he'
    exact ⟨rfl, c3.ext hi1 he'⟩
  · rintro s1 ⟨res, m'⟩ hi1 he1 ⟨c2, c3⟩
    dsimp only at c2 c3 ⊢
    subst c2
    cases collapse
    · simp only [Bool.false_eq_true, if_false]
      exact Sat.pure fun s' hi' he' => ⟨rfl, c3.ext hi1 he', rfl⟩
    · simp only [if_true]
      have hk := he.le hi
      have hc := collapseLoop_sat (env := env) x k 0 (s := s1) (e := oneE) (by omega) hi1
        ((oneE_vrep s1).congr fun i => by simp [basisVec, LowEq])
      rw [← List.range_eq_range'] at hc
      refine Sat.bind hc fun s2 e2 hi2 he2 h2 => ?_
      refine Sat.pure fun s' hi' he' => ⟨rfl, c3.ext hi1 ((world env).trans he2 he'), ?_⟩
      have := h2.ext hi2 he'
      rwa [Nat.zero_add] at this

end QDD.Api
