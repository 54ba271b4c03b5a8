import Verif.Num.Mul
import Verif.Safe.MatMul
/-!
# Numerical accuracy of sums of matrices

`mm_add2` never forks, so a run from a state is a function.  The result stands for an edge `y` (`Rep`): it is `y`, or `y`
with its weight snapped to zero or to one.  Because `mm_add2` re-enters itself on the same operands when both skip the
current level, the accuracy of the result is stated at every level of its operands at once.
-/

set_option linter.unusedSectionVars false
set_option linter.unusedVariables false
set_option linter.unusedSimpArgs false

namespace QDD
namespace Num
open RoundW NumW Prog Safe
variable {W : Type} [WOps W] [RoundW W] [NumW W] {env : Env W}

local notation "ε" => NumW.eps W

/-! ## Supports, one level down -/

theorem Sup.down {s : St W} (hi : Safe.Inv env s) {k n N} (h : Sup env s (k + 1) n N) (hl : MLv env s k n) : Sup env s k n N := by
  rcases h with ⟨_, h⟩ | ⟨p, nd, h1, h2, h3, _⟩
  · exact h
  · exfalso
    subst h1
    rcases hl with h | ⟨q, nd', e, h4, h5⟩
    · cases h
    · cases e
      rw [reg_fun h4 h2] at h5; omega

theorem Sup.up {s : St W} {k n N} (h : Sup env s k n N) : Sup env s (k + 1) n N := .inl ⟨h.lv, h⟩

theorem MOk.down {s : St W} (hi : Safe.Inv env s) {k} {e : Edge W} {N} (h : MOk env s (k + 1) e N) (hl : MLv env s k e.n) :
    MOk env s k e N := h.imp id (Sup.down hi · hl)

theorem MOk.up {s : St W} {k} {e : Edge W} {N} (h : MOk env s k e N) : MOk env s (k + 1) e N := h.imp id Sup.up

theorem az_not_one {a : W} (h : WOps.az a = true) (h1 : WOps.aone a = true) : False := by
  have h3 := az_small h
  have h4 := aone_close h1
  have h5 := norm_sub_le (val a) (val a - 1)
  rw [sub_sub_cancel, norm_one] at h5
  have := eps_le (W := W)
  norm_num at this
  linarith

theorem az_one_false (h : WOps.az (WOps.one : W) = true) : False := by rw [az_one] at h; cases h

/-! ## Representatives -/

theorem Rep.az {x y : Edge W} (h : Rep x y) (hz : WOps.az x.w = true) : Rep zeroE y := by
  rcases h with rfl | ⟨rfl, h⟩ | ⟨rfl, h⟩
  · exact .inr (.inl ⟨rfl, hz⟩)
  · exact .inr (.inl ⟨rfl, h⟩)
  · exact (az_one_false hz).elim

theorem Rep.ok {s : St W} {k N} {x y : Edge W} (h : Rep x y) (hy : MOk env s k y N) : MOk env s k x N := by
  rcases h with rfl | ⟨rfl, h⟩ | ⟨rfl, h⟩
  · exact hy
  · exact MOk.zero _ _ _
  · rcases hy with hy | hy
    · exact (az_not_one (z_az hy.1) h).elim
    · exact .inr hy

theorem Rep.near {s : St W} (hi : NInv env s) {k} (hk : k ≤ NQUBITS) {x y : Edge W} (h : Rep x y) (hy : MLv env s k y.n)
    (i j : Nat) : ‖md s k x i j - md s k y i j‖ ≤ 1001 / 1000 * ε := by
  have e0 := eps_nn (W := W)
  rcases h with rfl | ⟨rfl, h⟩ | ⟨rfl, h⟩
  · rw [sub_self, norm_zero]; positivity
  · rw [md_zeroE, zero_sub, norm_neg]
    refine (md_le hi hk hy i j).trans ?_
    have := az_small h
    linarith
  · unfold md
    simp only
    rw [← sub_mul, norm_mul, mul_comm, val_one, norm_sub_rev]
    exact mul_le_mul (mp_le' hi hk hy i j) (aone_close h) (norm_nonneg _) (by norm_num)

theorem AddApx.rep {s : St W} (hi : NInv env s) {m l r} {x y : Edge W} {α : ℝ} (hm : m ≤ NQUBITS) (hl : MLv env s m l.n)
    (hr : MLv env s m r.n) (h : AddApx env s m l r y α) (hx : Rep x y) : AddApx env s m l r x (α + 2 * ε) := by
  have e0 := eps_nn (W := W)
  have hy := (h.2 _ _ (.full hi.base hl) (.full hi.base hr)).lv
  refine ⟨fun M a b i j => ?_, fun Nl Nr a b => hx.ok (h.2 Nl Nr a b)⟩
  have h1 := h.1 M a b i j
  have h2 := hx.near hi hm hy i j
  have h3 := norm_add_le (md s m x i j - md s m y i j) (md s m y i j - (md s m l i j + md s m r i j))
  rw [sub_add_sub_cancel] at h3
  have hM : 0 ≤ M := (norm_nonneg _).trans a
  have : 0 ≤ ε * M := by positivity
  nlinarith

theorem AddApx.mono {s : St W} {m l r} {y : Edge W} {α β : ℝ} (h : AddApx env s m l r y α) (hab : α ≤ β) :
    AddApx env s m l r y β :=
  ⟨fun M a b i j => (h.1 M a b i j).trans (mul_le_mul_of_nonneg_right hab (by linarith [(norm_nonneg _).trans a])), h.2⟩

theorem AddApx.symm {s : St W} {m l r} {y : Edge W} {α : ℝ} (h : AddApx env s m l r y α) : AddApx env s m r l y α :=
  ⟨fun M a b i j => by rw [add_comm]; exact h.1 M b a i j, fun Nl Nr a b => by rw [Nat.add_comm]; exact h.2 Nr Nl b a⟩

theorem AddApx.up {s : St W} (hi : NInv env s) {m l r} {y : Edge W} {α : ℝ} (hl : MLv env s m l.n)
    (hr : MLv env s m r.n) (h : AddApx env s m l r y α) : AddApx env s (m + 1) l r y α := by
  have hy := (h.2 _ _ (.full hi.base hl) (.full hi.base hr)).lv
  refine ⟨fun M a b i j => ?_, fun Nl Nr a b => (h.2 Nl Nr (a.down hi.base hl) (b.down hi.base hr)).up⟩
  rw [md_skip hl, md_skip hr, md_skip hy]
  split
  · exact h.1 M a b i j
  · rw [add_zero, sub_self, norm_zero]
    exact (norm_nonneg _).trans (h.1 M a b i j)

theorem A_mono {a b : Nat} (h : a ≤ b) : A W a ≤ A W b := by
  have e0 := eps_nn (W := W)
  have : (a : ℝ) ≤ b := by exact_mod_cast h
  unfold A
  exact mul_le_mul_of_nonneg_left (by linarith) (by positivity)

theorem AddApx.upTo {s : St W} (hi : NInv env s) {m l r} {y : Edge W} {δ : ℝ} (hl : MLv env s m l.n)
    (hr : MLv env s m r.n) (h : AddApx env s m l r y (A W m - δ)) : ∀ d, AddApx env s (m + d) l r y (A W (m + d) - δ)
  | 0 => h
  | d + 1 => ((AddApx.upTo hi hl hr h d).up hi (hl.mono (Nat.le_add_right _ _)) (hr.mono (Nat.le_add_right _ _))).mono (by
      have := A_mono (W := W) (show m + d ≤ m + (d + 1) by omega); linarith)

/-! ## Early exits -/

theorem add_left {s : St W} (hi : NInv env s) {m} (hm : m ≤ NQUBITS) {l r : Edge W} (hl : MLv env s m l.n)
    (hr : MLv env s m r.n) (hz : ‖val r.w‖ ≤ ε) : AddApx env s m l r l (A W m - 5 * ε) := by
  have e0 := eps_nn (W := W)
  refine ⟨fun M a b i j => ?_, fun Nl Nr a b => a.mono (Nat.le_add_right _ _)⟩
  have h1 := md_le hi hm hr i j
  have hA := A_ge (W := W) m
  have hM : 0 ≤ M := (norm_nonneg _).trans a
  rw [sub_add_cancel_left, norm_neg]
  nlinarith

theorem add_right {s : St W} (hi : NInv env s) {m} (hm : m ≤ NQUBITS) {l r : Edge W} (hl : MLv env s m l.n)
    (hr : MLv env s m r.n) (hz : ‖val l.w‖ ≤ ε) : AddApx env s m l r r (A W m - 5 * ε) :=
  (add_left hi hm hr hl hz).symm

theorem add_same {s : St W} (hi : NInv env s) {m} (hm : m ≤ NQUBITS) {l r : Edge W} (hl : MLv env s m l.n)
    (hn : l.n = r.n) (hz : ¬ WOps.az l.w = true) : AddApx env s m l r ⟨WOps.add l.w r.w, l.n⟩ (A W m - 5 * ε) := by
  have e0 := eps_nn (W := W)
  refine ⟨fun M a b i j => ?_, fun Nl Nr a b => ?_⟩
  · unfold md
    simp only
    rw [← hn, ← add_mul, ← sub_mul, norm_mul]
    have h1 := add_err l.w r.w
    have h2 := mp_le' hi hm hl i j
    have hM : 0 ≤ M := (norm_nonneg _).trans a
    have h3 : ε * (1 + ‖val l.w‖ + ‖val r.w‖) ≤ ε * (1 + M + M) := mul_le_mul_of_nonneg_left (by linarith) e0
    have h4 : ‖val (WOps.add l.w r.w) - (val l.w + val r.w)‖ * ‖mp s.mt.mem m l.n i j‖ ≤ ε * (1 + M + M) * (1001 / 1000) :=
      mul_le_mul (h1.trans h3) h2 (norm_nonneg _) (by positivity)
    have hA := A_ge (W := W) m
    have : 0 ≤ ε * M := by positivity
    nlinarith
  · rcases a with a | a
    · exact absurd (z_az a.1) hz
    · exact .inr (a.mono (Nat.le_add_right _ _))

/-! ## The sum cache -/

/-- A cached sum of nearby operands. -/
theorem add_hit {s : St W} (hi : NInv env s) {m} (hm : m ≤ NQUBITS) {l r a b y : Edge W} (hl : MLv env s m l.n)
    (hr : MLv env s m r.n) (hzl : ¬ WOps.az l.w = true) (hzr : ¬ WOps.az r.w = true) (ha : eeq a l = true) (hb : eeq b r = true)
    (h : AddApx env s m a b y (A W m - 5 * ε)) : AddApx env s m l r y (A W m - 2 * ε) := by
  have e0 := eps_nn (W := W)
  have e1 := eps_le (W := W)
  have wl := eeq_w ha
  have wr := eeq_w hb
  have key : ∀ (x y : Edge W), x.n = y.n → MLv env s m y.n → ‖val x.w - val y.w‖ ≤ ε → ∀ i j,
      ‖md s m x i j - md s m y i j‖ ≤ 1001 / 1000 * ε := by
    intro x y hn hp hw i j
    unfold md
    rw [hn, ← sub_mul, norm_mul, mul_comm]
    exact mul_le_mul (mp_le' hi hm hp i j) hw (norm_nonneg _) (by norm_num)
  refine ⟨fun M ml mr i j => ?_, fun Nl Nr hl' hr' => ?_⟩
  · have ml' : ‖val a.w‖ ≤ M + ε := by
      have := norm_add_le (val a.w - val l.w) (val l.w)
      rw [sub_add_cancel] at this; linarith
    have mr' : ‖val b.w‖ ≤ M + ε := by
      have := norm_add_le (val b.w - val r.w) (val r.w)
      rw [sub_add_cancel] at this; linarith
    have c := h.1 (M + ε) ml' mr' i j
    have kl := key _ _ (eeq_n ha) hl wl i j
    have kr := key _ _ (eeq_n hb) hr wr i j
    have tri : md s m y i j - (md s m l i j + md s m r i j) = (md s m y i j - (md s m a i j + md s m b i j)) +
        ((md s m a i j - md s m l i j) + (md s m b i j - md s m r i j)) := by ring
    rw [tri]
    refine (norm_add_le _ _).trans ?_
    have h2 := norm_add_le (md s m a i j - md s m l i j) (md s m b i j - md s m r i j)
    have hA := A_le (W := W) hm
    have hA' := A_ge (W := W) m
    have hM : 0 ≤ M := (norm_nonneg _).trans ml
    have h3 : (A W m - 5 * ε) * ε ≤ 1 / 20000 * ε := mul_le_mul_of_nonneg_right (by linarith) e0
    have h4 : 0 ≤ ε * M := by positivity
    nlinarith
  · refine h.2 Nl Nr (.inr ?_) (.inr ?_)
    · rw [eeq_n ha]; exact hl'.resolve_left fun g => hzl (z_az g.1)
    · rw [eeq_n hb]; exact hr'.resolve_left fun g => hzr (z_az g.1)

theorem findAM_num {s : St W} (hi : NInv env s) {l r : Edge W} (hl : MReg env s l.n) (hr : MReg env s r.n)
    (hne : l.n ≠ r.n) (hzl : ¬ WOps.az l.w = true) (hzr : ¬ WOps.az r.w = true) {e : Edge W}
    (h : (findAM env l r).run s = .ok ((some e, 0), s)) :
    ∃ y, Rep e y ∧ ∀ m ≤ NQUBITS, MLv env s m l.n → MLv env s m r.n → AddApx env s m l r y (A W m - 2 * ε) := by
  obtain ⟨a, b, v, hord, hab, hrng⟩ := Safe.acOrderM hi.base hl hr hne
  rw [findAM, run_atom] at h
  simp only [ACache.find, hord, if_neg hrng] at h
  cases hc : s.am 0 v (env.ham a b % NBUCKETS) with
  | none => rw [hc] at h; simp at h
  | some x =>
    rw [hc] at h
    simp only at h
    by_cases hm : (eeq x.lhs a && eeq x.rhs b) = true
    · rw [if_pos hm] at h
      simp only [Bool.and_eq_true] at hm
      have hent := hi.base.am _ _ _ _ hc
      obtain ⟨v, hv, hv', _⟩ := (hent.2.2.reg hi.base hent.1 hent.2.1).evar hi.base
      have hv2 : v ≠ -2 := by omega
      rw [hv] at h
      simp only [if_pos hv2] at h
      cases h
      obtain ⟨_, _, y, h1, h2⟩ := hi.am _ _ _ _ hc
      refine ⟨y, h1, fun m hm' gl gr => ?_⟩
      rcases hab with ⟨rfl, rfl⟩ | ⟨rfl, rfl⟩
      · exact add_hit hi hm' gl gr hzl hzr hm.1 hm.2 (h2 m hm' (by rw [eeq_n hm.1]; exact gl) (by rw [eeq_n hm.2]; exact gr))
      · exact (add_hit hi hm' gr gl hzr hzl hm.1 hm.2
          (h2 m hm' (by rw [eeq_n hm.1]; exact gr) (by rw [eeq_n hm.2]; exact gl))).symm
    · rw [if_neg hm] at h; cases h

theorem setAM_num {s : St W} (hi : NInv env s) {l r res y : Edge W} (hl : MReg env s l.n) (hr : MReg env s r.n)
    (hne : l.n ≠ r.n) (hres : Cov env s l.n r.n res.n) (hy : Rep res y)
    (h : ∀ m ≤ NQUBITS, MLv env s m l.n → MLv env s m r.n → AddApx env s m l r y (A W m - 5 * ε)) {s' : St W}
    (hr' : (setAM env 0 l r res).run s = .ok ((), s')) : NInv env s' := by
  obtain ⟨s2, h1, h2, h3, h4, h5⟩ := setAM_run hi.base hl hr hne hres
  rw [h1] at hr'
  cases hr'
  obtain ⟨a, b, v, hord, hab, hrng⟩ := Safe.acOrderM hi.base hl hr hne
  have hset : (s.am 0).set s.mt.mem env.ham l r res = .ok (upd (s.am 0) v (upd (s.am 0 v)
      (env.ham a b % NBUCKETS) (some ⟨a, b, res⟩))) := by
    unfold ACache.set; simp only [hord, if_neg hrng]
  rw [setAM, run_atom] at h1
  simp only [hset] at h1
  cases h1
  refine hi.caches h2 rfl rfl hi.av hi.cv (fun tid lv key e h' => ?_) hi.cm
  rcases upd3_some h' with rfl | h'
  · rcases hab with ⟨rfl, rfl⟩ | ⟨rfl, rfl⟩
    · exact ⟨hl, hr, y, hy, h⟩
    · exact ⟨hr, hl, y, hy, fun m hm a b => (h m hm b a).symm⟩
  · exact hi.am _ _ _ _ h'

/-! ## Operands of the recursive calls -/

theorem mAddArg_num {s : St W} (hi : NInv env s) {k : Nat} (hk : k < NQUBITS) {e : Edge W} {nd}
    (h : MLv env s (k + 1) e.n) (hr : Safe.ReadM env s e.n nd) :
    (∀ M, ‖val e.w‖ ≤ M → ∀ r c, ‖val (mAddArg k nd e r c).w‖ ≤ M * (1 + 4 * ε) + ε ∧
      ∀ i j, i.testBit k = r → j.testBit k = c → ‖md s k (mAddArg k nd e r c) i j - md s (k + 1) e i j‖ ≤ 11 / 10 * ε * (1 + M)) ∧
    ∀ N, MOk env s (k + 1) e N → ∃ n : Bool → Bool → Nat, (∀ r c, MOk env s k (mAddArg k nd e r c) (n r c)) ∧
      ∀ r, n r false + n r true ≤ N := by
  have e0 := eps_nn (W := W)
  have e1 := eps_le (W := W)
  rcases hr.cases h with ⟨p, h1, h2, h3⟩ | ⟨h1, h2⟩
  · have harg : ∀ r c, mAddArg k nd e r c = ⟨WOps.mul e.w (nd.child r c).w, (nd.child r c).n⟩ := fun r c => by
      unfold mAddArg; rw [if_pos ⟨h3, by simp [h1]⟩]
    refine ⟨fun M hM r c => ?_, fun N hN => ?_⟩
    · have hM0 : 0 ≤ M := (norm_nonneg _).trans hM
      rw [harg]
      have hb := (hi.mw _ _ h2 r c).1
      have herr := mul_err e.w (nd.child r c).w
      have hprod : ‖val e.w‖ * ‖val (nd.child r c).w‖ ≤ M * bet W := mul_le_mul hM hb (norm_nonneg _) hM0
      have hME : 0 ≤ M * ε := by positivity
      have hMEE : M * ε * ε ≤ M * ε * (1 / 10 ^ 8) := mul_le_mul_of_nonneg_left e1 hME
      have herr' : ‖val (WOps.mul e.w (nd.child r c).w) - val e.w * val (nd.child r c).w‖ ≤ ε * (1 + M * (1 + 2 * ε)) := by
        refine herr.trans (mul_le_mul_of_nonneg_left ?_ e0)
        unfold bet at hprod; linarith
      constructor
      · have h4 := norm_add_le (val (WOps.mul e.w (nd.child r c).w) - val e.w * val (nd.child r c).w)
          (val e.w * val (nd.child r c).w)
        rw [sub_add_cancel, norm_mul (val e.w)] at h4
        simp only
        unfold bet at hprod
        nlinarith
      · intro i j hir hjc
        have hvd : md s (k + 1) e i j = val e.w * val (nd.child r c).w * mp s.mt.mem k (nd.child r c).n i j := by
          unfold md
          rw [h1]
          simp only [mp, h2.1, h3, if_true, hir, hjc, mul_assoc]
        rw [hvd]
        unfold md
        rw [← sub_mul, norm_mul]
        have hvp := mp_le' hi hk.le (hi.base.mchild h2 r c h3) i j
        have : ‖val (WOps.mul e.w (nd.child r c).w) - val e.w * val (nd.child r c).w‖ * ‖mp s.mt.mem k (nd.child r c).n i j‖ ≤
            ε * (1 + M * (1 + 2 * ε)) * (1001 / 1000) := mul_le_mul herr' hvp (norm_nonneg _) (by positivity)
        refine this.trans ?_
        nlinarith
    · rcases hN with hN | hN
      · rw [h1] at hN; cases hN.2
      rcases hN with ⟨hN, _⟩ | ⟨q, nd', g1, g2, g3, g0, Ms, g4, g5⟩
      · exfalso
        rw [h1] at hN
        rcases hN with hN | ⟨q, nd', e', h4, h5⟩
        · cases hN
        · cases e'
          rw [reg_fun h2 h4] at h3; omega
      · rw [h1] at g1
        cases g1
        have := reg_fun h2 g2
        subst this
        refine ⟨Ms, fun r c => ?_, g5⟩
        rw [harg]
        rcases g4 r c with g | g
        · left
          rw [g]
          exact ⟨z_mul_right _ z_zero, rfl⟩
        · exact .inr g
  · have harg : ∀ r c, mAddArg k nd e r c = if r ≠ c then zeroE else e := fun r c => by
      unfold mAddArg; rw [if_neg h2]
    refine ⟨fun M hM r c => ?_, fun N hN => ?_⟩
    · have hM0 : 0 ≤ M := (norm_nonneg _).trans hM
      rw [harg]
      constructor
      · split
        · rw [zeroE, val_zero, norm_zero]; positivity
        · nlinarith [mul_nonneg hM0 e0]
      · intro i j hir hjc
        rw [md_skip h1, hir, hjc]
        by_cases hrc : r = c
        · rw [if_neg (by simpa using hrc), if_pos hrc, sub_self, norm_zero]; positivity
        · rw [if_pos hrc, if_neg hrc, md_zeroE, sub_self, norm_zero]; positivity
    · refine ⟨fun r c => if r = c then N else 0, fun r c => ?_, fun r => by cases r <;> simp⟩
      rw [harg]
      have := hN.down hi.base h1
      cases r <;> cases c <;> simp
      · exact this
      · exact MOk.zero _ _ _
      · exact MOk.zero _ _ _
      · exact this

/-! ## The sum -/

theorem makeM_az' {tid : Nat} {k : Int} {s : St W} {e0 : Edge W} (hw : WOps.az e0.w = true) {res : Edge W} {s' : St W}
    (h : makeMEdge env tid k e0 zeroE zeroE zeroE s = .ok (res, s')) : res = zeroE ∨ res = e0 := by
  unfold makeMEdge at h
  by_cases hs : strips e0 zeroE zeroE zeroE = true
  · rw [if_pos hs] at h
    cases h
    exact .inr rfl
  rw [if_neg hs] at h
  generalize UTable.getNode tid s.mt = pt at h
  obtain ⟨p, t⟩ := pt
  simp only [normalizeM] at h
  split at h
  · cases h
  next e t' hx =>
  cases h
  split at hx
  · cases hx; exact .inl rfl
  rw [if_pos (by rw [RoundW.mul_one]; exact maxW4_az hw)] at hx
  cases hx; exact .inl rfl

variable (env) in
/-- Accuracy of a sum at every level of its operands. -/
def AddAll (s : St W) (l r y : Edge W) (δ : ℝ) : Prop :=
  ∀ m ≤ NQUBITS, MLv env s m l.n → MLv env s m r.n → AddApx env s m l r y (A W m - δ)

theorem AddAll.ext {s s' : St W} (hi : Safe.Inv env s) (he : Grow env s s') {l r y : Edge W} {δ : ℝ} (hl : MReg env s l.n)
    (hr : MReg env s r.n) (h : AddAll env s l r y δ) : AddAll env s' l r y δ :=
  fun m hm a b => (h m hm (hl.back he a) (hr.back he b)).ext hi he (hl.back he a) (hr.back he b)

theorem AddAll.mono {s : St W} {l r y : Edge W} {δ δ' : ℝ} (h : AddAll env s l r y δ) (hd : δ' ≤ δ) : AddAll env s l r y δ' :=
  fun m hm a b => (h m hm a b).mono (by linarith)

variable (env) in
/-- What a run of `mm_add2` returns. -/
def AddNum (l r : Edge W) (s : St W) (e : Edge W) (s' : St W) : Prop :=
  NInv env s' ∧ ∃ y, Rep e y ∧ (AddAll env s' l r y (5 * ε) ∨
    (AddAll env s' l r y (2 * ε) ∧ ∃ x, (findAM env l r).run s = .ok ((some x, 0), s)))

theorem AddNum.weak {l r : Edge W} {s : St W} {e : Edge W} {s' : St W} (h : AddNum env l r s e s') :
    ∃ y, Rep e y ∧ AddAll env s' l r y (2 * ε) := by
  have e0 := eps_nn (W := W)
  obtain ⟨_, y, hy, h | h⟩ := h
  · exact ⟨y, hy, h.mono (by linarith)⟩
  · exact ⟨y, hy, h.1⟩

/-- The result itself. -/
theorem AddNum.apx {l r : Edge W} {s : St W} {e : Edge W} {s' : St W} (h : AddNum env l r s e s') {m} (hm : m ≤ NQUBITS)
    (hl : MLv env s' m l.n) (hr : MLv env s' m r.n) : AddApx env s' m l r e (A W m) := by
  obtain ⟨y, hy, h'⟩ := h.weak
  exact ((h' m hm hl hr).rep h.1 hm hl hr hy).mono (by linarith)

theorem mmAdd2_num : ∀ {k : Nat} {s : St W} {l r : Edge W},
    k ≤ NQUBITS → NInv env s → MLv env s k l.n → MLv env s k r.n → ∀ {e s'},
    (mmAdd2 env k l r).run s = .ok (e, s') → AddNum env l r s e s' := by
  have e0 := eps_nn (W := W)
  have e1 := eps_le (W := W)
  have left : ∀ {k} {s : St W} {l r e : Edge W} {s'}, NInv env s → MLv env s k l.n → MLv env s k r.n → ‖val r.w‖ ≤ ε →
      mmAdd2 env k l r = pure l → (mmAdd2 env k l r).run s = .ok (e, s') → AddNum env l r s e s' := by
    intro k s l r e s' hi hl hr hz h h'
    rw [h] at h'
    cases h'
    exact ⟨hi, l, .inl rfl, .inl fun m hm a b => add_left hi hm a b hz⟩
  have right : ∀ {k} {s : St W} {l r e : Edge W} {s'}, NInv env s → MLv env s k l.n → MLv env s k r.n → ‖val l.w‖ ≤ ε →
      mmAdd2 env k l r = pure r → (mmAdd2 env k l r).run s = .ok (e, s') → AddNum env l r s e s' := by
    intro k s l r e s' hi hl hr hz h h'
    rw [h] at h'
    cases h'
    exact ⟨hi, r, .inl rfl, .inl fun m hm a b => add_right hi hm a b hz⟩
  have ez : ∀ {x : Edge W}, eeq x zeroE = true → ‖val x.w‖ ≤ ε := fun h => by
    have := eeq_w h
    simpa [zeroE, val_zero] using this
  intro k
  induction k with
  | zero =>
    intro s l r hk hi hl hr e s' hrun
    by_cases h0 : (eeq l zeroE || eeq r zeroE) = true
    · by_cases h1 : eeq l zeroE = true
      · exact right hi hl hr (ez h1) (by unfold mmAdd2; rw [if_pos h0, if_pos h1]) hrun
      · have h2 : eeq r zeroE = true := by simpa [h1] using h0
        exact left hi hl hr (ez h2) (by unfold mmAdd2; rw [if_pos h0, if_neg h1]) hrun
    by_cases hz : WOps.az l.w = true
    · exact right hi hl hr (az_small hz) (by unfold mmAdd2; rw [if_neg h0, if_pos hz]) hrun
    by_cases hz' : WOps.az r.w = true
    · exact left hi hl hr (az_small hz') (by unfold mmAdd2; rw [if_neg h0, if_neg hz, if_pos hz']) hrun
    have h1 := hl.term hi.base
    have h2 := hr.term hi.base
    have hp : mmAdd2 env 0 l r = pure ⟨WOps.add l.w r.w, none⟩ := by
      unfold mmAdd2; rw [if_neg h0, if_neg hz, if_neg hz', if_pos ⟨h1, h2⟩]
    rw [hp] at hrun
    cases hrun
    refine ⟨hi, _, .inl rfl, .inl fun m hm a b => ?_⟩
    have := add_same hi hm a (h1.trans h2.symm) hz
    rwa [h1] at this
  | succ k ih =>
    intro s l r hk hi hl hr e s' hrun
    by_cases h0 : (eeq l zeroE || eeq r zeroE) = true
    · by_cases h1 : eeq l zeroE = true
      · exact right hi hl hr (ez h1) (by unfold mmAdd2; rw [if_pos h0, if_pos h1]) hrun
      · have h2 : eeq r zeroE = true := by simpa [h1] using h0
        exact left hi hl hr (ez h2) (by unfold mmAdd2; rw [if_pos h0, if_neg h1]) hrun
    by_cases hz : WOps.az l.w = true
    · exact right hi hl hr (az_small hz) (by unfold mmAdd2; rw [if_neg h0, if_pos hz]) hrun
    by_cases hz' : WOps.az r.w = true
    · exact left hi hl hr (az_small hz') (by unfold mmAdd2; rw [if_neg h0, if_neg hz, if_pos hz']) hrun
    by_cases hn : l.n = r.n
    · have hp : mmAdd2 env (k + 1) l r = pure ⟨WOps.add l.w r.w, l.n⟩ := by
        unfold mmAdd2; rw [if_neg h0, if_neg hz, if_neg hz', if_pos hn]
      rw [hp] at hrun
      cases hrun
      exact ⟨hi, _, .inl rfl, .inl fun m hm a b => add_same hi hm a hn hz⟩
    have hk' : k < NQUBITS := hk
    have hk0 : k ≤ NQUBITS := Nat.le_of_lt hk
    have hunf := show mmAdd2 env (k + 1) l r = _ by
      unfold mmAdd2; rw [if_neg h0, if_neg hz, if_neg hz', if_neg hn]
    obtain ⟨o, ho, hQ⟩ := findAM_run hi.base hl.reg hr.reg hn
    cases o with
    | some x =>
      rw [hunf, run_ok ho] at hrun
      simp only at hrun
      obtain ⟨y, hy, hacc⟩ := findAM_num hi hl.reg hr.reg hn hz hz' ho
      by_cases hx : WOps.az x.w = true
      · rw [if_pos hx] at hrun
        cases hrun
        exact ⟨hi, y, hy.az hx, .inr ⟨hacc, x, ho⟩⟩
      · rw [if_neg hx] at hrun
        cases hrun
        exact ⟨hi, y, hy, .inr ⟨hacc, _, ho⟩⟩
    | none =>
      obtain ⟨nl, hrl, hnl⟩ := readM_run hl.reg
      obtain ⟨nr, hrr, hnr⟩ := readM_run hr.reg
      obtain ⟨ol, skl⟩ := Safe.mAdd_child hi.base hl hnl
      obtain ⟨or, skr⟩ := Safe.mAdd_child hi.base hr hnr
      obtain ⟨x0, s4, r0, i4, g4, c4, m4, st4⟩ := mmAdd2_run hk0 hi.base (ol false false) (or false false)
      have n4 := ih hk0 hi (ol false false) (or false false) r0
      obtain ⟨x1, s5, r1, i5, g5, c5, m5, _⟩ := mmAdd2_run hk0 i4 ((ol false true).ext g4) ((or false true).ext g4)
      have n5 := ih hk0 n4.1 ((ol false true).ext g4) ((or false true).ext g4) r1
      have g35 := g4.trans g5
      obtain ⟨x2, s6, r2, i6, g6, c6, m6, _⟩ := mmAdd2_run hk0 i5 ((ol true false).ext g35) ((or true false).ext g35)
      have n6 := ih hk0 n5.1 ((ol true false).ext g35) ((or true false).ext g35) r2
      have g36 := g35.trans g6
      obtain ⟨x3, s7, r3, i7, g7, c7, m7, _⟩ := mmAdd2_run hk0 i6 ((ol true true).ext g36) ((or true true).ext g36)
      have n7 := ih hk0 n6.1 ((ol true true).ext g36) ((or true true).ext g36) r3
      have g37 := g36.trans g7
      have g57 := g6.trans g7
      have g47 := g5.trans g57
      obtain ⟨res, s8, rm, hmk, i8, g8, hres, m8⟩ := mkM_run i7 hk'
        ((c4 k ((ol _ _).ext g4) ((or _ _).ext g4)).ext g47) ((c5 k ((ol _ _).ext g35) ((or _ _).ext g35)).ext g57)
        ((c6 k ((ol _ _).ext g36) ((or _ _).ext g36)).ext g7) (c7 k ((ol _ _).ext g37) ((or _ _).ext g37))
      have g38 := g37.trans g8
      -- the four blocks
      obtain ⟨x, hx⟩ : ∃ x : Bool → Bool → Edge W, x = fun a b => if a then (if b then x3 else x2) else (if b then x1 else x0) := ⟨_, rfl⟩
      have blk : ∀ a b, AddApx env s7 k (mAddArg k nl l a b) (mAddArg k nr r a b) (x a b) (A W k) := by
        intro a b
        cases a <;> cases b <;> subst hx <;> simp only [Bool.false_eq_true, if_false, if_true]
        · exact (n4.apx hk0 ((ol _ _).ext g4) ((or _ _).ext g4)).ext i4 g47 ((ol _ _).ext g4) ((or _ _).ext g4)
        · exact (n5.apx hk0 ((ol _ _).ext g35) ((or _ _).ext g35)).ext i5 g57 ((ol _ _).ext g35) ((or _ _).ext g35)
        · exact (n6.apx hk0 ((ol _ _).ext g36) ((or _ _).ext g36)).ext i6 g7 ((ol _ _).ext g36) ((or _ _).ext g36)
        · exact n7.apx hk0 ((ol _ _).ext g37) ((or _ _).ext g37)
      have hmk' : makeMEdge env 0 k (x false false) (x false true) (x true false) (x true true) s7 = .ok (res, s8) := by
        subst hx; exact hmk
      have hMl : ∀ a b, MLv env s7 k (mAddArg k nl l a b).n := fun a b => (ol a b).ext g37
      have hMr : ∀ a b, MLv env s7 k (mAddArg k nr r a b).n := fun a b => (or a b).ext g37
      obtain ⟨argl, supl⟩ := mAddArg_num n7.1 hk' (hl.ext g37) (e := l) (nd := nl) (by
        rcases hnl with h | ⟨p, h1, h2⟩
        · exact .inl h
        · exact .inr ⟨p, h1, g37.2 _ _ h2⟩)
      obtain ⟨argr, supr⟩ := mAddArg_num n7.1 hk' (hr.ext g37) (e := r) (nd := nr) (by
        rcases hnr with h | ⟨p, h1, h2⟩
        · exact .inl h
        · exact .inr ⟨p, h1, g37.2 _ _ h2⟩)
      obtain ⟨m, hm⟩ : ∃ m, m = max ‖val l.w‖ ‖val r.w‖ := ⟨_, rfl⟩
      have hm0 : 0 ≤ m := by rw [hm]; exact le_trans (norm_nonneg _) (le_max_left _ _)
      have ml' : ‖val l.w‖ ≤ m := hm ▸ le_max_left _ _
      have mr' : ‖val r.w‖ ≤ m := hm ▸ le_max_right _ _
      have argl := argl m ml'
      have argr := argr m mr'
      have hA := A_le (W := W) hk0
      have hA' : 0 ≤ A W k := le_trans (by positivity) (A_ge (W := W) k)
      have hem : 0 ≤ ε * m := by positivity
      have hwt : ∀ a b, ‖val (x a b).w‖ ≤ 21 / 10 * (1 + m) := by
        intro a b
        have hx := blk a b
        refine mweight_le n7.1 ((hx.2 _ _ (.full i7 (hMl a b)) (.full i7 (hMr a b))).lv) fun i j => ?_
        have y1 := hx.1 _ (argl a b).1 (argr a b).1 i j
        have y2 := md_le n7.1 hk0 (hMl a b) i j
        have y3 := md_le n7.1 hk0 (hMr a b) i j
        have y4 := (argl a b).1
        have y5 := (argr a b).1
        have y6 := norm_add_le (md s7 k (x a b) i j - (md s7 k (mAddArg k nl l a b) i j + md s7 k (mAddArg k nr r a b) i j))
          (md s7 k (mAddArg k nl l a b) i j + md s7 k (mAddArg k nr r a b) i j)
        rw [sub_add_cancel] at y6
        have y7 := norm_add_le (md s7 k (mAddArg k nl l a b) i j) (md s7 k (mAddArg k nr r a b) i j)
        have y8 : ε * m ≤ 1 / 10 ^ 8 * m := mul_le_mul_of_nonneg_right e1 hm0
        have y9 : A W k * (1 + (m * (1 + 4 * ε) + ε)) ≤ 1 / 20000 * (1 + (m * (1 + 4 * ε) + ε)) :=
          mul_le_mul_of_nonneg_right hA (by positivity)
        nlinarith
      -- making the node
      have made : ∀ {n : Bool → Bool → Nat} {N : Nat}, 1 ≤ N → (∀ a b, MOk env s7 k (x a b) (n a b)) →
          (∀ a, n a false + n a true ≤ N) → NInv env s8 ∧ MMade env s7 s8 k x (21 / 10 * (1 + m)) N res := by
        intro n N hN1 hok hN
        obtain ⟨e', t, q1, q2, q3, q4⟩ := makeMEdge_num n7.1 0 hk' hN1 hok hN hwt
        rw [hmk'] at q1
        cases q1
        exact ⟨q2, q4⟩
      have full : ∀ a b, MOk env s7 k (x a b) (2 ^ k + 2 ^ k) := fun a b =>
        (blk a b).2 _ _ (.full i7 (hMl a b)) (.full i7 (hMr a b))
      have made0 := made (n := fun _ _ => 2 ^ k + 2 ^ k) (N := 2 ^ k + 2 ^ k + (2 ^ k + 2 ^ k))
        (by have := Nat.two_pow_pos k; omega) full (fun _ => le_refl _)
      have n8 := made0.1
      -- the result
      have hfin : ∃ y, Rep res y ∧ AddAll env s8 l r y (5 * ε) := by
        by_cases hb : MLv env s k l.n ∧ MLv env s k r.n
        · rw [skl hb.1, skr hb.2] at r0 r1 r2 r3 n4
          simp only [ne_eq, not_true_eq_false, if_false, Bool.false_eq_true, not_false_eq_true, if_true,
            Bool.true_eq_false] at r0 r1 r2 r3 n4
          rw [mmAdd2_zero] at r1 r2
          cases r1
          cases r2
          obtain ⟨e', st, hst⟩ := st4
          rw [skl hb.1, skr hb.2] at st
          simp only [ne_eq, not_true_eq_false, if_false] at st
          rw [st] at r3
          cases r3
          obtain ⟨_, y, hy, hacc⟩ := n4
          have hacc : AddAll env s4 l r y (5 * ε) := by
            rcases hacc with h | ⟨_, z, hz⟩
            · exact h
            · rw [ho] at hz; cases hz
          refine ⟨y, ?_, hacc.ext i4 (g47.trans g8) (hl.reg.ext g4) (hr.reg.ext g4)⟩
          rcases hst with rfl | ⟨haz, rfl⟩
          · rw [makeM_strip rfl (ae_refl _)] at hmk
            cases hmk
            exact hy
          · rcases makeM_az' haz hmk with rfl | rfl
            · exact hy.az haz
            · exact hy
        · refine ⟨res, .inl rfl, ?_⟩
          have hl8 := hl.ext g38
          have hr8 := hr.ext g38
          have base : AddApx env s8 (k + 1) l r res (A W (k + 1) - 5 * ε) := by
            refine ⟨fun M ml mr i j => ?_, fun Nl Nr hNl hNr => ?_⟩
            · obtain ⟨_, _, w, w1, w2⟩ := made0.2
              generalize ha : i.testBit k = a at *
              generalize hc : j.testBit k = c at *
              have w2 := w2 i j
              rw [ha, hc] at w2
              have y1 : ‖md s8 (k + 1) res i j - md s7 k (x a c) i j‖ ≤ 4 * ε * (1 + 21 / 10 * (1 + m)) := by
                rw [w2]
                unfold md
                rw [← sub_mul, norm_mul]
                have := mul_le_mul (w1 a c) (mp_le' n7.1 hk0 (full a c).lv i j) (norm_nonneg _) (by positivity)
                refine this.trans ?_
                nlinarith
              have y2 := (blk a c).1 _ (argl a c).1 (argr a c).1 i j
              have y4 := (argl a c).2 i j ha hc
              have y5 := (argr a c).2 i j ha hc
              have el : md s8 (k + 1) l i j = md s7 (k + 1) l i j := md_ext i7 g8 (hl.reg.ext g37) i j
              have er : md s8 (k + 1) r i j = md s7 (k + 1) r i j := md_ext i7 g8 (hr.reg.ext g37) i j
              rw [el, er]
              have tri : md s8 (k + 1) res i j - (md s7 (k + 1) l i j + md s7 (k + 1) r i j) =
                  (md s8 (k + 1) res i j - md s7 k (x a c) i j) +
                  (md s7 k (x a c) i j - (md s7 k (mAddArg k nl l a c) i j + md s7 k (mAddArg k nr r a c) i j)) +
                  ((md s7 k (mAddArg k nl l a c) i j - md s7 (k + 1) l i j) +
                    (md s7 k (mAddArg k nr r a c) i j - md s7 (k + 1) r i j)) := by ring
              rw [tri]
              have z := add_level hA hA' e0 e1 hm0
              have hmM : m ≤ M := hm ▸ max_le ml mr
              have hA1 := A_ge (W := W) (k + 1)
              have z3 : (A W (k + 1) - 5 * ε) * (1 + m) ≤ (A W (k + 1) - 5 * ε) * (1 + M) :=
                mul_le_mul_of_nonneg_left (by linarith) (by linarith)
              refine le_trans ?_ z3
              rw [A_succ]
              refine (norm_add_le _ _).trans ?_
              have z1 := norm_add_le (md s8 (k + 1) res i j - md s7 k (x a c) i j)
                (md s7 k (x a c) i j - (md s7 k (mAddArg k nl l a c) i j + md s7 k (mAddArg k nr r a c) i j))
              have z2 := norm_add_le (md s7 k (mAddArg k nl l a c) i j - md s7 (k + 1) l i j)
                (md s7 k (mAddArg k nr r a c) i j - md s7 (k + 1) r i j)
              linarith
            · have sl : Sup env s8 (k + 1) l.n Nl := hNl.resolve_left fun g => hz (z_az g.1)
              obtain ⟨n1, o1, t1⟩ := supl Nl (hNl.back i7 g8 (hl.reg.ext g37))
              obtain ⟨n2, o2, t2⟩ := supr Nr (hNr.back i7 g8 (hr.reg.ext g37))
              refine (made (n := fun a b => n1 a b + n2 a b) (by have := sl.one_le; omega)
                (fun a b => (blk a b).2 _ _ (o1 a b) (o2 a b)) (fun a => by have := t1 a; have := t2 a; omega)).2.1
          intro m' hm' a b
          have hge : k + 1 ≤ m' := by
            by_contra hc
            exact hb ⟨(hl.reg.back g38 a).mono (by omega), (hr.reg.back g38 b).mono (by omega)⟩
          obtain ⟨d, rfl⟩ := Nat.exists_eq_add_of_le hge
          exact base.upTo n8 hl8 hr8 d
      obtain ⟨y, hy, hacc⟩ := hfin
      have hcov : Cov env s8 l.n r.n res.n := fun m gl gr => by
        by_cases hm : m ≤ NQUBITS
        · exact (hy.ok ((hacc m hm gl gr).2 _ _ (.full i8 gl) (.full i8 gr))).lv
        · exact hres.mono (by omega)
      obtain ⟨s9, rs, i9, g9, m9, hf9⟩ := setAM_run i8 (hl.reg.ext g38) (hr.reg.ext g38) hn hcov
      have n9 := setAM_num n8 (hl.reg.ext g38) (hr.reg.ext g38) hn hcov hy hacc rs
      rw [hunf, run_ok ho] at hrun
      simp only at hrun
      rw [run_ok hrl, run_ok hrr, run_ok r0, run_ok r1, run_ok r2, run_ok r3, run_ok rm, run_ok rs] at hrun
      cases hrun
      exact ⟨n9, y, hy, .inl (hacc.ext i8 g9 (hl.reg.ext g38) (hr.reg.ext g38))⟩

end Num
end QDD
