import Verif.Num.Make
/-!
# Numerical accuracy of vector sums and matrix-vector products, under every schedule
-/

set_option linter.unusedSectionVars false
set_option linter.unusedVariables false
set_option linter.unusedSimpArgs false

namespace QDD
namespace Num
open RoundW NumW Prog Safe
variable {W : Type} [WOps W] [RoundW W] [NumW W] {env : Env W}

local notation "ε" => NumW.eps W

theorem A_le {k : Nat} (hk : k ≤ NQUBITS) : A W k ≤ 1 / 20000 := by
  have h := eps_le (W := W)
  have e0 := eps_nn (W := W)
  have hk' : (k : ℝ) ≤ 100 := by have : k ≤ 100 := hk; exact_mod_cast this
  unfold A
  have : ε * ((k : ℝ) + 1) ≤ 1 / 10 ^ 8 * 101 := mul_le_mul h (by linarith) (by positivity) (by norm_num)
  norm_num at this ⊢
  linarith

theorem A_ge (k : Nat) : 40 * ε ≤ A W k := by
  have e0 := eps_nn (W := W)
  unfold A
  have : 0 ≤ ε * (k : ℝ) := by positivity
  nlinarith

theorem A_succ (k : Nat) : A W (k + 1) = A W k + 40 * ε := by unfold A; push_cast; ring

theorem D_le {k : Nat} (hk : k ≤ NQUBITS) : D W k ≤ 1 / 50 := by
  have h := eps_le (W := W)
  have e0 := eps_nn (W := W)
  have hk' : (k : ℝ) ≤ 100 := by have : k ≤ 100 := hk; exact_mod_cast this
  have h0 : (0 : ℝ) ≤ k := Nat.cast_nonneg k
  unfold D
  have h1 : ((k : ℝ) + 1) ^ 2 ≤ 101 ^ 2 := pow_le_pow_left₀ (by linarith) (by linarith) 2
  have : ε * ((k : ℝ) + 1) ^ 2 ≤ 1 / 10 ^ 8 * 101 ^ 2 := mul_le_mul h h1 (by positivity) (by norm_num)
  norm_num at this ⊢
  linarith

theorem D_nn (k : Nat) : 0 ≤ D W k := by
  have e0 := eps_nn (W := W)
  unfold D; positivity

theorem D_succ (k : Nat) : D W (k + 1) = D W k + 200 * ε * ((k : ℝ) + 1) + 100 * ε := by unfold D; push_cast; ring

/-! ## Atomic steps -/

/-- A cached sum. -/
theorem findAV_num {s : St W} (hs : NInv env s) {k : Nat} {l r : Edge W} (hk : k < NQUBITS) (hl : VPtr env s (k + 1) l.n)
    (hr : VPtr env s (k + 1) r.n) {M : ℝ} (ml : ‖val l.w‖ ≤ M) (mr : ‖val r.w‖ ≤ M) :
    Sat (nworld env) (findAV env l r) s (fun s' x => ∀ e, x.1 = some e →
      VApx env s' (k + 1) e (fun i => vd s (k + 1) l i + vd s (k + 1) r i) (A W (k + 1) * (1 + M) - 2 * ε)) := by
  refine Sat.atom fun s1 tid hi he => ?_
  have hl1 := hl.ext he
  have hr1 := hr.ext he
  have h1 : (((k + 1 : Nat) : Int) - 1) = k := by push_cast; omega
  have hord : acOrder s1.vt.mem l r = .ok (l, r, (k : Int)) := by
    unfold acOrder; rw [hl1.evar, hr1.evar]; simp [h1]
  have hrng : ¬ ((k : Int) < 0 ∨ (NQUBITS : Int) ≤ k) := by omega
  have e0 := eps_nn (W := W)
  have e1 := eps_le (W := W)
  have hM : 0 ≤ M := (norm_nonneg _).trans ml
  have key : ∃ o, (s1.av tid).find s1.vt.mem env.hav l r = .ok o ∧ ∀ e, o = some e →
      VApx env s1 (k + 1) e (fun i => vd s (k + 1) l i + vd s (k + 1) r i) (A W (k + 1) * (1 + M) - 2 * ε) := by
    unfold ACache.find
    simp only [hord, if_neg hrng]
    cases hc : s1.av tid (k : Int) (env.hav l r % NBUCKETS) with
    | none => exact ⟨none, rfl, fun e h => by cases h⟩
    | some e =>
      simp only
      by_cases hm : (eeq e.lhs l && eeq e.rhs r) = true
      · rw [if_pos hm]
        simp only [Bool.and_eq_true] at hm
        obtain ⟨k', a, b, c⟩ := hi.av _ _ _ _ hc
        rw [eeq_n hm.1] at a
        have := a.level hl1
        subst this
        have wl := eeq_w hm.1
        have wr := eeq_w hm.2
        have ml' : ‖val e.lhs.w‖ ≤ M + ε := by
          have := norm_add_le (val e.lhs.w - val l.w) (val l.w)
          rw [sub_add_cancel] at this; linarith
        have mr' : ‖val e.rhs.w‖ ≤ M + ε := by
          have := norm_add_le (val e.rhs.w - val r.w) (val r.w)
          rw [sub_add_cancel] at this; linarith
        have c := c (M + ε) ml' mr'
        obtain ⟨v, hv, hv'⟩ := c.1.evar hi.base
        have : v ≠ -2 := by omega
        rw [hv]
        simp only [if_pos this]
        refine ⟨_, rfl, fun x hx => ?_⟩
        cases hx
        refine ⟨c.1, fun i => ?_⟩
        have c := c.2 i
        have key : ∀ (x y : Edge W), x.n = y.n → VPtr env s (k + 1) y.n → ‖val x.w - val y.w‖ ≤ ε →
            ‖vd s1 (k + 1) x i - vd s (k + 1) y i‖ ≤ 1001 / 1000 * ε := by
          intro x y hn hp hw
          rw [← vd_ext hs.base he (.inl hp)]
          unfold vd
          rw [hn, ← sub_mul, norm_mul, mul_comm]
          exact mul_le_mul (vp_le' hi hk (.inl (hp.ext he)) i) hw (norm_nonneg _) (by norm_num)
        have kl := key _ _ (eeq_n hm.1) hl wl
        have kr := key _ _ (eeq_n hm.2) hr wr
        have tri : vd s1 (k + 1) e.res i - (vd s (k + 1) l i + vd s (k + 1) r i) =
            (vd s1 (k + 1) e.res i - (vd s1 (k + 1) e.lhs i + vd s1 (k + 1) e.rhs i)) +
            ((vd s1 (k + 1) e.lhs i - vd s (k + 1) l i) + (vd s1 (k + 1) e.rhs i - vd s (k + 1) r i)) := by ring
        rw [tri]
        refine (norm_add_le _ _).trans ?_
        have h2 := norm_add_le (vd s1 (k + 1) e.lhs i - vd s (k + 1) l i) (vd s1 (k + 1) e.rhs i - vd s (k + 1) r i)
        have hA := A_le (W := W) (k := k + 1) hk
        have hA' := A_ge (W := W) (k + 1)
        have h3 : (A W (k + 1) - 5 * ε) * ε ≤ 1 / 20000 * ε := mul_le_mul_of_nonneg_right (by linarith) e0
        have h4 : 0 ≤ ε * M := by positivity
        nlinarith
      · rw [if_neg hm]; exact ⟨none, rfl, fun e h => by cases h⟩
  obtain ⟨o, ho, hQ⟩ := key
  exact ⟨(o, tid), s1, by simp only [ho], hi, Grow.refl env s1, fun s' hi' he' e hx => (hQ e hx).ext hi.base he'⟩

theorem setAV_num {s : St W} (hs : NInv env s) {k : Nat} {l r res : Edge W} (hk : k < NQUBITS) (c : Nat)
    (hl : VPtr env s (k + 1) l.n) (hr : VPtr env s (k + 1) r.n)
    (hres : ∀ M, ‖val l.w‖ ≤ M → ‖val r.w‖ ≤ M → VApx env s (k + 1) res (fun i => vd s (k + 1) l i + vd s (k + 1) r i)
      ((A W (k + 1) - 5 * ε) * (1 + M))) :
    Sat (nworld env) (setAV env c l r res) s (fun _ _ => True) := by
  refine Sat.atom fun s1 tid hi he => ?_
  have hl1 := hl.ext he
  have hr1 := hr.ext he
  have h1 : (((k + 1 : Nat) : Int) - 1) = k := by push_cast; omega
  have hord : acOrder s1.vt.mem l r = .ok (l, r, (k : Int)) := by
    unfold acOrder; rw [hl1.evar, hr1.evar]; simp [h1]
  have hrng : ¬ ((k : Int) < 0 ∨ (NQUBITS : Int) ≤ k) := by omega
  have hset : (s1.av c).set s1.vt.mem env.hav l r res = .ok (upd (s1.av c) k (upd (s1.av c k)
      (env.hav l r % NBUCKETS) (some ⟨l, r, res⟩))) := by
    unfold ACache.set; simp only [hord, if_neg hrng]
  have hent0 : AVNum env s (⟨l, r, res⟩ : AEnt W) := ⟨k + 1, hl, hr, hres⟩
  have hent := hent0.ext hs.base he
  have hent' : Safe.AVEnt env s1 ⟨l, r, res⟩ := ⟨k + 1, hl1, hr1, ((hres (max ‖val l.w‖ ‖val r.w‖) (le_max_left _ _)
    (le_max_right _ _)).1).ext he⟩
  obtain ⟨hi', he'⟩ := hi.base.caches (s' := { s1 with av := (upd s1.av c (upd (s1.av c) k (upd (s1.av c k) (env.hav l r % NBUCKETS) (some ⟨l, r, res⟩)))) }) rfl rfl
    (fun tid lv key e h => by
      rcases upd3_some h with rfl | h
      · exact hent'
      · exact hi.base.av _ _ _ _ h) hi.base.am hi.base.cv hi.base.cm hi.base.uni
  exact ⟨(), _, by simp only [hset], hi.caches hi' rfl rfl (fun tid lv key e h => by
      rcases upd3_some h with rfl | h
      · exact hent
      · exact hi.av _ _ _ _ h) hi.cv hi.am hi.cm, he', fun _ _ _ => trivial⟩

/-- The node-level product at `i`. -/
noncomputable def nodeF (s : St W) (k : Nat) (l r : Option Nat) (i : Nat) : ℂ :=
  bsum k fun j => mp s.mt.mem k l i j * vp s.vt.mem k r j

/-- The product of the edges at `i`. -/
noncomputable def prodF (s : St W) (k : Nat) (l r : Edge W) (i : Nat) : ℂ := bsum k fun j => md s k l i j * vd s k r j

theorem prodF_eq (s : St W) (k : Nat) (l r : Edge W) (i : Nat) :
    prodF s k l r i = val l.w * val r.w * nodeF s k l.n r.n i := by
  unfold prodF nodeF md vd
  rw [← bsum_mul]
  exact bsum_congr fun j _ => by ring

theorem nodeF_ext {s s' : St W} (hi : Safe.Inv env s) (he : Grow env s s') {k l r} (hl : MReg env s l)
    (hr : VPtr env s k r ∨ r = none) (i : Nat) : nodeF s' k l r i = nodeF s k l r i := by
  unfold nodeF
  exact bsum_congr fun j _ => by rw [mp_ext hi he hl, vp_ext hi he hr]

theorem prodF_ext {s s' : St W} (hi : Safe.Inv env s) (he : Grow env s s') {k} {l r : Edge W} (hl : MReg env s l.n)
    (hr : VLv env s k r) (i : Nat) : prodF s' k l r i = prodF s k l r i := by
  rw [prodF_eq, prodF_eq, nodeF_ext hi he hl (hr.imp id (·.2))]

theorem nodeF_le {s : St W} (hi : NInv env s) {k l r N} (hk : k ≤ NQUBITS) (hl : Sup env s k l N)
    (hr : VPtr env s k r ∨ r = none) (i : Nat) : ‖nodeF s k l r i‖ ≤ 101 / 100 * N := by
  unfold nodeF
  refine (norm_bsum_le _ _).trans ?_
  have h : bsum k (fun j => ‖mp s.mt.mem k l i j * vp s.vt.mem k r j‖) ≤
      bsum k (fun j => 1001 / 1000 * ‖mp s.mt.mem k l i j‖) := bsum_le k fun j _ => by
    rw [norm_mul, mul_comm]
    exact mul_le_mul_of_nonneg_right (vp_le' hi hk hr j) (norm_nonneg _)
  rw [bsum_mul] at h
  have h1 := rowS_le' hi hk hl i
  unfold rowS at h1
  have h2 : (0 : ℝ) ≤ N := Nat.cast_nonneg N
  nlinarith

theorem findPV_num {s : St W} (hs : NInv env s) {k : Nat} {l : Nat} {r : Option Nat} {N : Nat}
    (hl : Sup env s k (some l) N) (hr : VPtr env s k r) :
    Sat (nworld env) (findPV env l r) s (fun s' x => ∀ e, x.1 = some e →
      VApx env s' k e (fun i => nodeF s k (some l) r i) (N * D W k)) := by
  refine Sat.atom fun s1 tid hi he => ?_
  have hl1 := hl.lv.ext he
  have hr1 := hr.ext he
  obtain ⟨v, hv, hrng⟩ := Safe.mlv hi.base hl1.reg
  let R : Option Nat → Option Nat → Edge W → Prop := fun a b x => Safe.PVEnt env s1 a b x ∧ PVNum env s1 a b x
  have hcv : ∀ tid lv key b, s1.cv tid lv key = some b → Safe.BOk R b := fun tid lv key b h e he' hv' => by
    obtain ⟨x, hx, hp⟩ := hi.base.cv tid lv key b h e he' hv'
    obtain ⟨y, hy, hp'⟩ := hi.cv tid lv key b h e he' hv'
    rw [hx] at hy
    cases hy
    exact ⟨x, hx, hp, hp'⟩
  have key : ∃ o b, (s1.cv tid).find s1.mt.mem s1.vt.mem env.mur env.junkMV l r = .ok (o,
      upd (s1.cv tid) v (upd (s1.cv tid v) (env.mur l % NBUCKETS) (some b))) ∧
      Safe.BOk R b ∧ ∀ e, o = some e → R (some l) r e := by
    unfold PCache.find
    simp only [hv, if_neg hrng]
    cases hc : s1.cv tid v (env.mur l % NBUCKETS) with
    | none => exact ⟨none, _, rfl, Safe.BOk.fresh _, fun e h => by cases h⟩
    | some b =>
      obtain ⟨o, b', h1, h2, h3⟩ := Safe.bucketFind_ok (mem := s1.vt.mem) (R := R) (l := some l) (r := r)
        (fun x hx => (hx.1.at hr1).evar hi.base) (hcv _ _ _ _ hc)
      simp only [h1]
      exact ⟨o, b', rfl, h2, h3⟩
  obtain ⟨o, b, ho, hb, hQ⟩ := key
  obtain ⟨hi', he'⟩ := hi.base.caches (s' := { s1 with cv := (upd s1.cv tid (upd (s1.cv tid) v (upd (s1.cv tid v) (env.mur l % NBUCKETS) (some b)))) }) rfl rfl hi.base.av hi.base.am
    (fun tid lv key e h => by
      rcases upd3_some h with rfl | h
      · exact fun e h1 h2 => (hb e h1 h2).imp fun x h => ⟨h.1, h.2.1⟩
      · exact hi.base.cv _ _ _ _ h) hi.base.cm hi.base.uni
  refine ⟨(o, tid), _, by simp only [ho], hi.caches hi' rfl rfl hi.av (fun tid lv key e h => by
      rcases upd3_some h with rfl | h
      · exact fun e h1 h2 => (hb e h1 h2).imp fun x h => ⟨h.1, h.2.2⟩
      · exact hi.cv _ _ _ _ h) hi.am hi.cm, he', fun s' _ h' e hx => ?_⟩
  obtain ⟨k', _, a2, a3⟩ := (hQ e hx).2
  have := a2.level hr1
  subst this
  refine ((a3 N (hl.ext he)).ext hi.base (he'.trans h')).congr fun i => ?_
  exact nodeF_ext hs.base he hl.lv.reg (.inl hr) i

theorem setPV_num {s : St W} (hs : NInv env s) {k : Nat} {l : Nat} {r : Option Nat} {res : Edge W} (c : Nat)
    (hl : MLv env s k (some l)) (hr : VPtr env s k r)
    (hres : ∀ N, Sup env s k (some l) N → VApx env s k res (fun i => nodeF s k (some l) r i) (N * D W k)) :
    Sat (nworld env) (setPV env c l r res) s (fun _ _ => True) := by
  refine Sat.atom fun s1 tid hi he => ?_
  have hl1 := hl.ext he
  have hr1 := hr.ext he
  have hres1 := (hres _ (Sup.full hs.base hl)).1.ext he
  have hnum : PVNum env s (some l) r res := ⟨k, hl, hr, hres⟩
  have hnum1 := hnum.ext hs.base he
  obtain ⟨v, hv, hrng⟩ := Safe.mlv hi.base hl1.reg
  let R : Option Nat → Option Nat → Edge W → Prop := fun a b x => Safe.PVEnt env s1 a b x ∧ PVNum env s1 a b x
  have hcv : ∀ tid lv key b, s1.cv tid lv key = some b → Safe.BOk R b := fun tid lv key b h e he' hv' => by
    obtain ⟨x, hx, hp⟩ := hi.base.cv tid lv key b h e he' hv'
    obtain ⟨y, hy, hp'⟩ := hi.cv tid lv key b h e he' hv'
    rw [hx] at hy
    cases hy
    exact ⟨x, hx, hp, hp'⟩
  have key : ∃ b, (s1.cv c).set s1.mt.mem env.mur env.junkMV l r res = .ok (
      upd (s1.cv c) v (upd (s1.cv c v) (env.mur l % NBUCKETS) (some b))) ∧ Safe.BOk R b := by
    unfold PCache.set
    simp only [hv, if_neg hrng]
    refine ⟨_, rfl, Safe.bucketSet_ok ⟨⟨k, hl1, hr1, hres1⟩, hnum1⟩ ?_⟩
    cases hc : s1.cv c v (env.mur l % NBUCKETS) with
    | none => exact Safe.BOk.fresh _
    | some b => exact hcv _ _ _ _ hc
  obtain ⟨b, ho, hb⟩ := key
  obtain ⟨hi', he'⟩ := hi.base.caches (s' := { s1 with cv := (upd s1.cv c (upd (s1.cv c) v (upd (s1.cv c v) (env.mur l % NBUCKETS) (some b)))) }) rfl rfl hi.base.av hi.base.am
    (fun tid lv key e h => by
      rcases upd3_some h with rfl | h
      · exact fun e h1 h2 => (hb e h1 h2).imp fun x h => ⟨h.1, h.2.1⟩
      · exact hi.base.cv _ _ _ _ h) hi.base.cm hi.base.uni
  exact ⟨(), _, by simp only [ho], hi.caches hi' rfl rfl hi.av (fun tid lv key e h => by
      rcases upd3_some h with rfl | h
      · exact fun e h1 h2 => (hb e h1 h2).imp fun x h => ⟨h.1, h.2.2⟩
      · exact hi.cv _ _ _ _ h) hi.am hi.cm, he', fun _ _ _ => trivial⟩

theorem readV_num {s : St W} {p nd} (h : UTable.Reg env.hv s.vt p nd) :
    Sat (nworld env) (readV (some p)) s (fun _ x => x = nd) :=
  Sat.atom fun s1 tid hi he => ⟨nd, s1, by simp [(he.1 _ _ h).1], hi, Grow.refl env s1, fun _ _ _ => rfl⟩

theorem readV_none_num {s : St W} : Sat (nworld env) (readV none) s (fun _ x => x.v = -1) :=
  Sat.atom fun s1 tid hi he => ⟨_, s1, rfl, hi, Grow.refl env s1, fun _ _ _ => rfl⟩

theorem readM_num {s : St W} {n} (h : MReg env s n) :
    Sat (nworld env) (readM n) s (fun s' nd => Safe.ReadM env s' n nd) := by
  rcases h with rfl | ⟨p, nd, rfl, h⟩
  · exact Sat.atom fun s1 tid hi he => ⟨_, s1, rfl, hi, Grow.refl env s1, fun _ _ _ => .inl ⟨rfl, rfl⟩⟩
  · exact Sat.atom fun s1 tid hi he => ⟨nd, s1, by simp [(he.2 _ _ h).1], hi, Grow.refl env s1, fun s' _ he' =>
      .inr ⟨p, rfl, he'.2 _ _ (he.2 _ _ h)⟩⟩

theorem mkV_num {s : St W} (hs : NInv env s) {k : Nat} (hk : k < NQUBITS) {c0 c1 : Edge W}
    (h0 : VLv env s k c0) (h1 : VLv env s k c1) {M : ℝ} (m0 : ‖val c0.w‖ ≤ M) (m1 : ‖val c1.w‖ ≤ M) :
    Sat (nworld env) (mkV env k c0 c1) s (fun s' e =>
      VApx env s' (k + 1) e (fun i => vd s k (if i.testBit k then c1 else c0) i) (4 * ε * (1 + M))) := by
  refine Sat.atom fun s1 tid hi he => ?_
  obtain ⟨e, s2, h2, hi2, he2, hr⟩ := makeVEdge_num hi tid hk (h0.ext he) (h1.ext he) m0 m1
  refine ⟨e, s2, h2, hi2, he2, fun s' _ he' => (hr.ext hi2.base he').congr fun i => ?_⟩
  exact vd_ext hs.base he (by split <;> assumption) i

theorem mkM_num {s : St W} (hs : NInv env s) {k : Nat} (hk : k < NQUBITS) {ch : Bool → Bool → Edge W}
    {n : Bool → Bool → Nat} {N : Nat} (hN1 : 1 ≤ N) (h : ∀ r c, MOk env s k (ch r c) (n r c))
    (hN : ∀ r, n r false + n r true ≤ N) {M : ℝ} (m : ∀ r c, ‖val (ch r c).w‖ ≤ M) :
    Sat (nworld env) (mkM env k (ch false false) (ch false true) (ch true false) (ch true true)) s
      (fun s' e => MMade env s s' k ch M N e) := by
  refine Sat.atom fun s1 tid hi he => ?_
  obtain ⟨e, s2, h2, hi2, he2, h3, h4, w, h5, h6⟩ := makeMEdge_num hi tid hk hN1 (fun r c => (h r c).ext he) hN m
  refine ⟨e, s2, h2, hi2, he2, fun s' _ he' => ⟨h3.ext he', h4, w, h5, fun i j => ?_⟩⟩
  rw [md_ext hi2.base he' h3.lv.reg, h6, mp_ext hs.base he (h _ _).lv.reg]

/-! ## Sums of vectors -/

/-- The operands of the recursive calls of `vv_add2`. -/
theorem vAddArg_num {s : St W} (hi : NInv env s) {k : Nat} (hk : k < NQUBITS) {e : Edge W} (h : VPtr env s (k + 1) e.n)
    {M : ℝ} (hM : ‖val e.w‖ ≤ M) :
    ∃ p nd, e.n = some p ∧ UTable.Reg env.hv s.vt p nd ∧ ∀ b, VLv env s k (vAddArg k nd e b) ∧
      ‖val (vAddArg k nd e b).w‖ ≤ M * (1 + 4 * ε) + ε ∧
      ∀ i, i.testBit k = b → ‖vd s k (vAddArg k nd e b) i - vd s (k + 1) e i‖ ≤ 11 / 10 * ε * (1 + M) := by
  obtain ⟨p, nd, h1, h2, h3⟩ := Safe.vAdd_child hi.base h
  have hv : nd.v = (k : Int) := by
    rcases h with ⟨h, _⟩ | ⟨q, nd', h4, h5, h6⟩
    · cases h
    · rw [h1] at h4; cases h4
      rw [reg_fun h2 h5]; push_cast at h6; omega
  have hM0 : 0 ≤ M := (norm_nonneg _).trans hM
  have e0 := eps_nn (W := W)
  have e1 := eps_le (W := W)
  refine ⟨p, nd, h1, h2, fun b => ⟨h3 b, ?_⟩⟩
  have harg : vAddArg k nd e b = ⟨WOps.mul e.w (nd.child b).w, (nd.child b).n⟩ := by
    unfold vAddArg; rw [if_pos ⟨hv, by simp [h1]⟩]
  rw [harg]
  have hb := (hi.vw _ _ h2 b).1
  have herr := mul_err e.w (nd.child b).w
  have hprod : ‖val e.w‖ * ‖val (nd.child b).w‖ ≤ M * bet W := mul_le_mul hM hb (norm_nonneg _) hM0
  have hME : 0 ≤ M * ε := by positivity
  have hMEE : M * ε * ε ≤ M * ε * (1 / 10 ^ 8) := mul_le_mul_of_nonneg_left e1 hME
  have herr' : ‖val (WOps.mul e.w (nd.child b).w) - val e.w * val (nd.child b).w‖ ≤ ε * (1 + M * (1 + 2 * ε)) := by
    refine herr.trans (mul_le_mul_of_nonneg_left ?_ e0)
    unfold bet at hprod; linarith
  constructor
  · have h4 := norm_add_le (val (WOps.mul e.w (nd.child b).w) - val e.w * val (nd.child b).w)
      (val e.w * val (nd.child b).w)
    rw [sub_add_cancel, norm_mul (val e.w)] at h4
    simp only
    unfold bet at hprod
    nlinarith
  · intro i hib
    have hvd : vd s (k + 1) e i = val e.w * val (nd.child b).w * vp s.vt.mem k (nd.child b).n i := by
      unfold vd
      rw [h1]
      simp only [vp, h2.1, hib, mul_assoc]
    rw [hvd]
    unfold vd
    rw [← sub_mul, norm_mul]
    have hvp := vp_le' hi hk.le ((hi.base.vchild h2 b hv).imp id (·.2)) i
    have : ‖val (WOps.mul e.w (nd.child b).w) - val e.w * val (nd.child b).w‖ * ‖vp s.vt.mem k (nd.child b).n i‖ ≤
        ε * (1 + M * (1 + 2 * ε)) * (1001 / 1000) := mul_le_mul herr' hvp (norm_nonneg _) (by positivity)
    refine this.trans ?_
    nlinarith

/-- Numerical bookkeeping of one level of `vv_add2`. -/
theorem add_level {A u M : ℝ} (hA : A ≤ 1 / 20000) (hA0 : 0 ≤ A) (e0 : 0 ≤ u) (e1 : u ≤ 1 / 10 ^ 8) (hM : 0 ≤ M) :
    A * (1 + (M * (1 + 4 * u) + u)) + 22 / 10 * u * (1 + M) + 4 * u * (1 + 21 / 10 * (1 + M)) ≤
      (A + 40 * u - 5 * u) * (1 + M) := by
  have h1 : 0 ≤ u * M := by positivity
  have h2 : A * (u * M) ≤ 1 / 20000 * (u * M) := mul_le_mul_of_nonneg_right hA h1
  have h3 : A * u ≤ 1 / 20000 * u := mul_le_mul_of_nonneg_right hA e0
  nlinarith

theorem vvAdd2_num (fk : Nat → Bool) : ∀ {k : Nat} {s : St W} {l r : Edge W} {M : ℝ}, NInv env s →
    k ≤ NQUBITS → VLv env s k l → VLv env s k r → ‖val l.w‖ ≤ M → ‖val r.w‖ ≤ M →
    Sat (nworld env) (vvAdd2 env fk k l r) s (fun s' e =>
      VApx env s' k e (fun i => vd s k l i + vd s k r i) (A W k * (1 + M))) := by
  have e0 := eps_nn (W := W)
  have e1 := eps_le (W := W)
  -- the shared early exits
  have hzz : ∀ {k : Nat} {s : St W} {l r : Edge W} {M : ℝ}, NInv env s → k ≤ NQUBITS → VLv env s k l → VLv env s k r →
      ‖val l.w‖ ≤ M → WOps.az l.w = true → WOps.az r.w = true → ∀ s', Grow env s s' →
      VApx env s' k zeroE (fun i => vd s k l i + vd s k r i) (A W k * (1 + M)) := by
    intro k s l r M hs hk hl hr ml h1 h2 s' he
    refine ⟨zeroE_vlv s' _, fun i => ?_⟩
    have a1 := vd_le hs hk hl i
    have a2 := vd_le hs hk hr i
    have a3 := az_small h1
    have a4 := az_small h2
    rw [vd_zeroE, zero_sub, norm_neg]
    refine (norm_add_le _ _).trans ?_
    have hA := A_ge (W := W) k
    have hM : 0 ≤ M := (norm_nonneg _).trans ml
    nlinarith
  have hz : ∀ {k : Nat} {s : St W} {l r : Edge W} {M : ℝ}, NInv env s → k ≤ NQUBITS → VLv env s k l → VLv env s k r →
      ‖val l.w‖ ≤ M → WOps.az l.w = true → ∀ s', Grow env s s' →
      VApx env s' k r (fun i => vd s k l i + vd s k r i) (A W k * (1 + M)) := by
    intro k s l r M hs hk hl hr ml h1 s' he
    refine ⟨hr.ext he, fun i => ?_⟩
    have a1 := vd_le hs hk hl i
    have a3 := az_small h1
    rw [vd_ext hs.base he hr, sub_add_cancel_right, norm_neg]
    have hA := A_ge (W := W) k
    have hM : 0 ≤ M := (norm_nonneg _).trans ml
    nlinarith
  have hz' : ∀ {k : Nat} {s : St W} {l r : Edge W} {M : ℝ}, NInv env s → k ≤ NQUBITS → VLv env s k l → VLv env s k r →
      ‖val l.w‖ ≤ M → WOps.az r.w = true → ∀ s', Grow env s s' →
      VApx env s' k l (fun i => vd s k l i + vd s k r i) (A W k * (1 + M)) := by
    intro k s l r M hs hk hl hr ml h1 s' he
    refine ⟨hl.ext he, fun i => ?_⟩
    have a1 := vd_le hs hk hr i
    have a3 := az_small h1
    rw [vd_ext hs.base he hl, sub_add_cancel_left, norm_neg]
    have hA := A_ge (W := W) k
    have hM : 0 ≤ M := (norm_nonneg _).trans ml
    nlinarith
  have hadd : ∀ {k : Nat} {s : St W} {l r : Edge W} {M : ℝ}, NInv env s → k ≤ NQUBITS → VPtr env s k l.n →
      l.n = r.n → ‖val l.w‖ ≤ M → ‖val r.w‖ ≤ M → ∀ s', Grow env s s' →
      VApx env s' k ⟨WOps.add l.w r.w, l.n⟩ (fun i => vd s k l i + vd s k r i) (A W k * (1 + M)) := by
    intro k s l r M hs hk hl hn ml mr s' he
    refine ⟨.inl (hl.ext he), fun i => ?_⟩
    rw [vd_ext (e := ⟨WOps.add l.w r.w, l.n⟩) hs.base he (.inl hl)]
    unfold vd
    simp only
    rw [← hn, ← add_mul, ← sub_mul, norm_mul]
    have h1 := add_err l.w r.w
    have h2 := vp_le' hs hk (.inl hl) i
    have hM : 0 ≤ M := (norm_nonneg _).trans ml
    have h3 : ε * (1 + ‖val l.w‖ + ‖val r.w‖) ≤ ε * (1 + M + M) := mul_le_mul_of_nonneg_left (by linarith) e0
    have h4 : ‖val (WOps.add l.w r.w) - (val l.w + val r.w)‖ * ‖vp s.vt.mem k l.n i‖ ≤ ε * (1 + M + M) * (1001 / 1000) :=
      mul_le_mul (h1.trans h3) h2 (norm_nonneg _) (by positivity)
    have hA := A_ge (W := W) k
    have : 0 ≤ ε * M := by positivity
    nlinarith
  intro k
  induction k with
  | zero =>
    intro s l r M hs hk hl hr ml mr
    unfold vvAdd2
    split
    · next h1 =>
      split
      · next h2 => exact Sat.pure fun s' _ he => hzz hs hk hl hr ml h1 h2 s' he
      · exact Sat.pure fun s' _ he => hz hs hk hl hr ml h1 s' he
    · split
      · next h2 => exact Sat.pure fun s' _ he => hz' hs hk hl hr ml h2 s' he
      · have hl0 := hl.term hs.base
        have hr0 := hr.term hs.base
        rw [if_pos ⟨hl0, hr0⟩]
        refine Sat.pure fun s' _ he => ?_
        have := hadd (k := 0) (l := l) (r := r) hs hk (.inl ⟨rfl, hl0⟩) (hl0.trans hr0.symm) ml mr s' he
        rwa [hl0] at this
  | succ k ih =>
    intro s l r M hs hk hl hr ml mr
    have hM : 0 ≤ M := (norm_nonneg _).trans ml
    unfold vvAdd2
    split
    · next h1 =>
      split
      · next h2 => exact Sat.pure fun s' _ he => hzz hs hk hl hr ml h1 h2 s' he
      · exact Sat.pure fun s' _ he => hz hs hk hl hr ml h1 s' he
    · next h1 =>
      split
      · next h2 => exact Sat.pure fun s' _ he => hz' hs hk hl hr ml h2 s' he
      · next h2 =>
        have hpl := hl.ptr h1
        have hpr := hr.ptr h2
        split
        · next hn => exact Sat.pure fun s' _ he => hadd hs hk hpl hn ml mr s' he
        · next hn =>
          have hk' : k < NQUBITS := hk
          refine Sat.bind (findAV_num hs hk' hpl hpr ml mr) fun s1 x hi1 he1 hx => ?_
          obtain ⟨res, c⟩ := x
          have hl1 := hpl.ext he1
          have hr1 := hpr.ext he1
          cases res with
          | some e =>
            have hx := hx e rfl
            show Sat (nworld env) (if WOps.az e.w = true then pure zeroE else pure e) s1 _
            split
            · next h3 =>
              refine Sat.pure fun s' _ he => ⟨zeroE_vlv s' _, fun i => ?_⟩
              have h4 := hx.2 i
              have h5 := vd_le hi1 hk hx.1 i
              have h6 := az_small h3
              have h7 := norm_sub_le (vd s1 (k + 1) e i) (vd s1 (k + 1) e i - (vd s (k + 1) l i + vd s (k + 1) r i))
              rw [sub_sub_cancel] at h7
              rw [vd_zeroE, zero_sub, norm_neg]
              linarith
            · exact Sat.pure fun s' _ he => (hx.ext hi1.base he).mono (by linarith)
          | none =>
            simp only
            obtain ⟨pl, nl, el, rl, hgl⟩ := vAddArg_num hi1 hk' hl1 (M := M) ml
            obtain ⟨pr, nr, er, rr, hgr⟩ := vAddArg_num hi1 hk' hr1 (M := M) mr
            -- accuracy for every bound on the weights
            have hgl' := fun N hN => (vAddArg_num hi1 hk' hl1 (M := N) hN)
            rw [el, er]
            refine Sat.bind (readV_num rl) fun s2 nd hi2 he2 hnd => ?_
            subst hnd
            refine Sat.bind (readV_num (he2.1 _ _ rr)) fun s3 nd' hi3 he3 hnd => ?_
            subst hnd
            have he13 : Grow env s1 s3 := he2.trans he3
            have fb : ∀ b, Sat (nworld env) (vvAdd2 env fk k (vAddArg k nd l b) (vAddArg k nd' r b)) s3 (fun s' e =>
                VApx env s' k e (fun i => vd s1 k (vAddArg k nd l b) i + vd s1 k (vAddArg k nd' r b) i)
                  (A W k * (1 + (max ‖val l.w‖ ‖val r.w‖ * (1 + 4 * ε) + ε)))) := by
              intro b
              obtain ⟨pl', nl', el', rl', hgl'⟩ := vAddArg_num hi1 hk' hl1 (M := max ‖val l.w‖ ‖val r.w‖) (le_max_left _ _)
              obtain ⟨pr', nr', er', rr', hgr'⟩ := vAddArg_num hi1 hk' hr1 (M := max ‖val l.w‖ ‖val r.w‖) (le_max_right _ _)
              have q1 : pl' = pl := by rw [el] at el'; exact (Option.some.inj el').symm
              have q2 : pr' = pr := by rw [er] at er'; exact (Option.some.inj er').symm
              subst q1 q2
              have q3 := reg_fun rl' rl
              have q4 := reg_fun rr' rr
              subst q3 q4
              refine (ih hi3 (Nat.le_of_lt hk) ((hgl b).1.ext he13) ((hgr b).1.ext he13) (hgl' b).2.1 (hgr' b).2.1).mono
                fun s' e _ _ h => h.congr fun i => ?_
              rw [vd_ext hi1.base he13 (hgl b).1, vd_ext hi1.base he13 (hgr b).1]
            refine Sat.bind (Sat.fork (Qp := fun s' e => VApx env s' k e _ _) (Qq := fun s' e => VApx env s' k e _ _)
              (fun a b e hi _ he h => VApx.ext hi.base he h) (fun a b e hi _ he h => VApx.ext hi.base he h)
              (fb false) (fb true)) fun s4 x hi4 he4 hx4 => ?_
            obtain ⟨e0', e1'⟩ := x
            obtain ⟨x0, x1⟩ := hx4
            simp only at x0 x1
            generalize hm : max ‖val l.w‖ ‖val r.w‖ = m at x0 x1
            have hm0 : 0 ≤ m := by rw [← hm]; exact le_trans (norm_nonneg _) (le_max_left _ _)
            have hA := A_le (W := W) (Nat.le_of_lt hk)
            have hA' : 0 ≤ A W k := le_trans (by positivity) (A_ge (W := W) k)
            have ml' : ‖val l.w‖ ≤ m := hm ▸ le_max_left _ _
            have mr' : ‖val r.w‖ ≤ m := hm ▸ le_max_right _ _
            have hem : 0 ≤ ε * m := by positivity
            have argw : ∀ b, ‖val (vAddArg k nd l b).w‖ ≤ m * (1 + 4 * ε) + ε ∧
                ‖val (vAddArg k nd' r b).w‖ ≤ m * (1 + 4 * ε) + ε ∧
                (∀ i, i.testBit k = b → ‖vd s1 k (vAddArg k nd l b) i - vd s1 (k + 1) l i‖ ≤ 11 / 10 * ε * (1 + m)) ∧
                ∀ i, i.testBit k = b → ‖vd s1 k (vAddArg k nd' r b) i - vd s1 (k + 1) r i‖ ≤ 11 / 10 * ε * (1 + m) := by
              intro b
              obtain ⟨pl', nl', el', rl', hgl'⟩ := vAddArg_num hi1 hk' hl1 (M := m) ml'
              obtain ⟨pr', nr', er', rr', hgr'⟩ := vAddArg_num hi1 hk' hr1 (M := m) mr'
              have q1 : pl' = pl := by rw [el] at el'; exact (Option.some.inj el').symm
              have q2 : pr' = pr := by rw [er] at er'; exact (Option.some.inj er').symm
              subst q1 q2
              have q3 := reg_fun rl' rl
              have q4 := reg_fun rr' rr
              subst q3 q4
              exact ⟨(hgl' b).2.1, (hgr' b).2.1, (hgl' b).2.2, (hgr' b).2.2⟩
            have hwt : ∀ (b : Bool) (x : Edge W), VApx env s4 k x
                (fun i => vd s1 k (vAddArg k nd l b) i + vd s1 k (vAddArg k nd' r b) i)
                (A W k * (1 + (m * (1 + 4 * ε) + ε))) → ‖val x.w‖ ≤ 21 / 10 * (1 + m) := by
              intro b x hx
              refine weight_le hi4 hx.1 fun i => ?_
              have y1 := hx.2 i
              have y2 := vd_le hi1 (Nat.le_of_lt hk) (hgl b).1 i
              have y3 := vd_le hi1 (Nat.le_of_lt hk) (hgr b).1 i
              obtain ⟨y4, y5, _⟩ := argw b
              have y6 := norm_add_le (vd s4 k x i - (vd s1 k (vAddArg k nd l b) i + vd s1 k (vAddArg k nd' r b) i))
                (vd s1 k (vAddArg k nd l b) i + vd s1 k (vAddArg k nd' r b) i)
              rw [sub_add_cancel] at y6
              have y7 := norm_add_le (vd s1 k (vAddArg k nd l b) i) (vd s1 k (vAddArg k nd' r b) i)
              have y8 : ε * m ≤ 1 / 10 ^ 8 * m := mul_le_mul_of_nonneg_right e1 hm0
              have y9 : A W k * (1 + (m * (1 + 4 * ε) + ε)) ≤ 1 / 20000 * (1 + (m * (1 + 4 * ε) + ε)) :=
                mul_le_mul_of_nonneg_right hA (by positivity)
              nlinarith
            refine Sat.bind (mkV_num hi4 hk' x0.1 x1.1 (hwt false _ x0) (hwt true _ x1)) fun s5 res hi5 he5 hres => ?_
            have he15 : Grow env s1 s5 := (he13.trans he4).trans he5
            have hfin : VApx env s5 (k + 1) res (fun i => vd s1 (k + 1) l i + vd s1 (k + 1) r i)
                ((A W (k + 1) - 5 * ε) * (1 + m)) := by
              refine ⟨hres.1, fun i => ?_⟩
              have y1 := hres.2 i
              obtain ⟨_, _, y4, y5⟩ := argw (i.testBit k)
              have y4 := y4 i rfl
              have y5 := y5 i rfl
              have y2 : ‖vd s4 k (if i.testBit k then e1' else e0') i -
                  (vd s1 k (vAddArg k nd l (i.testBit k)) i + vd s1 k (vAddArg k nd' r (i.testBit k)) i)‖ ≤
                  A W k * (1 + (m * (1 + 4 * ε) + ε)) := by
                cases hb : i.testBit k
                · simpa [hb] using x0.2 i
                · simpa [hb] using x1.2 i
              have tri : vd s5 (k + 1) res i - (vd s1 (k + 1) l i + vd s1 (k + 1) r i) =
                  (vd s5 (k + 1) res i - vd s4 k (if i.testBit k then e1' else e0') i) +
                  (vd s4 k (if i.testBit k then e1' else e0') i -
                    (vd s1 k (vAddArg k nd l (i.testBit k)) i + vd s1 k (vAddArg k nd' r (i.testBit k)) i)) +
                  ((vd s1 k (vAddArg k nd l (i.testBit k)) i - vd s1 (k + 1) l i) +
                    (vd s1 k (vAddArg k nd' r (i.testBit k)) i - vd s1 (k + 1) r i)) := by ring
              rw [tri]
              have z := add_level hA hA' e0 e1 hm0
              rw [A_succ]
              refine (norm_add_le _ _).trans ?_
              have z1 := norm_add_le (vd s5 (k + 1) res i - vd s4 k (if i.testBit k then e1' else e0') i)
                (vd s4 k (if i.testBit k then e1' else e0') i -
                    (vd s1 k (vAddArg k nd l (i.testBit k)) i + vd s1 k (vAddArg k nd' r (i.testBit k)) i))
              have z2 := norm_add_le (vd s1 k (vAddArg k nd l (i.testBit k)) i - vd s1 (k + 1) l i)
                (vd s1 k (vAddArg k nd' r (i.testBit k)) i - vd s1 (k + 1) r i)
              linarith
            have hA1 := A_ge (W := W) (k + 1)
            refine Sat.bind (setAV_num hi5 hk' c (hl1.ext he15) (hr1.ext he15) fun N hN hN' => ?_)
              fun s6 _ hi6 he6 _ => ?_
            · refine (hfin.congr fun i => ?_).mono ?_
              · rw [vd_ext hi1.base he15 (.inl hl1), vd_ext hi1.base he15 (.inl hr1)]
              · have : m ≤ N := hm ▸ max_le hN hN'
                exact mul_le_mul_of_nonneg_left (by linarith) (by linarith)
            · refine Sat.pure fun s' _ he => ((hfin.ext hi5.base (he6.trans he)).congr fun i => ?_).mono ?_
              · rw [vd_ext hs.base he1 (.inl hpl), vd_ext hs.base he1 (.inl hpr)]
              · have : m ≤ M := hm ▸ max_le ml mr
                have h9 : (A W (k + 1) - 5 * ε) * (1 + m) ≤ A W (k + 1) * (1 + m) :=
                  mul_le_mul_of_nonneg_right (by linarith) (by linarith)
                exact h9.trans (mul_le_mul_of_nonneg_left (by linarith) (by linarith))

end Num
end QDD
