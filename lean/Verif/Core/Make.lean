import Verif.Core.Canon
/-!
# `makeVEdge` / `makeMEdge` build what they are asked to build
-/

set_option linter.unusedSectionVars false

namespace QDD
open ExactW
variable {W : Type} [Field W] [WOps W] [ExactW W] {env : Env W}

/-- Keeping caches and growing the tables keeps the invariant. -/
theorem Inv.grow {s s' : St W} (hi : Inv env s) (he : SExt env s s')
    (tv : UTable.TInv env.hv s'.vt []) (tm : UTable.TInv env.hm s'.mt [])
    (uv : UTable.Uniq s'.vt) (um : UTable.Uniq s'.mt)
    (nv : ∀ p nd, UTable.Reg env.hv s'.vt p nd → UTable.Reg env.hv s.vt p nd ∨ VNorm env s' nd)
    (nm : ∀ p nd, UTable.Reg env.hm s'.mt p nd → UTable.Reg env.hm s.mt p nd ∨ MNorm env s' nd)
    (h1 : s'.av = s.av) (h2 : s'.am = s.am) (h3 : s'.cv = s.cv) (h4 : s'.cm = s.cm) : Inv env s' where
  vt := tv
  mt := tm
  vu := uv
  mu := um
  vn p nd h := (nv p nd h).elim (fun h => (hi.vn p nd h).ext he) id
  mn p nd h := (nm p nd h).elim (fun h => (hi.mn p nd h).ext he) id
  av tid lv key e h := (hi.av tid lv key e (h1 ▸ h)).ext hi he
  am tid lv key e h := (hi.am tid lv key e (h2 ▸ h)).ext hi he
  cv tid lv key b h e he' hv := by
    obtain ⟨x, hx, hp⟩ := hi.cv tid lv key b (h3 ▸ h) e he' hv
    exact ⟨x, hx, hp.ext hi he⟩
  cm tid lv key b h e he' hv := by
    obtain ⟨x, hx, hp⟩ := hi.cm tid lv key b (h4 ▸ h) e he' hv
    exact ⟨x, hx, hp.ext hi he⟩

/-- The stored child: weight divided by the factored-out weight, zero edges canonicalised. -/
noncomputable def scaled (mw : W) (c : Edge W) : Edge W :=
  open Classical in if c.w = 0 then zeroE else ⟨c.w / mw, c.n⟩

theorem scaled_w {mw : W} (c : Edge W) : (scaled mw c).w = c.w / mw := by
  unfold scaled; split
  · next h => simp [zeroE, zero_eq, h]
  · rfl

theorem scaled_n {mw : W} {c : Edge W} (h : c.w ≠ 0) : (scaled mw c).n = c.n := by
  unfold scaled; rw [if_neg h]

theorem scaled_z {mw : W} (hm : mw ≠ 0) {c : Edge W} (h : (scaled mw c).w = 0) : (scaled mw c).n = none := by
  rw [scaled_w] at h
  have : c.w = 0 := by
    rcases div_eq_zero_iff.1 h with h | h
    · exact h
    · exact (hm h).elim
  unfold scaled; rw [if_pos this]; rfl

theorem normV_small {mw : W} (hm : mw ≠ 0) (c : Edge W) :
    (if WOps.aone (WOps.div c.w mw) then (⟨WOps.one, c.n⟩ : Edge W)
      else if WOps.az (WOps.div c.w mw) then zeroE else ⟨WOps.div c.w mw, c.n⟩) = scaled mw c := by
  rw [div_eq _ _ hm]
  unfold scaled WOps.aone
  by_cases hc : c.w = 0
  · have : ¬ (WOps.ae (c.w / mw) WOps.one = true) := by
      rw [ae_iff, hc, one_eq]; simp
    have h2 : WOps.az (c.w / mw) = true := by rw [az_iff, hc]; simp
    rw [if_neg this, if_pos h2, if_pos hc]
  · rw [if_neg hc]
    by_cases h1 : WOps.ae (c.w / mw) WOps.one = true
    · rw [if_pos h1]; rw [ae_iff] at h1; rw [h1]
    · have h2 : ¬ WOps.az (c.w / mw) = true := by rw [az_iff]; exact div_ne_zero hc hm
      rw [if_neg h1, if_neg h2]

theorem normM_small {mw : W} (hm : mw ≠ 0) (c : Edge W) :
    (if WOps.az (WOps.div c.w mw) then (zeroE : Edge W)
      else if WOps.aone (WOps.div c.w mw) then ⟨WOps.one, c.n⟩ else ⟨WOps.div c.w mw, c.n⟩) = scaled mw c := by
  rw [div_eq _ _ hm]
  unfold scaled WOps.aone
  by_cases hc : c.w = 0
  · have h2 : WOps.az (c.w / mw) = true := by rw [az_iff, hc]; simp
    rw [if_pos h2, if_pos hc]
  · have h2 : ¬ WOps.az (c.w / mw) = true := by rw [az_iff]; exact div_ne_zero hc hm
    rw [if_neg hc, if_neg h2]
    by_cases h1 : WOps.ae (c.w / mw) WOps.one = true
    · rw [if_pos h1]; rw [ae_iff] at h1; rw [h1]
    · rw [if_neg h1]

theorem aone_snap (w : W) : (if WOps.aone w then WOps.one else w) = w := by
  unfold WOps.aone
  split
  · next h => exact ((ae_iff _ _).1 h).symm
  · rfl

theorem vden_scaled {mem : Nat → Option (VNode W)} {mw : W} (hm : mw ≠ 0) (k : Nat) (c : Edge W) (i : Nat) :
    mw * vden mem k (scaled mw c) i = vden mem k c i := by
  unfold vden
  rw [scaled_w]
  by_cases hc : c.w = 0
  · simp [hc]
  · rw [scaled_n hc]; field_simp

theorem mden_scaled {mem : Nat → Option (MNode W)} {mw : W} (hm : mw ≠ 0) (k : Nat) (c : Edge W) (i j : Nat) :
    mw * mden mem k (scaled mw c) i j = mden mem k c i j := by
  unfold mden
  rw [scaled_w]
  by_cases hc : c.w = 0
  · simp [hc]
  · rw [scaled_n hc]; field_simp

theorem VOk.scaled {s : St W} {k mw} {c : Edge W} (h : VOk env s k c) : VOk env s k (scaled mw c) := by
  by_cases hc : c.w = 0
  · right; rw [scaled_w, hc]; refine ⟨by simp, ?_⟩; unfold QDD.scaled; rw [if_pos hc]; rfl
  · rcases h with h | h
    · left; rw [scaled_n hc]; exact h
    · exact (hc h.1).elim

theorem MOk.scaled {s : St W} {k mw} {c : Edge W} (h : MOk env s k c.n) : MOk env s k (scaled mw c).n := by
  by_cases hc : c.w = 0
  · left; unfold QDD.scaled; rw [if_pos hc]; rfl
  · rw [scaled_n hc]; exact h

theorem vden_w0 {mem : Nat → Option (VNode W)} {k : Nat} {e : Edge W} (h : e.w = 0) (i : Nat) :
    vden mem k e i = 0 := by simp [vden, h]

theorem mden_w0 {mem : Nat → Option (MNode W)} {k : Nat} {e : Edge W} (h : e.w = 0) (i j : Nat) :
    mden mem k e i j = 0 := by simp [mden, h]

theorem zeroE_w : (zeroE : Edge W).w = 0 := zero_eq
theorem zeroE_n : (zeroE : Edge W).n = none := rfl
theorem oneE_w : (oneE : Edge W).w = 1 := one_eq
theorem oneE_n : (oneE : Edge W).n = none := rfl

theorem zeroE_vrep (s : St W) (k : Nat) : VRep env s k zeroE (fun _ => 0) :=
  ⟨.inr ⟨zeroE_w, rfl⟩, fun i => vden_w0 zeroE_w i⟩

theorem zeroE_mrep (s : St W) (k : Nat) : MRep env s k zeroE (fun _ _ => 0) :=
  ⟨.inl rfl, fun i j => mden_w0 zeroE_w i j⟩

/-- As `VRep`, but any edge of weight 0 will do, whatever it points to. -/
def VRep0 (env : Env W) (s : St W) (k : Nat) (e : Edge W) (f : Nat → W) : Prop :=
  (VOk env s k e ∨ e.w = 0) ∧ ∀ i, vden s.vt.mem k e i = f i

theorem VRep.rep0 {s : St W} {k e f} (h : VRep env s k e f) : VRep0 env s k e f := ⟨.inl h.1, h.2⟩

theorem VRep0.scaled {s : St W} {k mw} {c : Edge W} {f} (h : VRep0 env s k c f) : VOk env s k (scaled mw c) := by
  rcases h.1 with h | hc
  · exact h.scaled
  · right; rw [scaled_w, hc]; refine ⟨by simp, ?_⟩; unfold QDD.scaled; rw [if_pos hc]; rfl

theorem VRep0.ext {s s' : St W} (hi : Inv env s) (he : SExt env s s') {k e f} (h : VRep0 env s k e f) :
    VRep0 env s' k e f := by
  rcases h.1 with h1 | h1
  · exact (VRep.ext hi he ⟨h1, h.2⟩).rep0
  · exact ⟨.inr h1, fun i => by rw [← h.2 i, vden_w0 h1, vden_w0 h1]⟩

theorem makeVEdge_spec {s : St W} (hi : Inv env s) (tid : Nat) {k : Nat} (hk : k < NQUBITS)
    {c0 c1 : Edge W} {f g : Nat → W} (h0 : VRep0 env s k c0 f) (h1 : VRep0 env s k c1 g) :
    ∃ e s', makeVEdge env tid k c0 c1 s = .ok (e, s') ∧ Inv env s' ∧ SExt env s s' ∧
      VRep env s' (k + 1) e (fun i => if i.testBit k then g i else f i) := by
  unfold makeVEdge
  obtain ⟨hg, hgc, hgm⟩ := UTable.getNode_spec hi.vt tid
  generalize UTable.getNode tid s.vt = pt at hg hgc hgm
  obtain ⟨p, t⟩ := pt
  simp only at hg hgc hgm ⊢
  have hpo : p ∈ [p] := List.mem_cons_self
  have hu : UTable.Uniq t := UTable.uniq_of_mem_eq hgc (fun _ _ _ _ => by rw [hgm]) hi.vu
  have hreg : ∀ q x, UTable.Reg env.hv t q x ↔ UTable.Reg env.hv s.vt q x :=
    UTable.reg_of_mem_eq hgc (fun _ _ _ _ => by rw [hgm])
  have hw := UTable.write_inv hg hpo ⟨(k : Int), c0, c1⟩
  have hwu := UTable.write_uniq hg hpo ⟨(k : Int), c0, c1⟩ hu
  have hwr : ∀ q x, UTable.Reg env.hv (t.write p ⟨(k : Int), c0, c1⟩) q x ↔ UTable.Reg env.hv s.vt q x :=
    fun q x => (UTable.write_reg hg hpo _ q x).trans (hreg q x)
  generalize t.write p ⟨(k : Int), c0, c1⟩ = t1 at hw hwu hwr
  -- the outcome when the node is discarded
  have hzero : c0.w = 0 → c1.w = 0 → ∃ e s',
      (match (Except.ok (zeroE, t1.returnNode tid p) : Except Err (Edge W × UTable (VNode W))) with
        | .error e => Except.error e
        | .ok (e, t') => match evar t'.mem e.n with
          | .error er => .error er
          | .ok v => if v = (k : Int) ∨ e.n = none then .ok (e, { s with vt := t' }) else .error .assert) =
        .ok (e, s') ∧ Inv env s' ∧ SExt env s s' ∧
      VRep env s' (k + 1) e (fun i => if i.testBit k then g i else f i) := by
    intro e0 e1
    have hr : ∀ q x, UTable.Reg env.hv (t1.returnNode tid p) q x ↔ UTable.Reg env.hv s.vt q x :=
      fun q x => (UTable.return_reg hw tid q x).trans (hwr q x)
    refine ⟨zeroE, { s with vt := t1.returnNode tid p }, by simp [zeroE, evar], ?_, ?_, ?_⟩
    · exact hi.grow ⟨fun q x h => (hr q x).2 h, UTable.Ext.refl _⟩ (UTable.return_inv hw tid) hi.mt
        (UTable.return_uniq hw tid hwu) hi.mu (fun q x h => .inl ((hr q x).1 h)) (fun q x h => .inl h)
        rfl rfl rfl rfl
    · exact ⟨fun q x h => (hr q x).2 h, UTable.Ext.refl _⟩
    · refine (zeroE_vrep _ _).congr fun i => ?_
      have a := h0.2 i; rw [vden_w0 e0] at a
      have b := h1.2 i; rw [vden_w0 e1] at b
      rw [← a, ← b]; simp
  unfold normalizeV
  by_cases haz : (WOps.az c0.w && WOps.az c1.w) = true
  · rw [if_pos haz]
    rw [Bool.and_eq_true, az_iff, az_iff] at haz
    exact hzero haz.1 haz.2
  · rw [if_neg haz]
    simp only
    generalize hmw : (if WOps.lt c0.w c1.w = true then c1.w else c0.w) = mw
    have hm : mw ≠ 0 := by
      rw [Bool.and_eq_true, az_iff, az_iff] at haz
      rw [← hmw]
      split
      · next hlt =>
        intro e; rw [e, lt_zero] at hlt; cases hlt
      · next hlt =>
        intro e
        rw [e] at hlt
        apply haz
        refine ⟨e, ?_⟩
        by_contra hne
        exact hlt ((zero_lt _).2 hne)
    have hnw : WOps.mul mw WOps.one = mw := by rw [mul_eq, one_eq, mul_one]
    rw [hnw]
    have hnaz : ¬ WOps.az mw = true := by rw [az_iff]; exact hm
    rw [if_neg hnaz, aone_snap]
    simp only [normV_small hm]
    have hnd : (if WOps.lt c0.w c1.w = true then (⟨(k : Int), scaled mw c0, ⟨WOps.one, c1.n⟩⟩ : VNode W)
        else ⟨(k : Int), ⟨WOps.one, c0.n⟩, scaled mw c1⟩) = ⟨(k : Int), scaled mw c0, scaled mw c1⟩ := by
      have hs : ∀ c : Edge W, c.w = mw → (⟨WOps.one, c.n⟩ : Edge W) = scaled mw c := by
        intro c hc
        unfold scaled
        rw [if_neg (by rw [hc]; exact hm), hc, one_eq, div_self hm]
      split
      · next hlt => rw [if_pos hlt] at hmw; rw [hs c1 hmw]
      · next hlt => rw [if_neg hlt] at hmw; rw [hs c0 hmw]
    rw [hnd]
    generalize hN : (⟨(k : Int), scaled mw c0, scaled mw c1⟩ : VNode W) = nd
    have hv : nd.v = k := by rw [← hN]
    have hw2 := UTable.write_inv hw hpo nd
    have hwu2 := UTable.write_uniq hw hpo nd hwu
    have hwr2 : ∀ q x, UTable.Reg env.hv (t1.write p nd) q x ↔ UTable.Reg env.hv s.vt q x :=
      fun q x => (UTable.write_reg hw hpo _ q x).trans (hwr q x)
    obtain ⟨c, t', hl, hi', hu', he', nc, hrc, hcase, hback⟩ := UTable.lookup_spec hw2 hwu2 (nd := nd)
      (by simp [UTable.write]) (by simp [hv]) (by simp [hv]; exact_mod_cast hk) tid
    have hnc : nc = nd := by
      rcases hcase with ⟨h, _⟩ | ⟨h, _⟩
      · exact h
      · exact ((veqv_iff _ _).1 h).symm
    subst hnc
    have hext : SExt env s { s with vt := t' } :=
      ⟨fun q x h => he' q x ((hwr2 q x).2 h), UTable.Ext.refl _⟩
    have hnorm : VNorm env { s with vt := t' } nc := by
      subst hN
      refine ⟨?_, ?_, scaled_z hm, scaled_z hm, ?_⟩
      · exact h0.scaled.ext hext
      · exact h1.scaled.ext hext
      · simp only [scaled_w]
        have e : ∀ a : W, a / mw = mw⁻¹ * a := fun a => by rw [div_eq_mul_inv, mul_comm]
        rw [e, e, lt_scale _ _ _ (inv_ne_zero hm)]
        split
        · next hlt => rw [if_pos hlt] at hmw; rw [hmw, inv_mul_cancel₀ hm]
        · next hlt => rw [if_neg hlt] at hmw; rw [hmw, inv_mul_cancel₀ hm]
    have hinv : Inv env { s with vt := t' } :=
      hi.grow hext hi' hi.mt hu' hi.mu
        (fun q x h => (hback q x h).elim (fun h => .inl ((hwr2 q x).1 h)) (fun h => .inr (h.2 ▸ hnorm)))
        (fun q x h => .inl h) rfl rfl rfl rfl
    refine ⟨⟨mw, some c⟩, { s with vt := t' }, ?_, hinv, hext, ?_⟩
    · simp only [hl, evar, hrc.1, VNode.tvar, hv, true_or, if_true]
    · refine ⟨.inl (.inr ⟨c, nc, rfl, hrc, by rw [hv]; push_cast; rfl⟩), fun i => ?_⟩
      have key : ∀ b, mw * ((nc.child b).w * vptr t'.mem k (nc.child b).n i) =
          if b then g i else f i := by
        intro b
        subst hN
        cases b
        · show mw * vden t'.mem k (scaled mw c0) i = _
          rw [vden_scaled hm]
          have := (h0.ext hi hext).2 i
          simp only at this
          rw [this]; simp
        · show mw * vden t'.mem k (scaled mw c1) i = _
          rw [vden_scaled hm]
          have := (h1.ext hi hext).2 i
          simp only at this
          rw [this]; simp
      have hmem : t'.mem c = some nc := hrc.1
      simp only [vden, vptr, hmem]
      exact key (i.testBit k)

/-- Matrix on one more qubit acting as the identity there. -/
def liftF (k : Nat) (F : Nat → Nat → W) : Nat → Nat → W :=
  fun i j => if i.testBit k = j.testBit k then F i j else 0

theorem mptr_lift {s : St W} {k n} (h : MOk env s k n) (i j : Nat) :
    mptr s.mt.mem (k + 1) n i j = liftF k (mptr s.mt.mem k n) i j := by
  rcases h with rfl | ⟨p, nd, rfl, h2, h3⟩
  · rfl
  · have : ¬ nd.v = (k : Int) := by omega
    simp only [mptr, h2.1, this, if_false, liftF]

theorem mden_lift {s : St W} {k} {e : Edge W} (h : MOk env s k e.n) (i j : Nat) :
    mden s.mt.mem (k + 1) e i j = liftF k (mden s.mt.mem k e) i j := by
  unfold mden
  rw [mptr_lift h]
  unfold liftF
  split <;> simp

theorem MRep.lift {s : St W} {k} {e : Edge W} {F} (h : MRep env s k e F) :
    MRep env s (k + 1) e (liftF k F) :=
  ⟨h.1.mono (Nat.le_succ k), fun i j => by
    rw [mden_lift h.1]; unfold liftF; simp only [h.2]⟩

/-- Assembling four blocks into a matrix on one more qubit. -/
def blocks (k : Nat) (F : Bool → Bool → Nat → Nat → W) : Nat → Nat → W :=
  fun i j => F (i.testBit k) (j.testBit k) i j

theorem maxW4_ne_zero {a b c d : W} (h : ¬ (a = 0 ∧ b = 0 ∧ c = 0 ∧ d = 0)) : maxW4 a b c d ≠ 0 := by
  have step : ∀ x y : W, (if WOps.lt x y = true then y else x) = 0 → x = 0 ∧ y = 0 := by
    intro x y hxy
    split at hxy
    · next hlt => rw [hxy, lt_zero] at hlt; cases hlt
    · next hlt =>
      refine ⟨hxy, ?_⟩
      by_contra hne
      rw [hxy] at hlt
      exact hlt ((zero_lt _).2 hne)
  intro h0
  unfold maxW4 at h0
  simp only at h0
  obtain ⟨h1, h2⟩ := step _ _ h0
  obtain ⟨h3, h4⟩ := step _ _ h1
  obtain ⟨h5, h6⟩ := step _ _ h3
  exact h ⟨h5, h6, h4, h2⟩

theorem makeMEdge_spec {s : St W} (hi : Inv env s) (tid : Nat) {k : Nat} (hk : k < NQUBITS)
    {c0 c1 c2 c3 : Edge W} {F : Bool → Bool → Nat → Nat → W} (h0 : MRep env s k c0 (F false false))
    (h1 : MRep env s k c1 (F false true)) (h2 : MRep env s k c2 (F true false))
    (h3 : MRep env s k c3 (F true true)) :
    ∃ e s', makeMEdge env tid k c0 c1 c2 c3 s = .ok (e, s') ∧ Inv env s' ∧ SExt env s s' ∧
      MRep env s' (k + 1) e (blocks k F) ∧ (e.w = 0 → e.n = none ∨ e.n = c0.n) := by
  unfold makeMEdge
  by_cases hs : strips c0 c1 c2 c3 = true
  · rw [if_pos hs]
    refine ⟨_, s, rfl, hi, SExt.refl env s, ⟨h0.1.mono (Nat.le_succ k), fun i j => ?_⟩, fun _ => .inr rfl⟩
    simp only [strips, Bool.and_eq_true, beq_iff_eq, az_iff, ae_iff] at hs
    obtain ⟨⟨⟨hn, hw1⟩, hw2⟩, hw0⟩ := hs
    have e03 : c0 = c3 := by cases c0; cases c3; simp_all
    show mden s.mt.mem (k + 1) c0 i j = _
    rw [mden_lift h0.1]
    unfold liftF blocks
    cases hbi : i.testBit k <;> cases hbj : j.testBit k
    · rw [if_pos rfl, h0.2]
    · rw [if_neg (by simp), ← h1.2, mden_w0 hw1]
    · rw [if_neg (by simp), ← h2.2, mden_w0 hw2]
    · rw [if_pos rfl, e03, h3.2]
  · rw [if_neg hs]
    obtain ⟨hg, hgc, hgm⟩ := UTable.getNode_spec hi.mt tid
    generalize UTable.getNode tid s.mt = pt at hg hgc hgm
    obtain ⟨p, t⟩ := pt
    simp only at hg hgc hgm ⊢
    have hpo : p ∈ [p] := List.mem_cons_self
    have hu : UTable.Uniq t := UTable.uniq_of_mem_eq hgc (fun _ _ _ _ => by rw [hgm]) hi.mu
    have hreg : ∀ q x, UTable.Reg env.hm t q x ↔ UTable.Reg env.hm s.mt q x :=
      UTable.reg_of_mem_eq hgc (fun _ _ _ _ => by rw [hgm])
    have hw := UTable.write_inv hg hpo ⟨(k : Int), c0, c1, c2, c3⟩
    have hwu := UTable.write_uniq hg hpo ⟨(k : Int), c0, c1, c2, c3⟩ hu
    have hwr : ∀ q x, UTable.Reg env.hm (t.write p ⟨(k : Int), c0, c1, c2, c3⟩) q x ↔
        UTable.Reg env.hm s.mt q x :=
      fun q x => (UTable.write_reg hg hpo _ q x).trans (hreg q x)
    generalize t.write p ⟨(k : Int), c0, c1, c2, c3⟩ = t1 at hw hwu hwr
    unfold normalizeM
    by_cases haz : (WOps.nz c0.w && WOps.nz c1.w && WOps.nz c2.w && WOps.nz c3.w) = true
    · rw [if_pos haz]
      simp only [Bool.and_eq_true, nz_iff] at haz
      obtain ⟨⟨⟨e0, e1⟩, e2⟩, e3⟩ := haz
      have hr : ∀ q x, UTable.Reg env.hm (t1.returnNode tid p) q x ↔ UTable.Reg env.hm s.mt q x :=
        fun q x => (UTable.return_reg hw tid q x).trans (hwr q x)
      have hext : SExt env s { s with mt := t1.returnNode tid p } :=
        ⟨UTable.Ext.refl _, fun q x h => (hr q x).2 h⟩
      refine ⟨zeroE, { s with mt := t1.returnNode tid p }, rfl, ?_, hext, ?_, fun _ => .inl rfl⟩
      · exact hi.grow hext hi.vt (UTable.return_inv hw tid) hi.vu
          (UTable.return_uniq hw tid hwu) (fun q x h => .inl h) (fun q x h => .inl ((hr q x).1 h))
          rfl rfl rfl rfl
      · refine (zeroE_mrep _ _).congr fun i j => ?_
        unfold blocks
        cases hbi : i.testBit k <;> cases hbj : j.testBit k
        · rw [← h0.2, mden_w0 e0]
        · rw [← h1.2, mden_w0 e1]
        · rw [← h2.2, mden_w0 e2]
        · rw [← h3.2, mden_w0 e3]
    · rw [if_neg haz]
      simp only [Bool.and_eq_true, nz_iff] at haz
      simp only
      generalize hmw : maxW4 c0.w c1.w c2.w c3.w = mw
      have hm : mw ≠ 0 := by
        rw [← hmw]
        exact maxW4_ne_zero fun h => haz ⟨⟨⟨h.1, h.2.1⟩, h.2.2.1⟩, h.2.2.2⟩
      have hnw : WOps.mul mw WOps.one = mw := by rw [mul_eq, one_eq, mul_one]
      rw [hnw]
      have hnaz : ¬ WOps.az mw = true := by rw [az_iff]; exact hm
      rw [if_neg hnaz, aone_snap]
      simp only [normM_small hm]
      generalize hN : (⟨(k : Int), scaled mw c0, scaled mw c1, scaled mw c2, scaled mw c3⟩ : MNode W) = nd
      have hv : nd.v = k := by rw [← hN]
      have hw2 := UTable.write_inv hw hpo nd
      have hwu2 := UTable.write_uniq hw hpo nd hwu
      have hwr2 : ∀ q x, UTable.Reg env.hm (t1.write p nd) q x ↔ UTable.Reg env.hm s.mt q x :=
        fun q x => (UTable.write_reg hw hpo _ q x).trans (hwr q x)
      obtain ⟨c, t', hl, hi', hu', he', nc, hrc, hcase, hback⟩ := UTable.lookup_spec hw2 hwu2 (nd := nd)
        (by simp [UTable.write]) (by simp [hv]) (by simp [hv]; exact_mod_cast hk) tid
      have hnc : nc = nd := by
        rcases hcase with ⟨h, _⟩ | ⟨h, _⟩
        · exact h
        · exact ((meqv_iff _ _).1 h).symm
      subst hnc
      have hext : SExt env s { s with mt := t' } :=
        ⟨UTable.Ext.refl _, fun q x h => he' q x ((hwr2 q x).2 h)⟩
      have hnorm : MNorm env { s with mt := t' } nc := by
        subst hN
        refine ⟨?_, ?_, ?_, ?_⟩
        · intro r q
          cases r <;> cases q
          · exact (h0.1.scaled (mw := mw)).ext hext
          · exact (h1.1.scaled (mw := mw)).ext hext
          · exact (h2.1.scaled (mw := mw)).ext hext
          · exact (h3.1.scaled (mw := mw)).ext hext
        · intro r q
          cases r <;> cases q <;> exact scaled_z hm
        · simp only [scaled_w]
          have e : ∀ a : W, a / mw = mw⁻¹ * a := fun a => by rw [div_eq_mul_inv, mul_comm]
          rw [e, e, e, e, maxW4_scale _ _ _ _ _ (inv_ne_zero hm), hmw, inv_mul_cancel₀ hm]
        · by_contra hne
          rw [Bool.not_eq_false] at hne
          simp only [strips, Bool.and_eq_true, beq_iff_eq, az_iff, ae_iff, scaled_w, div_eq_zero_iff, hm,
            or_false] at hne hs
          obtain ⟨⟨⟨hn, hw1⟩, hw2⟩, hw0⟩ := hne
          have hw03 : c0.w = c3.w := by field_simp at hw0; exact hw0
          by_cases hz : c0.w = 0
          · exact haz ⟨⟨⟨hz, hw1⟩, hw2⟩, hw03 ▸ hz⟩
          · rw [scaled_n hz, scaled_n (hw03 ▸ hz)] at hn
            exact hs ⟨⟨⟨hn, hw1⟩, hw2⟩, hw03⟩
      have hinv : Inv env { s with mt := t' } :=
        hi.grow hext hi.vt hi' hi.vu hu' (fun q x h => .inl h)
          (fun q x h => (hback q x h).elim (fun h => .inl ((hwr2 q x).1 h)) (fun h => .inr (h.2 ▸ hnorm)))
          rfl rfl rfl rfl
      refine ⟨⟨mw, some c⟩, { s with mt := t' }, ?_, hinv, hext, ?_, fun h => (hm h).elim⟩
      · have : ((k : Int) ≥ -1) := by omega
        simp only [hl, evar, hrc.1, MNode.tvar, hv, this, if_true]
      · refine ⟨.inr ⟨c, nc, rfl, hrc, by rw [hv]; push_cast; omega⟩, fun i j => ?_⟩
        have key : ∀ r q, mw * ((nc.child r q).w * mptr t'.mem k (nc.child r q).n i j) = F r q i j := by
          intro r q
          subst hN
          cases r <;> cases q
          · show mw * mden t'.mem k (scaled mw c0) i j = _
            rw [mden_scaled hm]
            exact (mden_ext hi hext h0.1 i j).trans (h0.2 i j)
          · show mw * mden t'.mem k (scaled mw c1) i j = _
            rw [mden_scaled hm]
            exact (mden_ext hi hext h1.1 i j).trans (h1.2 i j)
          · show mw * mden t'.mem k (scaled mw c2) i j = _
            rw [mden_scaled hm]
            exact (mden_ext hi hext h2.1 i j).trans (h2.2 i j)
          · show mw * mden t'.mem k (scaled mw c3) i j = _
            rw [mden_scaled hm]
            exact (mden_ext hi hext h3.1 i j).trans (h3.2 i j)
        have hmem : t'.mem c = some nc := hrc.1
        simp only [mden, mptr, hmem, hv, if_true, blocks]
        exact key (i.testBit k) (j.testBit k)

end QDD
