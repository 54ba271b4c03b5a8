import Verif.Num.Inv
/-!
# Numerical accuracy of `makeVEdge` and `makeMEdge`
-/

set_option linter.unusedSectionVars false
set_option linter.unusedVariables false
set_option linter.unusedSimpArgs false

namespace QDD
namespace Num
open RoundW NumW Prog Safe
variable {W : Type} [WOps W] [RoundW W] [NumW W] {env : Env W}

local notation "ε" => NumW.eps W

/-- `x` stands for the child `c` divided by `mw`: same node or the zero edge, weight up to `δ`. -/
def Scaled (δ : ℝ) (c : Edge W) (mw : W) (x : Edge W) : Prop :=
  (x.n = c.n ∨ x = zeroE) ∧ ‖val x.w - val c.w / val mw‖ ≤ δ

theorem aone_close {a : W} (h : WOps.aone a = true) : ‖val a - 1‖ ≤ ε := by
  have := ae_close h
  rwa [val_one] at this

/-- Snapping the normalisation weight to one. -/
theorem snapOne (w : W) : ‖val (if WOps.aone w = true then WOps.one else w) - val w‖ ≤ ε := by
  split
  · next h => rw [val_one, norm_sub_rev]; exact aone_close h
  · simpa using eps_nn (W := W)

/-- A ratio of weights. -/
theorem ratio_le {a b : W} (hb : WOps.az b = false) (h : mag a ≤ mag b) : ‖val a / val b‖ ≤ 1 + ε := by
  have h1 := mag_le hb h
  have h2 : 0 < ‖val b‖ := norm_pos_iff.2 (az_ne hb)
  rw [norm_div, div_le_iff₀ h2]
  exact h1

theorem div_le {a b : W} (hb : WOps.az b = false) (h : mag a ≤ mag b) : ‖val (WOps.div a b)‖ ≤ bet W := by
  have h1 := ratio_le hb h
  have h2 := div_err hb h
  have h3 := norm_add_le (val (WOps.div a b) - val a / val b) (val a / val b)
  rw [sub_add_cancel] at h3
  unfold bet; linarith

/-- The children `normalizeV` and `normalizeM` store. -/
theorem small_scaled {c : Edge W} {mw : W} (hb : WOps.az mw = false) (h : mag c.w ≤ mag mw) {x : Edge W}
    (hx : (WOps.aone (WOps.div c.w mw) = true ∧ x = ⟨WOps.one, c.n⟩) ∨ (WOps.az (WOps.div c.w mw) = true ∧ x = zeroE) ∨
      x = ⟨WOps.div c.w mw, c.n⟩) : Scaled (2 * ε) c mw x ∧ ‖val x.w‖ ≤ bet W := by
  have hd := div_err hb h
  have e0 := eps_nn (W := W)
  rcases hx with ⟨h1, rfl⟩ | ⟨h1, rfl⟩ | rfl
  · refine ⟨⟨.inl rfl, ?_⟩, ?_⟩
    · have h2 := aone_close h1
      rw [norm_sub_rev] at h2
      have h3 := norm_add_le (1 - val (WOps.div c.w mw)) (val (WOps.div c.w mw) - val c.w / val mw)
      rw [sub_add_sub_cancel] at h3
      simp only [val_one]; linarith
    · simpa [val_one] using bet_ge (W := W)
  · refine ⟨⟨.inr rfl, ?_⟩, ?_⟩
    · have h2 := az_small h1
      have h3 := norm_sub_le (val (WOps.div c.w mw)) (val (WOps.div c.w mw) - val c.w / val mw)
      rw [sub_sub_cancel] at h3
      simp only [zeroE, val_zero, zero_sub, norm_neg]; linarith
    · simpa [zeroE, val_zero] using bet_pos.le
  · exact ⟨⟨.inl rfl, by simp only; linarith⟩, div_le hb h⟩

theorem Scaled.mono {δ δ' : ℝ} {c x : Edge W} {mw : W} (h : Scaled δ c mw x) (hd : δ ≤ δ') : Scaled δ' c mw x :=
  ⟨h.1, h.2.trans hd⟩

theorem eeq_w {a b : Edge W} (h : eeq a b = true) : ‖val a.w - val b.w‖ ≤ ε := by
  simp only [eeq, Bool.and_eq_true] at h; exact ae_close h.1

/-- A child found in the table instead of the one computed. -/
theorem hit_scaled {c : Edge W} {mw : W} {x y : Edge W} (hx : Scaled (2 * ε) c mw x) (h : eeq x y = true) :
    ‖val y.w - val c.w / val mw‖ ≤ 3 * ε ∧ (y.n = c.n ∨ x = zeroE ∧ y.n = none) := by
  have h1 := eeq_w h
  have h2 := norm_add_le (val y.w - val x.w) (val x.w - val c.w / val mw)
  rw [sub_add_sub_cancel, norm_sub_rev (val y.w) (val x.w)] at h2
  refine ⟨by linarith [hx.2], ?_⟩
  have hn := eeq_n h
  rcases hx.1 with h3 | h3
  · exact .inl (hn ▸ h3)
  · exact .inr ⟨h3, by rw [← hn, h3]; rfl⟩

/-- Undoing the normalisation. -/
theorem rescale {M : ℝ} {c : Edge W} {mw nw : W} {w : ℂ} (hb : WOps.az mw = false) (hM : ‖val mw‖ ≤ M)
    (hn : ‖val nw - val mw‖ ≤ ε) (hw : ‖w‖ ≤ bet W) (h : ‖w - val c.w / val mw‖ ≤ 3 * ε) :
    ‖val nw * w - val c.w‖ ≤ 3 * ε * (1 + M) := by
  have hne := az_ne hb
  have e : val nw * w - val c.w = (val nw - val mw) * w + val mw * (w - val c.w / val mw) := by
    field_simp; ring
  rw [e]
  refine (norm_add_le _ _).trans ?_
  rw [norm_mul, norm_mul]
  have e0 := eps_nn (W := W)
  have b1 : bet W ≤ 1001 / 1000 := by simpa using pow_bet_le (W := W) (k := 1) (by norm_num)
  have h1 : ‖val nw - val mw‖ * ‖w‖ ≤ ε * (1001 / 1000) :=
    mul_le_mul hn (hw.trans b1) (norm_nonneg _) e0
  have h2 : ‖val mw‖ * ‖w - val c.w / val mw‖ ≤ M * (3 * ε) :=
    mul_le_mul hM h (norm_nonneg _) ((norm_nonneg _).trans hM)
  nlinarith

theorem nw_le {M : ℝ} {mw nw : W} (hM : ‖val mw‖ ≤ M) (hn : ‖val nw - val mw‖ ≤ ε) : ‖val nw‖ ≤ M + ε := by
  have := norm_add_le (val nw - val mw) (val mw)
  rw [sub_add_cancel] at this
  linarith

/-! ## Vectors -/

/-- A stored vector child stands for the computed one. -/
theorem slotV {s : St W} {k : Nat} {c y : Edge W} {mw : W} (hy : VLv env s k y)
    (h : ‖val y.w - val c.w / val mw‖ ≤ 3 * ε) (hn : y.n = c.n ∨ y.n = none) (hb : ‖val y.w‖ ≤ bet W) :
    ∃ w : ℂ, ‖w - val c.w / val mw‖ ≤ 3 * ε ∧ ‖w‖ ≤ bet W ∧
      ∀ i, val y.w * vp s.vt.mem k y.n i = w * vp s.vt.mem k c.n i := by
  refine ⟨val y.w, h, hb, fun i => ?_⟩
  rcases hn with hn | hn
  · rw [hn]
  · rcases hy with (⟨hk, _⟩ | ⟨p, nd, h1, _⟩) | ⟨hz, _⟩
    · subst hk; rfl
    · rw [hn] at h1; cases h1
    · rw [val_z hz, zero_mul, zero_mul]

/-- `makeVEdge`: the edge stands for the two given halves. -/
theorem makeVEdge_num {s : St W} (hi : NInv env s) (tid : Nat) {k : Nat} (hk : k < NQUBITS)
    {c0 c1 : Edge W} (h0 : VLv env s k c0) (h1 : VLv env s k c1) {M : ℝ} (m0 : ‖val c0.w‖ ≤ M) (m1 : ‖val c1.w‖ ≤ M) :
    ∃ e s', makeVEdge env tid k c0 c1 s = .ok (e, s') ∧ NInv env s' ∧ Grow env s s' ∧
      VApx env s' (k + 1) e (fun i => vd s k (if i.testBit k then c1 else c0) i) (4 * ε * (1 + M)) := by
  obtain ⟨e, s', hr, hinv, hgrow, hlv⟩ := makeVEdge_shape hi.base tid hk h0.lv0 h1.lv0
  refine ⟨e, s', hr, ?_⟩
  have e0 := eps_nn (W := W)
  have hM : 0 ≤ M := (norm_nonneg _).trans m0
  have hcl : ∀ b : Bool, VLv env s k (if b then c1 else c0) := fun b => by cases b <;> simpa
  have hcm : ∀ b : Bool, ‖val (if b then c1 else c0 : Edge W).w‖ ≤ M := fun b => by cases b <;> simpa
  unfold makeVEdge at hr
  obtain ⟨hg, hgc, hgm⟩ := UTable.getNode_spec hi.base.vt tid
  generalize UTable.getNode tid s.vt = pt at hg hgc hgm hr
  obtain ⟨p, t⟩ := pt
  simp only at hg hgc hgm hr
  have hpo : p ∈ [p] := List.mem_cons_self
  have hreg : ∀ q x, UTable.Reg env.hv t q x ↔ UTable.Reg env.hv s.vt q x :=
    UTable.reg_of_mem_eq hgc (fun _ _ _ _ => by rw [hgm])
  have hw := UTable.write_inv hg hpo ⟨(k : Int), c0, c1⟩
  have hwr : ∀ q x, UTable.Reg env.hv (t.write p ⟨(k : Int), c0, c1⟩) q x ↔ UTable.Reg env.hv s.vt q x :=
    fun q x => (UTable.write_reg hg hpo _ q x).trans (hreg q x)
  generalize t.write p ⟨(k : Int), c0, c1⟩ = t1 at hw hwr hr
  have hzero : (∀ b : Bool, ‖val (if b then c1 else c0 : Edge W).w‖ ≤ 2 * ε) →
      (match (Except.ok (zeroE, t1.returnNode tid p) : Except Err (Edge W × UTable (VNode W))) with
        | .error e => Except.error e
        | .ok (e, t') => match evar t'.mem e.n with
          | .error er => .error er
          | .ok v => if v = (k : Int) ∨ e.n = none then .ok (e, { s with vt := t' }) else .error .assert) =
        .ok (e, s') →
      NInv env s' ∧ Grow env s s' ∧
      VApx env s' (k + 1) e (fun i => vd s k (if i.testBit k then c1 else c0) i) (4 * ε * (1 + M)) := by
    intro hsm hr
    have hr' : ∀ q x, UTable.Reg env.hv (t1.returnNode tid p) q x ↔ UTable.Reg env.hv s.vt q x :=
      fun q x => (UTable.return_reg hw tid q x).trans (hwr q x)
    simp [zeroE, evar] at hr
    obtain ⟨rfl, rfl⟩ := hr
    refine ⟨hi.grow hgrow hinv (fun q x h => .inl ((hr' q x).1 h)) (fun q x h => .inl h) rfl rfl rfl rfl, hgrow, zeroE_vlv _ _,
      fun i => ?_⟩
    have hz : vd ({ s with vt := t1.returnNode tid p } : St W) (k + 1) (⟨WOps.zero, none⟩ : Edge W) i = 0 := vd_zeroE _ _ _
    rw [hz, zero_sub, norm_neg]
    have h := vd_le hi hk.le (hcl (i.testBit k)) i
    have h' := hsm (i.testBit k)
    nlinarith
  unfold normalizeV at hr
  by_cases haz : (WOps.az c0.w && WOps.az c1.w) = true
  · rw [if_pos haz] at hr
    simp only [Bool.and_eq_true] at haz
    refine hzero (fun b => ?_) hr
    cases b
    · have := az_small haz.1; simp; linarith
    · have := az_small haz.2; simp; linarith
  rw [if_neg haz] at hr
  simp only at hr
  have hmag : ∀ b : Bool, mag (if b then c1 else c0 : Edge W).w ≤ mag (if WOps.lt c0.w c1.w = true then c1.w else c0.w) := by
    intro b
    by_cases hlt : WOps.lt c0.w c1.w = true
    · rw [if_pos hlt]
      cases b
      · exact ((lt_iff _ _).1 hlt).le
      · exact le_refl _
    · rw [if_neg hlt]
      cases b
      · exact le_refl _
      · exact not_lt.1 fun h => hlt ((lt_iff _ _).2 h)
  have hmM : ‖val (if WOps.lt c0.w c1.w = true then c1.w else c0.w)‖ ≤ M := by split <;> assumption
  generalize hmw : (if WOps.lt c0.w c1.w = true then c1.w else c0.w) = mw at hr hmag hmM
  rw [RoundW.mul_one] at hr
  by_cases hnaz : WOps.az mw = true
  · rw [if_pos hnaz] at hr
    exact hzero (fun b => mag_le0 hnaz (hmag b)) hr
  rw [if_neg hnaz] at hr
  have hnaz' : WOps.az mw = false := by simpa using hnaz
  have small : ∀ c : Edge W, mag c.w ≤ mag mw → Scaled (2 * ε) c mw (if WOps.aone (WOps.div c.w mw) = true then ⟨WOps.one, c.n⟩
      else if WOps.az (WOps.div c.w mw) = true then zeroE else ⟨WOps.div c.w mw, c.n⟩) ∧
      ‖val (if WOps.aone (WOps.div c.w mw) = true then (⟨WOps.one, c.n⟩ : Edge W)
      else if WOps.az (WOps.div c.w mw) = true then zeroE else ⟨WOps.div c.w mw, c.n⟩).w‖ ≤ bet W := by
    intro c hc
    refine small_scaled hnaz' hc ?_
    split
    · next h => exact .inl ⟨h, rfl⟩
    split
    · next h => exact .inr (.inl ⟨h, rfl⟩)
    · exact .inr (.inr rfl)
  have big : ∀ c : Edge W, c.w = mw → Scaled (2 * ε) c mw ⟨WOps.one, c.n⟩ ∧ ‖val (⟨WOps.one, c.n⟩ : Edge W).w‖ ≤ bet W := by
    intro c hc
    refine ⟨⟨.inl rfl, ?_⟩, ?_⟩
    · rw [hc, div_self (az_ne hnaz'), val_one, sub_self, norm_zero]; positivity
    · simpa [val_one] using bet_ge (W := W)
  generalize hN : (if WOps.lt c0.w c1.w = true then _ else _ : VNode W) = nd at hr
  have hv : nd.v = k := by rw [← hN]; split <;> rfl
  have hch : ∀ b : Bool, Scaled (2 * ε) (if b then c1 else c0) mw (nd.child b) ∧ ‖val (nd.child b).w‖ ≤ bet W := by
    intro b
    rw [← hN]
    by_cases hlt : WOps.lt c0.w c1.w = true
    · rw [if_pos hlt] at hmw ⊢
      cases b
      · exact small _ (hmag false)
      · exact big _ hmw
    · rw [if_neg hlt] at hmw ⊢
      cases b
      · exact big _ hmw
      · exact small _ (hmag true)
  have haz' : ∀ b : Bool, WOps.az (nd.child b).w = true → nd.child b = zeroE := by
    have sm : ∀ c : Edge W, WOps.az (if WOps.aone (WOps.div c.w mw) = true then (⟨WOps.one, c.n⟩ : Edge W)
        else if WOps.az (WOps.div c.w mw) = true then zeroE else ⟨WOps.div c.w mw, c.n⟩).w = true →
        (if WOps.aone (WOps.div c.w mw) = true then (⟨WOps.one, c.n⟩ : Edge W)
        else if WOps.az (WOps.div c.w mw) = true then zeroE else ⟨WOps.div c.w mw, c.n⟩) = zeroE := by
      intro c h
      split at h
      · rw [show (⟨WOps.one, c.n⟩ : Edge W).w = WOps.one from rfl, az_one] at h; cases h
      · next h1 =>
        rw [if_neg h1]
        split at h
        · next h2 => rw [if_pos h2]
        · next h2 => exact absurd h h2
    have bg : ∀ c : Edge W, WOps.az (⟨WOps.one, c.n⟩ : Edge W).w = true → (⟨WOps.one, c.n⟩ : Edge W) = zeroE := by
      intro c h
      rw [show (⟨WOps.one, c.n⟩ : Edge W).w = WOps.one from rfl, az_one] at h; cases h
    intro b
    rw [← hN]
    by_cases hlt : WOps.lt c0.w c1.w = true
    · rw [if_pos hlt]
      cases b
      · exact sm c0
      · exact bg c1
    · rw [if_neg hlt]
      cases b
      · exact bg c0
      · exact sm c1
  have hw2 := UTable.write_inv hw hpo nd
  have hwr2 : ∀ q x, UTable.Reg env.hv (t1.write p nd) q x ↔ UTable.Reg env.hv s.vt q x :=
    fun q x => (UTable.write_reg hw hpo _ q x).trans (hwr q x)
  obtain ⟨c, t', hl, hi', he', nc, hrc, hcase, hback⟩ := lookup_shape hw2 (nd := nd)
    (by simp [UTable.write]) (by simp [hv]) (by simp [hv]; exact_mod_cast hk) tid
  have hncv : nc.v = k := by
    rcases hcase with ⟨h, _⟩ | ⟨h, _⟩
    · rw [h, hv]
    · simp only [TNode.eqv, Bool.and_eq_true, beq_iff_eq] at h
      rw [← h.1.1, hv]
  have hsn := snapOne (W := W) mw
  generalize (if WOps.aone mw = true then WOps.one else mw) = nw at hr hsn
  simp only [hl, evar, hrc.1, VNode.tvar, hncv, true_or, if_true] at hr
  have hr := Except.ok.inj hr
  have hre : (⟨nw, some c⟩ : Edge W) = e := congrArg Prod.fst hr
  have hrs : ({ s with vt := t' } : St W) = s' := congrArg Prod.snd hr
  subst hre hrs
  have hninv : NInv env { s with vt := t' } :=
    hi.grow hgrow hinv (fun q x h => (hback q x h).elim (fun h => .inl ((hwr2 q x).1 h)) fun h => .inr fun b => by
      rw [h.2]; exact ⟨(hch b).2, haz' b⟩) (fun q x h => .inl h) rfl rfl rfl rfl
  refine ⟨hninv, hgrow, hlv, fun i => ?_⟩
  have hval : val (nc.child (i.testBit k)).w * vp t'.mem k (nc.child (i.testBit k)).n i =
      val (nc.child (i.testBit k)).w * vp t'.mem k (nc.child (i.testBit k)).n i := rfl
  have hlvc : VLv env ({ s with vt := t' } : St W) k (nc.child (i.testBit k)) := hinv.vchild hrc _ hncv
  have hbc : ‖val (nc.child (i.testBit k)).w‖ ≤ bet W := (hninv.vw _ _ hrc _).1
  have hsc : ‖val (nc.child (i.testBit k)).w - val (if i.testBit k then c1 else c0 : Edge W).w / val mw‖ ≤ 3 * ε ∧
      ((nc.child (i.testBit k)).n = (if i.testBit k then c1 else c0 : Edge W).n ∨ (nc.child (i.testBit k)).n = none) := by
    have hc := (hch (i.testBit k)).1
    rcases hcase with ⟨rfl, _⟩ | ⟨h, _⟩
    · exact ⟨hc.2.trans (by linarith), hc.1.imp id fun h => by rw [h]; rfl⟩
    · simp only [TNode.eqv, Bool.and_eq_true, beq_iff_eq] at h
      have hq : eeq (nd.child (i.testBit k)) (nc.child (i.testBit k)) = true := by
        cases i.testBit k
        · exact h.1.2
        · exact h.2
      have := hit_scaled hc hq
      exact ⟨this.1, this.2.imp id (·.2)⟩
  obtain ⟨w, hw1, hw2, hw3⟩ := slotV hlvc hsc.1 hsc.2 hbc
  have hvd : vd ({ s with vt := t' } : St W) (k + 1) ⟨nw, some c⟩ i =
      val nw * w * vp s.vt.mem k (if i.testBit k then c1 else c0 : Edge W).n i := by
    unfold vd
    simp only [vp, hrc.1]
    rw [hw3 i, mul_assoc]
    congr 2
    exact vp_ext hi.base hgrow ((hcl (i.testBit k)).imp id (·.2)) i
  rw [hvd]
  have hres := rescale (M := M) hnaz' hmM hsn hw2 hw1
  have hvp := vp_le' hi hk.le ((hcl (i.testBit k)).imp id (·.2)) i
  show ‖_ - vd s k _ i‖ ≤ _
  unfold vd
  rw [← sub_mul, norm_mul]
  have h3 : ‖val nw * w - val (if i.testBit k then c1 else c0 : Edge W).w‖ *
      ‖vp s.vt.mem k (if i.testBit k then c1 else c0 : Edge W).n i‖ ≤ 3 * ε * (1 + M) * (1001 / 1000) :=
    mul_le_mul hres hvp (norm_nonneg _) (by positivity)
  have : 0 ≤ ε * (1 + M) := by positivity
  linarith

/-! ## Matrices -/

theorem max4 (a b c d : W) : (maxW4 a b c d = a ∨ maxW4 a b c d = b ∨ maxW4 a b c d = c ∨ maxW4 a b c d = d) ∧
    mag a ≤ mag (maxW4 a b c d) ∧ mag b ≤ mag (maxW4 a b c d) ∧ mag c ≤ mag (maxW4 a b c d) ∧
    mag d ≤ mag (maxW4 a b c d) := by
  have step : ∀ x y : W, mag x ≤ mag (if WOps.lt x y = true then y else x) ∧
      mag y ≤ mag (if WOps.lt x y = true then y else x) := by
    intro x y
    split
    · next h => exact ⟨((lt_iff _ _).1 h).le, le_refl _⟩
    · next h => exact ⟨le_refl _, not_lt.1 fun h' => h ((lt_iff _ _).2 h')⟩
  have cs : ∀ x y : W, (if WOps.lt x y = true then y else x) = x ∨ (if WOps.lt x y = true then y else x) = y := by
    intro x y; split <;> simp
  unfold maxW4
  simp only
  have h1 := step a b
  have e1 := cs a b
  generalize (if WOps.lt a b = true then b else a) = m1 at *
  have h2 := step m1 c
  have e2 := cs m1 c
  generalize (if WOps.lt m1 c = true then c else m1) = m2 at *
  have h3 := step m2 d
  have e3 := cs m2 d
  generalize (if WOps.lt m2 d = true then d else m2) = m3 at *
  refine ⟨?_, h1.1.trans (h2.1.trans h3.1), h1.2.trans (h2.1.trans h3.1), h2.2.trans h3.1, h3.2⟩
  rcases e3 with rfl | rfl
  · rcases e2 with rfl | rfl
    · rcases e1 with rfl | rfl <;> simp
    · simp
  · simp

variable (env) in
/-- What `makeMEdge` yields: support, weight, and the weights `w` it effectively gives to the four blocks. -/
def MMade (s s' : St W) (k : Nat) (ch : Bool → Bool → Edge W) (M : ℝ) (N : Nat) (e : Edge W) : Prop :=
  MOk env s' (k + 1) e N ∧ ‖val e.w‖ ≤ M + ε ∧ ∃ w : Bool → Bool → ℂ,
    (∀ r c, ‖w r c - val (ch r c).w‖ ≤ 3 * ε * (1 + M)) ∧
    ∀ i j, md s' (k + 1) e i j = w (i.testBit k) (j.testBit k) * mp s.mt.mem k (ch (i.testBit k) (j.testBit k)).n i j

/-- A matrix edge that skips the top level. -/
theorem md_skip {s : St W} {k : Nat} {e : Edge W} (h : MLv env s k e.n) (i j : Nat) :
    md s (k + 1) e i j = if i.testBit k = j.testBit k then md s k e i j else 0 := by
  unfold md
  rcases h with h | ⟨p, nd, h1, h2, h3⟩
  · rw [h]; simp only [mp, mul_ite, mul_zero]
  · rw [h1]
    have : nd.v ≠ (k : Int) := by omega
    simp only [mp, h2.1, if_neg this, mul_ite, mul_zero]

theorem makeMEdge_num {s : St W} (hi : NInv env s) (tid : Nat) {k : Nat} (hk : k < NQUBITS)
    {ch : Bool → Bool → Edge W} {n : Bool → Bool → Nat} {N : Nat} (hN1 : 1 ≤ N)
    (h : ∀ r c, MOk env s k (ch r c) (n r c)) (hN : ∀ r, n r false + n r true ≤ N)
    {M : ℝ} (m : ∀ r c, ‖val (ch r c).w‖ ≤ M) :
    ∃ e s', makeMEdge env tid k (ch false false) (ch false true) (ch true false) (ch true true) s = .ok (e, s') ∧
      NInv env s' ∧ Grow env s s' ∧ MMade env s s' k ch M N e := by
  obtain ⟨e, s', hr, hinv, hgrow, hlv⟩ := makeMEdge_shape hi.base tid hk (h false false).lv (h false true).lv
    (h true false).lv (h true true).lv
  refine ⟨e, s', hr, ?_⟩
  have e0 := eps_nn (W := W)
  have hM : 0 ≤ M := (norm_nonneg _).trans (m true true)
  have hMe : 0 ≤ M * ε := by positivity
  unfold makeMEdge at hr
  by_cases hs : strips (ch false false) (ch false true) (ch true false) (ch true true) = true
  · rw [if_pos hs] at hr
    have hr := Except.ok.inj hr
    have hre : ch false false = e := congrArg Prod.fst hr
    have hrs : s = s' := congrArg Prod.snd hr
    subst hre hrs
    simp only [strips, Bool.and_eq_true, beq_iff_eq] at hs
    obtain ⟨⟨⟨s1, s2⟩, s3⟩, s4⟩ := hs
    refine ⟨hi, hgrow, ?_, by linarith [m false false], ?_⟩
    · rcases h false false with h' | h'
      · exact .inl h'
      · exact .inr (.inl ⟨h'.lv, h'.mono (by have := hN false; omega)⟩)
    · refine ⟨fun r c => if r = c then val (ch false false).w else 0, fun r c => ?_, fun i j => ?_⟩
      · cases r <;> cases c
        · simp; positivity
        · have := az_small s2; simp; nlinarith
        · have := az_small s3; simp; nlinarith
        · have := ae_close s4; simp; nlinarith
      · rw [md_skip (h false false).lv]
        cases hb : i.testBit k <;> cases hb' : j.testBit k
        · simp [md]
        · simp
        · simp
        · simp [md, s1]
  rw [if_neg hs] at hr
  obtain ⟨hg, hgc, hgm⟩ := UTable.getNode_spec hi.base.mt tid
  generalize UTable.getNode tid s.mt = pt at hg hgc hgm hr
  obtain ⟨p, t⟩ := pt
  simp only at hg hgc hgm hr
  have hpo : p ∈ [p] := List.mem_cons_self
  have hreg : ∀ q x, UTable.Reg env.hm t q x ↔ UTable.Reg env.hm s.mt q x :=
    UTable.reg_of_mem_eq hgc (fun _ _ _ _ => by rw [hgm])
  have hw := UTable.write_inv hg hpo ⟨(k : Int), ch false false, ch false true, ch true false, ch true true⟩
  have hwr : ∀ q x, UTable.Reg env.hm (t.write p ⟨(k : Int), ch false false, ch false true, ch true false, ch true true⟩) q x ↔
      UTable.Reg env.hm s.mt q x := fun q x => (UTable.write_reg hg hpo _ q x).trans (hreg q x)
  generalize t.write p ⟨(k : Int), ch false false, ch false true, ch true false, ch true true⟩ = t1 at hw hwr hr
  have hzero : (∀ r c, ‖val (ch r c).w‖ ≤ 2 * ε) → s' = { s with mt := t1.returnNode tid p } → e = zeroE →
      NInv env s' ∧ Grow env s s' ∧ MMade env s s' k ch M N e := by
    intro hsm hs' he
    subst hs' he
    have hr' : ∀ q x, UTable.Reg env.hm (t1.returnNode tid p) q x ↔ UTable.Reg env.hm s.mt q x :=
      fun q x => (UTable.return_reg hw tid q x).trans (hwr q x)
    refine ⟨hi.grow hgrow hinv (fun q x h => .inl h) (fun q x h => .inl ((hr' q x).1 h)) rfl rfl rfl rfl, hgrow, MOk.zero _ _ _, ?_,
      fun _ _ => 0, fun r c => ?_, fun i j => by simp⟩
    · simp only [zeroE, val_zero, norm_zero]; linarith
    · have := hsm r c
      rw [zero_sub, norm_neg]; nlinarith
  unfold normalizeM at hr
  by_cases haz : (WOps.nz (ch false false).w && WOps.nz (ch false true).w && WOps.nz (ch true false).w &&
      WOps.nz (ch true true).w) = true
  · rw [if_pos haz] at hr
    simp only [Bool.and_eq_true] at haz
    have hr := Except.ok.inj hr
    refine hzero (fun r c => ?_) (congrArg Prod.snd hr).symm (congrArg Prod.fst hr).symm
    have : WOps.nz (ch r c).w = true := by
      cases r <;> cases c
      · exact haz.1.1.1
      · exact haz.1.1.2
      · exact haz.1.2
      · exact haz.2
    have := nz_small this
    linarith
  rw [if_neg haz] at hr
  simp only at hr
  have hmx := max4 (ch false false).w (ch false true).w (ch true false).w (ch true true).w
  generalize maxW4 (ch false false).w (ch false true).w (ch true false).w (ch true true).w = mw at hr hmx
  have hmag : ∀ r c, mag (ch r c).w ≤ mag mw := by
    intro r c
    cases r <;> cases c
    · exact hmx.2.1
    · exact hmx.2.2.1
    · exact hmx.2.2.2.1
    · exact hmx.2.2.2.2
  have hmM : ‖val mw‖ ≤ M := by
    rcases hmx.1 with h | h | h | h <;> rw [h] <;> apply m
  rw [RoundW.mul_one] at hr
  by_cases hnaz : WOps.az mw = true
  · rw [if_pos hnaz] at hr
    have hr := Except.ok.inj hr
    exact hzero (fun r c => mag_le0 hnaz (hmag r c)) (congrArg Prod.snd hr).symm (congrArg Prod.fst hr).symm
  rw [if_neg hnaz] at hr
  have hnaz' : WOps.az mw = false := by simpa using hnaz
  have small : ∀ c : Edge W, mag c.w ≤ mag mw → ∀ x, x = (if WOps.az (WOps.div c.w mw) = true then zeroE
      else if WOps.aone (WOps.div c.w mw) = true then (⟨WOps.one, c.n⟩ : Edge W) else ⟨WOps.div c.w mw, c.n⟩) →
      (Scaled (2 * ε) c mw x ∧ ‖val x.w‖ ≤ bet W) ∧ (WOps.az x.w = true → x = zeroE) ∧ (Z c.w → x = zeroE) ∧
        (c.w = mw → x.w = WOps.one) := by
    intro c hc x hx
    refine ⟨small_scaled hnaz' hc ?_, ?_, ?_, ?_⟩
    · rw [hx]
      split
      · next h => exact .inr (.inl ⟨h, rfl⟩)
      split
      · next h => exact .inl ⟨h, rfl⟩
      · exact .inr (.inr rfl)
    · rw [hx]
      split
      · exact fun _ => rfl
      · next h1 =>
        split
        · intro h; rw [az_one] at h; cases h
        · exact fun h => absurd h h1
    · intro hz
      have hz : WOps.az (WOps.div c.w mw) = true := z_az (z_div hz hnaz')
      rw [hx, if_pos hz]
    · intro hm
      have h1 := div_self_one hnaz'
      have h2 : ¬ WOps.az (WOps.div mw mw) = true := fun h => by
        have h3 := az_small h
        have h4 := aone_close h1
        have h5 := norm_sub_le (val (WOps.div mw mw)) (val (WOps.div mw mw) - 1)
        rw [sub_sub_cancel, norm_one] at h5
        have := eps_le (W := W)
        norm_num at this
        linarith
      rw [hx, hm, if_neg h2, if_pos h1]
  have small00 := small _ (hmag false false) _ rfl
  have small01 := small _ (hmag false true) _ rfl
  have small10 := small _ (hmag true false) _ rfl
  have small11 := small _ (hmag true true) _ rfl
  generalize (if WOps.az (WOps.div (ch false false).w mw) = true then zeroE
      else if WOps.aone (WOps.div (ch false false).w mw) = true then (⟨WOps.one, (ch false false).n⟩ : Edge W)
      else ⟨WOps.div (ch false false).w mw, (ch false false).n⟩) = d0 at small00 hr
  generalize (if WOps.az (WOps.div (ch false true).w mw) = true then zeroE
      else if WOps.aone (WOps.div (ch false true).w mw) = true then (⟨WOps.one, (ch false true).n⟩ : Edge W)
      else ⟨WOps.div (ch false true).w mw, (ch false true).n⟩) = d1 at small01 hr
  generalize (if WOps.az (WOps.div (ch true false).w mw) = true then zeroE
      else if WOps.aone (WOps.div (ch true false).w mw) = true then (⟨WOps.one, (ch true false).n⟩ : Edge W)
      else ⟨WOps.div (ch true false).w mw, (ch true false).n⟩) = d2 at small10 hr
  generalize (if WOps.az (WOps.div (ch true true).w mw) = true then zeroE
      else if WOps.aone (WOps.div (ch true true).w mw) = true then (⟨WOps.one, (ch true true).n⟩ : Edge W)
      else ⟨WOps.div (ch true true).w mw, (ch true true).n⟩) = d3 at small11 hr
  generalize hND : (⟨(k : Int), d0, d1, d2, d3⟩ : MNode W) = nd at hr
  have hv : nd.v = k := by rw [← hND]
  have hch : ∀ r c, (Scaled (2 * ε) (ch r c) mw (nd.child r c) ∧ ‖val (nd.child r c).w‖ ≤ bet W) ∧
      (WOps.az (nd.child r c).w = true → nd.child r c = zeroE) ∧ (Z (ch r c).w → nd.child r c = zeroE) ∧
        ((ch r c).w = mw → (nd.child r c).w = WOps.one) := by
    intro r c
    rw [← hND]
    cases r <;> cases c
    · exact small00
    · exact small01
    · exact small10
    · exact small11
  have hw2 := UTable.write_inv hw hpo nd
  have hwr2 : ∀ q x, UTable.Reg env.hm (t1.write p nd) q x ↔ UTable.Reg env.hm s.mt q x :=
    fun q x => (UTable.write_reg hw hpo _ q x).trans (hwr q x)
  obtain ⟨c, t', hl, hi', he', nc, hrc, hcase, hback⟩ := lookup_shape hw2 (nd := nd)
    (by simp [UTable.write]) (by simp [hv]) (by simp [hv]; exact_mod_cast hk) tid
  have hncv : nc.v = k := by
    rcases hcase with ⟨h, _⟩ | ⟨h, _⟩
    · rw [h, hv]
    · simp only [TNode.eqv, Bool.and_eq_true, beq_iff_eq] at h
      rw [← h.1.1.1.1, hv]
  have hsn := snapOne (W := W) mw
  generalize (if WOps.aone mw = true then WOps.one else mw) = nw at hr hsn
  have hk1 : ((k : Int) ≥ -1) := by omega
  simp only [hl, evar, hrc.1, MNode.tvar, hncv, hk1, if_true] at hr
  have hr := Except.ok.inj hr
  have hre : (⟨nw, some c⟩ : Edge W) = e := congrArg Prod.fst hr
  have hrs : ({ s with mt := t' } : St W) = s' := congrArg Prod.snd hr
  subst hre hrs
  have hninv : NInv env { s with mt := t' } :=
    hi.grow hgrow hinv (fun q x h => .inl h) (fun q x h => (hback q x h).elim (fun h => .inl ((hwr2 q x).1 h)) fun h =>
      .inr ⟨fun r c => by rw [h.2]; exact ⟨(hch r c).1.2, (hch r c).2.1⟩, by
        rw [h.2]
        rcases hmx.1 with h | h | h | h
        · exact ⟨false, false, (hch false false).2.2.2 h.symm⟩
        · exact ⟨false, true, (hch false true).2.2.2 h.symm⟩
        · exact ⟨true, false, (hch true false).2.2.2 h.symm⟩
        · exact ⟨true, true, (hch true true).2.2.2 h.symm⟩⟩) rfl rfl rfl rfl
  -- every stored child
  have hst : ∀ r c', (nc.child r c' = zeroE ∧ ‖(0 : ℂ) - val (ch r c').w / val mw‖ ≤ 3 * ε) ∨
      ((nc.child r c').n = (ch r c').n ∧ ‖val (nc.child r c').w - val (ch r c').w / val mw‖ ≤ 3 * ε ∧ ¬ Z (ch r c').w) := by
    intro r c'
    obtain ⟨⟨g1, g2⟩, g3, g4, _⟩ := hch r c'
    by_cases hx0 : nd.child r c' = zeroE
    · left
      have hsm : ‖(0 : ℂ) - val (ch r c').w / val mw‖ ≤ 3 * ε := by
        have := g1.2
        rw [hx0, zeroE, val_zero] at this
        linarith
      rcases hcase with ⟨rfl, _⟩ | ⟨hq, _⟩
      · exact ⟨hx0, hsm⟩
      · refine ⟨(hninv.mw _ _ hrc r c').2 ?_, hsm⟩
        simp only [TNode.eqv, Bool.and_eq_true, beq_iff_eq] at hq
        have hq : eeq (nd.child r c') (nc.child r c') = true := by
          cases r <;> cases c'
          · exact hq.1.1.1.2
          · exact hq.1.1.2
          · exact hq.1.2
          · exact hq.2
        rw [hx0] at hq
        simp only [eeq, Bool.and_eq_true] at hq
        rw [← ae_zero]
        exact ae_symm hq.1
    · right
      have hne : ¬ Z (ch r c').w := fun h => hx0 (g4 h)
      have hnn : (nd.child r c').n = (ch r c').n := g1.1.resolve_right hx0
      rcases hcase with ⟨rfl, _⟩ | ⟨hq, _⟩
      · exact ⟨hnn, g1.2.trans (by linarith), hne⟩
      · simp only [TNode.eqv, Bool.and_eq_true, beq_iff_eq] at hq
        have hq : eeq (nd.child r c') (nc.child r c') = true := by
          cases r <;> cases c'
          · exact hq.1.1.1.2
          · exact hq.1.1.2
          · exact hq.1.2
          · exact hq.2
        exact ⟨(eeq_n hq).symm.trans hnn, (hit_scaled g1 hq).1, hne⟩
  refine ⟨hninv, hgrow, .inr (.inr ⟨c, nc, rfl, hrc, hncv, hN1, n, fun r c' => ?_, hN⟩), nw_le hmM hsn, ?_⟩
  · rcases hst r c' with h' | h'
    · exact .inl h'.1
    · right
      rw [h'.1]
      exact ((h r c').resolve_left fun hz => h'.2.2 hz.1).ext hgrow
  · refine ⟨fun r c' => val nw * (val (nc.child r c').w), fun r c' => ?_, fun i j => ?_⟩
    · refine rescale hnaz' hmM hsn (hninv.mw _ _ hrc r c').1 ?_
      rcases hst r c' with h' | h'
      · rw [h'.1, zeroE, val_zero]; exact h'.2
      · exact h'.2.1
    · unfold md
      simp only [mp, hrc.1, hncv, if_true]
      rw [mul_assoc]
      congr 1
      rcases hst (i.testBit k) (j.testBit k) with h' | h'
      · rw [h'.1, zeroE, val_zero, zero_mul, zero_mul]
      · rw [h'.1]
        congr 1
        exact mp_ext hi.base hgrow (h (i.testBit k) (j.testBit k)).lv.reg i j

end Num
end QDD
