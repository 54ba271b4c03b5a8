import Verif.Core.Cache
/-!
# Sums and products are right, under every interleaving
-/

set_option linter.unusedSectionVars false
set_option linter.unusedVariables false
set_option linter.unusedSimpArgs false

namespace QDD
open ExactW Prog
variable {W : Type} [Field W] [WOps W] [ExactW W] {env : Env W}

theorem az_false {a : W} : (¬ WOps.az a = true) ↔ a ≠ 0 := by rw [az_iff]

/-- Operands of the recursive calls of `vvAdd2`. -/
theorem vAdd_child {s : St W} (hi : Inv env s) {k : Nat} {e : Edge W} {f : Nat → W} (h : VRep env s (k + 1) e f)
    (hw : e.w ≠ 0) : ∃ p nd, e.n = some p ∧ UTable.Reg env.hv s.vt p nd ∧ nd.v = (k : Int) ∧
      ∃ g : Bool → Nat → W, (∀ b, VRep env s k (vAddArg k nd e b) (g b)) ∧ ∀ i, f i = g (i.testBit k) i := by
  rcases h.1.resolve_right (fun h => hw h.1) with ⟨h1, _⟩ | ⟨p, nd, h1, h2, h3⟩
  · cases h1
  · have hv : nd.v = (k : Int) := by push_cast at h3; omega
    have harg : ∀ b, vAddArg k nd e b = ⟨e.w * (nd.child b).w, (nd.child b).n⟩ := fun b => by
      unfold vAddArg; rw [if_pos ⟨hv, by simp [h1]⟩, mul_eq]
    refine ⟨p, nd, h1, h2, hv, fun b i => vden s.vt.mem k (vAddArg k nd e b) i, fun b => ⟨?_, fun i => rfl⟩,
      fun i => ?_⟩
    · rw [harg]
      rcases (hi.vn p nd h2).ok b hv with hc | ⟨hc, hn⟩
      · exact .inl hc
      · exact .inr ⟨by simp [hc], hn⟩
    · rw [← h.2]
      simp only [vden, h1, vptr, h2.1, harg]
      ring

theorem vvAdd2_sat (fk : Nat → Bool) : ∀ {k : Nat} {s : St W} {l r : Edge W} {f g : Nat → W},
    k ≤ NQUBITS → Inv env s → VRep env s k l f → VRep env s k r g →
    Sat (world env) (vvAdd2 env fk k l r) s (fun s' e => VRep env s' k e (fun i => f i + g i)) := by
  intro k
  induction k with
  | zero =>
    intro s l r f g hk hi hl hr
    unfold vvAdd2
    split
    · next hz =>
      rw [az_iff] at hz
      have hf : ∀ i, f i = 0 := fun i => by rw [← hl.2, vden_w0 hz]
      split
      · next hz' =>
        rw [az_iff] at hz'
        have hg : ∀ i, g i = 0 := fun i => by rw [← hr.2, vden_w0 hz']
        exact Sat.pure fun s' _ _ => (zeroE_vrep s' 0).congr fun i => by simp [hf, hg]
      · exact Sat.pure fun s' _ he => (hr.ext hi he).congr fun i => by simp [hf]
    · next hz =>
      split
      · next hz' =>
        rw [az_iff] at hz'
        have hg : ∀ i, g i = 0 := fun i => by rw [← hr.2, vden_w0 hz']
        exact Sat.pure fun s' _ he => (hl.ext hi he).congr fun i => by simp [hg]
      · next hz' =>
        rw [az_false] at hz hz'
        have term : ∀ {e : Edge W}, VOk env s 0 e → e.n = none := by
          rintro e ((⟨_, h⟩ | ⟨p, nd, _, h2, h3⟩) | ⟨_, h⟩)
          · exact h
          · obtain ⟨k, hk, _⟩ := hi.vlevel h2
            push_cast at h3; omega
          · exact h
        have h1 := term hl.1
        have h2 := term hr.1
        rw [if_pos ⟨h1, h2⟩]
        refine Sat.pure fun s' _ _ => ⟨.inl (.inl ⟨rfl, rfl⟩), fun i => ?_⟩
        show _ = f i + g i
        rw [← hl.2, ← hr.2]
        simp [vden, vptr, add_eq]
  | succ k ih =>
    intro s l r f g hk hi hl hr
    unfold vvAdd2
    split
    · next hz =>
      rw [az_iff] at hz
      have hf : ∀ i, f i = 0 := fun i => by rw [← hl.2, vden_w0 hz]
      split
      · next hz' =>
        rw [az_iff] at hz'
        have hg : ∀ i, g i = 0 := fun i => by rw [← hr.2, vden_w0 hz']
        exact Sat.pure fun s' _ _ => (zeroE_vrep s' _).congr fun i => by simp [hf, hg]
      · exact Sat.pure fun s' _ he => (hr.ext hi he).congr fun i => by simp [hf]
    · next hz =>
      split
      · next hz' =>
        rw [az_iff] at hz'
        have hg : ∀ i, g i = 0 := fun i => by rw [← hr.2, vden_w0 hz']
        exact Sat.pure fun s' _ he => (hl.ext hi he).congr fun i => by simp [hg]
      · next hz' =>
        rw [az_false] at hz hz'
        split
        · next hn =>
          refine Sat.pure fun s' _ he => VRep.ext hi he ⟨?_, fun i => ?_⟩
          · exact .inl (hl.1.resolve_right (fun h => hz h.1))
          · show _ = f i + g i
            rw [← hl.2, ← hr.2]
            simp only [vden, ← hn, add_eq]; ring
        · next hn =>
          have hpl := hl.1.resolve_right (fun h => hz h.1)
          have hpr := hr.1.resolve_right (fun h => hz' h.1)
          have hk' : k < NQUBITS := hk
          refine Sat.bind (findAV_sat hk' hpl hpr) fun s1 x hi1 he1 hx => ?_
          obtain ⟨res, c⟩ := x
          have hl1 := hl.ext hi he1
          have hr1 := hr.ext hi he1
          cases res with
          | some e =>
            have hs : VRep env s1 (k + 1) e (fun i => f i + g i) :=
              ⟨(hx e rfl).1, fun i => by rw [(hx e rfl).2, hl1.2, hr1.2]⟩
            show Sat (world env) (if WOps.az e.w = true then pure zeroE else pure e) s1 _
            split
            · next h0 =>
              rw [az_iff] at h0
              refine Sat.pure fun s' _ _ => (zeroE_vrep s' _).congr fun i => ?_
              have := hs.2 i
              rw [vden_w0 h0] at this
              exact this
            · exact Sat.pure fun s' _ he => hs.ext hi1 he
          | none =>
            simp only
            obtain ⟨pl, nl, el, rl, vl, gl, hgl, hfl⟩ := vAdd_child hi1 hl1 hz
            obtain ⟨pr, nr, er, rr, vr, gr, hgr, hfr⟩ := vAdd_child hi1 hr1 hz'
            rw [el, er]
            refine Sat.bind (readV_sat rl) fun s2 nd hi2 he2 hnd => ?_
            subst hnd
            refine Sat.bind (readV_sat (he2.1 _ _ rr)) fun s3 nd' hi3 he3 hnd => ?_
            subst hnd
            have he13 := he2.trans env he3
            refine Sat.bind (Sat.fork (Qp := fun s' e => VRep env s' k e fun i => gl false i + gr false i)
              (Qq := fun s' e => VRep env s' k e fun i => gl true i + gr true i)
              (fun a b e hi _ he h => VRep.ext hi he h) (fun a b e hi _ he h => VRep.ext hi he h)
              (ih (Nat.le_of_lt hk) hi3 ((hgl false).ext hi1 he13) ((hgr false).ext hi1 he13))
              (ih (Nat.le_of_lt hk) hi3 ((hgl true).ext hi1 he13) ((hgr true).ext hi1 he13)))
              fun s4 x hi4 he4 hx4 => ?_
            obtain ⟨e0, e1⟩ := x
            refine Sat.bind (mkV_sat hi4 hk' hx4.1 hx4.2) fun s5 res hi5 he5 hres => ?_
            have hres' : VRep env s5 (k + 1) res (fun i => f i + g i) := hres.congr fun i => by
              rw [hfl, hfr]; cases i.testBit k <;> rfl
            have he15 : SExt env s1 s5 := (he13.trans env he4).trans env he5
            have hl5 := hl1.ext hi1 he15
            have hr5 := hr1.ext hi1 he15
            have hset := setAV_sat hk' c (hpl.ext (SExt.trans env he1 he15)) (hpr.ext (SExt.trans env he1 he15)) hi5
              (res := res) (l := l) (r := r) ⟨hres'.1, fun i => by rw [hres'.2, hl5.2, hr5.2]⟩
            refine Sat.bind hset fun s6 _ hi6 he6 _ => ?_
            exact Sat.pure fun s' _ he => hres'.ext hi5 (he6.trans env he)

/-! ### Matrices: level independence -/

theorem mod_lowEq (k i : Nat) : LowEq k (i % 2 ^ k) i := fun b hb => by
  rw [Nat.testBit_mod_two_pow]; simp [hb]

theorem lowEq_mod {k i j : Nat} : LowEq k i j ↔ i % 2 ^ k = j % 2 ^ k := by
  constructor
  · intro h
    apply Nat.eq_of_testBit_eq
    intro b
    rw [Nat.testBit_mod_two_pow, Nat.testBit_mod_two_pow]
    by_cases hb : b < k
    · simp [hb, h b hb]
    · simp [hb]
  · intro h b hb
    rw [← mod_lowEq k i b hb, ← mod_lowEq k j b hb, h]

theorem mptr_none (mem : Nat → Option (MNode W)) (k i j : Nat) :
    mptr mem k none i j = if i % 2 ^ k = j % 2 ^ k then 1 else 0 := by
  have : mptr mem k none i j = open Classical in if LowEq k i j then 1 else 0 := by
    induction k with
    | zero => simp [mptr, LowEq]
    | succ k ih =>
      simp only [mptr]
      rw [ih]
      by_cases h : LowEq (k + 1) i j
      · rw [if_pos h, if_pos (h k (Nat.lt_succ_self k)), if_pos (h.mono (Nat.le_succ k))]
      · rw [if_neg h]
        by_cases h1 : i.testBit k = j.testBit k
        · rw [if_pos h1, if_neg]
          intro h2
          apply h
          intro b hb
          rcases Nat.lt_succ_iff_lt_or_eq.1 hb with hb | rfl
          · exact h2 b hb
          · exact h1
        · rw [if_neg h1]
  rw [this]
  by_cases h : LowEq k i j
  · rw [if_pos h, if_pos (lowEq_mod.1 h)]
  · rw [if_neg h, if_neg (fun h' => h (lowEq_mod.2 h'))]

theorem bsum_ident (mem : Nat → Option (MNode W)) {k : Nat} {g : Nat → W}
    (hg : ∀ i i', LowEq k i i' → g i = g i') (i : Nat) :
    bsum k (fun j => mptr mem k none i j * g j) = g i := by
  rw [bsum_eq, Finset.sum_eq_single (i % 2 ^ k)]
  · rw [mptr_none, if_pos (by simp), one_mul]
    exact hg _ _ (mod_lowEq k i)
  · intro j hj hne
    rw [mptr_none, if_neg, zero_mul]
    intro h
    rw [Nat.mod_eq_of_lt (Finset.mem_range.1 hj)] at h
    exact hne h.symm
  · intro h
    exact (h (Finset.mem_range.2 (Nat.mod_lt _ (Nat.two_pow_pos k)))).elim

theorem bsum_ident_right (mem : Nat → Option (MNode W)) {k : Nat} {g : Nat → W}
    (hg : ∀ i i', LowEq k i i' → g i = g i') (i : Nat) :
    bsum k (fun j => g j * mptr mem k none j i) = g i := by
  rw [← bsum_ident mem hg i]
  refine bsum_congr fun j _ => ?_
  rw [mul_comm, mptr_none, mptr_none]
  simp only [eq_comm]

/-- A family of matrices, one per qubit count, is represented by `res` at every covered count as soon as it
is at `k+1`. -/
theorem level_indep {s : St W} (hi : Inv env s) {C : Nat → Prop} (hC : ∀ m m', m ≤ m' → C m → C m')
    {V : Nat → Nat → Nat → W} (hV : ∀ m, C m → ∀ i j, V (m + 1) i j = liftF m (V m) i j) {k : Nat} {res : Edge W}
    (hk : C (k + 1)) (hres : MRep env s (k + 1) res (V (k + 1)))
    (hd : C k → ∃ e0, (∀ m, C m → MRep env s m e0 (V m)) ∧ (res.w = 0 → res.n = none ∨ res.n = e0.n)) :
    ∀ m, C m → MRep env s m res (V m) := by
  by_cases hCk : C k
  · obtain ⟨e0, he0, hz⟩ := hd hCk
    by_cases hw : res.w = 0
    · have h0 : e0.w = 0 := by
        by_contra hne
        obtain ⟨i, j, _, _, h⟩ := mptr_nonzero hi (he0 _ hk).1
        have h1 := (he0 _ hk).2 i j
        rw [← hres.2, mden_w0 hw] at h1
        exact mul_ne_zero hne h h1
      intro m hm
      refine ⟨?_, fun i j => ?_⟩
      · rcases hz hw with h | h
        · exact .inl h
        · rw [h]; exact (he0 m hm).1
      · rw [mden_w0 hw, ← (he0 m hm).2, mden_w0 h0]
    · have : res = e0 := mden_canon hi hres.1 (he0 _ hk).1 hw fun i _ j _ => by
        rw [hres.2, (he0 _ hk).2]
      rw [this]; exact he0
  · intro m hm
    have hle : k + 1 ≤ m := by
      by_contra h
      exact hCk (hC m k (by omega) hm)
    clear hm
    induction m, hle using Nat.le_induction with
    | base => exact hres
    | succ m hm ih =>
      have := ih.lift
      exact this.congr fun i j => (hV m (hC _ _ hm hk) i j).symm

variable (env) in
/-- `nd` is what reading `n` yields. -/
def ReadM (s : St W) (n : Option Nat) (nd : MNode W) : Prop :=
  (n = none ∧ nd.v = -1) ∨ ∃ p, n = some p ∧ UTable.Reg env.hm s.mt p nd

theorem readM_sat' {s : St W} {n} (h : RegM env s n) :
    Sat (world env) (readM n) s (fun s' nd => ReadM env s' n nd) := by
  rcases h with rfl | ⟨p, nd, rfl, h⟩
  · exact readM_none_sat.mono fun s' a _ _ h => .inl ⟨rfl, h⟩
  · exact (readM_sat h).mono fun s' a _ he e => by subst e; exact .inr ⟨p, rfl, he.2 _ _ h⟩

theorem ReadM.ext {s s' : St W} (he : SExt env s s') {n nd} (h : ReadM env s n nd) : ReadM env s' n nd :=
  h.imp id fun ⟨p, h1, h2⟩ => ⟨p, h1, he.2 _ _ h2⟩

/-- Reading a node: it sits at the top level, or the level is skipped. -/
theorem ReadM.cases {s : St W} {k : Nat} {n nd} (h : ReadM env s n nd) (hok : MOk env s (k + 1) n) :
    (∃ p, n = some p ∧ UTable.Reg env.hm s.mt p nd ∧ nd.v = (k : Int)) ∨
    (MOk env s k n ∧ ¬ (nd.v = (k : Int) ∧ n ≠ none)) := by
  rcases h with ⟨rfl, h⟩ | ⟨p, rfl, h⟩
  · exact .inr ⟨.inl rfl, by simp⟩
  · by_cases hv : nd.v = (k : Int)
    · exact .inl ⟨p, rfl, h, hv⟩
    · refine .inr ⟨.inr ⟨p, nd, rfl, h, ?_⟩, by simp [hv]⟩
      rcases hok with hok | ⟨q, nd', e, h2, h3⟩
      · cases hok
      · cases e
        rw [Reg.inj h h2] at hv ⊢
        push_cast at h3; omega

/-- Operands of the recursive calls of `mmAdd2`. -/
theorem mAdd_child {s : St W} (hi : Inv env s) {k : Nat} {e : Edge W} {nd} (h : MOk env s (k + 1) e.n)
    (hr : ReadM env s e.n nd) :
    (∀ r c, MOk env s k (mAddArg k nd e r c).n) ∧
    (∀ i j, mden s.mt.mem (k + 1) e i j =
      mden s.mt.mem k (mAddArg k nd e (i.testBit k) (j.testBit k)) i j) ∧
    (MOk env s k e.n → mAddArg k nd e false false = e) := by
  rcases hr.cases h with ⟨p, h1, h2, h3⟩ | ⟨h1, h2⟩
  · have harg : ∀ r c, mAddArg k nd e r c = ⟨e.w * (nd.child r c).w, (nd.child r c).n⟩ := fun r c => by
      unfold mAddArg; rw [if_pos ⟨h3, by simp [h1]⟩, mul_eq]
    refine ⟨fun r c => ?_, fun i j => ?_, fun h => ?_⟩
    · rw [harg]; exact (hi.mn p nd h2).ok' r c h3
    · rw [harg]
      simp only [mden, h1, mptr, h2.1, h3, if_true]; ring
    · exfalso
      rw [h1] at h
      rcases h with h | ⟨q, nd', e', h4, h5⟩
      · cases h
      · cases e'
        rw [Reg.inj h2 h4] at h3
        omega
  · have harg : ∀ r c, mAddArg k nd e r c = if r ≠ c then zeroE else e := fun r c => by
      unfold mAddArg; rw [if_neg h2]
    refine ⟨fun r c => ?_, fun i j => ?_, fun _ => by rw [harg]; simp⟩
    · rw [harg]; split
      · exact .inl rfl
      · exact h1
    · rw [mden_lift h1, harg]
      unfold liftF
      by_cases hb : i.testBit k = j.testBit k
      · simp [hb]
      · rw [if_neg hb, if_pos hb, mden_w0 zeroE_w]

theorem covers_mono {s : St W} {l r : Option Nat} (m m' : Nat) (h : m ≤ m') (hc : MOk env s m l ∧ MOk env s m r) :
    MOk env s m' l ∧ MOk env s m' r := ⟨hc.1.mono h, hc.2.mono h⟩

theorem MSum.zero_left {s : St W} {l r : Edge W} (h : l.w = 0) : MSum env l r s r := fun k _ h2 =>
  ⟨h2, fun i j => by rw [mden_w0 h, zero_add]⟩

theorem MSum.zero_right {s : St W} {l r : Edge W} (h : r.w = 0) : MSum env l r s l := fun k h1 _ =>
  ⟨h1, fun i j => by rw [mden_w0 h, add_zero]⟩

theorem mmAdd2_sat : ∀ {k : Nat} {s : St W} {l r : Edge W},
    k ≤ NQUBITS → Inv env s → MOk env s k l.n → MOk env s k r.n →
    Sat (world env) (mmAdd2 env k l r) s (fun s' e => MSum env l r s' e) := by
  intro k
  induction k with
  | zero =>
    intro s l r hk hi hl hr
    unfold mmAdd2
    by_cases h0 : (eeq l zeroE || eeq r zeroE) = true
    · rw [if_pos h0]
      simp only [Bool.or_eq_true, eeq_iff] at h0
      split
      · next h => rw [eeq_iff] at h; exact Sat.pure fun s' _ he => MSum.zero_left (by rw [h, zeroE_w])
      · next h => rw [eeq_iff] at h; exact Sat.pure fun s' _ he => MSum.zero_right (by rw [h0.resolve_left h, zeroE_w])
    rw [if_neg h0]
    split
    · next hz => rw [az_iff] at hz; exact Sat.pure fun s' _ he => MSum.zero_left hz
    next hz =>
    split
    · next hz => rw [az_iff] at hz; exact Sat.pure fun s' _ he => MSum.zero_right hz
    next hz' =>
    have term : ∀ {n}, MOk env s 0 n → n = none := by
      rintro n (h | ⟨p, nd, _, h2, h3⟩)
      · exact h
      · obtain ⟨k, hk, _⟩ := hi.mlevel h2
        push_cast at h3; omega
    have h1 := term hl
    have h2 := term hr
    rw [if_pos ⟨h1, h2⟩]
    refine Sat.pure fun s' _ _ m _ _ => ⟨.inl rfl, fun i j => ?_⟩
    simp only [mden, h1, h2, add_eq]; ring
  | succ k ih =>
    intro s l r hk hi hl hr
    unfold mmAdd2
    by_cases h0 : (eeq l zeroE || eeq r zeroE) = true
    · rw [if_pos h0]
      simp only [Bool.or_eq_true, eeq_iff] at h0
      split
      · next h => rw [eeq_iff] at h; exact Sat.pure fun s' _ he => MSum.zero_left (by rw [h, zeroE_w])
      · next h => rw [eeq_iff] at h; exact Sat.pure fun s' _ he => MSum.zero_right (by rw [h0.resolve_left h, zeroE_w])
    rw [if_neg h0]
    split
    · next hz => rw [az_iff] at hz; exact Sat.pure fun s' _ he => MSum.zero_left hz
    next hz =>
    split
    · next hz => rw [az_iff] at hz; exact Sat.pure fun s' _ he => MSum.zero_right hz
    next hz' =>
    split
    · next hn =>
      refine Sat.pure fun s' _ he m h1 h2 => ⟨h1, fun i j => ?_⟩
      simp only [mden, ← hn, add_eq]; ring
    next hn =>
    have hk' : k < NQUBITS := hk
    refine Sat.bind (findAM_sat hl.regM hr.regM hn) fun s1 x hi1 he1 hx => ?_
    obtain ⟨res, c⟩ := x
    have hl1 := hl.ext he1
    have hr1 := hr.ext he1
    cases res with
    | some e =>
      have hs := hx e rfl
      show Sat (world env) (if WOps.az e.w = true then pure zeroE else pure e) s1 _
      split
      · next h0 =>
        rw [az_iff] at h0
        refine Sat.pure fun s' hi' he' m h1 h2 => ⟨.inl rfl, fun i j => ?_⟩
        rw [← ((hs.ext hi1 he' hl1.regM hr1.regM) m h1 h2).2, mden_w0 h0, mden_w0 zeroE_w]
      · exact Sat.pure fun s' _ he => hs.ext hi1 he hl1.regM hr1.regM
    | none =>
      simp only
      refine Sat.bind (readM_sat' hl1.regM) fun s2 nl hi2 he2 hnl => ?_
      refine Sat.bind (readM_sat' (hr1.ext he2).regM) fun s3 nr hi3 he3 hnr => ?_
      have hl3 := (hl1.ext he2).ext he3
      have hr3 := (hr1.ext he2).ext he3
      obtain ⟨ol, dl, skl⟩ := mAdd_child hi3 hl3 (hnl.ext he3)
      obtain ⟨or, dr, skr⟩ := mAdd_child hi3 hr3 hnr
      have hk0 : k ≤ NQUBITS := Nat.le_of_lt hk
      refine Sat.bind (ih hk0 hi3 (ol _ _) (or _ _)) fun s4 e0 hi4 he4 h0 => ?_
      refine Sat.bind (ih hk0 hi4 ((ol _ _).ext he4) ((or _ _).ext he4)) fun s5 e1 hi5 he5 h1 => ?_
      have he35 := SExt.trans env he4 he5
      refine Sat.bind (ih hk0 hi5 ((ol _ _).ext he35) ((or _ _).ext he35)) fun s6 e2 hi6 he6 h2 => ?_
      have he36 := SExt.trans env he35 he6
      refine Sat.bind (ih hk0 hi6 ((ol _ _).ext he36) ((or _ _).ext he36)) fun s7 e3 hi7 he7 h3 => ?_
      have he37 := SExt.trans env he36 he7
      have he57 := SExt.trans env he6 he7
      have he47 := SExt.trans env he5 he57
      have h0' := h0.ext hi4 he47 ((ol _ _).ext he4).regM ((or _ _).ext he4).regM
      have h1' := h1.ext hi5 he57 ((ol _ _).ext he35).regM ((or _ _).ext he35).regM
      have h2' := h2.ext hi6 he7 ((ol _ _).ext he36).regM ((or _ _).ext he36).regM
      have mk := mkM_sat hi7 hk' (c0 := e0) (c1 := e1) (c2 := e2) (c3 := e3)
        (F := fun a b i j => mden s7.mt.mem k (mAddArg k nl l a b) i j + mden s7.mt.mem k (mAddArg k nr r a b) i j)
        (h0' k ((ol _ _).ext he37) ((or _ _).ext he37)) (h1' k ((ol _ _).ext he37) ((or _ _).ext he37))
        (h2' k ((ol _ _).ext he37) ((or _ _).ext he37)) (h3 k ((ol _ _).ext he37) ((or _ _).ext he37))
      refine Sat.bind mk fun s8 res hi8 he8 ⟨hres, hrz⟩ => ?_
      have hl7 := hl3.ext he37
      have hr7 := hr3.ext he37
      have hsum : MSum env l r s8 res := by
        have := level_indep hi8 (C := fun m => MOk env s8 m l.n ∧ MOk env s8 m r.n) covers_mono
          (V := fun m i j => mden s8.mt.mem m l i j + mden s8.mt.mem m r i j)
          (fun m hm i j => by
            simp only [mden_lift hm.1, mden_lift hm.2]; unfold liftF; split <;> simp)
          (k := k) (res := res) ⟨hl7.ext he8, hr7.ext he8⟩
          (hres.congr fun i j => by
            rw [mden_ext hi7 he8 hl7, mden_ext hi7 he8 hr7, mden_ext hi3 he37 hl3, mden_ext hi3 he37 hr3, dl, dr]
            simp only [blocks]
            rw [mden_ext hi3 he37 (ol _ _), mden_ext hi3 he37 (or _ _)])
          (fun hck => by
            have hlk : MOk env s3 k l.n := RegM.back hl3.regM (SExt.trans env he37 he8) hck.1
            have hrk : MOk env s3 k r.n := RegM.back hr3.regM (SExt.trans env he37 he8) hck.2
            refine ⟨e0, fun m hm => ?_, hrz⟩
            have h := h0'
            rw [skl hlk, skr hrk] at h
            exact h.ext hi7 he8 hl7.regM hr7.regM m hm.1 hm.2)
        exact fun m h1 h2 => this m ⟨h1, h2⟩
      have hreg8 := hl7.ext he8
      have hreg8' := hr7.ext he8
      refine Sat.bind (setAM_sat c hreg8.regM hreg8'.regM hn hi8 hsum) fun s9 _ hi9 he9 _ => ?_
      exact Sat.pure fun s' _ he => hsum.ext hi8 (SExt.trans env he9 he) hreg8.regM hreg8'.regM

/-! ### Products -/

/-- Operands of the recursive calls of the products: the blocks of the unweighted node. -/
theorem mMul_child {s : St W} (hi : Inv env s) {k : Nat} {e : Edge W} {nd} (h : MOk env s (k + 1) e.n)
    (hr : ReadM env s e.n nd) :
    (∀ r c, MOk env s k (mMulArg k nd e r c).n) ∧
    (∀ i j, mptr s.mt.mem (k + 1) e.n i j =
      mden s.mt.mem k (mMulArg k nd e (i.testBit k) (j.testBit k)) i j) ∧
    (MOk env s k e.n → ∀ r c, mMulArg k nd e r c = if r ≠ c then zeroE else ⟨WOps.one, e.n⟩) ∧ nd.v ≤ k := by
  rcases hr.cases h with ⟨p, h1, h2, h3⟩ | ⟨h1, h2⟩
  · have harg : ∀ r c, mMulArg k nd e r c = nd.child r c := fun r c => by
      unfold mMulArg; rw [if_pos ⟨h3, by simp [h1]⟩]
    refine ⟨fun r c => ?_, fun i j => ?_, fun h => ?_, by omega⟩
    · rw [harg]; exact (hi.mn p nd h2).ok' r c h3
    · rw [harg]
      simp only [mden, h1, mptr, h2.1, h3, if_true]
    · exfalso
      rw [h1] at h
      rcases h with h | ⟨q, nd', e', h4, h5⟩
      · cases h
      · cases e'
        rw [Reg.inj h2 h4] at h3
        omega
  · have harg : ∀ r c, mMulArg k nd e r c = if r ≠ c then zeroE else ⟨WOps.one, e.n⟩ := fun r c => by
      unfold mMulArg; rw [if_neg h2]
    refine ⟨fun r c => ?_, fun i j => ?_, fun _ => harg, ?_⟩
    · rw [harg]; split
      · exact .inl rfl
      · exact h1
    · rw [mptr_lift h1, harg]
      unfold liftF
      by_cases hb : i.testBit k = j.testBit k
      · simp [hb, mden, one_eq]
      · rw [if_neg hb, if_pos hb, mden_w0 zeroE_w]
    · rcases hr with ⟨_, h⟩ | ⟨p, hp, h⟩
      · omega
      · rw [hp] at h1
        rcases h1 with h1 | ⟨q, nd', e', h4, h5⟩
        · cases h1
        · cases e'; rw [Reg.inj h h4]; omega

/-- Block form of one level of a matrix product. -/
theorem bsum_blocks {k : Nat} {A B : Nat → Nat → W} {a b : Bool → Bool → Nat → Nat → W}
    (hA : ∀ i j, A i j = a (i.testBit k) (j.testBit k) i j) (hB : ∀ i j, B i j = b (i.testBit k) (j.testBit k) i j)
    (la : ∀ r c i j j', LowEq k j j' → a r c i j = a r c i j')
    (lb : ∀ r c i i' j, LowEq k i i' → b r c i j = b r c i' j) (i j : Nat) :
    bsum (k + 1) (fun m => A i m * B m j) =
      bsum k (fun m => a (i.testBit k) false i m * b false (j.testBit k) m j) +
      bsum k (fun m => a (i.testBit k) true i m * b true (j.testBit k) m j) := by
  simp only [bsum]
  congr 1
  · refine bsum_congr fun m hm => ?_
    rw [hA, hB, testBit_lt hm]
  · refine bsum_congr fun m hm => ?_
    rw [hA, hB, testBit_add hm, la _ _ _ _ _ (lowEq_add k m), lb _ _ _ _ _ (lowEq_add k m)]

theorem mden_low {mem : Nat → Option (MNode W)} {k : Nat} {e : Edge W} {i i' j j' : Nat} (h : LowEq k i i')
    (h' : LowEq k j j') : mden mem k e i j = mden mem k e i' j' := by
  unfold mden; rw [mptr_congr mem k _ h h']

theorem vden_low {mem : Nat → Option (VNode W)} {k : Nat} {e : Edge W} {i i' : Nat} (h : LowEq k i i') :
    vden mem k e i = vden mem k e i' := by
  unfold vden; rw [vptr_congr mem k _ h]

theorem lowEq_refl (k i : Nat) : LowEq k i i := fun _ _ => rfl

variable (env) in
/-- A right answer for a product of weighted matrices, at every covered qubit count. -/
def MMul (l r : Edge W) (s : St W) (e : Edge W) : Prop :=
  ∀ k, MOk env s k l.n → MOk env s k r.n → MOk env s k e.n ∧
    ∀ i j, mden s.mt.mem k e i j = bsum k (fun m => mden s.mt.mem k l i m * mden s.mt.mem k r m j)

theorem MMul.of_prod {s : St W} {l r e e' : Edge W} (h : MProd env l.n r.n s e) (hn : e'.n = e.n ∨ e'.n = none)
    (hw : e'.w = e.w * l.w * r.w) (hz : e'.n ≠ e.n → e'.w = 0) : MMul env l r s e' := by
  intro k h1 h2
  obtain ⟨a, b⟩ := h k h1 h2
  refine ⟨?_, fun i j => ?_⟩
  · rcases hn with hn | hn
    · rw [hn]; exact a
    · exact .inl hn
  · have : mden s.mt.mem k e' i j = l.w * r.w * mden s.mt.mem k e i j := by
      unfold mden
      by_cases he : e'.n = e.n
      · rw [he, hw]; ring
      · have h0 := hz he
        rw [h0] at hw ⊢
        linear_combination (mptr s.mt.mem k e.n i j) * hw
    rw [this, b, ← bsum_mul]
    refine bsum_congr fun m _ => ?_
    simp only [mden]; ring

theorem MMul.ext {s s' : St W} (hi : Inv env s) (he : SExt env s s') {l r : Edge W} {e : Edge W}
    (hl : RegM env s l.n) (hr : RegM env s r.n) (h : MMul env l r s e) : MMul env l r s' e := by
  intro k h1 h2
  have h1' := hl.back he h1
  have h2' := hr.back he h2
  obtain ⟨a, b⟩ := h k h1' h2'
  refine ⟨a.ext he, fun i j => ?_⟩
  rw [mden_ext hi he a, b]
  exact bsum_congr fun m _ => by rw [mden_ext hi he h1', mden_ext hi he h2']

theorem MMul.zero {s : St W} {l r : Edge W} (h : l.w = 0 ∨ r.w = 0) : MMul env l r s zeroE := fun k _ _ =>
  ⟨.inl rfl, fun i j => by
    rw [mden_w0 zeroE_w]
    have : (fun m => mden s.mt.mem k l i m * mden s.mt.mem k r m j) = fun _ => (0 : W) := by
      funext m
      rcases h with h | h
      · rw [mden_w0 h, zero_mul]
      · rw [mden_w0 h, mul_zero]
    rw [this, bsum_zero]⟩

/-- Level independence of matrix products. -/
theorem prod_lift {s : St W} {m : Nat} {l r : Option Nat} (hl : MOk env s m l) (hr : MOk env s m r) (i j : Nat) :
    bsum (m + 1) (fun x => mptr s.mt.mem (m + 1) l i x * mptr s.mt.mem (m + 1) r x j) =
    liftF m (fun i j => bsum m (fun x => mptr s.mt.mem m l i x * mptr s.mt.mem m r x j)) i j := by
  rw [bsum_blocks (k := m) (a := fun a b i j => if a = b then mptr s.mt.mem m l i j else 0)
    (b := fun a b i j => if a = b then mptr s.mt.mem m r i j else 0) (fun i j => mptr_lift hl i j)
    (fun i j => mptr_lift hr i j)
    (fun a b i j j' h => by rw [mptr_congr _ m l (lowEq_refl m i) h])
    (fun a b i i' j h => by rw [mptr_congr _ m r h (lowEq_refl m j)])]
  unfold liftF
  cases i.testBit m <;> cases j.testBit m <;> simp

theorem mmMul2_sat : ∀ {k : Nat} {s : St W} {l r : Edge W},
    k ≤ NQUBITS → Inv env s → MOk env s k l.n → MOk env s k r.n →
    Sat (world env) (mmMul2 env k l r) s (fun s' e => MMul env l r s' e) := by
  intro k
  induction k with
  | zero =>
    intro s l r hk hi hl hr
    have term : ∀ {n}, MOk env s 0 n → n = none := by
      rintro n (h | ⟨p, nd, _, h2, h3⟩)
      · exact h
      · obtain ⟨k, hk, _⟩ := hi.mlevel h2
        push_cast at h3; omega
    have h1 := term hl
    have h2 := term hr
    unfold mmMul2
    split
    · next h0 =>
      simp only [Bool.or_eq_true, eeq_iff] at h0
      exact Sat.pure fun s' _ he => MMul.zero (h0.imp (fun h => by rw [h, zeroE_w]) (fun h => by rw [h, zeroE_w]))
    rw [h1]
    refine Sat.pure fun s' _ he m _ hm => ⟨hm, fun i j => ?_⟩
    have := bsum_ident s'.mt.mem (k := m) (g := fun x => mden s'.mt.mem m r x j)
      (fun x y h => mden_low h (lowEq_refl m j)) i
    simp only [mden, h1, mul_eq] at this ⊢
    rw [mul_assoc, mul_left_comm, ← this, ← bsum_mul]
    exact bsum_congr fun x _ => by ring
  | succ k ih =>
    intro s l r hk hi hl hr
    unfold mmMul2
    split
    · next h0 =>
      simp only [Bool.or_eq_true, eeq_iff] at h0
      exact Sat.pure fun s' _ he => MMul.zero (h0.imp (fun h => by rw [h, zeroE_w]) (fun h => by rw [h, zeroE_w]))
    next h0 =>
    cases hln : l.n with
    | none =>
      refine Sat.pure fun s' _ he m _ hm => ⟨hm, fun i j => ?_⟩
      have := bsum_ident s'.mt.mem (k := m) (g := fun x => mden s'.mt.mem m r x j)
        (fun x y h => mden_low h (lowEq_refl m j)) i
      simp only [mden, hln, mul_eq] at this ⊢
      rw [mul_assoc, mul_left_comm, ← this, ← bsum_mul]
      exact bsum_congr fun x _ => by ring
    | some lp =>
    cases hrn : r.n with
    | none =>
      refine Sat.pure fun s' _ he m hm _ => ⟨by rw [hln] at hm; exact hm, fun i j => ?_⟩
      have := bsum_ident_right s'.mt.mem (k := m) (g := fun x => mden s'.mt.mem m l i x)
        (fun x y h => mden_low (lowEq_refl m i) h) j
      simp only [mden, hln, hrn, mul_eq] at this ⊢
      rw [mul_assoc, mul_left_comm, ← this, ← bsum_mul]
      exact bsum_congr fun x _ => by ring
    | some rp =>
    simp only
    split
    · next hz =>
      simp only [Bool.or_eq_true, az_iff] at hz
      exact Sat.pure fun s' _ he => MMul.zero hz
    next hz =>
    simp only [Bool.or_eq_true, az_iff, not_or] at hz
    obtain ⟨hz, hz'⟩ := hz
    have hk' : k < NQUBITS := hk
    rw [← hln, ← hrn]
    refine Sat.bind (findPM_sat (hln ▸ hl.regM) hr.regM) fun s1 x hi1 he1 hx => ?_
    obtain ⟨res, c⟩ := x
    have hl1 := hl.ext he1
    have hr1 := hr.ext he1
    cases res with
    | some e =>
      have hs : MProd env l.n r.n s1 e := hln ▸ hx e rfl
      have fin : ∀ e', (e'.n = e.n ∨ e'.n = none) → e'.w = e.w * l.w * r.w → (e'.n ≠ e.n → e'.w = 0) →
          Sat (world env) (pure e') s1 (fun s' e => MMul env l r s' e) := fun e' a b c =>
        Sat.pure fun s' _ he => MMul.of_prod (MProd.ext hi1 he hl1.regM hr1.regM hs) a b c
      show Sat (world env) (if WOps.az e.w = true then pure zeroE else
        if WOps.az (WOps.mul (WOps.mul e.w l.w) r.w) = true then pure zeroE else
          pure ⟨WOps.mul (WOps.mul e.w l.w) r.w, e.n⟩) s1 _
      rw [mul_eq, mul_eq]
      split
      · next h0 => rw [az_iff] at h0; exact fin _ (.inr rfl) (by rw [zeroE_w, h0]; ring) (fun _ => zeroE_w)
      split
      · next h0 => rw [az_iff] at h0; exact fin _ (.inr rfl) (by rw [zeroE_w, h0]) (fun _ => zeroE_w)
      · exact fin _ (.inl rfl) rfl (fun h => (h rfl).elim)
    | none =>
      simp only
      refine Sat.bind (readM_sat' hl1.regM) fun s2 nl hi2 he2 hnl => ?_
      refine Sat.bind (readM_sat' (hr1.ext he2).regM) fun s3 nr hi3 he3 hnr => ?_
      have hl3 := (hl1.ext he2).ext he3
      have hr3 := (hr1.ext he2).ext he3
      obtain ⟨ol, dl, skl, vl⟩ := mMul_child hi3 hl3 (hnl.ext he3)
      obtain ⟨or, dr, skr, vr⟩ := mMul_child hi3 hr3 hnr
      rw [if_pos ⟨vl, vr⟩]
      have hk0 : k ≤ NQUBITS := Nat.le_of_lt hk
      -- one entry of the block product
      have blk : ∀ (a b : Bool) (t : St W), Inv env t → SExt env s3 t →
          ∀ (K : Edge W → P W (Edge W)) (Q : St W → Edge W → Prop),
          (∀ t' e, Inv env t' → SExt env t t' →
            (∀ m, (∀ x, MOk env s3 m (mMulArg k nl l a x).n) → (∀ x, MOk env s3 m (mMulArg k nr r x b).n) →
              MRep env t' m e (fun i j =>
                bsum m (fun x => mden s3.mt.mem m (mMulArg k nl l a false) i x *
                  mden s3.mt.mem m (mMulArg k nr r false b) x j) +
                bsum m (fun x => mden s3.mt.mem m (mMulArg k nl l a true) i x *
                  mden s3.mt.mem m (mMulArg k nr r true b) x j))) → Sat (world env) (K e) t' Q) →
          Sat (world env) (mmMul2 env k (mMulArg k nl l a false) (mMulArg k nr r false b) >>= fun p =>
            mmMul2 env k (mMulArg k nl l a true) (mMulArg k nr r true b) >>= fun q =>
            mmAdd2 env k p q >>= K) t Q := by
        intro a b t hit het K Q hK
        refine Sat.bind (ih hk0 hit ((ol _ _).ext het) ((or _ _).ext het)) fun t1 p hi1 he1 hp => ?_
        have het1 := SExt.trans env het he1
        refine Sat.bind (ih hk0 hi1 ((ol _ _).ext het1) ((or _ _).ext het1)) fun t2 q hi2 he2 hq => ?_
        have het2 := SExt.trans env het1 he2
        have hp2 := hp.ext hi1 he2 ((ol _ _).ext het1).regM ((or _ _).ext het1).regM
        obtain ⟨op, _⟩ := hp2 k ((ol _ _).ext het2) ((or _ _).ext het2)
        obtain ⟨oq, _⟩ := hq k ((ol _ _).ext het2) ((or _ _).ext het2)
        refine Sat.bind (mmAdd2_sat hk0 hi2 op oq) fun t3 e hi3' he3' he => ?_
        refine hK t3 e hi3' (SExt.trans env he1 (SExt.trans env he2 he3')) fun m hA hB => ?_
        obtain ⟨op', dp⟩ := hp2 m ((hA _).ext het2) ((hB _).ext het2)
        obtain ⟨oq', dq⟩ := hq m ((hA _).ext het2) ((hB _).ext het2)
        obtain ⟨oe, de⟩ := he m (op'.ext he3') (oq'.ext he3')
        refine ⟨oe, fun i j => ?_⟩
        rw [de, mden_ext hi2 he3' op', mden_ext hi2 he3' oq', dp, dq]
        congr 1 <;> exact bsum_congr fun x _ => by
          rw [mden_ext hi3 het2 (hA _), mden_ext hi3 het2 (hB _)]
      refine blk false false s3 hi3 (SExt.refl env s3) _ _ fun s4 e0 hi4 he4 h0 => ?_
      refine blk false true s4 hi4 he4 _ _ fun s5 e1 hi5 he5 h1 => ?_
      have he35 := SExt.trans env he4 he5
      refine blk true false s5 hi5 he35 _ _ fun s6 e2 hi6 he6 h2 => ?_
      have he36 := SExt.trans env he35 he6
      refine blk true true s6 hi6 he36 _ _ fun s7 e3 hi7 he7 h3 => ?_
      have he37 := SExt.trans env he36 he7
      have he57 := SExt.trans env he6 he7
      have he47 := SExt.trans env he5 he57
      have oA : ∀ a x, MOk env s3 k (mMulArg k nl l a x).n := ol
      have oB : ∀ b x, MOk env s3 k (mMulArg k nr r x b).n := fun b x => or x b
      have mk := mkM_sat hi7 hk' (c0 := e0) (c1 := e1) (c2 := e2) (c3 := e3)
        (F := fun a b i j =>
          bsum k (fun x => mden s3.mt.mem k (mMulArg k nl l a false) i x *
            mden s3.mt.mem k (mMulArg k nr r false b) x j) +
          bsum k (fun x => mden s3.mt.mem k (mMulArg k nl l a true) i x *
            mden s3.mt.mem k (mMulArg k nr r true b) x j))
        ((h0 k (oA _) (oB _)).ext hi4 he47) ((h1 k (oA _) (oB _)).ext hi5 he57)
        ((h2 k (oA _) (oB _)).ext hi6 he7) (h3 k (oA _) (oB _))
      refine Sat.bind mk fun s8 res hi8 he8 ⟨hres, hrz⟩ => ?_
      have he38 := SExt.trans env he37 he8
      have he48 := SExt.trans env he47 he8
      have hprod : MProd env l.n r.n s8 res := by
        have := level_indep hi8 (C := fun m => MOk env s8 m l.n ∧ MOk env s8 m r.n) covers_mono
          (V := fun m i j => bsum m (fun x => mptr s8.mt.mem m l.n i x * mptr s8.mt.mem m r.n x j))
          (fun m hm i j => prod_lift hm.1 hm.2 i j)
          (k := k) (res := res) ⟨hl3.ext he38, hr3.ext he38⟩
          (hres.congr fun i j => by
            simp only [blocks]
            rw [← bsum_blocks (k := k) (A := mptr s3.mt.mem (k + 1) l.n) (B := mptr s3.mt.mem (k + 1) r.n)
              (a := fun a b => mden s3.mt.mem k (mMulArg k nl l a b))
              (b := fun a b => mden s3.mt.mem k (mMulArg k nr r a b)) dl dr
              (fun a b i j j' h => mden_low (lowEq_refl k i) h) (fun a b i i' j h => mden_low h (lowEq_refl k j))]
            exact bsum_congr fun x _ => by rw [mptr_ext hi3 he38 hl3, mptr_ext hi3 he38 hr3])
          (fun hck => by
            have hlk : MOk env s3 k l.n := RegM.back hl3.regM he38 hck.1
            have hrk : MOk env s3 k r.n := RegM.back hr3.regM he38 hck.2
            refine ⟨e0, fun m hm => ?_, hrz⟩
            have hlm : MOk env s3 m l.n := RegM.back hl3.regM he38 hm.1
            have hrm : MOk env s3 m r.n := RegM.back hr3.regM he38 hm.2
            have skl' := skl hlk
            have skr' := skr hrk
            have ha : ∀ x, MOk env s3 m (mMulArg k nl l false x).n := fun x => by
              rw [skl']; cases x
              · exact hlm
              · exact .inl rfl
            have hb : ∀ x, MOk env s3 m (mMulArg k nr r x false).n := fun x => by
              rw [skr']; cases x
              · exact hrm
              · exact .inl rfl
            refine ((h0 m ha hb).ext hi4 he48).congr fun i j => ?_
            simp only [skl', skr']
            have hz0 : (fun x => mden s3.mt.mem m (if false ≠ true then zeroE else ⟨WOps.one, l.n⟩) i x *
                mden s3.mt.mem m (if true ≠ false then zeroE else ⟨WOps.one, r.n⟩) x j) = fun _ => (0 : W) := by
              funext x; simp [mden_w0 zeroE_w]
            rw [hz0, bsum_zero, add_zero]
            exact bsum_congr fun x _ => by
              rw [mptr_ext hi3 he38 hlm, mptr_ext hi3 he38 hrm]; simp [mden, one_eq])
        exact fun m h1 h2 => this m ⟨h1, h2⟩
      have hreg8 := hl3.ext he38
      have hreg8' := hr3.ext he38
      refine Sat.bind (setPM_sat c hi8 (hln ▸ hreg8.regM) hreg8'.regM (hln ▸ hprod)) fun s9 _ hi9 he9 _ => ?_
      have fin : ∀ e', (e'.n = res.n ∨ e'.n = none) → e'.w = res.w * l.w * r.w → (e'.n ≠ res.n → e'.w = 0) →
          Sat (world env) (pure e') s9 (fun s' e => MMul env l r s' e) := fun e' a b c =>
        Sat.pure fun s' _ he => MMul.of_prod (MProd.ext hi8 (SExt.trans env he9 he) hreg8.regM hreg8'.regM hprod) a b c
      simp only [mul_eq]
      by_cases h0 : WOps.az (res.w * l.w * r.w) = true
      · rw [if_pos h0]; rw [az_iff] at h0; exact fin _ (.inr rfl) (by rw [zeroE_w, h0]) (fun _ => zeroE_w)
      rw [if_neg h0]
      by_cases h1 : WOps.aone (res.w * l.w * r.w) = true
      · rw [if_pos h1]; rw [WOps.aone, ae_iff] at h1; exact fin _ (.inl rfl) h1.symm (fun h => (h rfl).elim)
      · rw [if_neg h1]; exact fin _ (.inl rfl) rfl (fun h => (h rfl).elim)

/-! ### Matrix times vector -/

/-- Vector operands of the recursive calls of `mvMul2`. -/
theorem vMul_child {s : St W} (hi : Inv env s) {k : Nat} {e : Edge W} (h : VPtrOk env s (k + 1) e.n) :
    ∃ p nd, e.n = some p ∧ UTable.Reg env.hv s.vt p nd ∧ (∀ b, VOk env s k (vMulArg k nd e b)) ∧
      ∀ i, vptr s.vt.mem (k + 1) e.n i = vden s.vt.mem k (vMulArg k nd e (i.testBit k)) i := by
  rcases h with ⟨h1, _⟩ | ⟨p, nd, h1, h2, h3⟩
  · cases h1
  · have hv : nd.v = (k : Int) := by push_cast at h3; omega
    have harg : ∀ b, vMulArg k nd e b = nd.child b := fun b => by
      unfold vMulArg; rw [if_pos ⟨hv, by simp [h1]⟩]
    refine ⟨p, nd, h1, h2, fun b => ?_, fun i => ?_⟩
    · rw [harg]; exact (hi.vn p nd h2).ok b hv
    · simp only [vden, h1, vptr, h2.1, harg]

/-- Block form of one level of a matrix-vector product. -/
theorem bsum_blocks_v {k : Nat} {A : Nat → Nat → W} {B : Nat → W} {a : Bool → Bool → Nat → Nat → W}
    {b : Bool → Nat → W}
    (hA : ∀ i j, A i j = a (i.testBit k) (j.testBit k) i j) (hB : ∀ i, B i = b (i.testBit k) i)
    (la : ∀ r c i j j', LowEq k j j' → a r c i j = a r c i j')
    (lb : ∀ r i i', LowEq k i i' → b r i = b r i') (i : Nat) :
    bsum (k + 1) (fun m => A i m * B m) =
      bsum k (fun m => a (i.testBit k) false i m * b false m) +
      bsum k (fun m => a (i.testBit k) true i m * b true m) := by
  simp only [bsum]
  congr 1
  · refine bsum_congr fun m hm => ?_
    rw [hA, hB, testBit_lt hm]
  · refine bsum_congr fun m hm => ?_
    rw [hA, hB, testBit_add hm, la _ _ _ _ _ (lowEq_add k m), lb _ _ _ (lowEq_add k m)]

/-- The product of the denotations of a matrix edge and a vector edge. -/
def mvden (s : St W) (k : Nat) (l r : Edge W) (i : Nat) : W :=
  bsum k (fun j => mden s.mt.mem k l i j * vden s.vt.mem k r j)

theorem mvden_ext {s s' : St W} (hi : Inv env s) (he : SExt env s s') {k} {l r : Edge W} (hl : MOk env s k l.n)
    (hr : VOk env s k r) (i : Nat) : mvden s' k l r i = mvden s k l r i := by
  unfold mvden
  exact bsum_congr fun j _ => by rw [mden_ext hi he hl, vden_ext hi he hr]

theorem VRep.of_prod {s : St W} {k : Nat} {l r e e' : Edge W} (h : VProd env k l.n r.n s e)
    (hn : e'.n = e.n ∨ (e'.w = 0 ∧ e'.n = none)) (hw : e'.w = e.w * l.w * r.w) :
    VRep env s k e' (mvden s k l r) := by
  refine ⟨?_, fun i => ?_⟩
  · rcases hn with hn | hn
    · rcases h.1 with h1 | h1
      · left; rw [hn]; exact h1
      · right; exact ⟨by rw [hw, h1.1]; ring, by rw [hn]; exact h1.2⟩
    · exact .inr hn
  · have : vden s.vt.mem k e' i = l.w * r.w * vden s.vt.mem k e i := by
      unfold vden
      rcases hn with hn | hn
      · rw [hn, hw]; ring
      · rw [hn.1] at hw ⊢
        linear_combination (vptr s.vt.mem k e.n i) * hw
    rw [this, h.2, ← bsum_mul]
    exact bsum_congr fun j _ => by simp only [mden, vden]; ring

theorem mvMul2_sat (fk : Nat → Bool) : ∀ {k : Nat} {s : St W} {l r : Edge W},
    k ≤ NQUBITS → Inv env s → MOk env s k l.n → VOk env s k r →
    Sat (world env) (mvMul2 env fk k l r) s (fun s' e => VRep env s' k e (mvden s k l r)) := by
  intro k
  induction k with
  | zero =>
    intro s l r hk hi hl hr
    have h1 : l.n = none := by
      rcases hl with h | ⟨p, nd, _, h2, h3⟩
      · exact h
      · obtain ⟨k, hk, _⟩ := hi.mlevel h2
        push_cast at h3; omega
    unfold mvMul2
    split
    · next h0 =>
      rw [eeq_iff] at h0
      exact Sat.pure fun s' _ he => (zeroE_vrep s' _).congr fun i => by simp [mvden, h0, mden_w0 zeroE_w]
    rw [h1]
    refine Sat.pure fun s' _ he => VRep.ext hi he ⟨?_, fun i => ?_⟩
    · rcases hr with h | h
      · exact .inl h
      · exact .inr ⟨by simp [mul_eq, h.1], h.2⟩
    · simp [mvden, bsum, mden, vden, mptr, vptr, mul_eq, mul_comm]
  | succ k ih =>
    intro s l r hk hi hl hr
    unfold mvMul2
    split
    · next h0 =>
      rw [eeq_iff] at h0
      exact Sat.pure fun s' _ he => (zeroE_vrep s' _).congr fun i => by simp [mvden, h0, mden_w0 zeroE_w]
    next h0 =>
    cases hln : l.n with
    | none =>
      refine Sat.pure fun s' _ he => VRep.ext hi he ⟨?_, fun i => ?_⟩
      · rcases hr with h | h
        · exact .inl h
        · exact .inr ⟨by simp [mul_eq, h.1], h.2⟩
      · have := bsum_ident s.mt.mem (k := k + 1) (g := fun x => vden s.vt.mem (k + 1) r x)
          (fun x y h => vden_low h) i
        simp only [mvden, mden, vden, hln, mul_eq] at this ⊢
        rw [mul_comm r.w, mul_assoc, ← this, ← bsum_mul]
        exact bsum_congr fun x _ => by ring
    | some lp =>
    simp only
    by_cases hz : (WOps.az l.w || WOps.az r.w) = true
    · rw [if_pos hz]
      simp only [Bool.or_eq_true, az_iff] at hz
      refine Sat.pure fun s' _ he => (zeroE_vrep s' _).congr fun i => ?_
      have : (fun j => mden s.mt.mem (k + 1) l i j * vden s.vt.mem (k + 1) r j) = fun _ => (0 : W) := by
        funext j
        rcases hz with h | h
        · rw [mden_w0 h, zero_mul]
        · rw [vden_w0 h, mul_zero]
      rw [mvden, this, bsum_zero]
    rw [if_neg hz]
    simp only [Bool.or_eq_true, az_iff, not_or] at hz
    obtain ⟨hz, hz'⟩ := hz
    have hk' : k < NQUBITS := hk
    have hp := hr.resolve_right fun h => hz' h.1
    rw [← hln]
    refine Sat.bind (findPV_sat (hln ▸ hl) hp) fun s1 x hi1 he1 hx => ?_
    obtain ⟨res, c⟩ := x
    have hl1 := hl.ext he1
    have hp1 := hp.ext he1
    cases res with
    | some e =>
      have hs : VProd env (k + 1) l.n r.n s1 e := hln ▸ hx e rfl
      have fin : ∀ e', (e'.n = e.n ∨ (e'.w = 0 ∧ e'.n = none)) → e'.w = e.w * l.w * r.w →
          Sat (world env) (pure e') s1 (fun s' e => VRep env s' (k + 1) e (mvden s (k + 1) l r)) := fun e' a b =>
        Sat.pure fun s' _ he => VRep.ext hi1 he ((VRep.of_prod hs a b).congr fun i => mvden_ext hi he1 hl hr i)
      simp only [mul_eq]
      by_cases h0 : WOps.az e.w = true
      · rw [if_pos h0]; rw [az_iff] at h0; exact fin _ (.inr ⟨zeroE_w, rfl⟩) (by rw [zeroE_w, h0]; ring)
      rw [if_neg h0]
      by_cases h1 : WOps.az (e.w * l.w * r.w) = true
      · rw [if_pos h1]; rw [az_iff] at h1; exact fin _ (.inr ⟨zeroE_w, rfl⟩) (by rw [zeroE_w, h1])
      · rw [if_neg h1]; exact fin _ (.inl rfl) rfl
    | none =>
      simp only
      obtain ⟨pr, nr, er, rr, or, dr⟩ := vMul_child hi1 hp1
      refine Sat.bind (readM_sat' hl1.regM) fun s2 nl hi2 he2 hnl => ?_
      rw [er]
      refine Sat.bind (readV_sat (he2.1 _ _ rr)) fun s3 nd hi3 he3 hnd => ?_
      subst hnd
      have he13 := SExt.trans env he2 he3
      have hl3 := hl1.ext he13
      have or3 : ∀ b, VOk env s3 k (vMulArg k nd r b) := fun b => (or b).ext he13
      have dr3 : ∀ i, vptr s3.vt.mem (k + 1) r.n i = vden s3.vt.mem k (vMulArg k nd r (i.testBit k)) i := fun i => by
        rw [vptr_ext hi1 he13 hp1, vden_ext hi1 he13 (or _), dr]
      obtain ⟨ol, dl, _, _⟩ := mMul_child hi3 hl3 (hnl.ext he3)
      have hk0 : k ≤ NQUBITS := Nat.le_of_lt hk
      have blk : ∀ (a : Bool) (t : St W), Inv env t → SExt env s3 t →
          ∀ (K : Edge W → P W (Edge W)) (Q : St W → Edge W → Prop),
          (∀ t' e, Inv env t' → SExt env t t' →
              VRep env t' k e (fun i => mvden s3 k (mMulArg k nl l a false) (vMulArg k nd r false) i +
                mvden s3 k (mMulArg k nl l a true) (vMulArg k nd r true) i) → Sat (world env) (K e) t' Q) →
          Sat (world env) (fork (fk k) (mvMul2 env fk k (mMulArg k nl l a false) (vMulArg k nd r false))
              (mvMul2 env fk k (mMulArg k nl l a true) (vMulArg k nd r true)) >>= fun x =>
            vvAdd2 env fk k x.1 x.2 >>= K) t Q := by
        intro a t hit het K Q hK
        have two := Sat.fork (c := fk k)
          (Qp := fun s' e => VRep env s' k e (mvden t k (mMulArg k nl l a false) (vMulArg k nd r false)))
          (Qq := fun s' e => VRep env s' k e (mvden t k (mMulArg k nl l a true) (vMulArg k nd r true)))
          (fun a b e hi _ he h => VRep.ext hi he h) (fun a b e hi _ he h => VRep.ext hi he h)
          (ih hk0 hit ((ol _ _).ext het) ((or3 _).ext het)) (ih hk0 hit ((ol _ _).ext het) ((or3 _).ext het))
        refine Sat.bind two fun t1 x hi1 he1 hx => ?_
        refine Sat.bind (vvAdd2_sat fk hk0 hi1 hx.1 hx.2) fun t2 e hi2 he2 he => ?_
        refine hK t2 e hi2 (SExt.trans env he1 he2) (he.congr fun i => ?_)
        rw [mvden_ext hi3 het (ol _ _) (or3 _), mvden_ext hi3 het (ol _ _) (or3 _)]
      refine blk false s3 hi3 (SExt.refl env s3) _ _ fun s4 e0 hi4 he4 h0 => ?_
      refine blk true s4 hi4 he4 _ _ fun s5 e1 hi5 he5 h1 => ?_
      refine Sat.bind (mkV_sat hi5 hk' (h0.ext hi4 he5) h1) fun s6 res hi6 he6 hres => ?_
      have he36 := SExt.trans env he4 (SExt.trans env he5 he6)
      have he16 := SExt.trans env he13 he36
      have hprod : VProd env (k + 1) l.n r.n s6 res := by
        refine ⟨hres.1, fun i => ?_⟩
        rw [hres.2]
        have e1 : bsum (k + 1) (fun j => mptr s6.mt.mem (k + 1) l.n i j * vptr s6.vt.mem (k + 1) r.n j) =
            bsum (k + 1) (fun j => mptr s3.mt.mem (k + 1) l.n i j * vptr s3.vt.mem (k + 1) r.n j) :=
          bsum_congr fun j _ => by rw [mptr_ext hi3 he36 hl3, vptr_ext hi3 he36 (hp1.ext he13)]
        rw [e1, bsum_blocks_v (k := k) (a := fun a b => mden s3.mt.mem k (mMulArg k nl l a b))
          (b := fun b => vden s3.vt.mem k (vMulArg k nd r b)) dl dr3
          (fun a b i j j' h => mden_low (lowEq_refl k i) h) (fun b i i' h => vden_low h)]
        beta_reduce
        cases i.testBit k <;> rfl
      rw [← er]
      refine Sat.bind (setPV_sat c hi6 (hln ▸ hl1.ext he16) (hp1.ext he16) (hln ▸ hprod)) fun s7 _ hi7 he7 _ => ?_
      have fin : ∀ e', (e'.n = res.n ∨ (e'.w = 0 ∧ e'.n = none)) → e'.w = res.w * l.w * r.w →
          Sat (world env) (pure e') s7 (fun s' e => VRep env s' (k + 1) e (mvden s (k + 1) l r)) := fun e' a b =>
        Sat.pure fun s' _ he => VRep.ext hi6 (SExt.trans env he7 he) ((VRep.of_prod hprod a b).congr fun i =>
          mvden_ext hi (SExt.trans env he1 he16) hl hr i)
      simp only [mul_eq]
      by_cases h0 : WOps.az (res.w * l.w * r.w) = true
      · rw [if_pos h0]; rw [az_iff] at h0; exact fin _ (.inr ⟨zeroE_w, rfl⟩) (by rw [zeroE_w, h0])
      rw [if_neg h0]
      by_cases h1 : WOps.aone (res.w * l.w * r.w) = true
      · rw [if_pos h1]; rw [WOps.aone, ae_iff] at h1; exact fin _ (.inl rfl) h1.symm
      · rw [if_neg h1]; exact fin _ (.inl rfl) rfl

/-! ### The API entry points -/

theorem VOk.le {s : St W} (hi : Inv env s) {k e} (h : VOk env s k e) (hw : e.w ≠ 0) : k ≤ NQUBITS := by
  rcases h.resolve_right fun h => hw h.1 with ⟨h, _⟩ | ⟨p, nd, _, h2, h3⟩
  · rw [h]; exact Nat.zero_le _
  · obtain ⟨m, hm, hm'⟩ := hi.vlevel h2
    omega

/-- What the entry points read of the root of a vector. -/
theorem readV_root {s : St W} {k : Nat} {e : Edge W} (h : VOk env s k e) :
    Sat (world env) (readV e.n) s (fun s' nd => (e.n = none ∧ nd.v = -1) ∨ (VPtrOk env s k e.n ∧ nd.v + 1 = (k : Int))) := by
  have none : e.n = none → Sat (world env) (readV e.n) s
      (fun s' nd => (e.n = none ∧ nd.v = -1) ∨ (VPtrOk env s k e.n ∧ nd.v + 1 = (k : Int))) := fun hn => by
    rw [hn]; exact readV_none_sat.mono fun s' nd _ _ h => .inl ⟨rfl, h⟩
  rcases h with (⟨_, h⟩ | ⟨p, nd, h1, h2, h3⟩) | h
  · exact none h
  · rw [h1]
    exact (readV_sat h2).mono fun s' nd' _ _ e => by subst e; exact .inr ⟨.inr ⟨p, nd', rfl, h2, h3⟩, h3⟩
  · exact none h.2

theorem vvAdd_sat (fk : Nat → Bool) {k : Nat} {s : St W} {l r : Edge W} {f g : Nat → W}
    (hi : Inv env s) (hl : VRep env s k l f) (hr : VRep env s k r g) :
    Sat (world env) (vvAdd env fk l r) s (fun s' e => VRep env s' k e (fun i => f i + g i)) := by
  unfold vvAdd
  by_cases hn : l.n = none ∧ r.n = none
  · rw [if_pos hn]
    refine Sat.pure fun s' _ he => VRep.ext hi he ⟨?_, fun i => ?_⟩
    · rcases hl.1 with (h | ⟨p, nd, h, _⟩) | h
      · exact .inl (.inl ⟨h.1, rfl⟩)
      · rw [hn.1] at h; cases h
      · rcases hr.1 with (h' | ⟨p, nd, h', _⟩) | h'
        · exact .inl (.inl ⟨h'.1, rfl⟩)
        · rw [hn.2] at h'; cases h'
        · right; exact ⟨by simp [add_eq, h.1, h'.1], rfl⟩
    · show _ = f i + g i
      rw [← hl.2, ← hr.2]; simp only [vden, hn.1, hn.2, add_eq]; ring
  rw [if_neg hn]
  refine Sat.bind (readV_root hr.1) fun s1 nd hi1 he1 hnd => ?_
  have hl1 := hl.ext hi he1
  have hr1 := hr.ext hi he1
  by_cases hzl : l.w = 0
  · -- the sum is the right operand (or zero) at whatever level
    have hf : ∀ i, f i = 0 := fun i => by rw [← hl.2, vden_w0 hzl]
    have hz : WOps.az l.w = true := (az_iff _).2 hzl
    generalize (nd.v + 1).toNat = lv
    have : vvAdd2 env fk lv l r = if WOps.az r.w then pure zeroE else pure r := by
      cases lv <;> simp [vvAdd2, hz]
    rw [this]
    split
    · next h0 =>
      rw [az_iff] at h0
      refine Sat.pure fun s' _ _ => (zeroE_vrep s' _).congr fun i => ?_
      rw [hf, ← hr.2, vden_w0 h0, zero_add]
    · exact Sat.pure fun s' _ he => (hr1.ext hi1 he).congr fun i => by simp [hf]
  by_cases hzr : r.w = 0
  · have hg : ∀ i, g i = 0 := fun i => by rw [← hr.2, vden_w0 hzr]
    have hz : WOps.az r.w = true := (az_iff _).2 hzr
    have hz' : ¬ WOps.az l.w = true := by rw [az_iff]; exact hzl
    generalize (nd.v + 1).toNat = lv
    have : vvAdd2 env fk lv l r = pure l := by
      cases lv <;> simp [vvAdd2, hz, hz']
    rw [this]
    exact Sat.pure fun s' _ he => (hl1.ext hi1 he).congr fun i => by simp [hg]
  · have hk := hl.1.le hi hzl
    have hlv : (nd.v + 1).toNat = k := by
      rcases hnd with ⟨h1, h2⟩ | ⟨_, h⟩
      · rcases hr.1.resolve_right (fun h => hzr h.1) with h | ⟨p, _, h, _⟩
        · omega
        · rw [h1] at h; cases h
      · omega
    rw [hlv]
    exact vvAdd2_sat fk hk hi1 hl1 hr1

theorem mvMul_sat (mt : Bool) {k : Nat} {s : St W} {l r : Edge W}
    (hi : Inv env s) (hl : MOk env s k l.n) (hr : VOk env s k r) :
    Sat (world env) (mvMul env mt l r) s (fun s' e => VRep env s' k e (mvden s k l r)) := by
  have ident : l.n = none → VRep env s k ⟨l.w * r.w, r.n⟩ (mvden s k l r) := fun hln => by
    refine ⟨?_, fun i => ?_⟩
    · rcases hr with h | h
      · exact .inl h
      · exact .inr ⟨by simp [h.1], h.2⟩
    · have := bsum_ident s.mt.mem (k := k) (g := fun x => vden s.vt.mem k r x) (fun x y h => vden_low h) i
      simp only [mvden, mden, vden, hln] at this ⊢
      rw [mul_assoc, ← this, ← bsum_mul]
      exact bsum_congr fun x _ => by ring
  have zero : l.w = 0 ∨ r.w = 0 → ∀ i, mvden s k l r i = 0 := fun h i => by
    have : (fun j => mden s.mt.mem k l i j * vden s.vt.mem k r j) = fun _ => (0 : W) := by
      funext j
      rcases h with h | h
      · rw [mden_w0 h, zero_mul]
      · rw [vden_w0 h, mul_zero]
    rw [mvden, this, bsum_zero]
  unfold mvMul
  by_cases hn : l.n = none ∧ r.n = none
  · rw [if_pos hn]
    refine Sat.pure fun s' _ he => VRep.ext hi he ?_
    have := ident hn.1
    rw [hn.2] at this
    rwa [mul_eq]
  rw [if_neg hn]
  refine Sat.bind (readV_root hr) fun s1 nd hi1 he1 hnd => ?_
  generalize (fun k : Nat => mt && decide ((k : Int) > nd.v - 6)) = fk
  by_cases hrw : r.w = 0
  · -- zero vector, possibly read at level 0
    generalize (nd.v + 1).toNat = lv
    have hz : WOps.az r.w = true := (az_iff _).2 hrw
    have hfin : mvMul2 env fk lv l r = pure zeroE ∨ (l.n = none ∧ mvMul2 env fk lv l r = pure ⟨WOps.mul r.w l.w, r.n⟩) := by
      cases hl0 : eeq l zeroE
      · cases hln : l.n with
        | none => right; refine ⟨rfl, ?_⟩; unfold mvMul2; simp [hl0, hln]
        | some p => left; unfold mvMul2; simp [hl0, hln, hz]
      · left; unfold mvMul2; simp [hl0]
    rcases hfin with h | ⟨h, h'⟩
    · rw [h]; exact Sat.pure fun s' _ _ => (zeroE_vrep s' _).congr fun i => (zero (.inr hrw) i).symm
    · rw [h']
      refine Sat.pure fun s' _ he => VRep.ext hi (SExt.trans env he1 he) ?_
      rw [mul_eq, mul_comm]; exact ident h
  · have hk := hr.le hi hrw
    have hlv : (nd.v + 1).toNat = k := by
      rcases hnd with ⟨h1, h2⟩ | ⟨_, h⟩
      · rcases hr.resolve_right (fun h => hrw h.1) with h | ⟨p, _, h, _⟩
        · omega
        · rw [h1] at h; cases h
      · omega
    rw [hlv]
    exact (mvMul2_sat fk hk hi1 (hl.ext he1) (hr.ext he1)).mono fun s' e _ _ h =>
      h.congr fun i => mvden_ext hi he1 hl hr i

/-- `rootVar` covers both operands. -/
theorem rootVar_ok {s : St W} (hi : Inv env s) {l r : Option Nat} {nl nr : MNode W} (hl : ReadM env s l nl)
    (hr : ReadM env s r nr) (hn : ¬ (l = none ∧ r = none)) :
    (rootVar l r nl.v nr.v + 1).toNat ≤ NQUBITS ∧ MOk env s (rootVar l r nl.v nr.v + 1).toNat l ∧
      MOk env s (rootVar l r nl.v nr.v + 1).toNat r := by
  have lev : ∀ {p nd}, UTable.Reg env.hm s.mt p nd → 0 ≤ nd.v ∧ nd.v < 100 := fun h => by
    obtain ⟨m, h1, h2⟩ := hi.mlevel h
    have : NQUBITS = 100 := rfl
    omega
  have h100 : NQUBITS = 100 := rfl
  rcases hl with ⟨rfl, h1⟩ | ⟨p, rfl, h1⟩ <;> rcases hr with ⟨rfl, h2⟩ | ⟨q, rfl, h2⟩
  · exact (hn ⟨rfl, rfl⟩).elim
  · have := lev h2
    simp only [rootVar, true_or, if_true]
    exact ⟨by omega, .inl rfl, .inr ⟨q, nr, rfl, h2, by omega⟩⟩
  · have := lev h1
    simp only [rootVar]
    rw [if_neg (by simp)]
    exact ⟨by omega, .inr ⟨p, nl, rfl, h1, by omega⟩, .inl rfl⟩
  · have a := lev h1
    have b := lev h2
    simp only [rootVar]
    split
    · next h =>
      have hgt : nr.v > nl.v := (h.resolve_left (by simp)).2
      exact ⟨by omega, .inr ⟨p, nl, rfl, h1, by omega⟩, .inr ⟨q, nr, rfl, h2, by omega⟩⟩
    · next h =>
      have hle : ¬ nr.v > nl.v := fun hg => h (.inr ⟨by simp, hg⟩)
      exact ⟨by omega, .inr ⟨p, nl, rfl, h1, by omega⟩, .inr ⟨q, nr, rfl, h2, by omega⟩⟩

theorem mmAdd_sat {s : St W} {l r : Edge W} (hi : Inv env s) (hl : RegM env s l.n) (hr : RegM env s r.n) :
    Sat (world env) (mmAdd env l r) s (fun s' e => MSum env l r s' e) := by
  unfold mmAdd
  by_cases hn : l.n = none ∧ r.n = none
  · rw [if_pos hn]
    refine Sat.pure fun s' _ he k _ _ => ⟨.inl rfl, fun i j => ?_⟩
    simp only [mden, hn.1, hn.2, add_eq]; ring
  rw [if_neg hn]
  refine Sat.bind (readM_sat' hl) fun s1 nl hi1 he1 hnl => ?_
  refine Sat.bind (readM_sat' (hr.ext he1)) fun s2 nr hi2 he2 hnr => ?_
  obtain ⟨a, b, c⟩ := rootVar_ok hi2 (hnl.ext he2) hnr hn
  exact mmAdd2_sat a hi2 b c

theorem mmMul_sat {s : St W} {l r : Edge W} (hi : Inv env s) (hl : RegM env s l.n) (hr : RegM env s r.n) :
    Sat (world env) (mmMul env l r) s (fun s' e => MMul env l r s' e) := by
  unfold mmMul
  by_cases hn : l.n = none ∧ r.n = none
  · rw [if_pos hn]
    refine Sat.pure fun s' _ he k _ _ => ⟨.inl rfl, fun i j => ?_⟩
    have := bsum_ident s'.mt.mem (k := k) (g := fun x => mden s'.mt.mem k r x j)
      (fun x y h => mden_low h (lowEq_refl k j)) i
    simp only [mden, hn.1, hn.2, mul_eq] at this ⊢
    rw [mul_assoc, ← this, ← bsum_mul]
    exact bsum_congr fun x _ => by ring
  rw [if_neg hn]
  refine Sat.bind (readM_sat' hl) fun s1 nl hi1 he1 hnl => ?_
  refine Sat.bind (readM_sat' (hr.ext he1)) fun s2 nr hi2 he2 hnr => ?_
  obtain ⟨a, b, c⟩ := rootVar_ok hi2 (hnl.ext he2) hnr hn
  exact mmMul2_sat a hi2 b c

end QDD
