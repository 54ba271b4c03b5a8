import Verif.Core.Gates
/-!
# Kronecker products (src/dd.cpp 1076-1103, 1196-1226) and the permutation gates
-/

set_option linter.unusedSectionVars false
set_option linter.unusedVariables false
set_option linter.unusedSimpArgs false

namespace QDD
open ExactW Prog

section model
variable {W : Type} [WOps W] (env : Env W)

/-- `vv_kronecker2` (dd.cpp 1196-1218).  The first argument is `lhs.getVar() + 1`, the recursion depth. -/
def vvKron2 : Nat → Edge W → Edge W → P W (Edge W)
  | lvl, l, r =>
    if l.n = none then pure ⟨WOps.mul l.w r.w, r.n⟩ else
    if r.n = none then pure ⟨WOps.mul l.w r.w, l.n⟩ else
    match lvl with
    | 0 => fail .assert
    | k + 1 => do
      let ln ← readV l.n
      let rn ← readV r.n
      let e0 ← vvKron2 k ⟨WOps.mul l.w ln.c0.w, ln.c0.n⟩ r
      let e1 ← vvKron2 k ⟨WOps.mul l.w ln.c1.w, ln.c1.n⟩ r
      mkV env (ln.v + rn.v + 1) e0 e1

/-- `vv_kronecker` (dd.cpp 1220-1226). -/
def vvKron (l r : Edge W) : P W (Edge W) :=
  if l.n = none ∧ r.n = none then pure ⟨WOps.mul l.w r.w, none⟩ else do
  let ln ← readV l.n
  vvKron2 env (ln.v + 1).toNat l r

/-- `mm_kronecker2` (dd.cpp 1076-1095). -/
def mmKron2 : Nat → Edge W → Edge W → P W (Edge W)
  | lvl, l, r =>
    if l.n = none then pure ⟨WOps.mul l.w r.w, r.n⟩ else
    match lvl with
    | 0 => fail .assert
    | k + 1 => do
      let ln ← readM l.n
      let rn ← readM r.n
      let e0 ← mmKron2 k ⟨WOps.mul l.w ln.c0.w, ln.c0.n⟩ r
      let e1 ← mmKron2 k ⟨WOps.mul l.w ln.c1.w, ln.c1.n⟩ r
      let e2 ← mmKron2 k ⟨WOps.mul l.w ln.c2.w, ln.c2.n⟩ r
      let e3 ← mmKron2 k ⟨WOps.mul l.w ln.c3.w, ln.c3.n⟩ r
      mkM env (ln.v + rn.v + 1) e0 e1 e2 e3

/-- `mm_kronecker` (dd.cpp 1097-1103). -/
def mmKron (l r : Edge W) : P W (Edge W) :=
  if l.n = none ∧ r.n = none then pure ⟨WOps.mul l.w r.w, none⟩ else do
  let ln ← readM l.n
  mmKron2 env (ln.v + 1).toNat l r

end model

variable {W : Type} [Field W] [WOps W] [ExactW W] {env : Env W}

theorem vvKron2_sat {k2 : Nat} {r : Edge W} : ∀ {k : Nat} {l : Edge W} {s : St W}, k + k2 ≤ NQUBITS → 0 < k2 →
    Inv env s → VPtrOk env s k2 r.n → VOk env s k l →
    Sat (world env) (vvKron2 env k l r) s (fun s' e =>
      VRep0 env s' (k + k2) e (fun i => vden s'.vt.mem k l (i >>> k2) * vden s'.vt.mem k2 r i) ∧
      (l.n ≠ none → VOk env s' (k + k2) e)) := by
  intro k
  induction k with
  | zero =>
    intro l s hk hk2 hi hr hl
    have hn : l.n = none := by
      rcases hl with (⟨_, h⟩ | ⟨p, nd, _, h2, h3⟩) | ⟨_, h⟩
      · exact h
      · obtain ⟨k, hk, _⟩ := hi.vlevel h2; push_cast at h3; omega
      · exact h
    unfold vvKron2
    rw [if_pos hn]
    refine Sat.pure fun s' hi' he => ⟨?_, fun h => (h hn).elim⟩
    rw [Nat.zero_add]
    refine (VRep.rep0 ⟨.inl (hr.ext he), fun i => ?_⟩)
    simp only [vden, vptr, mul_eq]; ring
  | succ k ih =>
    intro l s hk hk2 hi hr hl
    unfold vvKron2
    by_cases hn : l.n = none
    · rw [if_pos hn]
      have hw : l.w = 0 := by
        rcases hl with (⟨h, _⟩ | ⟨p, nd, h1, h2, h3⟩) | ⟨h, _⟩
        · cases h
        · rw [hn] at h1; cases h1
        · exact h
      refine Sat.pure fun s' hi' he => ⟨⟨.inr (by simp [mul_eq, hw]), fun i => ?_⟩, fun h => (h hn).elim⟩
      dsimp only
      rw [vden_w0 (by simp [mul_eq, hw]), vden_w0 hw, zero_mul]
    · rw [if_neg hn]
      have hrn : r.n ≠ none := by
        rcases hr with ⟨h, _⟩ | ⟨p, nd, h1, _⟩
        · omega
        · rw [h1]; simp
      rw [if_neg hrn]
      obtain ⟨p, nd, hp, hreg, hlev⟩ : ∃ p nd, l.n = some p ∧ UTable.Reg env.hv s.vt p nd ∧ nd.v + 1 = ((k + 1 : Nat) : Int) := by
        rcases hl with (⟨h, _⟩ | h) | ⟨_, h⟩
        · cases h
        · exact h
        · exact (hn h).elim
      have hv : nd.v = (k : Int) := by push_cast at hlev; omega
      rw [hp]
      obtain ⟨q, nq, hq, hreg2, hlev2⟩ : ∃ p nd, r.n = some p ∧ UTable.Reg env.hv s.vt p nd ∧ nd.v + 1 = (k2 : Int) := by
        rcases hr with ⟨h, _⟩ | h
        · omega
        · exact h
      refine Sat.bind (readV_sat hreg) fun s1 x hi1 he1 hx => ?_
      subst hx
      have hreg' := he1.1 _ _ hreg
      rw [hq]
      refine Sat.bind (readV_sat (he1.1 _ _ hreg2)) fun s2 y hi2 he2 hy => ?_
      subst hy
      have hch : ∀ b, VOk env s2 k ⟨WOps.mul l.w (x.child b).w, (x.child b).n⟩ := by
        intro b
        rcases ((hi.vn p x hreg).ok b hv) with h | ⟨h, h'⟩
        · exact .inl ((h.ext he1).ext he2)
        · exact .inr ⟨by simp [mul_eq, h], h'⟩
      refine Sat.bind (ih (by omega) hk2 hi2 ((hr.ext he1).ext he2) (hch false)) fun s3 e0 hi3 he3 h3 => ?_
      refine Sat.bind (ih (by omega) hk2 hi3 (((hr.ext he1).ext he2).ext he3) ((hch true).ext he3))
        fun s4 e1 hi4 he4 h4 => ?_
      have hlev3 : x.v + y.v + 1 = ((k + k2 : Nat) : Int) := by push_cast; omega
      rw [hlev3]
      refine Sat.mono (mkV_sat0 hi4 (by omega) (h3.1.ext hi3 he4) h4.1) fun s5 e hi5 he5 h5 => ?_
      have hs45 := he5
      have heq : k + k2 + 1 = k + 1 + k2 := by omega
      rw [heq] at h5
      refine ⟨VRep.rep0 (h5.congr fun i => ?_), fun _ => h5.1⟩
      have hx5 : s5.vt.mem p = some x := ((((he2.trans env he3).trans env he4).trans env he5).1 _ _ hreg').1
      have hro : VOk env s3 k2 r := .inl (((hr.ext he1).ext he2).ext he3)
      rw [vden_ext hi4 he5 (hro.ext he4), vden_ext hi3 he4 hro]
      have e0d : ∀ b, vden s4.vt.mem k ⟨WOps.mul l.w (x.child b).w, (x.child b).n⟩ (i >>> k2) =
          vden s3.vt.mem k ⟨WOps.mul l.w (x.child b).w, (x.child b).n⟩ (i >>> k2) :=
        fun b => vden_ext hi3 he4 ((hch b).ext he3) _
      have e0d5 : ∀ b, vden s5.vt.mem k ⟨WOps.mul l.w (x.child b).w, (x.child b).n⟩ (i >>> k2) =
          vden s4.vt.mem k ⟨WOps.mul l.w (x.child b).w, (x.child b).n⟩ (i >>> k2) :=
        fun b => vden_ext hi4 he5 ((hch b).ext (he3.trans env he4)) _
      have top : vden s5.vt.mem (k + 1) l (i >>> k2) =
          vden s3.vt.mem k ⟨WOps.mul l.w (x.child (i.testBit (k + k2))).w, (x.child (i.testBit (k + k2))).n⟩ (i >>> k2) := by
        rw [← e0d, ← e0d5]
        simp only [vden, vptr, hp, hx5, Nat.testBit_shiftRight, mul_eq]
        rw [show k2 + k = k + k2 by omega]
        ring
      rw [top]
      cases i.testBit (k + k2)
      · rfl
      · have := e0d true
        simp only [VNode.child, if_true] at this ⊢
        rw [this]

theorem vvKron_sat {s : St W} {k k2 : Nat} {l r : Edge W} (hi : Inv env s) (h1 : 0 < k) (h2 : 0 < k2)
    (hk : k + k2 ≤ NQUBITS) (hl : VPtrOk env s k l.n) (hr : VPtrOk env s k2 r.n) :
    Sat (world env) (vvKron env l r) s (fun s' e =>
      VRep env s' (k + k2) e (fun i => vden s.vt.mem k l (i >>> k2) * vden s.vt.mem k2 r i)) := by
  rcases hl with ⟨h, _⟩ | ⟨p, nd, hp, hreg, hlev⟩
  · omega
  unfold vvKron
  rw [if_neg (by rw [hp]; simp), hp]
  refine Sat.bind (readV_sat hreg) fun s1 x hi1 he1 hx => ?_
  subst hx
  have hlev' : (x.v + 1).toNat = k := by omega
  rw [hlev']
  have hl : VPtrOk env s k l.n := .inr ⟨p, x, hp, hreg, hlev⟩
  refine Sat.mono (vvKron2_sat hk h2 hi1 (hr.ext he1) (.inl (hl.ext he1))) fun s2 e hi2 he2 h => ?_
  refine ⟨h.2 (by rw [hp]; simp), fun i => ?_⟩
  rw [h.1.2]
  dsimp only
  rw [vden_ext hi (he1.trans env he2) (.inl hl), vden_ext hi (he1.trans env he2) (.inl hr)]

/-! ## Matrices -/

/-- Entry of the Kronecker product. -/
def kronM (k2 : Nat) (F G : Nat → Nat → W) : Nat → Nat → W := fun i j => F (i >>> k2) (j >>> k2) * G i j

theorem kron_lift {s : St W} {k2 n : Nat} {l e : Edge W} {G : Nat → Nat → W} (hl : MOk env s n l.n)
    (h : MRep env s (n + k2) e (kronM k2 (mden s.mt.mem n l) G)) :
    MRep env s (n + 1 + k2) e (kronM k2 (mden s.mt.mem (n + 1) l) G) := by
  rw [show n + 1 + k2 = n + k2 + 1 by omega]
  refine h.lift.congr fun i j => ?_
  unfold kronM liftF
  rw [mden_lift hl]
  unfold liftF
  simp only [Nat.testBit_shiftRight, show k2 + n = n + k2 by omega]
  split <;> simp

theorem kron_lifts {s : St W} {k2 n : Nat} {l e : Edge W} {G : Nat → Nat → W} (hl : MOk env s n l.n)
    (h : MRep env s (n + k2) e (kronM k2 (mden s.mt.mem n l) G)) (m : Nat) (hm : n ≤ m) :
    MRep env s (m + k2) e (kronM k2 (mden s.mt.mem m l) G) := by
  induction m, hm using Nat.le_induction with
  | base => exact h
  | succ m hm ih => exact kron_lift (hl.mono hm) ih

/-- `mm_kronecker2`, at every qubit count `n` covering `l`; `k2` is `rhs.getVar() + 1`. -/
def KronPost (env : Env W) (k2 : Nat) (l r : Edge W) (s : St W) (e : Edge W) : Prop :=
  ∀ n, MOk env s n l.n → MRep env s (n + k2) e (kronM k2 (mden s.mt.mem n l) (mden s.mt.mem k2 r))

theorem mmKron2_sat {k2 : Nat} {r : Edge W} : ∀ {k : Nat} {l : Edge W} {s : St W}, k + k2 ≤ NQUBITS →
    Inv env s → MOk env s k2 r.n → (∀ nd, ReadM env s r.n nd → nd.v + 1 = (k2 : Int)) → MOk env s k l.n →
    Sat (world env) (mmKron2 env k l r) s (fun s' e => KronPost env k2 l r s' e) := by
  have term : ∀ {l : Edge W} {s : St W}, Inv env s → MOk env s k2 r.n → l.n = none →
      KronPost env k2 l r s ⟨WOps.mul l.w r.w, r.n⟩ := by
    intro l s hi hr hn n hl
    refine kron_lifts (n := 0) (.inl hn) ?_ n (Nat.zero_le _)
    rw [Nat.zero_add]
    refine ⟨hr, fun i j => ?_⟩
    simp only [kronM, mden, mptr, mul_eq]; ring
  intro k
  induction k with
  | zero =>
    intro l s hk hi hr hrv hl
    have hn : l.n = none := by
      rcases hl with h | ⟨p, nd, _, h2, h3⟩
      · exact h
      · obtain ⟨k, hk, _⟩ := hi.mlevel h2; push_cast at h3; omega
    unfold mmKron2
    rw [if_pos hn]
    exact Sat.pure fun s' hi' he => term hi' (hr.ext he) hn
  | succ k ih =>
    intro l s hk hi hr hrv hl
    unfold mmKron2
    by_cases hn : l.n = none
    · rw [if_pos hn]
      exact Sat.pure fun s' hi' he => term hi' (hr.ext he) hn
    rw [if_neg hn]
    obtain ⟨p, nd, hp, hreg, hlev⟩ : ∃ p nd, l.n = some p ∧ UTable.Reg env.hm s.mt p nd ∧ nd.v < ((k + 1 : Nat) : Int) :=
      hl.resolve_left hn
    obtain ⟨v, hv, _⟩ := hi.mlevel hreg
    have hvk : v ≤ k := by push_cast at hlev; omega
    rw [hp]
    refine Sat.bind (readM_sat hreg) fun s1 x hi1 he1 hx => ?_
    subst hx
    refine Sat.bind (readM_sat' (hr.regM.ext he1)) fun s2 y hi2 he2 hy => ?_
    have hyv : y.v + 1 = (k2 : Int) := by
      rcases hr with h | ⟨q, nq, hq, h2, h3⟩
      · rcases hy with ⟨_, h'⟩ | ⟨q, hq, _⟩
        · have := hrv ⟨-1, zeroE, zeroE, zeroE, zeroE⟩ (.inl ⟨h, rfl⟩)
          simp at this; omega
        · rw [h] at hq; cases hq
      · rcases hy with ⟨h', _⟩ | ⟨q', hq', h'⟩
        · rw [hq] at h'; cases h'
        · rw [hq] at hq'; cases hq'
          have := Reg.inj h' ((he1.trans env he2).2 _ _ h2)
          rw [this]
          exact hrv nq (.inr ⟨q, hq, h2⟩)
    -- the side condition travels along
    have hrv' : ∀ {s'}, SExt env s s' → ∀ nd, ReadM env s' r.n nd → nd.v + 1 = (k2 : Int) := by
      intro s' he nd hnd
      rcases hr with h | ⟨q, nq, hq, h2, h3⟩
      · rcases hnd with ⟨_, h'⟩ | ⟨q, hq, _⟩
        · have := hrv ⟨-1, zeroE, zeroE, zeroE, zeroE⟩ (.inl ⟨h, rfl⟩)
          simp at this; omega
        · rw [h] at hq; cases hq
      · rcases hnd with ⟨h', _⟩ | ⟨q', hq', h'⟩
        · rw [hq] at h'; cases h'
        · rw [hq] at hq'; cases hq'
          rw [Reg.inj h' (he.2 _ _ h2)]
          exact hrv nq (.inr ⟨q, hq, h2⟩)
    have hchv : ∀ b c, MOk env s v (x.child b c).n := fun b c => by
      have := (hi.mn p x hreg).ok b c
      rwa [show x.v.toNat = v by omega] at this
    let ch : Bool → Bool → Edge W := fun b c => ⟨WOps.mul l.w (x.child b c).w, (x.child b c).n⟩
    have hch : ∀ b c, MOk env s k (ch b c).n := fun b c => (hchv b c).mono hvk
    have he02 := he1.trans env he2
    refine Sat.bind (ih (l := ch false false) (by omega) hi2 (hr.ext he02) (hrv' he02) ((hch _ _).ext he02)) fun s3 e0 hi3 he3 h3 => ?_
    have he03 := he02.trans env he3
    refine Sat.bind (ih (l := ch false true) (by omega) hi3 (hr.ext he03) (hrv' he03) ((hch _ _).ext he03)) fun s4 e1 hi4 he4 h4 => ?_
    have he04 := he03.trans env he4
    refine Sat.bind (ih (l := ch true false) (by omega) hi4 (hr.ext he04) (hrv' he04) ((hch _ _).ext he04)) fun s5 e2 hi5 he5 h5 => ?_
    have he05 := he04.trans env he5
    refine Sat.bind (ih (l := ch true true) (by omega) hi5 (hr.ext he05) (hrv' he05) ((hch _ _).ext he05)) fun s6 e3 hi6 he6 h6 => ?_
    have he06 := he05.trans env he6
    have hlev3 : x.v + y.v + 1 = ((v + k2 : Nat) : Int) := by push_cast; omega
    rw [hlev3]
    -- all four children represented in the last state, by the entries of the first
    have conv : ∀ {s' : St W} {e : Edge W} (b c : Bool), Inv env s' → SExt env s s' → SExt env s' s6 →
        KronPost env k2 (ch b c) r s' e →
        MRep env s6 (v + k2) e (kronM k2 (mden s.mt.mem v (ch b c)) (mden s.mt.mem k2 r)) := by
      intro s' e b c hi' he he' h
      have := (h v ((hchv b c).ext he)).ext hi' he'
      refine this.congr fun i j => ?_
      unfold kronM
      rw [mden_ext hi he (e := ch b c) (hchv b c), mden_ext hi he hr]
    refine Sat.mono (mkM_sat (F := fun b c => kronM k2 (mden s.mt.mem v (ch b c)) (mden s.mt.mem k2 r)) hi6
      (by omega) (conv false false hi3 he03 ((he4.trans env he5).trans env he6) h3)
      (conv false true hi4 he04 (he5.trans env he6) h4) (conv true false hi5 he05 he6 h5)
      (conv true true hi6 he06 (SExt.refl _ _) h6)) fun s7 e hi7 he7 h7 => ?_
    intro n hnl
    have he07 := he06.trans env he7
    have hvn : v + 1 ≤ n := by
      rcases hnl with h | ⟨p', nd', hp', h2, h3⟩
      · exact (hn h).elim
      · rw [hp] at hp'; cases hp'
        rw [Reg.inj h2 (he07.2 _ _ hreg)] at h3
        omega
    have hl1 : MOk env s7 (v + 1) l.n := .inr ⟨p, x, hp, he07.2 _ _ hreg, by push_cast; omega⟩
    refine kron_lifts hl1 ?_ n hvn
    rw [show v + 1 + k2 = v + k2 + 1 by omega]
    refine h7.1.congr fun i j => ?_
    unfold blocks kronM
    have hx7 : s7.mt.mem p = some x := (he07.2 _ _ hreg).1
    have hrr := mden_ext (env := env) hi he07 (e := r) hr i j
    dsimp only
    rw [hrr]
    congr 1
    have hcc : ∀ b c, mden s7.mt.mem v (ch b c) (i >>> k2) (j >>> k2) = mden s.mt.mem v (ch b c) (i >>> k2) (j >>> k2) :=
      fun b c => mden_ext hi he07 (e := ch b c) (hchv b c) _ _
    rw [← hcc]
    simp only [mden, ch, hp, mptr, hx7, hv, if_true, Nat.testBit_shiftRight, mul_eq,
      show k2 + v = v + k2 by omega]
    ring

/-- `k2` is the declared size of `r`: its root sits at level `k2 - 1` (nothing was stripped at the top). -/
def FullM (env : Env W) (s : St W) (k2 : Nat) (r : Edge W) : Prop :=
  (r.n = none ∧ k2 = 0) ∨ ∃ p nd, r.n = some p ∧ UTable.Reg env.hm s.mt p nd ∧ nd.v + 1 = (k2 : Int)

theorem mmKron_sat {s : St W} {k k2 : Nat} {l r : Edge W} (hi : Inv env s) (hk : k + k2 ≤ NQUBITS)
    (hl : MOk env s k l.n) (hr : FullM env s k2 r) :
    Sat (world env) (mmKron env l r) s (fun s' e =>
      MRep env s' (k + k2) e (kronM k2 (mden s.mt.mem k l) (mden s.mt.mem k2 r))) := by
  have hrok : MOk env s k2 r.n := by
    rcases hr with ⟨h, _⟩ | ⟨p, nd, h1, h2, h3⟩
    · exact .inl h
    · exact .inr ⟨p, nd, h1, h2, by omega⟩
  have hrv : ∀ s', SExt env s s' → ∀ nd, ReadM env s' r.n nd → nd.v + 1 = (k2 : Int) := by
    intro s' he nd hnd
    rcases hr with ⟨h, rfl⟩ | ⟨q, nq, hq, h2, h3⟩
    · rcases hnd with ⟨_, h'⟩ | ⟨q, hq, _⟩
      · omega
      · rw [h] at hq; cases hq
    · rcases hnd with ⟨h', _⟩ | ⟨q', hq', h'⟩
      · rw [hq] at h'; cases h'
      · rw [hq] at hq'; cases hq'
        rw [Reg.inj h' (he.2 _ _ h2)]; exact h3
  have conv : ∀ {s' : St W} {e : Edge W}, Inv env s' → SExt env s s' → KronPost env k2 l r s' e →
      MRep env s' (k + k2) e (kronM k2 (mden s.mt.mem k l) (mden s.mt.mem k2 r)) := by
    intro s' e hi' he h
    refine (h k (hl.ext he)).congr fun i j => ?_
    unfold kronM
    rw [mden_ext hi he hl, mden_ext hi he hrok]
  unfold mmKron
  by_cases hn : l.n = none ∧ r.n = none
  · rw [if_pos hn]
    have h2 := mmKron2_sat (env := env) (k2 := k2) (r := r) (k := 0) (l := l) (s := s) (by omega) hi hrok
      (hrv s (SExt.refl _ _)) (.inl hn.1)
    unfold mmKron2 at h2
    rw [if_pos hn.1, hn.2] at h2
    exact Sat.mono h2 fun s' e hi' he h => conv hi' he h
  rw [if_neg hn]
  refine Sat.bind (readM_sat' hl.regM) fun s1 x hi1 he1 hx => ?_
  have hlv : MOk env s1 (x.v + 1).toNat l.n ∧ (x.v + 1).toNat ≤ k := by
    rcases hx with ⟨h, h'⟩ | ⟨p, hp, h'⟩
    · exact ⟨.inl h, by omega⟩
    · obtain ⟨v, hv, _⟩ := hi1.mlevel h'
      refine ⟨.inr ⟨p, x, hp, h', by omega⟩, ?_⟩
      rcases hl with h | ⟨p', nd, hp', h2, h3⟩
      · rw [hp] at h; cases h
      · rw [hp] at hp'; cases hp'
        rw [Reg.inj h' (he1.2 _ _ h2)]; omega
  refine Sat.mono (mmKron2_sat (by omega) hi1 (hrok.ext he1) (hrv s1 he1) hlv.1) fun s2 e hi2 he2 h =>
    conv hi2 (he1.trans env he2) h

/-! ## Permutation gates -/

/-- CNOT on basis states. -/
def cxPerm (t c i : Nat) : Nat := if i.testBit c then i ^^^ 2 ^ t else i

/-- Exchange of the bits `a` and `b`. -/
def swapBits (a b i : Nat) : Nat := if i.testBit a = i.testBit b then i else i ^^^ 2 ^ a ^^^ 2 ^ b

theorem testBit_flip (i t b : Nat) : (i ^^^ 2 ^ t).testBit b = if b = t then !i.testBit b else i.testBit b := by
  rw [Nat.testBit_xor, Nat.testBit_two_pow]
  by_cases h : t = b
  · subst h; simp
  · rw [if_neg (Ne.symm h)]; simp [h]

theorem testBit_cxPerm {t c i b : Nat} :
    (cxPerm t c i).testBit b = if b = t ∧ i.testBit c = true then !i.testBit b else i.testBit b := by
  unfold cxPerm
  by_cases h : i.testBit c = true
  · simp only [h, if_true, and_true]; rw [testBit_flip]
  · simp [h]

theorem testBit_swapBits {a b i x : Nat} (hab : a ≠ b) :
    (swapBits a b i).testBit x = if x = a then i.testBit b else if x = b then i.testBit a else i.testBit x := by
  unfold swapBits
  by_cases h : i.testBit a = i.testBit b
  · rw [if_pos h]
    by_cases h1 : x = a
    · subst h1; rw [if_pos rfl]; exact h
    · rw [if_neg h1]
      by_cases h2 : x = b
      · subst h2; rw [if_pos rfl]; exact h.symm
      · rw [if_neg h2]
  · rw [if_neg h, testBit_flip, testBit_flip]
    by_cases h1 : x = a
    · subst h1; simp only [hab, if_true, if_false]
      cases h3 : i.testBit x <;> cases h4 : i.testBit b <;> simp_all
    · by_cases h2 : x = b
      · subst h2; simp only [h1, if_true, if_false]
        cases h3 : i.testBit x <;> cases h4 : i.testBit a <;> simp_all
      · simp [h1, h2]

theorem eq_iff_bits {n i j : Nat} (hi : i < 2 ^ n) (hj : j < 2 ^ n) : i = j ↔ ∀ b < n, i.testBit b = j.testBit b := by
  constructor
  · rintro rfl b _; rfl
  · intro h
    refine Nat.eq_of_testBit_eq fun b => ?_
    by_cases hb : b < n
    · exact h b hb
    · have hle : 2 ^ n ≤ 2 ^ b := Nat.pow_le_pow_right (by decide) (by omega)
      rw [Nat.testBit_lt_two_pow (by omega), Nat.testBit_lt_two_pow (by omega)]

theorem lt_of_bits {n i : Nat} (h : ∀ b, n ≤ b → i.testBit b = false) : i < 2 ^ n :=
  Nat.lt_pow_two_of_testBit i h

theorem cxPerm_lt {n t c i : Nat} (ht : t < n) (hi : i < 2 ^ n) : cxPerm t c i < 2 ^ n := by
  refine lt_of_bits fun b hb => ?_
  rw [testBit_cxPerm, if_neg (by omega)]
  exact Nat.testBit_lt_two_pow (Nat.lt_of_lt_of_le hi (Nat.pow_le_pow_right (by decide) hb))

theorem swapBits_lt {n a b i : Nat} (ha : a < n) (hb : b < n) (hab : a ≠ b) (hi : i < 2 ^ n) : swapBits a b i < 2 ^ n := by
  refine lt_of_bits fun x hx => ?_
  rw [testBit_swapBits hab, if_neg (by omega), if_neg (by omega)]
  exact Nat.testBit_lt_two_pow (Nat.lt_of_lt_of_le hi (Nat.pow_le_pow_right (by decide) hx))

/-- The controlled-NOT entries. -/
theorem gate1_cx {n t c : Nat} (ht : t < n) (hc : c < n) (htc : t ≠ c) {i j : Nat} (hi : i < 2 ^ n) (hj : j < 2 ^ n) :
    gate1 n (xmat : Nat → Nat → W) t [⟨c, false⟩] i j = if i = cxPerm t c j then 1 else 0 := by
  have hcond : (∀ x ∈ [(⟨c, false⟩ : Ctl)], x.qubit < n → i.testBit x.qubit = !x.neg) ↔ i.testBit c = true := by
    simp [hc]
  unfold gate1
  rw [if_congr hcond rfl rfl]
  have hx : ∀ a b : Bool, (xmat (nb a) (nb b) : W) = if a = b then 0 else 1 := by
    intro a b; cases a <;> cases b <;> simp [xmat, nb, one_eq, zero_eq]
  rw [hx]
  have hiff : i = cxPerm t c j ↔ ∀ b < n, i.testBit b = if b = t ∧ j.testBit c = true then !j.testBit b else j.testBit b := by
    rw [eq_iff_bits hi (cxPerm_lt ht hj)]
    simp only [testBit_cxPerm]
  rw [if_congr hiff rfl rfl]
  by_cases hag : ∀ b < n, b ≠ t → i.testBit b = j.testBit b
  · rw [if_pos hag, hag c hc (Ne.symm htc)]
    have hr : (∀ b < n, i.testBit b = if b = t ∧ j.testBit c = true then !j.testBit b else j.testBit b) ↔
        i.testBit t = if j.testBit c = true then !j.testBit t else j.testBit t := by
      constructor
      · intro h; have := h t ht; simpa using this
      · intro h b hb
        by_cases hbt : b = t
        · subst hbt; simpa using h
        · rw [if_neg (by tauto)]; exact hag b hb hbt
    rw [if_congr hr rfl rfl]
    cases j.testBit c <;> cases i.testBit t <;> cases j.testBit t <;> simp
  · rw [if_neg hag, if_neg]
    intro h
    exact hag fun b hb hbt => by rw [h b hb, if_neg (by tauto)]

/-- The controlled-SWAP entries. -/
theorem gate2_cswap {n t0 t1 c : Nat} (h0 : t0 < n) (h1 : t1 < n) (hc : c < n) (h01 : t0 ≠ t1) (hc0 : c ≠ t0)
    (hc1 : c ≠ t1) {i j : Nat} (hi : i < 2 ^ n) (hj : j < 2 ^ n) :
    gate2 n (swapMat : Nat → Nat → W) t0 t1 [⟨c, false⟩] i j =
      if i = (if j.testBit c then swapBits t0 t1 j else j) then 1 else 0 := by
  have hcond : (∀ x ∈ [(⟨c, false⟩ : Ctl)], x.qubit < n → i.testBit x.qubit = !x.neg) ↔ i.testBit c = true := by
    simp [hc]
  unfold gate2
  rw [if_congr hcond rfl rfl]
  have hx : ∀ a b a' b' : Bool, (swapMat (2 * nb a + nb b) (2 * nb a' + nb b') : W) =
      if a = b' ∧ b = a' then 1 else 0 := by
    intro a b a' b'; cases a <;> cases b <;> cases a' <;> cases b' <;> simp [swapMat, nb, one_eq, zero_eq]
  rw [hx]
  have hlt : (if j.testBit c then swapBits t0 t1 j else j) < 2 ^ n := by
    split
    · exact swapBits_lt h0 h1 h01 hj
    · exact hj
  have hbit : ∀ b, (if j.testBit c then swapBits t0 t1 j else j).testBit b =
      if j.testBit c = true then (if b = t0 then j.testBit t1 else if b = t1 then j.testBit t0 else j.testBit b)
      else j.testBit b := by
    intro b; split
    · rw [testBit_swapBits h01]
    · rfl
  rw [if_congr (eq_iff_bits hi hlt) rfl rfl]
  simp only [hbit]
  by_cases hag : ∀ b < n, b ≠ t0 → b ≠ t1 → i.testBit b = j.testBit b
  · rw [if_pos hag, hag c hc hc0 hc1]
    by_cases hjc : j.testBit c = true
    · simp only [hjc, if_true]
      refine if_congr ⟨fun h b hb => ?_, fun h => ?_⟩ rfl rfl
      · by_cases e0 : b = t0
        · rw [if_pos e0, e0]; exact h.1
        · by_cases e1 : b = t1
          · rw [if_neg e0, if_pos e1, e1]; exact h.2
          · rw [if_neg e0, if_neg e1]; exact hag b hb e0 e1
      · have a := h t0 h0
        have b := h t1 h1
        rw [if_pos rfl] at a
        rw [if_neg (Ne.symm h01), if_pos rfl] at b
        exact ⟨a, b⟩
    · simp only [hjc, Bool.false_eq_true, if_false]
      refine if_congr ⟨fun h b hb => ?_, fun h => ⟨h t0 h0, h t1 h1⟩⟩ rfl rfl
      by_cases e0 : b = t0
      · rw [e0]; exact h.1
      · by_cases e1 : b = t1
        · rw [e1]; exact h.2
        · exact hag b hb e0 e1
  · rw [if_neg hag, if_neg]
    intro h
    refine hag fun b hb e0 e1 => ?_
    have := h b hb
    rw [if_neg e0, if_neg e1] at this
    simpa using this

/-- Three controlled-NOTs exchange two bits. -/
theorem cx_swap {a b i : Nat} (hab : a ≠ b) : cxPerm b a (cxPerm a b (cxPerm b a i)) = swapBits a b i := by
  refine Nat.eq_of_testBit_eq fun x => ?_
  rw [testBit_swapBits hab]
  simp only [testBit_cxPerm]
  by_cases h1 : x = a
  · subst h1
    simp only [hab, false_and, if_false, true_and, if_true]
    cases h3 : i.testBit x <;> cases h4 : i.testBit b <;> simp [h3, h4]
  · by_cases h2 : x = b
    · subst h2
      simp only [h1, Ne.symm hab, false_and, if_false, true_and, if_true]
      cases h3 : i.testBit x <;> cases h4 : i.testBit a <;> simp [h3, h4, Ne.symm hab, hab]
    · simp [h1, h2]

theorem gateCX_sat {s : St W} (hi : Inv env s) {q t c : Nat} (ht : t < q) (hc : c < q) (htc : t ≠ c) (hq : q ≤ NQUBITS) :
    Sat (world env) (gateCX env q t c) s (fun s' e => MOk env s' q e.n ∧ ∀ i < 2 ^ q, ∀ j < 2 ^ q,
      mden s'.mt.mem q e i j = if i = cxPerm t c j then 1 else 0) := by
  refine Sat.mono (makeGate_sat hi ht hq (cs := [⟨c, false⟩]) (by simp) (by simpa using Ne.symm htc) xmat)
    fun s' e _ _ h => ⟨h.1, fun i hi j hj => ?_⟩
  rw [h.2, gate1_cx ht hc htc hi hj]

theorem gateCSWAP_sat {s : St W} (hi : Inv env s) {q t0 t1 c : Nat} (h0 : t0 < q) (h1 : t1 < q) (hc : c < q)
    (h01 : t0 ≠ t1) (hc0 : c ≠ t0) (hc1 : c ≠ t1) (hq : q ≤ NQUBITS) :
    Sat (world env) (gateCSWAP env q t0 t1 c) s (fun s' e => MOk env s' q e.n ∧ ∀ i < 2 ^ q, ∀ j < 2 ^ q,
      mden s'.mt.mem q e i j = if i = (if j.testBit c then swapBits t0 t1 j else j) then 1 else 0) := by
  refine Sat.mono (makeTwoQubitGate_sat hi h0 h1 h01 hq (cs := [⟨c, false⟩]) (by simp) (by simp [hc0, hc1]) swapMat)
    fun s' e _ _ h => ⟨h.1, fun i hi j hj => ?_⟩
  rw [h.2, gate2_cswap h0 h1 hc h01 hc0 hc1 hi hj]

theorem bsum_perm {n : Nat} {σ τ : Nat → Nat} (hτ : ∀ j < 2 ^ n, τ j < 2 ^ n) {i j : Nat} (hj : j < 2 ^ n) :
    bsum n (fun m => (if i = σ m then (1 : W) else 0) * (if m = τ j then 1 else 0)) = if i = σ (τ j) then 1 else 0 := by
  rw [bsum_eq, Finset.sum_eq_single (τ j)]
  · simp
  · intro b _ hb; simp [hb]
  · intro h; exact (h (Finset.mem_range.2 (hτ j hj))).elim

theorem makeSwap_sat {s : St W} (hi : Inv env s) {q t0 t1 : Nat} (h0 : t0 < q) (h1 : t1 < q)
    (h01 : t0 ≠ t1) (hq : q ≤ NQUBITS) :
    Sat (world env) (makeSwap env q t0 t1) s (fun s' e => MOk env s' q e.n ∧ ∀ i < 2 ^ q, ∀ j < 2 ^ q,
      mden s'.mt.mem q e i j = if i = swapBits t0 t1 j then 1 else 0) := by
  unfold makeSwap
  refine Sat.bind (gateCX_sat hi h1 h0 (Ne.symm h01) hq) fun s1 e1 hi1 he1 r1 => ?_
  refine Sat.bind (gateCX_sat hi1 h0 h1 h01 hq) fun s2 e2 hi2 he2 r2 => ?_
  have o1 := r1.1.ext he2
  refine Sat.bind (mmMul_sat hi2 r2.1.regM o1.regM) fun s3 e3 hi3 he3 r3 => ?_
  have p3 := r3 q (r2.1.ext he3) (o1.ext he3)
  refine Sat.mono (mmMul_sat hi3 (o1.ext he3).regM p3.1.regM) fun s4 e4 hi4 he4 r4 => ?_
  have p4 := r4 q ((o1.ext he3).ext he4) (p3.1.ext he4)
  refine ⟨p4.1, fun i hi' j hj => ?_⟩
  have E1 : ∀ {s'} , SExt env s1 s' → ∀ i < 2 ^ q, ∀ j < 2 ^ q,
      mden s'.mt.mem q e1 i j = if i = cxPerm t1 t0 j then 1 else 0 := fun he i hi j hj => by
    rw [mden_ext hi1 he r1.1, r1.2 i hi j hj]
  have E3 : ∀ i < 2 ^ q, ∀ j < 2 ^ q, mden s3.mt.mem q e3 i j = if i = cxPerm t0 t1 (cxPerm t1 t0 j) then 1 else 0 := by
    intro i hi j hj
    rw [p3.2, ← bsum_perm (W := W) (σ := cxPerm t0 t1) (fun j hj => cxPerm_lt h1 hj) hj]
    refine bsum_congr fun m hm => ?_
    rw [mden_ext hi2 he3 r2.1, r2.2 i hi m hm, E1 (he2.trans env he3) m hm j hj]
  rw [p4.2, ← cx_swap h01, ← bsum_perm (W := W) (σ := cxPerm t1 t0) (τ := fun j => cxPerm t0 t1 (cxPerm t1 t0 j))
    (fun j hj => cxPerm_lt h0 (cxPerm_lt h1 hj)) hj]
  refine bsum_congr fun m hm => ?_
  rw [E1 ((he2.trans env he3).trans env he4) i hi' m hm, mden_ext hi3 he4 p3.1, E3 m hm j hj]

end QDD
