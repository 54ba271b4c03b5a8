import Verif.Safe.MatMul
/-!
# Memory safety without exact arithmetic: initial states, gates, Kronecker products, read-out
-/

set_option linter.unusedSectionVars false
set_option linter.unusedVariables false
set_option linter.unusedSimpArgs false

namespace QDD
namespace Safe
open RoundW Prog
variable {W : Type} [WOps W] [RoundW W] {env : Env W}

/-! ## Initial states -/

theorem basisLoop_sat (one : Bool) : ∀ (n i : Nat) {s : St W} {e : Edge W}, i + n ≤ NQUBITS → VLv env s i e →
    Sat (world env) (basisLoop env one n i e) s (fun s' e => VLv env s' (i + n) e) := by
  intro n
  induction n with
  | zero =>
    intro i s e _ h
    exact Sat.pure fun s' _ he => h.ext he
  | succ n ih =>
    intro i s e hn h
    unfold basisLoop
    have st : Sat (world env) (mkV env i (if one then zeroE else e) (if one then e else zeroE)) s
        (fun s' e => VLv env s' (i + 1) e) := by
      cases one
      · exact mkV_sat (by omega) h (zeroE_vlv s i)
      · exact mkV_sat (by omega) (zeroE_vlv s i) h
    refine Sat.bind st fun s1 e1 hi1 he1 h1 => ?_
    have := ih (i + 1) (by omega) h1
    rwa [show i + 1 + n = i + (n + 1) by omega] at this

theorem makeZeroState_sat {s : St W} {q : Nat} (h0 : 0 < q) (hq : q ≤ NQUBITS) :
    Sat (world env) (makeZeroState env q) s (fun s' e => VLv env s' q e) := by
  unfold makeZeroState
  refine Sat.bind (mkV_sat (k := 0) (by decide) (oneE_vlv s) (zeroE_vlv s 0)) fun s1 e hi1 he1 h1 => ?_
  have := basisLoop_sat false (q - 1) 1 (by omega) h1
  rwa [show 1 + (q - 1) = q by omega] at this

theorem makeOneState_sat {s : St W} {q : Nat} (h0 : 0 < q) (hq : q ≤ NQUBITS) :
    Sat (world env) (makeOneState env q) s (fun s' e => VLv env s' q e) := by
  unfold makeOneState
  refine Sat.bind (mkV_sat (k := 0) (by decide) (zeroE_vlv s 0) (oneE_vlv s)) fun s1 e hi1 he1 h1 => ?_
  have := basisLoop_sat true (q - 1) 1 (by omega) h1
  rwa [show 1 + (q - 1) = q by omega] at this

/-! ## Gates -/

theorem ctlStep_sat {s : St W} {z : Nat} (hz : z < NQUBITS) (rest : List Ctl) (diag : Bool) {e : Edge W}
    (he : MLv env s z e.n) :
    Sat (world env) (ctlStep env z rest diag e) s (fun s' e' => MLv env s' (z + 1) e'.n) := by
  have hid : MLv env s z (if diag = true then (oneE : Edge W) else zeroE).n := by
    split <;> exact .inl rfl
  have h0 : MLv env s z (zeroE : Edge W).n := .inl rfl
  unfold ctlStep
  cases rest with
  | nil => exact mkM_sat hz he h0 h0 he
  | cons c cs =>
    dsimp only
    split
    · split
      · exact mkM_sat hz he h0 h0 hid
      · exact mkM_sat hz hid h0 h0 he
    · exact mkM_sat hz he h0 h0 he

theorem ctlRow_sat {z : Nat} (hz : z < NQUBITS) (rest : List Ctl) : ∀ (idx : List (Nat × Nat)) {s : St W} {E : Grid W},
    idx.Nodup → (∀ p ∈ idx, MLv env s z (E p.1 p.2).n) → 
    Sat (world env) (ctlRow env z rest idx E) s (fun s' E' => (∀ p ∈ idx, MLv env s' (z + 1) (E' p.1 p.2).n) ∧
      ∀ p, p ∉ idx → E' p.1 p.2 = E p.1 p.2) := by
  intro idx
  induction idx with
  | nil => intro s E _ _; exact Sat.pure fun s' _ _ => ⟨fun p h => (by cases h), fun _ _ => rfl⟩
  | cons q idx ih =>
    intro s E hnd h
    obtain ⟨r, c⟩ := q
    unfold ctlRow
    refine Sat.bind (ctlStep_sat hz rest _ (h (r, c) List.mem_cons_self)) fun s1 e hi1 he1 h1 => ?_
    have hd := List.nodup_cons.1 hnd
    refine Sat.mono (ih (E := E.put r c e) hd.2 fun p hp => ?_) fun s2 E' hi2 he2 h2 => ⟨?_, ?_⟩
    · have : p ≠ (r, c) := fun h => hd.1 (h ▸ hp)
      have hput : (E.put r c e) p.1 p.2 = E p.1 p.2 := by
        unfold Grid.put; rw [if_neg (fun h => this (Prod.ext h.1 h.2))]
      rw [hput]
      exact (h p (List.mem_cons_of_mem _ hp)).ext he1
    · intro p hp
      rcases List.mem_cons.1 hp with rfl | hp
      · rw [h2.2 _ hd.1]
        show MLv env s2 (z + 1) ((E.put r c e) r c).n
        unfold Grid.put
        rw [if_pos ⟨rfl, rfl⟩]
        exact h1.ext he2
      · exact h2.1 p hp
    · intro p hp
      rw [h2.2 p fun h => hp (List.mem_cons_of_mem _ h)]
      unfold Grid.put
      rw [if_neg]
      rintro ⟨rfl, rfl⟩
      exact hp List.mem_cons_self

theorem ctlLoop_sat {idx : List (Nat × Nat)} (hnd : idx.Nodup) : ∀ (n z : Nat) (rest : List Ctl) {s : St W} {E : Grid W},
    z + n ≤ NQUBITS → (∀ p ∈ idx, MLv env s z (E p.1 p.2).n) →
    Sat (world env) (ctlLoop env idx n z rest E) s (fun s' x => ∀ p ∈ idx, MLv env s' (z + n) (x.1 p.1 p.2).n) := by
  intro n
  induction n with
  | zero => intro z rest s E _ h; exact Sat.pure fun s' _ he p hp => (h p hp).ext he
  | succ n ih =>
    intro z rest s E hn h
    unfold ctlLoop
    refine Sat.bind (ctlRow_sat (by omega) rest idx hnd h) fun s1 E1 hi1 he1 h1 => ?_
    have := ih (z + 1) (ctlNext z rest) (by omega) h1.1
    rwa [show z + 1 + n = z + (n + 1) by omega] at this

theorem aboveLoop_sat (q z : Nat) (rest : List Ctl) {s : St W} {e : Edge W} (hz : z ≤ q) (hq : q ≤ NQUBITS)
    (he : MLv env s z e.n) :
    Sat (world env) (aboveLoop env q z rest e) s (fun s' e' => MLv env s' q e'.n) := by
  unfold aboveLoop
  refine Sat.bind (ctlLoop_sat (idx := [(0, 0)]) (by simp) (q - z) z rest (E := fun _ _ => e) (by omega)
    (fun _ _ => he)) fun s1 x hi1 he1 h1 => ?_
  obtain ⟨E, cs⟩ := x
  refine Sat.pure fun s' _ he' => ?_
  have := (h1 (0, 0) (by simp)).ext he'
  rwa [show z + (q - z) = q by omega] at this

theorem idx2_nodup : idx2.Nodup := by decide
theorem idx4_nodup : idx4.Nodup := by decide

theorem makeGate_sat {s : St W} {q : Nat} (g : Nat → Nat → W) {t : Nat} (cs : List Ctl) (ht : t < q) (hq : q ≤ NQUBITS) :
    Sat (world env) (makeGate env q g t cs) s (fun s' e => MLv env s' q e.n) := by
  unfold makeGate
  refine Sat.bind (ctlLoop_sat idx2_nodup t 0 cs (E := fun r c => ⟨g r c, none⟩) (by omega)
    (fun _ _ => .inl rfl)) fun s1 x hi1 he1 h1 => ?_
  obtain ⟨E, cs'⟩ := x
  rw [Nat.zero_add] at h1
  have h : ∀ r c, (r, c) ∈ idx2 → MLv env s1 t (E r c).n := fun r c hp => h1 (r, c) hp
  refine Sat.bind (mkM_sat (by omega) (h 0 0 (by decide)) (h 0 1 (by decide)) (h 1 0 (by decide)) (h 1 1 (by decide)))
    fun s2 e hi2 he2 h2 => ?_
  exact aboveLoop_sat q (t + 1) cs' (by omega) hq h2

theorem mem_idx4 {r c : Nat} (hr : r < 4) (hc : c < 4) : (r, c) ∈ idx4 := by
  unfold idx4
  simp only [List.mem_flatMap, List.mem_range, List.mem_map, Prod.mk.injEq]
  exact ⟨r, hr, c, hc, rfl, rfl⟩

theorem sub4_lv {s : St W} {k t0 t1 : Nat} {E : Grid W} (h : ∀ p ∈ idx4, MLv env s k (E p.1 p.2).n) {a b i j : Nat}
    (ha : a < 2) (hb : b < 2) (hi : i < 2) (hj : j < 2) : MLv env s k (sub4 t0 t1 E a b i j).n := by
  unfold sub4
  split
  · exact h (a * 2 + i, b * 2 + j) (mem_idx4 (by omega) (by omega))
  · exact h (i * 2 + a, j * 2 + b) (mem_idx4 (by omega) (by omega))

theorem makeTwoQubitGate_sat {s : St W} {q : Nat} (g : Nat → Nat → W) {t0 t1 : Nat} (cs : List Ctl) (h0 : t0 < q)
    (h1 : t1 < q) (hne : t0 ≠ t1) (hq : q ≤ NQUBITS) :
    Sat (world env) (makeTwoQubitGate env q g t0 t1 cs) s (fun s' e => MLv env s' q e.n) := by
  unfold makeTwoQubitGate
  refine Sat.bind (ctlLoop_sat idx4_nodup (min t0 t1) 0 cs (E := fun r c => ⟨g r c, none⟩) (by omega)
    (fun _ _ => .inl rfl)) fun s1 x hi1 he1 hE => ?_
  obtain ⟨E, cs1⟩ := x
  rw [Nat.zero_add] at hE
  dsimp only at hE ⊢
  have sub : ∀ {s' : St W}, Grow env s1 s' → ∀ a b, a < 2 → b < 2 →
      Sat (world env) (sub4Edge env t0 t1 E a b) s' (fun s' e => MLv env s' (min t0 t1 + 1) e.n) := by
    intro s' he a b ha hb
    have hE' : ∀ p ∈ idx4, MLv env s' (min t0 t1) (E p.1 p.2).n := fun p hp => (hE p hp).ext he
    exact mkM_sat (by omega) (sub4_lv hE' ha hb (by omega) (by omega)) (sub4_lv hE' ha hb (by omega) (by omega))
      (sub4_lv hE' ha hb (by omega) (by omega)) (sub4_lv hE' ha hb (by omega) (by omega))
  refine Sat.bind (sub (Grow.refl env s1) 0 0 (by omega) (by omega)) fun s2 e00 hi2 he2 g00 => ?_
  refine Sat.bind (sub he2 0 1 (by omega) (by omega)) fun s3 e01 hi3 he3 g01 => ?_
  refine Sat.bind (sub (he2.trans he3) 1 0 (by omega) (by omega)) fun s4 e10 hi4 he4 g10 => ?_
  refine Sat.bind (sub ((he2.trans he3).trans he4) 1 1 (by omega) (by omega)) fun s5 e11 hi5 he5 g11 => ?_
  have k00 := g00.ext ((Grow.trans he3 he4).trans he5)
  have k01 := g01.ext (Grow.trans he4 he5)
  have k10 := g10.ext he5
  refine Sat.bind (ctlLoop_sat idx2_nodup (max t0 t1 - (min t0 t1 + 1)) (min t0 t1 + 1) cs1 (by omega) ?_)
    fun s6 x hi6 he6 hE2 => ?_
  · intro p _
    split <;> split <;> assumption
  obtain ⟨E2, cs2⟩ := x
  rw [show min t0 t1 + 1 + (max t0 t1 - (min t0 t1 + 1)) = max t0 t1 by omega] at hE2
  dsimp only at hE2 ⊢
  rw [show max (max t0 t1) (min t0 t1 + 1) = max t0 t1 by omega]
  have h : ∀ r c, (r, c) ∈ idx2 → MLv env s6 (max t0 t1) (E2 r c).n := fun r c hp => hE2 (r, c) hp
  refine Sat.bind (mkM_sat (by omega) (h 0 0 (by decide)) (h 0 1 (by decide)) (h 1 0 (by decide)) (h 1 1 (by decide)))
    fun s7 e hi7 he7 h7 => ?_
  exact aboveLoop_sat q (max t0 t1 + 1) cs2 (by omega) hq h7

theorem makeSwap_run {s : St W} {q t0 t1 : Nat} (hi : Inv env s) (h0 : t0 < q) (h1 : t1 < q) (hq : q ≤ NQUBITS) :
    Runs (makeSwap env q t0 t1) s fun e s' => Inv env s' ∧ Grow env s s' ∧ MLv env s' q e.n := by
  unfold makeSwap
  refine Runs.bind ((makeGate_sat xmat [⟨t0, false⟩] h1 hq).runs hi) fun e1 s1 _ ⟨hi1, he1, m1⟩ => ?_
  refine Runs.bind ((makeGate_sat xmat [⟨t1, false⟩] h0 hq).runs hi1) fun e2 s2 _ ⟨hi2, he2, m2⟩ => ?_
  have m1 := m1.ext he2
  refine Runs.bind (mmMul_run hi2 m2.reg m1.reg) fun e3 s3 _ ⟨hi3, he3, c3⟩ => ?_
  have m3 := c3 q (m2.ext he3) (m1.ext he3)
  have m1 := m1.ext he3
  refine Runs.mono (mmMul_run hi3 m1.reg m3.reg) fun e4 s4 ⟨hi4, he4, c4⟩ => ?_
  exact ⟨hi4, (Grow.trans (Grow.trans he1 he2) he3).trans he4, c4 q (m1.ext he4) (m3.ext he4)⟩

/-! ## Kronecker products -/

theorem vvKron2_sat {k2 : Nat} {r : Edge W} : ∀ {k : Nat} {l : Edge W} {s : St W}, k + k2 ≤ NQUBITS → 0 < k2 →
    Inv env s → VPtr env s k2 r.n → VLv env s k l →
    Sat (world env) (vvKron2 env k l r) s (fun s' e => VLv0 env s' (k + k2) e ∧ (l.n ≠ none → VLv env s' (k + k2) e)) := by
  intro k
  induction k with
  | zero =>
    intro l s hk hk2 hi hr hl
    have hn : l.n = none := hl.term hi
    unfold vvKron2
    rw [if_pos hn]
    refine Sat.pure fun s' hi' he => ⟨?_, fun h => (h hn).elim⟩
    rw [Nat.zero_add]
    exact .inl (hr.ext he)
  | succ k ih =>
    intro l s hk hk2 hi hr hl
    unfold vvKron2
    by_cases hn : l.n = none
    · rw [if_pos hn]
      have hw : Z l.w := by
        rcases hl with (⟨h, _⟩ | ⟨p, nd, h1, h2, h3⟩) | ⟨h, _⟩
        · cases h
        · rw [hn] at h1; cases h1
        · exact h
      exact Sat.pure fun s' hi' he => ⟨.inr (z_mul_left _ hw), fun h => (h hn).elim⟩
    · rw [if_neg hn]
      have hrn : r.n ≠ none := by
        rcases hr with ⟨h, _⟩ | ⟨p, nd, h1, _⟩
        · omega
        · rw [h1]; simp
      rw [if_neg hrn]
      obtain ⟨p, nd, hp, hreg, hlev⟩ : ∃ p nd, l.n = some p ∧ UTable.Reg env.hv s.vt p nd ∧ nd.v + 1 = ((k + 1 : Nat) : Int) := by
        rcases hl with (⟨h, _⟩ | h) | ⟨_, h⟩
        · cases h
        · exact h
        · exact (hn h).elim
      have hv : nd.v = (k : Int) := by push_cast at hlev; omega
      rw [hp]
      obtain ⟨q, nq, hq, hreg2, hlev2⟩ : ∃ p nd, r.n = some p ∧ UTable.Reg env.hv s.vt p nd ∧ nd.v + 1 = (k2 : Int) := by
        rcases hr with ⟨h, _⟩ | h
        · omega
        · exact h
      refine Sat.bind (readV_sat hreg) fun s1 x hi1 he1 hx => ?_
      subst hx
      rw [hq]
      refine Sat.bind (readV_sat (he1.1 _ _ hreg2)) fun s2 y hi2 he2 hy => ?_
      subst hy
      have hch : ∀ b, VLv env s2 k ⟨WOps.mul l.w (x.child b).w, (x.child b).n⟩ := fun b =>
        (((hi.vchild hreg b hv).ext he1).ext he2).mulL _
      refine Sat.bind (ih (by omega) hk2 hi2 ((hr.ext he1).ext he2) (hch false)) fun s3 e0 hi3 he3 h3 => ?_
      refine Sat.bind (ih (by omega) hk2 hi3 (((hr.ext he1).ext he2).ext he3) ((hch true).ext he3))
        fun s4 e1 hi4 he4 h4 => ?_
      have hlev3 : x.v + y.v + 1 = ((k + k2 : Nat) : Int) := by push_cast; omega
      rw [hlev3]
      refine Sat.mono (mkV_sat0 (by omega) (h3.1.ext he4) h4.1) fun s5 e hi5 he5 h5 => ?_
      have heq : k + k2 + 1 = k + 1 + k2 := by omega
      rw [heq] at h5
      exact ⟨h5.lv0, fun _ => h5⟩

theorem vvKron_sat {s : St W} {k k2 : Nat} {l r : Edge W} (hi : Inv env s) (hk : k + k2 ≤ NQUBITS)
    (hl : VLv env s k l) (hr : VLv env s k2 r) (hln : l.n ≠ none) (hrn : r.n ≠ none) :
    Sat (world env) (vvKron env l r) s (fun s' e => VLv env s' (k + k2) e) := by
  have node : ∀ {k : Nat} {e : Edge W}, VLv env s k e → e.n ≠ none →
      0 < k ∧ ∃ p nd, e.n = some p ∧ UTable.Reg env.hv s.vt p nd ∧ nd.v + 1 = (k : Int) := by
    intro k e h hn
    rcases h with (⟨_, h⟩ | ⟨p, nd, h1, h2, h3⟩) | ⟨_, h⟩
    · exact (hn h).elim
    · obtain ⟨m, hm, _⟩ := hi.vlevel h2
      exact ⟨by omega, p, nd, h1, h2, h3⟩
    · exact (hn h).elim
  obtain ⟨hk0, p, nd, hp, hreg, hlev⟩ := node hl hln
  obtain ⟨hk2, q, nq, hq, hreg2, hlev2⟩ := node hr hrn
  unfold vvKron
  rw [if_neg (fun h => hln h.1), hp]
  refine Sat.bind (readV_sat hreg) fun s1 x hi1 he1 hx => ?_
  subst hx
  have hlev' : (x.v + 1).toNat = k := by omega
  rw [hlev']
  refine Sat.mono (vvKron2_sat hk hk2 hi1 (VPtr.ext (.inr ⟨q, nq, hq, hreg2, hlev2⟩) he1) (hl.ext he1))
    fun s2 e hi2 he2 h => h.2 hln

theorem mmKron2_sat {k2 : Nat} {r : Edge W} : ∀ {k : Nat} {l : Edge W} {s : St W}, k + k2 ≤ NQUBITS →
    Inv env s → MReg env s r.n → (∀ s', Grow env s s' → ∀ nd, ReadM env s' r.n nd → nd.v + 1 = (k2 : Int)) →
    MLv env s k l.n →
    Sat (world env) (mmKron2 env k l r) s (fun s' e => ∀ n, MLv env s' n l.n → MLv env s' (n + k2) e.n) := by
  intro k
  have term : ∀ {l : Edge W} {s : St W}, Inv env s → MReg env s r.n → 
      (∀ nd, ReadM env s r.n nd → nd.v + 1 = (k2 : Int)) → MLv env s k2 r.n := by
    intro l s hi hr hrv
    rcases hr with h | ⟨p, nd, h1, h2⟩
    · exact .inl h
    · have := hrv nd (.inr ⟨p, h1, h2⟩)
      exact .inr ⟨p, nd, h1, h2, by omega⟩
  induction k with
  | zero =>
    intro l s hk hi hr hrv hl
    unfold mmKron2
    rw [if_pos (hl.term hi)]
    exact Sat.pure fun s' hi' he n hn => (term (l := l) hi' (hr.ext he) (hrv s' he)).mono (by omega)
  | succ k ih =>
    intro l s hk hi hr hrv hl
    unfold mmKron2
    by_cases hn : l.n = none
    · rw [if_pos hn]
      exact Sat.pure fun s' hi' he n hn => (term (l := l) hi' (hr.ext he) (hrv s' he)).mono (by omega)
    rw [if_neg hn]
    obtain ⟨p, nd, hp, hreg, hlev⟩ : ∃ p nd, l.n = some p ∧ UTable.Reg env.hm s.mt p nd ∧ nd.v < ((k + 1 : Nat) : Int) :=
      hl.resolve_left hn
    obtain ⟨v, hv, _⟩ := hi.mlevel hreg
    have hvk : v ≤ k := by push_cast at hlev; omega
    rw [hp]
    refine Sat.bind (readM_sat hreg) fun s1 x hi1 he1 hx => ?_
    subst hx
    refine Sat.bind (readM_sat' (hr.ext he1)) fun s2 y hi2 he2 hy => ?_
    have hyv : y.v + 1 = (k2 : Int) := hrv s2 (Grow.trans he1 he2) y hy
    have hch : ∀ a b {s'}, Grow env s2 s' → MLv env s' v (x.child a b).n := fun a b s' he =>
      (((hi.mchild hreg a b hv).ext he1).ext he2).ext he
    have hrec : ∀ a b {s' : St W}, Inv env s' → Grow env s2 s' →
        Sat (world env) (mmKron2 env k ⟨WOps.mul l.w (x.child a b).w, (x.child a b).n⟩ r) s'
          (fun s'' e => MLv env s'' (v + k2) e.n) := by
      intro a b s' hi' he'
      have hg : Grow env s s' := (Grow.trans he1 he2).trans he'
      refine Sat.mono (ih (by omega) hi' (hr.ext hg) (fun s'' h => hrv s'' (hg.trans h))
        ((hch a b he').mono hvk)) fun s3 e hi3 he3 h => h v (hch a b (he'.trans he3))
    have hlev3 : x.v + y.v + 1 = ((v + k2 : Nat) : Int) := by push_cast; omega
    rw [hlev3]
    refine Sat.bind (hrec false false hi2 (Grow.refl env s2)) fun s3 e0 hi3 he3 h3 => ?_
    refine Sat.bind (hrec false true hi3 he3) fun s4 e1 hi4 he4 h4 => ?_
    refine Sat.bind (hrec true false hi4 (Grow.trans he3 he4)) fun s5 e2 hi5 he5 h5 => ?_
    refine Sat.bind (hrec true true hi5 ((Grow.trans he3 he4).trans he5)) fun s6 e3 hi6 he6 h6 => ?_
    refine Sat.mono (mkM_sat (by omega) (((h3.ext he4).ext he5).ext he6) ((h4.ext he5).ext he6) (h5.ext he6) h6)
      fun s7 e hi7 he7 h7 n hnn => h7.mono ?_
    have hreg7 := ((((((Grow.trans he1 he2).trans he3).trans he4).trans he5).trans he6).trans he7).2 _ _ hreg
    rcases hnn with h | ⟨p', nd', e', h1, h2⟩
    · cases h
    · cases e'
      rw [reg_fun h1 hreg7] at h2; omega

theorem mmKron_sat {s : St W} {k k2 : Nat} {l r : Edge W} (hi : Inv env s) (hk : k + k2 ≤ NQUBITS)
    (hl : MLv env s k l.n) (hr : MLv env s k2 r.n) :
    Sat (world env) (mmKron env l r) s (fun s' e => MLv env s' (k + k2) e.n) := by
  unfold mmKron
  by_cases hn : l.n = none ∧ r.n = none
  · rw [if_pos hn]
    exact Sat.pure fun s' _ _ => .inl rfl
  rw [if_neg hn]
  -- the exact level of the right operand
  obtain ⟨m, hm, hm2⟩ : ∃ m : Nat, m ≤ k2 ∧ ∀ s', Grow env s s' → ∀ nd, ReadM env s' r.n nd → nd.v + 1 = (m : Int) := by
    rcases hr with h | ⟨p, nd, h1, h2, h3⟩
    · refine ⟨0, Nat.zero_le _, fun s' he nd hnd => ?_⟩
      rcases hnd with ⟨_, h'⟩ | ⟨q, hq, _⟩
      · rw [h']; rfl
      · rw [h] at hq; cases hq
    · obtain ⟨v, hv, _⟩ := hi.mlevel h2
      refine ⟨v + 1, by omega, fun s' he nd' hnd => ?_⟩
      rcases hnd with ⟨h', _⟩ | ⟨q, hq, h'⟩
      · rw [h1] at h'; cases h'
      · rw [h1] at hq; cases hq
        rw [reg_fun h' (he.2 _ _ h2)]; push_cast; omega
  refine Sat.bind (readM_sat' hl.reg) fun s1 x hi1 he1 hx => ?_
  have hlv : MLv env s1 (x.v + 1).toNat l.n ∧ (x.v + 1).toNat ≤ k := by
    rcases hx with ⟨h, h'⟩ | ⟨p, hp, h'⟩
    · exact ⟨.inl h, by omega⟩
    · obtain ⟨v, hv, _⟩ := hi1.mlevel h'
      refine ⟨.inr ⟨p, x, hp, h', by omega⟩, ?_⟩
      rcases hl with h | ⟨p', nd, hp', h2, h3⟩
      · rw [hp] at h; cases h
      · rw [hp] at hp'; cases hp'
        rw [reg_fun h' (he1.2 _ _ h2)]; omega
  refine Sat.mono (mmKron2_sat (k2 := m) (by omega) hi1 (hr.reg.ext he1) (fun s' h => hm2 s' (Grow.trans he1 h)) hlv.1)
    fun s2 e hi2 he2 h => (h k ((hl.ext he1).ext he2)).mono (by omega)

/-! ## Read-out -/

theorem putAll_ok (row n l : Nat) (w : W) (hn : n ≤ 2 ^ l) (a : Arr W) (ha : row * 2 ^ l + 2 ^ l ≤ a.dim) :
    ∃ a', a.putAll (row <<< l) w n = .ok a' ∧ a'.dim = a.dim := by
  induction n with
  | zero => exact ⟨a, rfl, rfl⟩
  | succ n ih =>
    obtain ⟨a1, h1, h2⟩ := ih (by omega)
    have hor : row <<< l ||| n = row * 2 ^ l + n := by
      rw [← Nat.shiftLeft_add_eq_or_of_lt (by omega), Nat.shiftLeft_eq]
    refine ⟨⟨a1.dim, upd a1.cell (row * 2 ^ l + n) (some w)⟩, ?_, h2⟩
    simp only [Arr.putAll, h1, hor, Arr.put]
    rw [if_pos (by omega)]

theorem fillV_ok {s : St W} (hi : Inv env s) : ∀ {l : Nat} {e : Edge W}, VLv env s l e → ∀ row w (a : Arr W),
    row * 2 ^ l + 2 ^ l ≤ a.dim → ∃ a', fillV s.vt.mem l e row w a = .ok a' ∧ a'.dim = a.dim := by
  intro l
  induction l with
  | zero =>
    intro e h row w a ha
    simp only [Nat.pow_zero, Nat.mul_one] at ha ⊢
    refine ⟨⟨a.dim, upd a.cell row (some (WOps.mul e.w w))⟩, ?_, rfl⟩
    simp only [fillV, h.term hi, Arr.put]
    rw [if_pos (by omega)]
  | succ l ih =>
    intro e h row w a ha
    have hp : 2 ^ (l + 1) = 2 ^ l + 2 ^ l := by rw [Nat.pow_succ]; omega
    have hpos : 0 < 2 ^ l := Nat.two_pow_pos l
    rcases h with (⟨h, _⟩ | ⟨p, nd, hn, h2, h3⟩) | ⟨hw, hn⟩
    · cases h
    · have hv : nd.v = (l : Int) := by push_cast at h3; omega
      have r0 : (row <<< 1 ||| 0) * 2 ^ l = row * 2 ^ (l + 1) := by
        rw [Nat.or_zero, Nat.shiftLeft_eq, Nat.pow_one, Nat.mul_assoc, ← Nat.pow_succ']
      have r1 : (row <<< 1 ||| 1) * 2 ^ l = row * 2 ^ (l + 1) + 2 ^ l := by
        rw [← Nat.shiftLeft_add_eq_or_of_lt (by decide), Nat.shiftLeft_eq, Nat.pow_one, Nat.add_mul,
          Nat.mul_assoc, ← Nat.pow_succ', Nat.one_mul]
      obtain ⟨a1, f1, d1⟩ := ih (e := nd.c0) (hi.vchild h2 false hv) (row <<< 1 ||| 0) (WOps.mul e.w w) a
        (by rw [r0]; omega)
      obtain ⟨a2, f2, d2⟩ := ih (e := nd.c1) (hi.vchild h2 true hv) (row <<< 1 ||| 1) (WOps.mul e.w w) a1
        (by rw [r1, d1]; omega)
      refine ⟨a2, ?_, d2.trans d1⟩
      simp only [fillV, hn, h2.1, f1, f2]
    · obtain ⟨a', f, d⟩ := putAll_ok row (2 ^ (l + 1)) (l + 1) (WOps.mul e.w w) (Nat.le_refl _) a ha
      exact ⟨a', by simp only [fillV, hn, f], d⟩

/-- `getVector` of a non-terminal edge reads only live nodes and writes only inside the array. -/
theorem getVector_ok {s : St W} (hi : Inv env s) {k : Nat} (hk : k ≤ 30) {e : Edge W} (h : VLv env s k e)
    (hn : e.n ≠ none) : ∃ a, getVector s e = .ok a ∧ a.dim = 2 ^ k := by
  have hok := h
  rcases h with (⟨_, h⟩ | ⟨p, nd, hp, h2, h3⟩) | ⟨_, h⟩
  · exact (hn h).elim
  · have hv : (nd.v + 1).toNat = k := by omega
    obtain ⟨a, f, d⟩ := fillV_ok hi hok 0 WOps.one (Arr.new (2 ^ k)) (by simp [Arr.new])
    refine ⟨a, ?_, d⟩
    unfold getVector
    simp only [hp, h2.1, hv]
    rw [if_neg (by omega)]
    exact f
  · exact (hn h).elim

theorem MLv.split {s : St W} {k : Nat} {n} (h : MLv env s (k + 1) n) :
    (∃ p nd, n = some p ∧ UTable.Reg env.hm s.mt p nd ∧ nd.v = (k : Int)) ∨
    (MLv env s k n ∧ ∀ v, evar s.mt.mem n = .ok v → -1 ≤ v → v < k) := by
  rcases h with rfl | ⟨p, nd, rfl, h2, h3⟩
  · exact .inr ⟨.inl rfl, fun v hv _ => by cases hv; omega⟩
  · by_cases hv : nd.v = (k : Int)
    · exact .inl ⟨p, nd, rfl, h2, hv⟩
    · have : nd.v < (k : Int) := by push_cast at h3; omega
      exact .inr ⟨.inr ⟨p, nd, rfl, h2, this⟩, fun v hv' _ => by simp [evar, h2.1] at hv'; omega⟩

theorem fillM_ok {s : St W} (hi : Inv env s) : ∀ {l : Nat} {e : Edge W}, MLv env s l e.n → ∀ row col w (a : Arr2 W),
    row + 2 ^ l ≤ a.dim → col + 2 ^ l ≤ a.dim →
    ∃ a', fillM s.mt.mem l e row col w a = .ok a' ∧ a'.dim = a.dim := by
  intro l
  induction l with
  | zero =>
    intro e h row col w a ha hb
    simp only [Nat.pow_zero] at ha hb ⊢
    refine ⟨⟨a.dim, fun x y => if x = row ∧ y = col then some (WOps.mul e.w w) else a.cell x y⟩, ?_, rfl⟩
    simp only [fillM, h.term hi, Arr2.put]
    rw [if_pos (by omega)]
  | succ l ih =>
    intro e h row col w a ha hb
    have hp : 2 ^ (l + 1) = 2 ^ l + 2 ^ l := by rw [Nat.pow_succ]; omega
    have hpos : 0 < 2 ^ l := Nat.two_pow_pos l
    obtain ⟨v, hv, hv1, _, hv3, hv4⟩ := h.reg.evar hi
    have four : ∀ (c : Bool → Bool → Edge W) (ww : Bool → Bool → W), (∀ r q, MLv env s l (c r q).n) →
        ∃ a', (match fillM s.mt.mem l (c false false) row col (ww false false) a with
            | .error er => Except.error er
            | .ok a => match fillM s.mt.mem l (c false true) row (col + 2 ^ l) (ww false true) a with
              | .error er => Except.error er
              | .ok a => match fillM s.mt.mem l (c true false) (row + 2 ^ l) col (ww true false) a with
                | .error er => Except.error er
                | .ok a => fillM s.mt.mem l (c true true) (row + 2 ^ l) (col + 2 ^ l) (ww true true) a) = .ok a' ∧
          a'.dim = a.dim := by
      intro c ww hc
      obtain ⟨a1, f1, d1⟩ := ih (hc false false) row col (ww false false) a (by rw [hp] at ha; omega) (by rw [hp] at hb; omega)
      obtain ⟨a2, f2, d2⟩ := ih (hc false true) row (col + 2 ^ l) (ww false true) a1 (by rw [d1]; omega) (by rw [d1]; omega)
      obtain ⟨a3, f3, d3⟩ := ih (hc true false) (row + 2 ^ l) col (ww true false) a2 (by rw [d2, d1]; omega) (by rw [d2, d1]; omega)
      obtain ⟨a4, f4, d4⟩ := ih (hc true true) (row + 2 ^ l) (col + 2 ^ l) (ww true true) a3 (by rw [d3, d2, d1]; omega) (by rw [d3, d2, d1]; omega)
      exact ⟨a4, by simp only [f1, f2, f3, f4], by omega⟩
    rcases h.split with ⟨p, nd, hn, h2, h3⟩ | ⟨hok, hlt⟩
    · have hvv : v = nd.v := by
        rw [hn] at hv; simp [evar, h2.1] at hv; exact hv.symm
      obtain ⟨a', f, d⟩ := four (fun r q => nd.child r q) (fun _ _ => WOps.mul e.w w)
        (fun r q => hi.mchild h2 r q h3)
      refine ⟨a', ?_, d⟩
      simp only [fillM, hv]
      rw [if_pos (by push_cast; omega)]
      simp only [hn, h2.1]
      exact f
    · have hvv : ¬ (v + 1 = ((l + 1 : Nat) : Int)) := by
        have := hlt v hv hv1
        push_cast; omega
      obtain ⟨a', f, d⟩ := four (fun _ _ => e) (fun r q => if r = q then w else WOps.zero) (fun _ _ => hok)
      refine ⟨a', ?_, d⟩
      simp only [fillM, hv]
      rw [if_neg hvv]
      simp only [if_true, if_false, reduceCtorEq] at f
      exact f

/-- `getMatrix` reads only live nodes and writes only inside the array. -/
theorem getMatrix_ok {s : St W} (hi : Inv env s) {k : Nat} (hk : k ≤ 30) {e : Edge W} (h : MLv env s k e.n) :
    ∃ a, getMatrix s e k = .ok a ∧ a.dim = 2 ^ k := by
  obtain ⟨a, f, d⟩ := fillM_ok hi h 0 0 WOps.one (Arr2.new (2 ^ k)) (by simp [Arr2.new]) (by simp [Arr2.new])
  refine ⟨a, ?_, d⟩
  unfold getMatrix
  rw [if_neg (by omega)]
  exact f

end Safe
end QDD
