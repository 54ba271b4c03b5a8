import Verif.Num.MeasAll
import Verif.Core.DetProbs
/-!
# Numerical accuracy of `determineMeasurementProbabilities`
-/

set_option linter.unusedSectionVars false
set_option linter.unusedVariables false
set_option linter.unusedSimpArgs false

namespace QDD.Num
open RoundW NumW Prog Safe

variable {R W : Type} [WOps W] [RoundW W] [NumW W] [ROps R W] [RoundR R W] [NumR R W] {env : Env W}
local notation "ρ" => NumR.rv (R := R) (W := W)
local notation "ν" => nu R W
local notation "μ" => NumR.u R W
local notation "η" => NumR.eta R W

/-- Mass of the queue for a weighting of the basis states. -/
noncomputable def qm (mem : Nat → Option (VNode W)) (pm : Option Nat → R) (φ : Nat → ℝ) (q : List (Option Nat)) : ℝ :=
  (q.map fun n => ρ (pm n) * ws mem (Safe.qlv mem n) n φ).sum

/-- Weightings between zero and one. -/
def W01 (φ : Nat → ℝ) : Prop := ∀ i, 0 ≤ φ i ∧ φ i ≤ 1

theorem ws_le {s : St W} (hi : NInv env s) {k n} (hk : k ≤ NQUBITS) (h : VPtr env s k n) {φ : Nat → ℝ} (hφ : W01 φ) :
    ws s.vt.mem k n φ ≤ 2 ^ 101 := by
  have h1 : ws s.vt.mem k n φ ≤ nsq s.vt.mem k n := by
    unfold nsq ws
    exact bsum_le k fun i _ => mul_le_mul_of_nonneg_right (hφ i).2 (sq_nonneg _)
  refine h1.trans ((nsq_le hi hk (.inl h)).trans ?_)
  exact pow_le_pow_right₀ (by norm_num) (by unfold NQUBITS at hk; omega)

theorem qm_nn {mem : Nat → Option (VNode W)} {pm : Option Nat → R} {φ : Nat → ℝ} (hφ : W01 φ) : ∀ {q : List (Option Nat)},
    (∀ n, 0 ≤ ρ (pm n)) → 0 ≤ qm mem pm φ q
  | [], _ => le_rfl
  | a :: q, h => by
    simp only [qm, List.map_cons, List.sum_cons]
    exact add_nonneg (mul_nonneg (h a) (ws_nonneg fun i => (hφ i).1)) (qm_nn (q := q) hφ h)

theorem qm_cons (mem : Nat → Option (VNode W)) (pm : Option Nat → R) (φ : Nat → ℝ) (n q) :
    qm mem pm φ (n :: q) = ρ (pm n) * ws mem (Safe.qlv mem n) n φ + qm mem pm φ q := rfl

theorem qm_app (mem : Nat → Option (VNode W)) (pm : Option Nat → R) (φ : Nat → ℝ) (n q) :
    qm mem pm φ (q ++ [n]) = qm mem pm φ q + ρ (pm n) * ws mem (Safe.qlv mem n) n φ := by
  simp [qm]

theorem qm_upd_notin {mem : Nat → Option (VNode W)} {pm : Option Nat → R} {φ : Nat → ℝ} {c x} :
    ∀ {q : List (Option Nat)}, c ∉ q → qm mem (upd pm c x) φ q = qm mem pm φ q
  | [], _ => rfl
  | a :: q, h => by
    simp only [List.mem_cons, not_or] at h
    rw [qm_cons, qm_cons, upd_ne _ _ _ (fun e => h.1 e.symm), qm_upd_notin h.2]

/-- Replacing one entry. -/
theorem qm_upd_in {mem : Nat → Option (VNode W)} {pm : Option Nat → R} {φ : Nat → ℝ} {c : Option Nat} :
    ∀ {q : List (Option Nat)}, c ∈ q → q.Nodup →
      ∃ r, (∀ y, qm mem (upd pm c y) φ q = r + ρ y * ws mem (Safe.qlv mem c) c φ) ∧
        qm mem pm φ q = r + ρ (pm c) * ws mem (Safe.qlv mem c) c φ
  | a :: q, h, hd => by
    rw [List.nodup_cons] at hd
    by_cases e : a = c
    · subst e
      refine ⟨qm mem pm φ q, fun y => ?_, by rw [qm_cons]; ring⟩
      rw [qm_cons, upd_same, qm_upd_notin hd.1]; ring
    · have hq : c ∈ q := by
        rcases List.mem_cons.1 h with h | h
        · exact absurd h.symm e
        · exact h
      obtain ⟨r, h1, h2⟩ := qm_upd_in (mem := mem) (pm := pm) (φ := φ) hq hd.2
      refine ⟨r + ρ (pm a) * ws mem (Safe.qlv mem a) a φ, fun y => ?_, ?_⟩
      · rw [qm_cons, upd_ne _ _ _ e, h1]; ring
      · rw [qm_cons, h2]; ring

theorem eta_nn' : 0 ≤ η := NumR.eta_nn

/-- The mass passed to one child. -/
theorem pass_ap {w : W} {x : R} (hz : WOps.az w = false) (hx : 0 ≤ ρ x) :
    0 ≤ ρ (ROps.mul W x (ROps.mag2 w)) ∧ Ap ν 2 η (ρ (ROps.mul W x (ROps.mag2 w))) (ρ x * ‖val w‖ ^ 2) := by
  have hm := NumR.mag2_nn (R := R) w
  have hv := nu_nn R W
  refine ⟨NumR.mul_nn hx hm, ?_⟩
  have h1 := (mul_ap hx hm).trans hv eta_nn' (by simp) ((mag2_ap' (R := R) hz).smul hx)
  rw [mul_zero, _root_.add_zero] at h1
  exact h1

theorem bfsChild_num {s : St W} (hi : NInv env s) {root index L} {b : Bfs R} (hb : Safe.Mid env s root index L b) (hd : b.q.Nodup)
    (hnn : ∀ n, 0 ≤ ρ (b.pm n)) {c : Edge W} (hc : VLv env s L c) (hcz : WOps.az c.w = true → val c.w = 0) (hL : L ≤ NQUBITS)
    {prob : R} (hp0 : 0 ≤ ρ prob) :
    (Fl.bfsChild c prob b).q.Nodup ∧ (∀ n, 0 ≤ ρ ((Fl.bfsChild c prob b).pm n)) ∧
    ∀ φ, W01 φ → Ap ν 3 (2 * η * 2 ^ 101) (qm s.vt.mem (Fl.bfsChild c prob b).pm φ (Fl.bfsChild c prob b).q)
      (qm s.vt.mem b.pm φ b.q + ρ prob * (‖val c.w‖ ^ 2 * ws s.vt.mem L c.n φ)) := by
  have hv := nu_nn R W
  have hη : 0 ≤ η := eta_nn'
  unfold Fl.bfsChild
  by_cases hz : WOps.az c.w = true
  · rw [if_pos hz]
    refine ⟨hd, hnn, fun φ hφ => ?_⟩
    have h0 := qm_nn (mem := s.vt.mem) (pm := b.pm) hφ (q := b.q) hnn
    rw [hcz hz, norm_zero]
    simp only [ne_eq, OfNat.ofNat_ne_zero, not_false_eq_true, zero_pow, zero_mul, mul_zero, _root_.add_zero]
    exact (Ap.refl hv h0).mono hv h0 h0 le_rfl (by omega) (by positivity)
  · rw [if_neg hz]
    have hp : VPtr env s L c.n := hc.ptr hz
    have hl := Safe.qlv_eq hp
    obtain ⟨t0, t1⟩ := pass_ap (R := R) (Bool.not_eq_true _ ▸ hz : WOps.az c.w = false) hp0
    dsimp only
    generalize ROps.mul W prob (ROps.mag2 c.w) = tmp at *
    by_cases hvis : c.n ∈ b.visited
    · rw [if_pos hvis]
      have hq : c.n ∈ b.q := by
        by_contra h
        have := hb.vis _ hvis h
        omega
      have ha := NumR.add_nn (W := W) (hnn c.n) t0
      refine ⟨hd, fun n => ?_, fun φ hφ => ?_⟩
      · dsimp only
        by_cases hn : n = c.n
        · rw [hn, upd_same]; exact ha
        · rw [upd_ne _ _ _ hn]; exact hnn n
      · obtain ⟨r, r1, r2⟩ := qm_upd_in (mem := s.vt.mem) (pm := b.pm) (φ := φ) hq hd
        have hw0 : 0 ≤ ws s.vt.mem L c.n φ := ws_nonneg fun i => (hφ i).1
        have hw1 := ws_le hi hL hp hφ
        rw [hl] at r1 r2
        have hr : 0 ≤ r := by
          have := r1 (ROps.zero W)
          rw [NumR.rv_zero, zero_mul, _root_.add_zero] at this
          rw [← this]
          exact qm_nn hφ fun n => by
            by_cases hn : n = c.n
            · rw [hn, upd_same, NumR.rv_zero]
            · rw [upd_ne _ _ _ hn]; exact hnn n
        have h1 : Ap ν 3 (2 * η) (ρ (ROps.add W (b.pm c.n) tmp)) (ρ (b.pm c.n) + ρ prob * ‖val c.w‖ ^ 2) := by
          have := (add_ap (hnn c.n) t0).trans hv hη hη (t1.addLeft hv (hnn c.n))
          rw [show 2 * η = η + η by ring]; exact this
        have h2 := (h1.mulR hw0).addLeft hv hr
        dsimp only
        rw [r1, r2]
        have e : r + ρ (b.pm c.n) * ws s.vt.mem L c.n φ + ρ prob * (‖val c.w‖ ^ 2 * ws s.vt.mem L c.n φ) =
          r + (ρ (b.pm c.n) + ρ prob * ‖val c.w‖ ^ 2) * ws s.vt.mem L c.n φ := by ring
        rw [e]
        have hpc := hnn c.n
        refine h2.mono hv (by positivity) (by positivity) (by positivity) le_rfl ?_
        exact mul_le_mul_of_nonneg_left hw1 (by positivity)
    · rw [if_neg hvis]
      have hq : c.n ∉ b.q := fun h => hvis (hb.sub _ h)
      refine ⟨?_, fun n => ?_, fun φ hφ => ?_⟩
      · refine List.nodup_append.2 ⟨hd, by simp, ?_⟩
        intro a ha b' hb'
        rw [List.mem_singleton] at hb'; subst hb'
        rintro rfl; exact hq ha
      · dsimp only
        by_cases hn : n = c.n
        · rw [hn, upd_same]; exact t0
        · rw [upd_ne _ _ _ hn]; exact hnn n
      · dsimp only
        have hw0 : 0 ≤ ws s.vt.mem L c.n φ := ws_nonneg fun i => (hφ i).1
        have hw1 := ws_le hi hL hp hφ
        have hqm := qm_nn (mem := s.vt.mem) (pm := b.pm) hφ (q := b.q) hnn
        rw [qm_app, qm_upd_notin hq, upd_same, hl]
        have h2 := (t1.mulR hw0).addLeft hv hqm
        rw [← mul_assoc]
        refine h2.mono hv (by positivity) (by positivity) (by positivity) (by omega) ?_
        have := mul_le_mul_of_nonneg_left hw1 hη
        nlinarith [mul_nonneg hη (show (0:ℝ) ≤ 2 ^ 101 by positivity)]

/-- Weightings that do not look at the bits above `index`. -/
def LowR (index : Nat) (φ : Nat → ℝ) : Prop := ∀ m i, index < m → φ (2 ^ m + i) = φ i

theorem bfsLoop_num {s : St W} (hi : NInv env s) {root : Option Nat} {index : Nat} :
    ∀ (f : Nat) (b : Bfs R), Safe.BInv env s root index b → b.q.Nodup → (∀ n, 0 ≤ ρ (b.pm n)) → Safe.qwork s.vt.mem b.q ≤ f →
    ∃ b' t, Fl.bfsLoop s.vt.mem index f b = .ok b' ∧ Safe.BInv env s root index b' ∧ b'.q.Nodup ∧ (∀ n, 0 ≤ ρ (b'.pm n)) ∧
      (∀ n ∈ b'.q, Safe.qlv s.vt.mem n = index + 1) ∧ t + Safe.qwork s.vt.mem b'.q ≤ Safe.qwork s.vt.mem b.q ∧
      ∀ φ, W01 φ → LowR index φ → Ap ν (6 * t) (t * (4 * η * 2 ^ 101)) (qm s.vt.mem b'.pm φ b'.q) (qm s.vt.mem b.pm φ b.q) := by
  have hvn := nu_nn R W
  have hη : 0 ≤ η := eta_nn'
  intro f
  induction f with
  | zero =>
    intro b hb hd hnn hw
    cases hq : b.q with
    | nil => exact absurd hq hb.ne
    | cons n qs =>
      have hn := hb.ok n (by rw [hq]; exact List.mem_cons_self)
      rw [hq] at hw
      simp only [Safe.qwork, List.map_cons, List.sum_cons] at hw
      have : 2 ^ 1 ≤ 2 ^ Safe.qlv s.vt.mem n := Nat.pow_le_pow_right (by omega) (by omega)
      omega
  | succ f ih =>
    intro b hb hd hnn hw
    cases hq : b.q with
    | nil => exact absurd hq hb.ne
    | cons n qs =>
      have hmem : n ∈ b.q := by rw [hq]; exact List.mem_cons_self
      have hn := hb.ok n hmem
      obtain ⟨L, hL⟩ : ∃ L, Safe.qlv s.vt.mem n = L + 1 := ⟨Safe.qlv s.vt.mem n - 1, by omega⟩
      have hn1 := hn.1
      rw [hL] at hn1
      obtain ⟨p, nd, rfl, hr, hv⟩ := hn1.node
      have hLN : L + 1 ≤ NQUBITS := by
        obtain ⟨l, hl, hl'⟩ := hi.base.vlevel hr
        omega
      have hsorted := hb.sorted
      rw [hq] at hsorted
      rw [List.pairwise_cons] at hsorted
      have hd' := hd
      rw [hq, List.nodup_cons] at hd'
      unfold Fl.bfsLoop
      rw [hq]
      dsimp only
      rw [hr.1]
      dsimp only
      by_cases hvi : nd.v = (index : Int)
      · rw [if_pos hvi]
        refine ⟨b, 0, rfl, hb, hd, hnn, fun x hx => ?_, by rw [hq]; omega, fun φ hφ _ => ?_⟩
        · have h1 := (hb.ok x hx).2
          rw [hq] at hx
          rcases List.mem_cons.1 hx with rfl | hx
          · omega
          · have := hsorted.1 x hx; omega
        · rw [Nat.cast_zero, zero_mul, hq]
          exact Ap.refl hvn (qm_nn hφ hnn)
      · rw [if_neg hvi]
        have hLi : index < L := by omega
        have hqs : ∀ x ∈ qs, x ∈ b.q := fun x hx => by rw [hq]; exact List.mem_cons_of_mem _ hx
        have hmid : Safe.Mid env s root index L { b with q := qs } := by
          refine ⟨fun x hx => hb.ok x (hqs x hx), fun x hx => hb.sub x (hqs x hx), ?_, hsorted.2, ?_,
            fun m h1 h2 x hx => hb.memo m h1 h2 x (hqs x hx)⟩
          · intro x hx hx'
            by_cases hxp : x = some p
            · subst hxp; omega
            · have : x ∉ b.q := by
                rw [hq]; exact fun h => (List.mem_cons.1 h).elim hxp hx'
              have := hb.vis x hx this _ hmem
              omega
          · intro x hx
            have h1 := hsorted.1 x hx
            have h2 := hb.two _ hmem _ (hqs x hx)
            omega
        have hmemo : ∀ m : Memo R, MemoOk env s m → m root ≠ none → ∀ bb, m (nd.child bb).n ≠ none :=
          fun m h1 h2 bb => h1.child hr (hb.memo m h1 h2 _ hmem) bb
        have hcz : ∀ bb, WOps.az (nd.child bb).w = true → val (nd.child bb).w = 0 := fun bb hz => by
          rcases kid hi hr hv bb with ⟨_, h, _⟩ | ⟨h, _⟩
          · exact h
          · rw [hz] at h; cases h
        obtain ⟨a1, a3, a4⟩ := Safe.bfsChild_ok hmid (hi.base.vchild hr false hv) hLi (b.pm (some p))
          (fun m h1 h2 => hmemo m h1 h2 false)
        obtain ⟨a5, a6, a7⟩ := bfsChild_num hi hmid hd'.2 hnn (hi.base.vchild hr false hv) (hcz false) (by omega) (hnn (some p))
        obtain ⟨c1, c3, c4⟩ := Safe.bfsChild_ok a1 (hi.base.vchild hr true hv) hLi (b.pm (some p))
          (fun m h1 h2 => hmemo m h1 h2 true)
        obtain ⟨c5, c6, c7⟩ := bfsChild_num hi a1 a5 a6 (hi.base.vchild hr true hv) (hcz true) (by omega) (hnn (some p))
        simp only [VNode.child, Bool.false_eq_true, if_false, if_true] at a1 a3 a4 c1 c3 c4 a5 a6 a7 c5 c6 c7
        generalize hb1 : Fl.bfsChild nd.c0 (b.pm (some p)) { b with q := qs } = b1 at *
        generalize hb2 : Fl.bfsChild nd.c1 (b.pm (some p)) b1 = b2 at *
        have hw' : Safe.qwork s.vt.mem (some p :: qs) = (2 ^ (L + 1) - 1) + Safe.qwork s.vt.mem qs := by
          simp only [Safe.qwork, List.map_cons, List.sum_cons, hL]
        have h2L : 2 ^ (L + 1) = 2 ^ L + 2 ^ L := by rw [pow_succ]; omega
        have h2p := Nat.two_pow_pos L
        obtain ⟨b', t, d1, d2, d3, d4, d5, d6, d7⟩ := ih b2 (by
          refine ⟨c1.ok, c1.sub, ?_, c1.sorted, ?_, c1.memo, ?_⟩
          · intro x hx hx' y hy
            have h1 := c1.vis x hx hx'
            have h2 := (c1.two y hy).2
            omega
          · intro x hx y hy
            have h1 := (c1.two x hx).2
            have h2 := (c1.two y hy).1
            omega
          · apply c4
            obtain ⟨bb, hb1, _⟩ := hi.base.un p nd hr
            cases bb
            · left; apply a4; right
              have hb1 : nd.c0.w = WOps.one := hb1
              rw [hb1]; exact az_one
            · right
              have hb1 : nd.c1.w = WOps.one := hb1
              rw [hb1]; exact az_one) c5 c6 (by rw [hq, hw'] at hw; omega)
        refine ⟨b', t + 1, d1, d2, d3, d4, d5, by rw [hw']; omega, fun φ hφ hlow => ?_⟩
        have e0 := a7 φ hφ
        have e1 := c7 φ hφ
        have hwc : ∀ n, 0 ≤ ws s.vt.mem L n φ := fun n => ws_nonneg fun i => (hφ i).1
        have hpp := hnn (some p)
        have e2 := e1.trans hvn (by positivity) (by positivity) (e0.addRight (z := ρ (b.pm (some p)) * (‖val nd.c1.w‖ ^ 2 * ws s.vt.mem L nd.c1.n φ)) hvn (by
          have := hwc nd.c1.n; positivity))
        have e3 : qm s.vt.mem b.pm φ qs + ρ (b.pm (some p)) * (‖val nd.c0.w‖ ^ 2 * ws s.vt.mem L nd.c0.n φ) +
            ρ (b.pm (some p)) * (‖val nd.c1.w‖ ^ 2 * ws s.vt.mem L nd.c1.n φ) = qm s.vt.mem b.pm φ (some p :: qs) := by
          rw [qm_cons, hL, ws_succ hr.1, show (fun i => φ (2 ^ L + i)) = φ from funext fun i => hlow L i hLi]
          ring
        rw [e3] at e2
        have e4 := (d7 φ hφ hlow).trans hvn (by positivity) (by positivity) e2
        rw [show 6 * (t + 1) = 6 * t + (3 + 3) by ring]
        push_cast
        rw [show ((t : ℝ) + 1) * (4 * η * 2 ^ 101) = t * (4 * η * 2 ^ 101) + (2 * η * 2 ^ 101 + 2 * η * 2 ^ 101) by ring]
        exact e4

/-- The basis states whose bit `index` is `b`. -/
noncomputable def bitR (index : Nat) (b : Bool) (i : Nat) : ℝ := if i.testBit index = b then 1 else 0

theorem bitR_01 (index : Nat) (b : Bool) : W01 (bitR index b) := fun i => by unfold bitR; split <;> norm_num

theorem bitR_low (index : Nat) (b : Bool) : LowR index (bitR index b) := by
  intro m i hm
  unfold bitR
  rw [Nat.testBit_two_pow_add_gt hm]

theorem ws_bit {mem : Nat → Option (VNode W)} {j p nd} (hm : mem p = some nd) (b : Bool) :
    ws mem (j + 1) (some p) (bitR j b) = ‖val (nd.child b).w‖ ^ 2 * nsq mem j (nd.child b).n := by
  rw [ws_succ hm]
  have hz : ∀ n, bsum j (fun i => (0 : ℝ) * ‖vp mem j n i‖ ^ 2) = 0 := fun n => by simp [bsum_eq]
  have h0 : ws mem j nd.c0.n (bitR j b) = if b then 0 else nsq mem j nd.c0.n := by
    cases b
    · exact bsum_congr fun i hi => by simp [bitR, testBit_lt hi]
    · simp only [if_true]
      rw [← hz nd.c0.n]
      exact bsum_congr fun i hi => by simp [bitR, testBit_lt hi]
  have h1 : ws mem j nd.c1.n (fun i => bitR j b (2 ^ j + i)) = if b then nsq mem j nd.c1.n else 0 := by
    cases b
    · simp only [Bool.false_eq_true, if_false]
      rw [← hz nd.c1.n]
      exact bsum_congr fun i hi => by simp [bitR, testBit_add hi]
    · exact bsum_congr fun i hi => by simp [bitR, testBit_add hi]
  rw [h0, h1]
  cases b <;> simp [VNode.child]

/-- One addition of the final loop. -/
theorem sum_step {s : St W} (hi : NInv env s) {m : Memo R} (hm : MemoNum env s m) {pm x acc : R} {p nd} {j : Nat} (hj : j < NQUBITS)
    (hr : UTable.Reg env.hv s.vt p nd) (hv : nd.v = (j : Int)) (b : Bool) (hx : m (nd.child b).n = some x) (hp : 0 ≤ ρ pm) (ha : 0 ≤ ρ acc) :
    ∃ z : ℝ, 0 ≤ z ∧ 0 ≤ ρ (if WOps.az (nd.child b).w then acc else ROps.add W acc (ROps.mul W (ROps.mul W pm x) (ROps.mag2 (nd.child b).w))) ∧
      Ap ν 1 η (ρ (if WOps.az (nd.child b).w then acc else ROps.add W acc (ROps.mul W (ROps.mul W pm x) (ROps.mag2 (nd.child b).w)))) (ρ acc + z) ∧
      Ap ν (4 * j + 3) (5 * η) z (ρ pm * (‖val (nd.child b).w‖ ^ 2 * nsq s.vt.mem j (nd.child b).n)) := by
  have hvn := nu_nn R W
  have hη : 0 ≤ η := eta_nn'
  rcases kid hi hr hv b with ⟨h1, h2, h3⟩ | ⟨h1, h2⟩
  · have hz : WOps.az (nd.child b).w = true := z_az h3
    rw [if_pos hz, h2]
    refine ⟨0, le_rfl, ha, ?_, ?_⟩
    · rw [_root_.add_zero]; exact (Ap.refl hvn ha).mono hvn ha ha le_rfl (by omega) hη
    · simp only [norm_zero, ne_eq, OfNat.ofNat_ne_zero, not_false_eq_true, zero_pow, zero_mul, mul_zero]
      exact (Ap.refl hvn le_rfl).mono hvn le_rfl le_rfl le_rfl (by omega) (by positivity)
  · rw [h1]
    simp only [Bool.false_eq_true, if_false]
    have hx1 := hm.ge hx
    have hx0 : 0 ≤ ρ x := by linarith
    have y0 := NumR.mul_nn (W := W) hp hx0
    obtain ⟨z0, z1⟩ := pass_ap (R := R) h1 y0
    have hn := nsq_nonneg s.vt.mem j (nd.child b).n
    have hy : Ap ν (1 + 4 * j) (η + ρ pm * 0) (ρ (ROps.mul W pm x)) (ρ pm * nsq s.vt.mem j (nd.child b).n) :=
      (mul_ap hp hx0).trans hvn hη (by simp) ((hm.acc _ _ _ hx h2).smul hp)
    rw [mul_zero, _root_.add_zero] at hy
    refine ⟨_, z0, NumR.add_nn ha z0, add_ap ha z0, ?_⟩
    have h4 := z1.trans hvn hη (by positivity) (hy.mulR (sq_nonneg ‖val (nd.child b).w‖))
    have hw : ‖val (nd.child b).w‖ ≤ 2 := by
      have h5 := (hi.vw p nd hr b).1
      have h6 := eps_le (W := W)
      unfold bet at h5
      norm_num at h6
      linarith
    have hw2 : ‖val (nd.child b).w‖ ^ 2 ≤ 4 := by nlinarith [norm_nonneg (val (nd.child b).w)]
    rw [show ρ pm * (‖val (nd.child b).w‖ ^ 2 * nsq s.vt.mem j (nd.child b).n) =
      ρ pm * nsq s.vt.mem j (nd.child b).n * ‖val (nd.child b).w‖ ^ 2 by ring]
    refine h4.mono hvn z0 (by positivity) (by positivity) (by omega) ?_
    nlinarith

theorem bfsSum_num {s : St W} (hi : NInv env s) {m : Memo R} (hm : MemoNum env s m) {pm : Option Nat → R} (hnn : ∀ n, 0 ≤ ρ (pm n))
    {index : Nat} (hx : index < NQUBITS) : ∀ (q : List (Option Nat)) (acc : R × R), 0 ≤ ρ acc.1 → 0 ≤ ρ acc.2 →
    (∀ n ∈ q, VPtr env s (Safe.qlv s.vt.mem n) n ∧ Safe.qlv s.vt.mem n = index + 1 ∧ m n ≠ none) →
    ∃ (r : R × R) (A B : ℝ), Fl.bfsSum s.vt.mem m pm q acc = .ok r ∧ 0 ≤ ρ r.1 ∧ 0 ≤ ρ r.2 ∧ 0 ≤ A ∧ 0 ≤ B ∧
      Ap ν q.length (q.length * η) (ρ r.1) (ρ acc.1 + A) ∧ Ap ν q.length (q.length * η) (ρ r.2) (ρ acc.2 + B) ∧
      Ap ν (4 * index + 3) (q.length * (5 * η)) A (qm s.vt.mem pm (bitR index false) q) ∧
      Ap ν (4 * index + 3) (q.length * (5 * η)) B (qm s.vt.mem pm (bitR index true) q) := by
  have hvn := nu_nn R W
  have hη : 0 ≤ η := eta_nn'
  intro q
  induction q with
  | nil =>
    intro acc h1 h2 _
    refine ⟨acc, 0, 0, rfl, h1, h2, le_rfl, le_rfl, ?_, ?_, ?_, ?_⟩
    · simpa using Ap.refl hvn h1
    · simpa using Ap.refl hvn h2
    · simpa [qm] using Ap.zero ν (4 * index + 3)
    · simpa [qm] using Ap.zero ν (4 * index + 3)
  | cons n qs ih =>
    intro acc ha hb h
    obtain ⟨h1, h2, h3⟩ := h n List.mem_cons_self
    rw [h2] at h1
    obtain ⟨p, nd, rfl, hr, hv⟩ := h1.node
    obtain ⟨x0, x1, g1, g2, g3, g4⟩ := hm.ok.kids hr h3
    simp only [Fl.bfsSum, hr.1, g1, g2]
    obtain ⟨z0, i1, i2, i3, i4⟩ := sum_step hi hm hx hr hv false g1 (hnn (some p)) ha
    obtain ⟨z1, j1, j2, j3, j4⟩ := sum_step hi hm hx hr hv true g2 (hnn (some p)) hb
    simp only [VNode.child, Bool.false_eq_true, if_false, if_true] at i2 i3 i4 j2 j3 j4
    obtain ⟨r, A, B, k1, k2, k3, k4, k5, k6, k7, k8, k9⟩ := ih (_, _) i2 j2 fun n hn => h n (List.mem_cons_of_mem _ hn)
    refine ⟨r, z0 + A, z1 + B, k1, k2, k3, add_nonneg i1 k4, add_nonneg j1 k5, ?_, ?_, ?_, ?_⟩
    · have := k6.trans hvn (by positivity) hη (i3.addRight hvn k4)
      rw [List.length_cons, ← add_assoc]
      push_cast
      rw [add_mul, one_mul]
      exact this
    · have := k7.trans hvn (by positivity) hη (j3.addRight hvn k5)
      rw [List.length_cons, ← add_assoc]
      push_cast
      rw [add_mul, one_mul]
      exact this
    · have := i4.add k8
      rw [List.length_cons, qm_cons, h2, ws_bit hr.1]
      push_cast
      rw [add_mul, one_mul, add_comm (_ * (5 * η))]
      exact this
    · have := j4.add k9
      rw [List.length_cons, qm_cons, h2, ws_bit hr.1]
      push_cast
      rw [add_mul, one_mul, add_comm (_ * (5 * η))]
      exact this

/-- Total squared modulus of the basis states whose bit `index` is `b`. -/
noncomputable def margN (s : St W) (k : Nat) (e : Edge W) (index : Nat) (b : Bool) : ℝ :=
  bsum k fun i => bitR index b i * ‖vd s k e i‖ ^ 2

theorem margN_eq (s : St W) (k : Nat) (e : Edge W) (index : Nat) (b : Bool) :
    margN s k e index b = ‖val e.w‖ ^ 2 * ws s.vt.mem k e.n (bitR index b) := by
  unfold margN ws
  rw [← bsum_mul]
  refine bsum_congr fun i _ => ?_
  unfold vd
  rw [norm_mul]; ring

theorem detProbs_num {s : St W} (hi : NInv env s) {m : Memo R} (hm : MemoNum env s m) {k index : Nat} {e : Edge W}
    (hk : k ≤ NQUBITS) (hp : VPtr env s k e.n) (hx : index < k) :
    ∃ x y m', Fl.detProbs s e index m = .ok (x, y, m') ∧ MemoNum env s m' ∧ 0 ≤ ρ x ∧ 0 ≤ ρ y ∧
      Ap ν (16 * 2 ^ k) (2 ^ 220 * η) (ρ x) (margN s k e index false) ∧
      Ap ν (16 * 2 ^ k) (2 ^ 220 * η) (ρ y) (margN s k e index true) := by
  have hvn := nu_nn R W
  have hη : 0 ≤ η := eta_nn'
  have hl := Safe.qlv_eq hp
  obtain ⟨m', h1, h2, h3⟩ := ensureProbs_num hi m hk (.inl hp) hm
  have hw0 : Safe.qwork s.vt.mem [e.n] = 2 ^ k - 1 := by
    simp only [Safe.qwork, List.map_cons, List.map_nil, List.sum_cons, List.sum_nil, hl]
    exact Nat.add_zero _
  have hw : Safe.qwork s.vt.mem [e.n] ≤ 2 ^ (NQUBITS + 1) := by
    rw [hw0]
    have : 2 ^ k ≤ 2 ^ (NQUBITS + 1) := Nat.pow_le_pow_right (by omega) (by omega)
    exact le_trans (Nat.sub_le _ _) this
  obtain ⟨b, t, h4, h5, h6, h7, h8, h9, h10⟩ := bfsLoop_num (R := R) hi (root := e.n) (index := index) (2 ^ (NQUBITS + 1))
    ⟨upd (fun _ => ROps.zero W) e.n (ROps.mag2 e.w), [e.n], [e.n]⟩
    ⟨fun n hn => by
        have hn := List.mem_singleton.1 hn
        subst hn; rw [hl]; exact ⟨hp, hx⟩,
      fun n hn => hn, fun n h h' => (h' h).elim, by simp,
      fun x hx y hy => by
        have hx := List.mem_singleton.1 hx
        have hy := List.mem_singleton.1 hy
        subst hx; rw [hy]; omega,
      fun m _ h n hn => by rw [List.mem_singleton.1 hn]; exact h, by simp⟩ (by simp) (fun n => by
        dsimp only
        by_cases hn : n = e.n
        · rw [hn, upd_same]; exact NumR.mag2_nn _
        · rw [upd_ne _ _ _ hn, NumR.rv_zero]) hw
  obtain ⟨⟨x, y⟩, A, B, g1, g2, g3, g4, g5, g6, g7, g8, g9⟩ := bfsSum_num hi h2 h7 (show index < NQUBITS by omega) b.q
    (ROps.zero W, ROps.zero W) (by rw [NumR.rv_zero]) (by rw [NumR.rv_zero])
    (fun n hn => ⟨(h5.ok n hn).1, h8 n hn, h5.memo m' h2.ok h3 n hn⟩)
  dsimp only at g2 g3 g6 g7
  rw [NumR.rv_zero, zero_add] at g6 g7
  refine ⟨x, y, m', ?_, h2, g2, g3, ?_⟩
  · unfold Fl.detProbs
    rw [h4]
    dsimp only
    rw [h1]
    dsimp only
    rw [g1]
  have hlen : b.q.length ≤ Safe.qwork s.vt.mem b.q := by
    unfold Safe.qwork
    have : ∀ q : List (Option Nat), (∀ n ∈ q, Safe.qlv s.vt.mem n = index + 1) →
        q.length ≤ (q.map fun n => 2 ^ Safe.qlv s.vt.mem n - 1).sum := by
      intro q
      induction q with
      | nil => intro _; simp
      | cons a q ih =>
        intro h
        have h1 := h a List.mem_cons_self
        have h2 := ih fun n hn => h n (List.mem_cons_of_mem _ hn)
        have h3 : 2 ^ 1 ≤ 2 ^ Safe.qlv s.vt.mem a := Nat.pow_le_pow_right (by omega) (by omega)
        simp only [List.map_cons, List.sum_cons, List.length_cons]
        omega
    exact this b.q h8
  dsimp only at h9
  rw [hw0] at h9
  have hk2 : k < 2 ^ k := Nat.lt_two_pow_self
  have key : ∀ (z : R) (A : ℝ) (bb : Bool), 0 ≤ ρ z → Ap ν b.q.length (b.q.length * η) (ρ z) A →
      Ap ν (4 * index + 3) (b.q.length * (5 * η)) A (qm s.vt.mem b.pm (bitR index bb) b.q) →
      Ap ν (16 * 2 ^ k) (2 ^ 220 * η) (ρ z) (margN s k e index bb) := by
    intro z A bb hz i1 i2
    have i3 := h10 (bitR index bb) (bitR_01 index bb) (bitR_low index bb)
    have e0 : qm s.vt.mem (upd (fun _ => ROps.zero W) e.n (ROps.mag2 e.w : R)) (bitR index bb) [e.n] =
        ρ (ROps.mag2 e.w) * ws s.vt.mem k e.n (bitR index bb) := by
      simp [qm, hl]
    dsimp only at i3
    rw [e0] at i3
    have hws0 : 0 ≤ ws s.vt.mem k e.n (bitR index bb) := ws_nonneg fun i => (bitR_01 index bb i).1
    have hws1 := ws_le hi hk hp (bitR_01 index bb)
    have i4 : Ap ν 1 (η * ws s.vt.mem k e.n (bitR index bb)) (ρ (ROps.mag2 e.w) * ws s.vt.mem k e.n (bitR index bb)) (margN s k e index bb) := by
      rw [margN_eq]
      exact (Ap.of_err (NumR.u_nn) (u_8 R W) (NumR.mag2_nn e.w) (sq_nonneg _) hη (NumR.mag2_err e.w)).mulR hws0
    have i5 := ((i1.trans hvn (by positivity) (by positivity) i2).trans hvn (by positivity) (by positivity) i3).trans hvn
      (by positivity) (by positivity) i4
    have hm0 : 0 ≤ margN s k e index bb := by rw [margN_eq]; positivity
    refine i5.mono hvn hz hm0 (by positivity) (by omega) ?_
    have l1 : (b.q.length : ℝ) ≤ 2 ^ 100 := by
      have : b.q.length ≤ 2 ^ k := by omega
      calc (b.q.length : ℝ) ≤ ((2 ^ k : Nat) : ℝ) := by exact_mod_cast this
        _ = 2 ^ k := by push_cast; rfl
        _ ≤ 2 ^ 100 := pow_le_pow_right₀ (by norm_num) (by unfold NQUBITS at hk; omega)
    have l2 : (t : ℝ) ≤ 2 ^ 100 := by
      have : t ≤ 2 ^ k := by omega
      calc (t : ℝ) ≤ ((2 ^ k : Nat) : ℝ) := by exact_mod_cast this
        _ = 2 ^ k := by push_cast; rfl
        _ ≤ 2 ^ 100 := pow_le_pow_right₀ (by norm_num) (by unfold NQUBITS at hk; omega)
    have j1 : (b.q.length : ℝ) * η ≤ 2 ^ 100 * η := mul_le_mul_of_nonneg_right l1 hη
    have j2 : (t : ℝ) * η ≤ 2 ^ 100 * η := mul_le_mul_of_nonneg_right l2 hη
    have j3 : η * ws s.vt.mem k e.n (bitR index bb) ≤ 2 ^ 101 * η := by nlinarith
    have e1 : (b.q.length : ℝ) * η + b.q.length * (5 * η) + t * (4 * η * 2 ^ 101) + η * ws s.vt.mem k e.n (bitR index bb) =
      6 * (b.q.length * η) + (4 * 2 ^ 101) * (t * η) + η * ws s.vt.mem k e.n (bitR index bb) := by ring
    rw [e1]
    have : 6 * ((b.q.length : ℝ) * η) + (4 * 2 ^ 101) * (t * η) + η * ws s.vt.mem k e.n (bitR index bb) ≤
        6 * (2 ^ 100 * η) + (4 * 2 ^ 101) * (2 ^ 100 * η) + 2 ^ 101 * η := by
      have := mul_le_mul_of_nonneg_left j2 (show (0 : ℝ) ≤ 4 * 2 ^ 101 by positivity)
      linarith
    refine this.trans ?_
    have e2 : 6 * (2 ^ 100 * η) + (4 * 2 ^ 101) * (2 ^ 100 * η) + 2 ^ 101 * η = (6 * 2 ^ 100 + 4 * 2 ^ 101 * 2 ^ 100 + 2 ^ 101) * η := by ring
    rw [e2]
    exact mul_le_mul_of_nonneg_right (by norm_num) hη
  exact ⟨key x A false g2 g6 g8, key y B true g3 g7 g9⟩

end QDD.Num
